import Verif.Lemmas.TransferVal
import Verif.Lemmas.CoarseInt
import Verif.Spec.TExpr

/-!
# Denominators in formulas over `Transfer` models
-/

namespace Harold

open Matrix Spec Polynomial TransferM

variable {K L : Type} [Field K] [LinearOrder K] [IsStrictOrderedRing K] [Field L] [Algebra K L]

/-- A coefficient list without leading zeros of a polynomial in `S`. -/
def LIn (S : Set K[X]) (l : List K) : Prop := l.getD 0 0 ≠ 0 ∧ toPoly l ∈ S

/-- What the induction over formulas carries beside the value. -/
structure TCls (S : Set K[X]) (G : TransferM K) (p m : ℕ) : Prop where
  pos : 0 < p ∧ 0 < m
  num : G.num.r = p ∧ G.num.c = m
  den : ∃ D : Matrix (Fin p) (Fin m) (List K), G.den = Arr.of D ∧ ∀ i j, LIn S (D i j)
  flag : G.isgain = true → ∀ D : Matrix (Fin p) (Fin m) (List K), G.den = Arr.of D → ∀ i j, (D i j).length = 1

variable {S : Set K[X]} {E : TNum K} {G H F : TransferM K} {p q m : ℕ} {s : L}

omit [LinearOrder K] [IsStrictOrderedRing K] in
theorem LIn.cons {l : List K} (h : LIn S l) : ∃ t, l = l.getD 0 0 :: t := by
  cases l with
  | nil => exact absurd rfl h.1
  | cons a t => exact ⟨t, rfl⟩

omit [IsStrictOrderedRing K] in
theorem lIn_one {τ : K} (hS : CoarseClass τ S) : LIn S [1] :=
  ⟨by simp, by simpa [toPoly] using hS.one⟩

omit [IsStrictOrderedRing K] in
theorem LIn.head {τ : K} (hS : CoarseClass τ S) {l : List K} (h : LIn S l) : l.getD 0 0 = 1 := by
  obtain ⟨t, e⟩ := h.cons
  have h1 := hS.monic _ h.2
  have h0 := h.1
  rw [e] at h1 h0 ⊢
  simp only [List.getD_cons_zero] at h0 ⊢
  have h2 : (toPoly (l.getD 0 0 :: t)).leadingCoeff = l.getD 0 0 := leadingCoeff_toPoly_cons h0 t
  rw [← h2]; exact h1

omit [IsStrictOrderedRing K] in
theorem LIn.unit {τ : K} (hS : CoarseClass τ S) {l : List K} (h : LIn S l) (hl : l.length = 1) : l = [1] := by
  have h1 := h.head hS
  obtain ⟨t, e⟩ := h.cons
  rw [h1] at e
  subst e
  cases t with
  | nil => rfl
  | cons a t => simp at hl

omit [IsStrictOrderedRing K] in
theorem flag_made {num den : TArg K} {dt : Option K} (h : mkTransfer E num den dt = .ok F) {D : Matrix (Fin p) (Fin m) (List K)}
    (hD : F.den = Arr.of D) (hl : ∀ i j, LIn S (D i j)) :
    F.isgain = true → ∀ D' : Matrix (Fin p) (Fin m) (List K), F.den = Arr.of D' → ∀ i j, (D' i j).length = 1 := by
  intro hg D' hD' i j
  obtain rfl := Arr.of_inj.mp (hD.symm.trans hD')
  obtain ⟨h1, -⟩ := mkTransfer_inv h
  obtain ⟨-, -, h2, -⟩ := validate_shape h1
  rw [hg, hD] at h2
  exact maxSize_one (fun i j => (hl i j).1) (by simpa using h2.symm) i j

omit [IsStrictOrderedRing K] in
/-- Models made from lists. -/
theorem tcls_lists {N D : Matrix (Fin p) (Fin m) (List K)} {dt : Option K}
    (h : mkTransfer E (.lists (Arr.of N)) (.lists (Arr.of D)) dt = .ok F) (hl : ∀ i j, LIn S (D i j)) : TCls S F p m := by
  obtain ⟨h1, -⟩ := mkTransfer_inv h
  obtain ⟨e1, e2, -, hp, hm⟩ := validate_lists h1
  exact ⟨⟨hp, hm⟩, by simp [e1], ⟨D, e2, hl⟩, flag_made h e2 hl⟩

omit [IsStrictOrderedRing K] in
theorem tcls_entries {f : Fin p → Fin m → Res (List K × List K)} {dt : Option K} (h : mkEntries E p m f dt = .ok F)
    (hl : ∀ i j e, f i j = .ok e → LIn S e.2) : TCls S F p m := by
  unfold mkEntries at h
  obtain ⟨e, he, h⟩ := bind_ok' h
  have he := matM_ok.mp he
  exact tcls_lists h fun i j => hl i j _ (he i j)

omit [IsStrictOrderedRing K] in
theorem tcls_list {X : Matrix (Fin p) (Fin m) K} {dt : Option K} {τ : K} (hS : CoarseClass τ S) (h : mkList E (Arr.of X) dt = .ok F) : TCls S F p m := by
  have h' : mkTransfer E (.lists (Arr.of (Matrix.of fun i j => [X i j]))) .none dt = .ok F := h
  obtain ⟨h1, -⟩ := mkTransfer_inv h'
  obtain ⟨e1, e2, -, hp, hm⟩ := validate_gainList h1
  have hl : ∀ (i : Fin p) (j : Fin m), LIn S ((Matrix.of fun (_ : Fin p) (_ : Fin m) => ([1] : List K)) i j) := fun i j => lIn_one hS
  exact ⟨⟨hp, hm⟩, by simp [e1], ⟨_, e2, hl⟩, flag_made h' e2 hl⟩

/-- Models made without denominators. -/
theorem tcls_ones {num : TArg K} {dt : Option K} {τ : K} (hS : CoarseClass τ S) (hp : 0 < p ∧ 0 < m) (h : mkTransfer E num .none dt = .ok F)
    (hn : F.num.r = p ∧ F.num.c = m) (hd : ∀ (i : Fin p) (j : Fin m), F.den.entry i j = [1]) : TCls S F p m := by
  obtain ⟨h1, -⟩ := mkTransfer_inv h
  obtain ⟨h2, -⟩ := validate_shape h1
  obtain ⟨D, hD⟩ := Arr.exists_of (h2.1.symm.trans hn.1) (h2.2.symm.trans hn.2)
  have hl : ∀ i j, LIn S (D i j) := fun i j => by
    have := hd i j
    rw [hD, entry_of] at this
    rw [this]; exact lIn_one hS
  exact ⟨hp, hn, ⟨D, hD, hl⟩, flag_made h hD hl⟩

theorem TCls.unitDen {τ : K} (hS : CoarseClass τ S) (h : TCls S G p m) : UnitDen G := by
  obtain ⟨D, hD, hl⟩ := h.den
  obtain ⟨n, d, g, dt⟩ := G
  simp only at hD
  subst hD
  exact fun i j => (hl i j).unit hS

theorem TCls.flagOk (h : TCls S G p m) : FlagOk G := by
  obtain ⟨D, hD, hl⟩ := h.den
  have := h.flag
  obtain ⟨n, d, g, dt⟩ := G
  simp only at hD
  subst hD
  exact fun hg => this hg D rfl

theorem TCls.valued (h : TCls S G p m) {M : Matrix (Fin p) (Fin m) L} (hv : HasVal G p m s M) : Valued G p m s M := by
  obtain ⟨D, hD, hl⟩ := h.den
  exact ⟨hv, (denLead_of hD).mpr fun i j => (hl i j).1⟩

theorem TCls.entry (h : TCls S G p m) (i : Fin p) (j : Fin m) : LIn S (G.den.entry i j) := by
  obtain ⟨D, hD, hl⟩ := h.den
  rw [hD, entry_of]; exact hl i j

theorem TCls.sumClear {τ : K} (hS : CoarseClass τ S) (h : TCls S G p m) (h' : TCls S H p m) {M : Matrix (Fin p) (Fin m) L} (hv : Valued G p m s M) :
    SumClear τ G H :=
  sumClear_of hv fun i j => hS.coarse _ (h.entry i j).2 _ (h'.entry i j).2

/-- The denominator of the sum of two entries. -/
theorem addEntry_den (hbal : ∀ polys i, E.bal polys i ≠ 0) (hS : CoarseClass E.lcmTol S) {n₁ d₁ n₂ d₂ : List K} (h₁ : LIn S d₁) (h₂ : LIn S d₂)
    {e : List K × List K} (h : addEntry E n₁ d₁ n₂ d₂ = .ok e) : LIn S e.2 := by
  have c1 := h₁.head hS
  have c2 := h₂.head hS
  obtain ⟨t₁, e1⟩ := h₁.cons
  obtain ⟨t₂, e2⟩ := h₂.cons
  rw [c1] at e1
  rw [c2] at e2
  subst e1; subst e2
  have hargs : ∀ p ∈ [(1 : K) :: t₁, 1 :: t₂], p.getD 0 0 ≠ 0 := by
    intro p hp; simp at hp; rcases hp with rfl | rfl <;> simp
  obtain ⟨l, mults, k1, k2, k3, k4⟩ := lcm_core E.bal hbal (le_refl (0 : K)) [1 :: t₁, 1 :: t₂] (by simp) hargs
  have hl := lcm_head le_rfl k1
  rw [← lcm_coarse E.bal hbal (thr := E.lcmTol) _ (by simp) hargs (by simpa using hS.coarse _ h₁.2 _ h₂.2)] at k1
  unfold addEntry at h
  simp only [k1, Bind.bind, Except.bind] at h
  revert h
  split
  · intro h; cases h
  split
  · intro h; cases h
  split
  · intro h; cases h
  intro h
  simp only [Except.ok.injEq] at h
  subst h
  have e3 : (l.map fun x => x * 1 * 1) = l := by simp
  simp only [e3]
  refine ⟨by rw [hl]; exact one_ne_zero, hS.lcm _ h₁.2 _ h₂.2 _ ⟨k2, ?_, ?_⟩⟩
  · intro P hP
    cases k3 with
    | cons a b =>
      cases b with
      | cons a' b' =>
        simp only [List.mem_cons, List.not_mem_nil, or_false] at hP
        rcases hP with rfl | rfl
        · rw [← a]; simp
        · rw [← a']; simp
  · intro M hM
    refine k4 M fun P hP => hM _ ?_
    simp only [List.mem_cons, List.not_mem_nil, or_false] at hP ⊢
    rcases hP with rfl | rfl <;> simp

theorem scaleEntry_lin {τ : K} (hS : CoarseClass τ S) {k : K} {n d : List K} (h : LIn S d) : LIn S (scaleEntry k n d).2 := by
  rcases scaleEntry_den k n d with e | e
  · rw [e]; exact h
  · rw [e]; exact lIn_one hS

theorem mulEntry_lin {τ : K} (hS : CoarseClass τ S) {n₁ d₁ n₂ d₂ : List K} (h₁ : LIn S d₁) (h₂ : LIn S d₂) {e : List K × List K}
    (h : mulEntry n₁ d₁ n₂ d₂ = .ok e) : LIn S e.2 := by
  unfold mulEntry at h
  split_ifs at h
  · simp only [Except.ok.injEq] at h
    subst h; exact lIn_one hS
  · obtain ⟨n, -, h⟩ := bind_ok' h
    obtain ⟨d, h1, h⟩ := bind_ok' h
    simp only [Except.ok.injEq] at h
    subst h
    have hd1 := (hS.monic _ h₁.2).ne_zero
    obtain ⟨d', k1, k2, k3⟩ := C01_polymul_partial d₁ [d₂] (Or.inl hd1)
    rw [k1] at h1
    simp only [Except.ok.injEq] at h1
    subst h1
    have hm : toPoly d' ∈ S := by
      rw [k2]; simpa using hS.mul _ h₁.2 _ h₂.2
    refine ⟨?_, hm⟩
    rcases k3 with rfl | ⟨a, t, rfl, ha⟩
    · exact absurd (by simp [toPoly]) (hS.monic _ hm).ne_zero
    · simpa using ha

theorem TCls.neg (h : TCls S G p m) (e : G.neg E = .ok F) : TCls S F p m := by
  obtain ⟨D, hD, hl⟩ := h.den
  obtain ⟨N, hN⟩ := Arr.exists_of h.num.1 h.num.2
  obtain ⟨n, d, g, dt⟩ := G
  simp only at hD hN
  subst hD; subst hN
  exact tcls_lists (N := Matrix.of fun i j => (N i j).map fun x => -x) e hl

theorem TCls.add (hbal : ∀ polys i, E.bal polys i ≠ 0) (hS : CoarseClass E.lcmTol S) (h : TCls S G p m) (h' : TCls S H p m) (e : G.add E H = .ok F) :
    TCls S F p m := by
  obtain ⟨D, hD, hl⟩ := h.den
  obtain ⟨N, hN⟩ := Arr.exists_of h.num.1 h.num.2
  obtain ⟨D', hD', hl'⟩ := h'.den
  obtain ⟨N', hN'⟩ := Arr.exists_of h'.num.1 h'.num.2
  obtain ⟨n, d, g, dt⟩ := G
  obtain ⟨n', d', g', dt'⟩ := H
  simp only at hD hN hD' hN'
  subst hD; subst hN; subst hD'; subst hN'
  unfold TransferM.add at e
  split_ifs at e with h3 h4 h5
  · unfold addGains at e
    obtain ⟨x, hx, e⟩ := bind_ok' e
    obtain ⟨y, hy, e⟩ := bind_ok' e
    obtain ⟨z, hz, e⟩ := bind_ok' e
    simp only at e
    split_ifs at e with h6 h7
    obtain ⟨Z, rfl⟩ := Arr.exists_of h7.1 h7.2
    exact tcls_list hS e
  · unfold addSame at e
    obtain ⟨f, hf, e⟩ := bind_ok' e
    have hf := matM_ok.mp hf
    simp only [Arr.of_r, Arr.of_c, Fin.is_lt, and_self, if_true, entry_of] at hf
    split_ifs at e with h6
    · exact tcls_lists e fun i j => addEntry_den hbal hS (hl i j) (hl' i j) (hf i j)
    · exact tcls_list (p := p) (m := m) (X := 0) hS e

theorem TCls.sub (hbal : ∀ polys i, E.bal polys i ≠ 0) (hS : CoarseClass E.lcmTol S) (h : TCls S G p m) (h' : TCls S H p m) (e : G.sub E H = .ok F) :
    TCls S F p m := by
  obtain ⟨N, h1, e⟩ := bind_ok' e
  exact h.add hbal hS (h'.neg h1) e

theorem TCls.mulScalar {τ : K} (hS : CoarseClass τ S) (h : TCls S G p m) {k : K} (e : G.mulScalar E k = .ok F) : TCls S F p m := by
  have hn := h.num
  have hd := h.entry
  obtain ⟨N, hN⟩ := Arr.exists_of h.num.1 h.num.2
  obtain ⟨n, d, g, dt⟩ := G
  simp only at hN
  subst hN
  refine tcls_entries (p := p) (m := m) e fun i j e he => ?_
  simp only [Except.ok.injEq] at he
  subst he
  exact scaleEntry_lin hS (hd i j)

theorem TCls.mulArr {τ : K} (hS : CoarseClass τ S) (h : TCls S G p m) {X : Matrix (Fin p) (Fin m) K} (e : G.mulArr E (Arr.of X) = .ok F) : TCls S F p m := by
  unfold TransferM.mulArr at e
  split_ifs at e with h1 h2 h3
  · exact h.mulScalar hS e
  · exfalso
    have : p = 1 ∧ m = 1 := by simpa [TransferM.isSISO, h.num] using h2
    obtain ⟨rfl, rfl⟩ := this
    exact h1 rfl
  · refine tcls_entries (p := p) (m := m) e fun i j e he => ?_
    simp only [Except.ok.injEq] at he
    subst he
    exact scaleEntry_lin hS (h.entry i j)

theorem TCls.mulArr_siso {τ : K} (hS : CoarseClass τ S) (h : TCls S G 1 1) {X : Matrix (Fin p) (Fin m) K} (e : G.mulArr E (Arr.of X) = .ok F) :
    TCls S F p m := by
  by_cases h1 : p * m = 1
  · obtain ⟨rfl, rfl⟩ : p = 1 ∧ m = 1 := ⟨Nat.eq_one_of_mul_eq_one_right h1, Nat.eq_one_of_mul_eq_one_left h1⟩
    exact h.mulArr hS e
  · unfold TransferM.mulArr at e
    rw [if_neg h1, if_pos (by simp [TransferM.isSISO, h.num])] at e
    refine tcls_entries (p := p) (m := m) e fun i j e he => ?_
    simp only [Except.ok.injEq] at he
    subst he
    exact scaleEntry_lin hS (h.entry 0 0)

/-- `G * H` for two models of the same shape, or with a SISO factor. -/
theorem TCls.mul {τ : K} (hS : CoarseClass τ S) {p' m' p'' m'' : ℕ} (h : TCls S G p m) (h' : TCls S H p' m')
    (hs : (p = p' ∧ m = m' ∧ p'' = p ∧ m'' = m) ∨ (p = 1 ∧ m = 1 ∧ p'' = p' ∧ m'' = m') ∨ (p' = 1 ∧ m' = 1 ∧ p'' = p ∧ m'' = m))
    (e : G.mul E H = .ok F) : TCls S F p'' m'' := by
  have hd := h.entry
  have hd' := h'.entry
  obtain ⟨N, hN⟩ := Arr.exists_of h.num.1 h.num.2
  obtain ⟨N', hN'⟩ := Arr.exists_of h'.num.1 h'.num.2
  have hsis : G.isSISO = true ↔ p = 1 ∧ m = 1 := by simp [TransferM.isSISO, h.num]
  have hsis' : H.isSISO = true ↔ p' = 1 ∧ m' = 1 := by simp [TransferM.isSISO, h'.num]
  unfold TransferM.mul at e
  split_ifs at e with h1 h2 h3 h4 h5 h6
  · obtain ⟨rfl, rfl⟩ := hsis.mp h3
    have hpm : p'' = p' ∧ m'' = m' := by omega
    obtain ⟨rfl, rfl⟩ := hpm
    revert e
    split
    · exact fun e => h'.mulScalar hS e
    · intro e; cases e
  · obtain ⟨x, hx, e⟩ := bind_ok' e
    have hxs : x.r = p ∧ x.c = m := by
      unfold gainArr at hx
      obtain ⟨X, -, hx⟩ := bind_ok' hx
      simp only [Except.ok.injEq] at hx
      rw [← hx]
      exact h.num
    obtain ⟨X, rfl⟩ := Arr.exists_of hxs.1 hxs.2
    have hns : ¬ (p = 1 ∧ m = 1) := fun hh => h3 (hsis.mpr hh)
    rcases hs with ⟨rfl, rfl, rfl, rfl⟩ | ⟨a, b, -⟩ | ⟨rfl, rfl, rfl, rfl⟩
    · exact h'.mulArr hS e
    · exact absurd ⟨a, b⟩ hns
    · exact h'.mulArr_siso hS e
  · obtain ⟨rfl, rfl⟩ := hsis.mp h4
    have hpm : p'' = p' ∧ m'' = m' := by omega
    obtain ⟨rfl, rfl⟩ := hpm
    rw [hN'] at e
    exact tcls_entries (p := p'') (m := m'') e fun i j e he => mulEntry_lin hS (hd 0 0) (hd' i j) he
  · obtain ⟨rfl, rfl⟩ := hsis'.mp h5
    have hpm : p'' = p ∧ m'' = m := by omega
    obtain ⟨rfl, rfl⟩ := hpm
    rw [hN] at e
    exact tcls_entries (p := p'') (m := m'') e fun i j e he => mulEntry_lin hS (hd' 0 0) (hd i j) he
  · have hpm : p'' = p ∧ m'' = m ∧ p' = p ∧ m' = m := by
      rw [hN, hN'] at h6
      have h6a : p = p' := h6.1
      have h6b : m = m' := h6.2
      have a1 : ¬ (p = 1 ∧ m = 1) := fun hh => h4 (hsis.mpr hh)
      omega
    obtain ⟨rfl, rfl, rfl, rfl⟩ := hpm
    rw [hN] at e
    exact tcls_entries (p := p') (m := m') e fun i j e he => mulEntry_lin hS (hd i j) (hd' i j) he

/-- `self[r, c]`. -/
theorem TCls.item (h : TCls S G p m) (hs : ¬ (p = 1 ∧ m = 1)) (r : Fin p) (c : Fin m) (e : item E G r c = .ok F) : TCls S F 1 1 := by
  obtain ⟨D, hD, hl⟩ := h.den
  obtain ⟨N, hN⟩ := Arr.exists_of h.num.1 h.num.2
  obtain ⟨n, d, g, dt⟩ := G
  simp only at hD hN
  subst hD; subst hN
  unfold TransferM.item getitem at e
  have hr : arangeIdx (TransferM.p (⟨Arr.of N, Arr.of D, g, dt⟩ : TransferM K)) (.int (r : ℕ)) = .ok [(r : ℕ)] := arangeIdx_nat r.2
  have hc : arangeIdx (TransferM.m (⟨Arr.of N, Arr.of D, g, dt⟩ : TransferM K)) (.int (c : ℕ)) = .ok [(c : ℕ)] := arangeIdx_nat c.2
  simp only [hr, hc, Bind.bind, Except.bind] at e
  rw [if_neg (by simpa [TransferM.isSISO] using hs)] at e
  refine tcls_lists (p := 1) (m := 1) e fun i j => ?_
  have hi : i = 0 := Subsingleton.elim (α := Fin 1) _ _
  have hj : j = 0 := Subsingleton.elim (α := Fin 1) _ _
  subst hi; subst hj
  have : LIn S ((Arr.of D).entry r c) := by rw [entry_of]; exact hl r c
  exact this

theorem tcls_zero {τ : K} (hS : CoarseClass τ S) {dt : Option K} (e : mkTransfer E (.scalar 0) (.scalar 1) dt = .ok F) : TCls S F 1 1 := by
  obtain ⟨h1, -⟩ := mkTransfer_inv e
  simp only [validateTransfer, regArg, combineArgs, Bind.bind, Except.bind, List.length_singleton, lt_irrefl, if_false, constArr] at h1
  simp only [one_ne_zero, or_self, if_false, Except.ok.injEq, Prod.mk.injEq] at h1
  obtain ⟨a1, a2, -⟩ := h1
  have hl : ∀ (i j : Fin 1), LIn S ((Matrix.of fun (_ _ : Fin 1) => ([1] : List K)) i j) := fun i j => lIn_one hS
  exact ⟨by omega, by simp [← a1], ⟨_, a2.symm, hl⟩, flag_made e a2.symm hl⟩

theorem sumLoop_tcls (hbal : ∀ polys i, E.bal polys i ≠ 0) (hS : CoarseClass E.lcmTol S) {dt : Option K} {f : ℕ → Res (TransferM K)} {v : ℕ → L} (k : ℕ)
    (hf : ∀ i < k, ∀ g, f i = .ok g → TCls S g 1 1 ∧ HasVal g 1 1 s (Matrix.of fun _ _ => v i)) (h : sumLoop E dt f k = .ok F) :
    TCls S F 1 1 ∧ HasVal F 1 1 s (Matrix.of fun _ _ => ∑ i ∈ Finset.range k, v i) ∧ F.dt = dt := by
  induction k generalizing F with
  | zero =>
    obtain ⟨h1, h2⟩ := mkScalars_valued one_ne_zero h s
    refine ⟨tcls_zero hS h, ?_, h2⟩
    simpa using h1.1
  | succ k ih =>
    obtain ⟨t, h1, h⟩ := bind_ok' h
    obtain ⟨g, h2, h⟩ := bind_ok' h
    obtain ⟨a1, a2, a3⟩ := ih (fun i hi => hf i (by omega)) h1
    obtain ⟨b1, b2⟩ := hf k (by omega) g h2
    obtain ⟨c1, c2, -⟩ := add_valued hbal (a1.sumClear hS b1 (a1.valued a2)) (a1.valued a2) (b1.valued b2) h
    refine ⟨a1.add hbal hS b1 h, ?_, c2.trans a3⟩
    convert c1.1 using 1
    ext i j
    simp [Finset.sum_range_succ]

theorem matmul_tcls (hbal : ∀ polys i, E.bal polys i ≠ 0) (hS : CoarseClass E.lcmTol S) (h : TCls S G p q) (h' : TCls S H q m)
    {A : Matrix (Fin p) (Fin q) L} {B : Matrix (Fin q) (Fin m) L} (hA : HasVal G p q s A) (hB : HasVal H q m s B) (e : G.matmul E H = .ok F) :
    TCls S F p m ∧ HasVal F p m s (A * B) ∧ F.dt = G.dt ∧ G.dt = H.dt := by
  have hAB : ∀ (hk : q = 1), A * B = Matrix.of fun i j => A i ⟨0, by omega⟩ * B ⟨0, by omega⟩ j := by
    intro hk
    subst hk
    ext i j
    simp [mul_apply]
  have hsis : G.isSISO = true ↔ p = 1 ∧ q = 1 := by simp [TransferM.isSISO, h.num]
  have hsis' : H.isSISO = true ↔ q = 1 ∧ m = 1 := by simp [TransferM.isSISO, h'.num]
  have hGv := h.valued hA
  have hHv := h'.valued hB
  unfold TransferM.matmul at e
  split_ifs at e with h1 h2 h3 h4 h5
  · obtain ⟨rfl, rfl⟩ := hsis.mp h1
    refine ⟨h.mul hS h' (Or.inr (Or.inl ⟨rfl, rfl, rfl, rfl⟩)) e, ?_⟩
    have hA' : A = Matrix.of fun _ _ => A 0 0 := by
      ext i j
      rw [Subsingleton.elim i 0, Subsingleton.elim j 0]; rfl
    rw [hA'] at hGv
    obtain ⟨k1, k2⟩ := mul_siso_left_valued hGv (h.unitDen hS) h.flagOk hHv e
    refine ⟨?_, k2⟩
    rw [hAB rfl]
    convert k1.1 using 4 with i j
    rw [Subsingleton.elim i 0]
    rfl
  · obtain ⟨rfl, rfl⟩ := hsis'.mp h3
    refine ⟨h.mul hS h' (Or.inr (Or.inr ⟨rfl, rfl, rfl, rfl⟩)) e, ?_⟩
    have hB' : B = Matrix.of fun _ _ => B 0 0 := by
      ext i j
      rw [Subsingleton.elim i 0, Subsingleton.elim j 0]; rfl
    rw [hB'] at hHv
    obtain ⟨k1, k2⟩ := mul_siso_right_valued hGv (h.unitDen hS) h.flagOk hHv e
    refine ⟨?_, k2⟩
    rw [hAB rfl]
    convert k1.1 using 4 with i j
    rw [Subsingleton.elim j 0, mul_comm]
    rfl
  all_goals
    have hsG : ¬ (p = 1 ∧ q = 1) := fun hh => h1 (hsis.mpr hh)
    have hsH : ¬ (q = 1 ∧ m = 1) := fun hh => h3 (hsis'.mpr hh)
    have key : ∀ (r : Fin p) (c : Fin m) (i : Fin q) g,
        ((item E G r i).bind fun a => (item E H i c).bind fun b => TransferM.mul E a b) = .ok g →
        TCls S g 1 1 ∧ HasVal g 1 1 s (Matrix.of fun _ _ => A r i * B i c) := by
      intro r c i g hg
      obtain ⟨a, k1, hg⟩ := bind_ok' hg
      obtain ⟨b, k2, hg⟩ := bind_ok' hg
      have a1 := h.item hsG r i k1
      have b1 := h'.item hsH i c k2
      obtain ⟨a2, -⟩ := item_valued hGv hsG r i k1
      obtain ⟨b2, -⟩ := item_valued hHv hsH i c k2
      exact ⟨a1.mul hS b1 (Or.inl ⟨rfl, rfl, rfl, rfl⟩) hg, (mul_valued a2 (a1.unitDen hS) a1.flagOk b2 hg).1.1⟩
    have hsum : ∀ (r : Fin p) (c : Fin m) (t : TransferM K),
        sumLoop E G.dt (fun ind => (item E G r ind).bind fun a => (item E H ind c).bind fun b => TransferM.mul E a b) q = .ok t →
        TCls S t 1 1 ∧ HasVal t 1 1 s (Matrix.of fun _ _ => (A * B) r c) ∧ t.dt = G.dt := by
      intro r c t ht
      obtain ⟨k1, k2, k3⟩ := sumLoop_tcls hbal hS (s := s) (v := fun i => if h : i < q then A r ⟨i, h⟩ * B ⟨i, h⟩ c else 0) q
        (fun i hi g hg => by
          simp only [dif_pos hi]
          exact key r c ⟨i, hi⟩ g hg) ht
      refine ⟨k1, ?_, k3⟩
      convert k2 using 1
      ext i j
      rw [of_apply, of_apply, mul_apply, Finset.sum_range]
      exact Finset.sum_congr rfl fun i _ => by simp
  · rw [h.num.1, h'.num.2] at h5
    obtain ⟨rfl, rfl⟩ := h5
    rw [h.num.2] at e
    obtain ⟨k1, k2, k3⟩ := hsum 0 0 F e
    refine ⟨k1, ?_, k3, not_not.mp h2⟩
    convert k2 using 1
    ext i j
    rw [Subsingleton.elim i 0, Subsingleton.elim j 0]
    rfl
  · rw [h.num.1, h.num.2, h'.num.2] at e
    have hent : ∀ (r : Fin p) (c : Fin m) (x : List K × List K), ((sumLoop E G.dt (fun ind => (item E G r ind).bind fun a => (item E H ind c).bind fun b =>
        TransferM.mul E a b) q).bind fun t => Except.ok (t.num.entry 0 0, t.den.entry 0 0)) = .ok x → LIn S x.2 ∧ EntryVal s x ((A * B) r c) := by
      intro r c x hx
      obtain ⟨t, k1, k2⟩ := bind_ok' hx
      simp only [Except.ok.injEq] at k2
      subst k2
      obtain ⟨a1, a2, -⟩ := hsum r c t k1
      refine ⟨a1.entry 0 0, ?_⟩
      obtain ⟨N, D, g, dt', rfl, hv⟩ := (a1.valued a2).elim
      have := hv 0 0
      rw [show (Arr.of N).entry 0 0 = N 0 0 from entry_of N 0 0, show (Arr.of D).entry 0 0 = D 0 0 from entry_of D 0 0]
      exact this
    refine ⟨tcls_entries (p := p) (m := m) e fun r c x hx => (hent r c x hx).1, ?_⟩
    obtain ⟨k1, k2⟩ := mkEntries_valued (p := p) (m := m) (s := s) e (M := A * B) fun r c x hx => (hent r c x hx).2
    exact ⟨k1.1, k2, not_not.mp h2⟩

/-- `G + k`. -/
theorem TCls.shift (hbal : ∀ polys i, E.bal polys i ≠ 0) (hS : CoarseClass E.lcmTol S) (h : TCls S G p m) {k : K} (e : G.addGain E (.scalar k) = .ok F) :
    TCls S F p m := by
  have hsis : G.isSISO = true ↔ p = 1 ∧ m = 1 := by simp [TransferM.isSISO, h.num]
  have harr : ∀ {X : Matrix (Fin p) (Fin m) K} {dt : Option K} {R : TransferM K}, mkTransfer E (.arr (Arr.of X)) .none dt = .ok R → TCls S R p m := by
    intro X dt R hR
    obtain ⟨hv, -⟩ := mkArr_valued h.pos.1 h.pos.2 hR (0 : K)
    refine tcls_ones hS h.pos hR ?_ (mkArr_den h.pos.1 h.pos.2 hR)
    obtain ⟨N, D, g, dt, rfl, -⟩ := hv.elim
    exact ⟨rfl, rfl⟩
  unfold addGain at e
  simp only [Gain.regular] at e
  split_ifs at e with h1 h2
  · obtain ⟨x, hx, e⟩ := bind_ok' e
    unfold toArray at hx
    rw [if_pos h1] at hx
    have hxs : x.r = p ∧ x.c = m := by
      unfold gainArr at hx
      obtain ⟨X, -, hx⟩ := bind_ok' hx
      simp only [Except.ok.injEq] at hx
      rw [← hx]
      exact h.num
    obtain ⟨X, rfl⟩ := Arr.exists_of hxs.1 hxs.2
    rw [addScalar_of] at e
    exact harr e
  · obtain ⟨H, hH, e⟩ := bind_ok' e
    obtain ⟨rfl, rfl⟩ := hsis.mp h2
    refine h.add hbal hS (tcls_ones hS h.pos hH ?_ (mkScalar_den hH)) e
    obtain ⟨hv, -⟩ := mkScalar_valued hH (0 : K)
    obtain ⟨N, D, g, dt, rfl, -⟩ := hv.elim
    exact ⟨rfl, rfl⟩
  · obtain ⟨H, hH, e⟩ := bind_ok' e
    have hX : ((Arr.ones G.num.r G.num.c).smul k : Arr K).r = p ∧ ((Arr.ones G.num.r G.num.c).smul k : Arr K).c = m := h.num
    obtain ⟨X, hX⟩ := Arr.exists_of hX.1 hX.2
    rw [hX] at hH
    exact h.add hbal hS (harr hH) e

omit [IsStrictOrderedRing K] in
theorem isMonicLcm_self_one {P : K[X]} (hP : P.Monic) : IsMonicLcm [P, 1] P :=
  ⟨hP, by simp, fun M h => h P (by simp)⟩

omit [IsStrictOrderedRing K] in
theorem CoarseClass.coarse_mem {τ : K} (hS : CoarseClass τ S) {P : K[X]} (hP : P ∈ S) : Coarse τ P :=
  (hS.coarse P hP 1 hS.one P (isMonicLcm_self_one (hS.monic P hP))).1

theorem CoarseClass.le_one {τ : K} (hS : CoarseClass τ S) : τ ≤ 1 := by
  rcases CoarseClass.coarse_mem hS hS.one 0 with h | h
  · simp at h
  · simpa using h

/-- The denominators of the class have no small coefficients themselves. -/
theorem TCls.denClear {τ : K} (hS : CoarseClass τ S) (h : TCls S G p m) : DenClear τ G := by
  obtain ⟨D, hD, hl⟩ := h.den
  intro a b
  by_cases hab : a < p ∧ b < m
  · have := (h.entry ⟨a, hab.1⟩ ⟨b, hab.2⟩).2
    simp only at this
    rw [(hS.monic _ this).leadingCoeff, inv_one, C_1, one_mul]
    exact CoarseClass.coarse_mem hS this
  · have e : G.den.entry a b = [] := by
      rw [hD]
      unfold Arr.entry
      rw [dif_neg hab]
    rw [e]
    intro k
    left; simp [toPoly]

/-- The models of the formula. -/
theorem NormalIn.tcls (h : NormalIn S p m G) : TCls S G p m := by
  obtain ⟨N, D, hn, hl⟩ := h
  refine ⟨hn.pos, by simp [hn.num], ⟨D, hn.den, fun i j => ⟨hn.lead i j, hl i j⟩⟩, fun hg D' hD' => ?_⟩
  obtain rfl := Arr.of_inj.mp (hn.den.symm.trans hD')
  exact hn.flag.mp hg

/-- Without rounding every set of monic polynomials will do. -/
theorem coarseClass_monic {τ : K} (h : τ ≤ 0) : CoarseClass τ {P : K[X] | P.Monic} where
  monic _ h := h
  one := monic_one
  mul _ h _ h' := Monic.mul h h'
  lcm _ _ _ _ _ h := h.1
  coarse _ _ _ _ := coarseLcm_nonpos h _

theorem lcm_monicInt {A B : ℤ[X]} (hA : A.Monic) (hB : B.Monic) {M : K[X]}
    (hM : IsMonicLcm [A.map (Int.castRingHom K), B.map (Int.castRingHom K)] M) : M ∈ monicInt K := by
  have hcomp : ∀ p : ℤ[X], (p.map (Int.castRingHom ℚ)).map (Rat.castHom K) = p.map (Int.castRingHom K) := by
    intro p
    rw [Polynomial.map_map]
    congr 1
    exact RingHom.ext_int _ _
  obtain ⟨M', h1, h2⟩ := lcm_map (Rat.castHom K) [A.map (Int.castRingHom ℚ), B.map (Int.castRingHom ℚ)] (by
    intro p hp
    simp only [List.mem_cons, List.not_mem_nil, or_false] at hp
    rcases hp with rfl | rfl
    · exact (hA.map _).ne_zero
    · exact (hB.map _).ne_zero)
  simp only [List.map_cons, List.map_nil, hcomp] at h2
  rw [isMonicLcm_unique hM h2]
  have hd : M' ∣ (A * B).map (Int.castRingHom ℚ) := by
    refine h1.2.2 _ fun p hp => ?_
    rw [Polynomial.map_mul]
    simp only [List.mem_cons, List.not_mem_nil, or_false] at hp
    rcases hp with rfl | rfl
    · exact dvd_mul_right _ _
    · exact dvd_mul_left _ _
  obtain ⟨Q, hQ, e⟩ := monic_dvd_int (hA.mul hB) h1.1 hd
  exact ⟨Q, hQ, by rw [e, hcomp]⟩

/-- Integer coefficients are not rounded. -/
theorem coarseClass_int {τ : K} (h : τ ≤ 1) : CoarseClass τ (monicInt K) where
  monic := by
    rintro _ ⟨Q, hQ, rfl⟩
    exact hQ.map _
  one := ⟨1, monic_one, by simp⟩
  mul := by
    rintro _ ⟨Q, hQ, rfl⟩ _ ⟨R, hR, rfl⟩
    exact ⟨Q * R, hQ.mul hR, by rw [Polynomial.map_mul]⟩
  lcm := by
    rintro _ ⟨Q, hQ, rfl⟩ _ ⟨R, hR, rfl⟩ M hM
    exact lcm_monicInt hQ hR hM
  coarse := by
    rintro _ ⟨Q, hQ, rfl⟩ _ ⟨R, hR, rfl⟩
    simpa using coarseLcm_int h [Q, R] (by
      intro p hp
      simp only [List.mem_cons, List.not_mem_nil, or_false] at hp
      rcases hp with rfl | rfl <;> assumption)

end Harold
