import Verif.Spec.Poles
import Verif.Lemmas.Poles
import Verif.Props.TransferObj
import Verif.Props.TransZeros
import Verif.Lemmas.CoarseInt

/-!
# C91: poles, zeros and stability of `Transfer` models
-/

namespace Harold

open Polynomial Matrix Spec

variable {p m : ℕ}

theorem companion_roots {N : Numerics ℝ ℂ} (hN : EigExact N) {l : List ℝ} {A : Arr ℝ} (h : companion l = .ok (some A)) :
    (toPoly l).map (algebraMap ℝ ℂ) = C ((toPoly l).leadingCoeff : ℂ) * ((N.eig A).map fun z => X - C z).prod := by
  have hd : 0 < (toPoly l).degree := by
    by_contra hd
    rw [not_lt] at hd
    by_cases h0 : toPoly l = 0
    · by_cases hl : l = []
      · rw [(C05_constant l).1 (Or.inr hl)] at h; cases h
      · rw [(C05_constant l).2 hl h0] at h; cases h
    · have : (toPoly l).degree = 0 := le_antisymm hd (zero_le_degree_iff.mpr h0)
      rw [(C05_constant l).1 (Or.inl this)] at h; cases h
  obtain ⟨n, M, h1, -, h2⟩ := C05_companion l hd
  rw [h1] at h
  simp only [Except.ok.injEq, Option.some.injEq] at h
  subst h
  have h0 : (toPoly l).leadingCoeff ≠ 0 := leadingCoeff_ne_zero.mpr fun e => by rw [e] at hd; simp at hd
  rw [← hN M, h2, Polynomial.map_mul, map_C, ← mul_assoc, ← C_mul]
  have : ((toPoly l).leadingCoeff : ℂ) * (algebraMap ℝ ℂ) (toPoly l).leadingCoeff⁻¹ = 1 := by
    rw [← Complex.coe_algebraMap, ← map_mul, mul_inv_cancel₀ h0, map_one]
  rw [this, C_1, one_mul]

/-- **C91** for SISO models: after every history of accepted assignments the denominator is its leading coefficient times `∏ (s - pᵢ)` over the reported poles, and the
numerator its leading coefficient times `∏ (s - zᵢ)` over the reported zeros. -/
theorem C91_siso {E : TNum ℝ} {N : Numerics ℝ ℂ} (hN : EigExact N) {num den : TArg ℝ} {dt : Option ℝ} {S : TransferObj ℝ ℂ}
    (h : TransferObj.init E N num den dt = .ok S) (hist : List (TAssign ℝ)) (hk : TKeeps E N S hist)
    {Nn Dn : Matrix (Fin 1) (Fin 1) (List ℝ)} (hG : Normal (S.run E N hist).g 1 1 Nn Dn) :
    (toPoly (Dn 0 0)).map (algebraMap ℝ ℂ) = C ((toPoly (Dn 0 0)).leadingCoeff : ℂ) * ((S.run E N hist).poles.map fun z => X - C z).prod ∧
    (toPoly (Nn 0 0)).map (algebraMap ℝ ℂ) = C ((toPoly (Nn 0 0)).leadingCoeff : ℂ) * ((S.run E N hist).zeros.map fun z => X - C z).prod := by
  obtain ⟨hp, -⟩ := C14_transfer_history_partial E N h hist hk
  set T := S.run E N hist with hT
  clear_value T
  have hone : ∀ l : List ℝ, l.length = 1 → (toPoly l).map (algebraMap ℝ ℂ) = C ((toPoly l).leadingCoeff : ℂ) := by
    intro l hl
    obtain ⟨a, rfl⟩ := List.length_eq_one_iff.mp hl
    simp [toPoly]
  have en : T.g.num.entry 0 0 = Nn 0 0 := by rw [hG.num]; exact entry_of Nn 0 0
  have ed : T.g.den.entry 0 0 = Dn 0 0 := by rw [hG.den]; exact entry_of Dn 0 0
  unfold TPolesCurrent at hp
  by_cases hg : T.g.isgain = true
  · rw [if_pos hg] at hp
    have hd := hG.flag.mp hg 0 0
    have hn : (Nn 0 0).length = 1 := by
      have h1 := hG.causal 0 0
      have h2 : Nn 0 0 ≠ [] := by rcases hG.trimmed 0 0 with h | ⟨a, t, h, -⟩ <;> rw [h] <;> simp
      have := List.length_pos_iff.mpr h2
      omega
    rw [hp.1, hp.2, hone _ hd, hone _ hn]
    simp
  · rw [if_neg hg, if_pos (by simp [TransferM.isSISO, hG.num]), en, ed] at hp
    obtain ⟨⟨A, hA, e1⟩, h2⟩ := hp
    refine ⟨by rw [e1]; exact companion_roots hN hA, ?_⟩
    rcases h2 with ⟨h2, e2⟩ | ⟨B, hB, e2⟩
    · rw [hone _ h2, e2]; simp
    · rw [e2]; exact companion_roots hN hB

/-- A realization that does not depend on the field of the points. -/
theorem realizes_all {r : Option (Arr ℝ × Arr ℝ × Arr ℝ) × Arr ℝ} {num den : Fin p → Fin m → List ℝ}
    (h : ∀ (L : Type) [Field L] [Algebra ℝ L], Realizes L r num den) :
    ∃ D : Matrix (Fin p) (Fin m) ℝ, r.2 = Arr.of D ∧
      ((r.1 = none ∧ ∀ s : ℝ, (∀ i j, polyAt s (den i j) ≠ 0) → D = Matrix.of fun i j => polyAt s (num i j) / polyAt s (den i j)) ∨
       ∃ (n : ℕ) (A : Matrix (Fin n) (Fin n) ℝ) (B : Matrix (Fin n) (Fin m) ℝ) (C' : Matrix (Fin p) (Fin n) ℝ),
        r.1 = some (Arr.of A, Arr.of B, Arr.of C') ∧
        ∀ (L : Type) [Field L] [Algebra ℝ L] (s : L), (∀ i j, polyAt s (den i j) ≠ 0) →
          IsTF (A.map (algebraMap ℝ L)) (B.map (algebraMap ℝ L)) (C'.map (algebraMap ℝ L)) (D.map (algebraMap ℝ L)) s
            (Matrix.of fun i j => polyAt s (num i j) / polyAt s (den i j))) := by
  obtain ⟨D, h1, h2⟩ := h ℝ
  refine ⟨D, h1, ?_⟩
  rcases h2 with ⟨h2, h3⟩ | ⟨n, A, B, C', h2, -⟩
  · exact Or.inl ⟨h2, fun s hs => by rw [← h3 s hs]; ext; simp⟩
  · refine Or.inr ⟨n, A, B, C', h2, fun L _ _ => ?_⟩
    obtain ⟨D', g1, g2⟩ := h L
    rw [h1] at g1
    obtain rfl := Arr.of_inj.mp g1
    rcases g2 with ⟨g2, -⟩ | ⟨n', A', B', C'', g2, g3⟩
    · rw [h2] at g2; cases g2
    · rw [h2] at g2
      simp only [Option.some.injEq, Prod.mk.injEq] at g2
      obtain ⟨e1, e2, e3⟩ := g2
      obtain rfl : n = n' := congrArg Arr.r e1
      obtain rfl := Arr.of_inj.mp e1
      obtain rfl := Arr.of_inj.mp e2
      obtain rfl := Arr.of_inj.mp e3
      exact g3

/-- `transfer_to_state` on lists of polynomials of a dynamic MIMO model. -/
theorem t2sTuple_lists {E : TNum ℝ} {Nn Dn : Matrix (Fin p) (Fin m) (List ℝ)} (hp : 0 < p) (hm : 0 < m)
    (hl : ∀ i j, (Dn i j).getD 0 0 ≠ 0) (hc : ∀ i j, (Nn i j).length ≤ (Dn i j).length)
    (hg : ¬ ∀ i j, (Dn i j).length = 1) (hs : ¬ (p = 1 ∧ m = 1)) :
    t2sTuple E (.lists (Arr.of Nn)) (.lists (Arr.of Dn)) = t2sMimo E Nn Dn := by
  have hmax : maxSize (Arr.of Dn) ≠ 1 := fun e => hg ((maxSize_eq_one hp hm fun i j e => hl i j (by simp [e])).mp e)
  unfold t2sTuple
  simp only [validate_lists_ok hp hm hc hl, bind, Except.bind, t2sData, hmax, decide_false]
  rw [if_neg (by simp), if_neg hs]
  have e : (fun i j => (Arr.of Dn).entry ((i : Fin p) : ℕ) ((j : Fin m) : ℕ)) = Dn := by
    funext i j; exact entry_of Dn i j
  exact congrArg _ e

/-- What `transfer_to_state` returns inside the computation of the poles. -/
theorem t2sTuple_cases {E : TNum ℝ} (hbal : ∀ polys i, E.bal polys i ≠ 0) {Nn Dn : Matrix (Fin p) (Fin m) (List ℝ)} (hp : 0 < p) (hm : 0 < m)
    (hT : ∀ i j, Trimmed (Nn i j)) (hl : ∀ i j, (Dn i j).getD 0 0 ≠ 0) (hc : ∀ i j, (Nn i j).length ≤ (Dn i j).length)
    (hg : ¬ ∀ i j, (Dn i j).length = 1) (hs : ¬ (p = 1 ∧ m = 1)) (htol : NoRounding E.lcmTol E.remTol Nn Dn)
    {r : Option (Arr ℝ × Arr ℝ × Arr ℝ) × Arr ℝ} (h : t2sTuple E (.lists (Arr.of Nn)) (.lists (Arr.of Dn)) = .ok r) :
    ∀ (L : Type) [Field L] [Algebra ℝ L], Realizes L r Nn Dn := by
  intro L _ _
  have hne : ∀ i j, Nn i j ≠ [] := fun i j e => by
    rcases hT i j with h | ⟨a, t, h, -⟩ <;> rw [e] at h <;> simp at h
  have hdeg : ∀ i j, (toPoly (Nn i j)).degree ≤ (toPoly (Dn i j)).degree := fun i j => by
    obtain ⟨a, t, e, ha⟩ : ∃ a t, Dn i j = a :: t ∧ a ≠ 0 := by
      have := hl i j
      cases e : Dn i j with
      | nil => rw [e] at this; simp at this
      | cons a t => rw [e] at this; exact ⟨a, t, rfl, by simpa using this⟩
    have h1 := degree_toPoly_lt (Nn i j)
    have h2 := hc i j
    rw [e] at h2
    rw [e, degree_toPoly_cons ha]
    have h3 : (toPoly (Nn i j)).degree < ((t.length + 1 : ℕ) : WithBot ℕ) := h1.trans_le (by exact_mod_cast h2)
    by_cases h0 : toPoly (Nn i j) = 0
    · simp [h0]
    · rw [degree_eq_natDegree h0] at h3 ⊢
      norm_cast at h3 ⊢
      omega
  have h' : t2sMimo E Nn Dn = .ok r := by rw [← h, t2sTuple_lists hp hm hl hc hg hs]
  rw [t2sMimo_exact E hbal hp hm Nn Dn hl hdeg (htol.2 hs)] at h'
  rcases t2sMimo_ok (L := L) E.exact hbal (le_refl (0 : ℝ)) (le_refl (0 : ℝ)) hp hm Nn Dn hl hne hdeg with ⟨h1, -⟩ | ⟨r', h1, h2⟩
  · rw [h'] at h1; cases h1
  · rw [h'] at h1
    simp only [Except.ok.injEq] at h1
    subst h1
    exact h2

theorem empty_of : (Arr.empty : Arr ℝ) = Arr.of (0 : Matrix (Fin 0) (Fin 0) ℝ) := by
  unfold Arr.empty Arr.of
  congr 1
  ext i
  exact i.elim0

/-- What the computation of the poles of a dynamic MIMO model returns. -/
theorem mimoPZ_cases {E : TNum ℝ} (hbal : ∀ polys i, E.bal polys i ≠ 0) {N : Numerics ℝ ℂ} {G : TransferM ℝ}
    {Nn Dn : Matrix (Fin p) (Fin m) (List ℝ)} (hG : Normal G p m Nn Dn) (hg : G.isgain = false) (hs : ¬ (p = 1 ∧ m = 1))
    (htol : NoRounding E.lcmTol E.remTol Nn Dn) (htol1 : NoRounding E.lcmTol E.remTol (fun _ _ => [1]) Dn) {q z : List ℂ} (h : G.mimoPZ E N = .ok (q, z)) :
    (∃ (n : ℕ) (A : Matrix (Fin n) (Fin n) ℝ) (B : Matrix (Fin n) (Fin m) ℝ) (C' : Matrix (Fin p) (Fin n) ℝ) (D : Matrix (Fin p) (Fin m) ℝ),
      q = N.eig (Arr.of A) ∧ z = N.tz (Arr.of A) (Arr.of B) (Arr.of C') (Arr.of D) ∧
      ∀ (L : Type) [Field L] [Algebra ℝ L] (s : L), (∀ i j, polyAt s (Dn i j) ≠ 0) →
        IsTF (A.map (algebraMap ℝ L)) (B.map (algebraMap ℝ L)) (C'.map (algebraMap ℝ L)) (D.map (algebraMap ℝ L)) s
          (Matrix.of fun i j => polyAt s (Nn i j) / polyAt s (Dn i j))) ∨
    (∃ (n : ℕ) (A : Matrix (Fin n) (Fin n) ℝ) (D : Matrix (Fin p) (Fin m) ℝ), q = N.eig (Arr.of A) ∧ z = q ∧
      (∀ s : ℝ, (∀ i j, polyAt s (Dn i j) ≠ 0) → D = Matrix.of fun i j => polyAt s (Nn i j) / polyAt s (Dn i j)) ∧
      ∀ s : ℂ, (∀ i j, polyAt s (Dn i j) ≠ 0) → (s • (1 : Matrix (Fin n) (Fin n) ℂ) - A.map (algebraMap ℝ ℂ)).det ≠ 0) := by
  have hg' : ¬ ∀ i j, (Dn i j).length = 1 := fun e => by rw [hG.flag.mpr e] at hg; cases hg
  unfold TransferM.mimoPZ at h
  rw [hG.num, hG.den] at h
  cases h1 : t2sTuple E (.lists (Arr.of Nn)) (.lists (Arr.of Dn)) with
  | error e => rw [h1] at h; cases h
  | ok r =>
    obtain ⟨D, h2, h3⟩ := realizes_all (t2sTuple_cases hbal hG.pos.1 hG.pos.2 hG.trimmed hG.lead hG.causal hg' hs htol h1)
    rcases h3 with ⟨h3, h4⟩ | ⟨n, A, B, C', h3, h4⟩
    · right
      simp only [h1, bind, Except.bind, h3] at h
      have e : constArr G.p G.m [(1 : ℝ)] = Arr.of (Matrix.of fun (_ : Fin p) (_ : Fin m) => [(1 : ℝ)]) := by
        unfold TransferM.p TransferM.m
        rw [hG.num]
        rfl
      rw [e] at h
      cases h5 : t2sTuple E (.lists (Arr.of (Matrix.of fun (_ : Fin p) (_ : Fin m) => [(1 : ℝ)]))) (.lists (Arr.of Dn)) with
      | error e => rw [h5] at h; cases h
      | ok r' =>
        simp only [h5, Except.ok.injEq, Prod.mk.injEq] at h
        obtain ⟨rfl, rfl⟩ := h
        obtain ⟨D', h6, h7⟩ := realizes_all (t2sTuple_cases hbal hG.pos.1 hG.pos.2 (Nn := Matrix.of fun _ _ => [1]) (fun i j => Or.inr ⟨1, [], rfl, one_ne_zero⟩)
          hG.lead (fun i j => by
            have : Dn i j ≠ [] := fun e => hG.lead i j (by simp [e])
            have := List.length_pos_iff.mpr this
            exact this) hg' hs htol1 h5)
        rcases h7 with ⟨h7, -⟩ | ⟨n, A, B, C', h7, h8⟩
        · exact ⟨0, 0, D, by rw [h7, ← empty_of]; rfl, rfl, h4, fun s _ => by simp⟩
        · exact ⟨n, A, D, by rw [h7]; rfl, rfl, h4, fun s hs => (h8 ℂ s hs).1⟩
    · left
      simp only [h1, bind, Except.bind, h3, h2, Except.ok.injEq, Prod.mk.injEq] at h
      exact ⟨n, A, B, C', D, h.1.symm, h.2.symm, h4⟩

theorem map_charpoly_eval {n : ℕ} (A : Matrix (Fin n) (Fin n) ℝ) (s : ℂ) :
    (A.charpoly.map (algebraMap ℝ ℂ)).eval s = (s • (1 : Matrix (Fin n) (Fin n) ℂ) - A.map (algebraMap ℝ ℂ)).det := by
  rw [← charpoly_map, eval_charpoly, scalar_apply, ← smul_one_eq_diagonal]

theorem lead_ne {l : List ℝ} (h : l.getD 0 0 ≠ 0) : toPoly l ≠ 0 := by
  cases l with
  | nil => simp at h
  | cons a t =>
    intro e
    have := degree_toPoly_cons (by simpa using h : a ≠ 0) t
    rw [e] at this
    simp at this

/-- The product of all denominators is not zero somewhere. -/
theorem exists_defined {Dn : Matrix (Fin p) (Fin m) (List ℝ)} (hl : ∀ i j, (Dn i j).getD 0 0 ≠ 0) :
    Set.Infinite {s : ℝ | ∀ i j, polyAt s (Dn i j) ≠ 0} := by
  have hne : (∏ x : Fin p × Fin m, toPoly (Dn x.1 x.2)) ≠ 0 := Finset.prod_ne_zero_iff.mpr fun x _ => lead_ne (hl x.1 x.2)
  have hinf : Set.Infinite ((rootSet (∏ x : Fin p × Fin m, toPoly (Dn x.1 x.2)) ℝ)ᶜ : Set ℝ) := (rootSet_finite _ ℝ).infinite_compl
  refine hinf.mono fun s hs => ?_
  intro i j e
  refine hs (mem_rootSet.mpr ⟨hne, ?_⟩)
  rw [map_prod]
  exact Finset.prod_eq_zero (Finset.mem_univ (i, j)) e

/-- **C91** for MIMO models that rounding leaves alone: after every history of accepted assignments every entry, multiplied with `∏ (s - pᵢ)` over the reported poles, is a
polynomial, so that all poles of all entries are reported with at least their order, and every reported pole is a root of one of the denominators.
Missing: models with coefficients below the thresholds, see `C91_unstable_violated`. -/
theorem C91_mimo_partial {E : TNum ℝ} (hbal : ∀ polys i, E.bal polys i ≠ 0) {N : Numerics ℝ ℂ} (hN : EigExact N) {num den : TArg ℝ} {dt : Option ℝ} {S : TransferObj ℝ ℂ}
    (h : TransferObj.init E N num den dt = .ok S) (hist : List (TAssign ℝ)) (hk : TKeeps E N S hist)
    {Nn Dn : Matrix (Fin p) (Fin m) (List ℝ)} (hG : Normal (S.run E N hist).g p m Nn Dn) (hs : ¬ (p = 1 ∧ m = 1))
    (htol : NoRounding E.lcmTol E.remTol Nn Dn) (htol1 : NoRounding E.lcmTol E.remTol (fun _ _ => [1]) Dn) :
    (∀ i j, (toPoly (Dn i j)).map (algebraMap ℝ ℂ) ∣
      (toPoly (Nn i j)).map (algebraMap ℝ ℂ) * ((S.run E N hist).poles.map fun z => X - C z).prod) ∧
    ∀ q ∈ (S.run E N hist).poles, ∃ i j, polyAt q (Dn i j) = 0 := by
  obtain ⟨hp, -⟩ := C14_transfer_history_partial E N h hist hk
  set T := S.run E N hist with hT
  clear_value T
  unfold TPolesCurrent at hp
  have hmem : ∀ {n : ℕ} {A : Matrix (Fin n) (Fin n) ℝ} {q : ℂ}, q ∈ N.eig (Arr.of A) →
      (q • (1 : Matrix (Fin n) (Fin n) ℂ) - A.map (algebraMap ℝ ℂ)).det = 0 := by
    intro n A q hq
    rw [← map_charpoly_eval, hN A, eval_list_prod]
    exact List.prod_eq_zero (List.mem_map.mpr ⟨_, List.mem_map.mpr ⟨q, hq, rfl⟩, by simp⟩)
  have hroot : ∀ {n : ℕ} {A : Matrix (Fin n) (Fin n) ℝ}, (∀ s : ℂ, (∀ i j, polyAt s (Dn i j) ≠ 0) →
      (s • (1 : Matrix (Fin n) (Fin n) ℂ) - A.map (algebraMap ℝ ℂ)).det ≠ 0) → ∀ q ∈ N.eig (Arr.of A), ∃ i j, polyAt q (Dn i j) = 0 := by
    intro n A hA q hq
    by_contra hc
    push Not at hc
    exact hA q hc (hmem hq)
  by_cases hg : T.g.isgain = true
  · rw [if_pos hg] at hp
    rw [hp.1]
    refine ⟨fun i j => ?_, by simp⟩
    obtain ⟨a, ha⟩ := List.length_eq_one_iff.mp (hG.flag.mp hg i j)
    have h0 : a ≠ 0 := by have := hG.lead i j; rw [ha] at this; simpa using this
    rw [ha]
    have : IsUnit ((toPoly [a]).map (algebraMap ℝ ℂ)) := by
      simp [toPoly, h0]
    exact this.dvd
  · rw [if_neg hg, if_neg (by simpa [TransferM.isSISO, hG.num] using hs)] at hp
    rcases mimoPZ_cases hbal hG (by simpa using hg) hs htol htol1 hp with ⟨n, A, B, C', D, e1, -, h2⟩ | ⟨n, A, D, e1, -, h2, h3⟩
    · rw [e1]
      refine ⟨fun i j => ?_, hroot fun s hs => (h2 ℂ s hs).1⟩
      have := realization_dvd (A := A) (B := B) (C' := C') (D := D) (num := fun i j => toPoly (Nn i j)) (den := fun i j => toPoly (Dn i j)) (fun i j => lead_ne (hG.lead i j))
        (fun s hs => by
          have := h2 ℝ s (fun i j => by simpa [polyAt] using hs i j)
          simpa [polyAt, Matrix.map_id'] using this) i j
      rw [← hN A, ← Polynomial.map_mul]
      exact Polynomial.map_dvd _ this
    · rw [e1]
      refine ⟨fun i j => ?_, hroot h3⟩
      refine Dvd.dvd.mul_right (Polynomial.map_dvd _ ⟨C (D i j), ?_⟩) _
      refine eq_of_infinite_eval_eq _ _ ((exists_defined hG.lead).mono fun s hs => ?_)
      have := congrFun (congrFun (h2 s hs) i) j
      have h4 := hs i j
      simp only [polyAt, coe_aeval_eq_eval, of_apply] at this h4
      simp only [Set.mem_ofPred_eq, eval_mul, eval_C]
      rw [this]
      field_simp

/-- Every pole of an entry is among the reported poles. -/
theorem pole_mem {n d : List ℝ} {s : ℂ} {q : List ℂ} (h : PoleAt n d s)
    (hd : (toPoly d).map (algebraMap ℝ ℂ) ∣ (toPoly n).map (algebraMap ℝ ℂ) * (q.map fun z => X - C z).prod) : s ∈ q := by
  by_contra hs
  obtain ⟨a, ha⟩ := hd
  refine h a (q.map fun z => X - C z).prod ?_ (by rw [ha, mul_comm])
  rw [eval_list_prod]
  refine List.prod_ne_zero fun h0 => ?_
  obtain ⟨f, hf, h1⟩ := List.mem_map.mp h0
  obtain ⟨z, hz, rfl⟩ := List.mem_map.mp hf
  simp only [eval_sub, eval_X, eval_C, sub_eq_zero] at h1
  exact hs (h1 ▸ hz)

/-- **C91**, stability, models of any shape that rounding leaves alone: a model that is reported stable has no entry with a pole outside the stability region, and a model whose
denominators have all their roots in the stability region is reported stable. Missing: as in `C91_mimo_partial`. -/
theorem C91_stable_partial {E : TNum ℝ} (hbal : ∀ polys i, E.bal polys i ≠ 0) {N : Numerics ℝ ℂ} (hN : EigExact N) (hR : RegionExact N) {num den : TArg ℝ} {dt : Option ℝ} {S : TransferObj ℝ ℂ}
    (h : TransferObj.init E N num den dt = .ok S) (hist : List (TAssign ℝ)) (hk : TKeeps E N S hist)
    {Nn Dn : Matrix (Fin p) (Fin m) (List ℝ)} (hG : Normal (S.run E N hist).g p m Nn Dn)
    (htol : ¬ (p = 1 ∧ m = 1) → NoRounding E.lcmTol E.remTol Nn Dn ∧ NoRounding E.lcmTol E.remTol (fun _ _ => [1]) Dn) :
    ((S.run E N hist).isstable = true → ∀ i j s, PoleAt (Nn i j) (Dn i j) s → StablePoint (S.run E N hist).g.dt s) ∧
    ((∀ i j (s : ℂ), polyAt s (Dn i j) = 0 → StablePoint (S.run E N hist).g.dt s) → (S.run E N hist).isstable = true) := by
  obtain ⟨-, hf⟩ := C14_transfer_history_partial E N h hist hk
  have key : (∀ i j, (toPoly (Dn i j)).map (algebraMap ℝ ℂ) ∣
      (toPoly (Nn i j)).map (algebraMap ℝ ℂ) * ((S.run E N hist).poles.map fun z => X - C z).prod) ∧
      ∀ q ∈ (S.run E N hist).poles, ∃ i j, polyAt q (Dn i j) = 0 := by
    by_cases hs : p = 1 ∧ m = 1
    · obtain ⟨rfl, rfl⟩ := hs
      obtain ⟨h1, -⟩ := C91_siso hN h hist hk hG
      have h0 : (toPoly (Dn 0 0)).leadingCoeff ≠ 0 := leadingCoeff_ne_zero.mpr (lead_ne (hG.lead 0 0))
      constructor
      · intro i j
        rw [Subsingleton.elim i 0, Subsingleton.elim j 0, h1]
        refine Dvd.dvd.mul_left ?_ _
        have : IsUnit (C ((toPoly (Dn 0 0)).leadingCoeff : ℂ)) := by simpa using lead_ne (hG.lead 0 0)
        exact (this.mul_left_dvd).mpr (dvd_refl _)
      · intro q hq
        refine ⟨0, 0, ?_⟩
        have := congrArg (eval q) h1
        rw [eval_map_algebraMap] at this
        rw [polyAt, this, eval_mul, eval_list_prod]
        have h2 : (0 : ℂ) ∈ List.map (eval q) ((S.run E N hist).poles.map fun z => X - C z) :=
          List.mem_map.mpr ⟨_, List.mem_map.mpr ⟨q, hq, rfl⟩, by simp⟩
        rw [List.prod_eq_zero h2, mul_zero]
    · exact C91_mimo_partial hbal hN h hist hk hG hs (htol hs).1 (htol hs).2
  have hreg : ∀ z, (if (S.run E N hist).g.dt.isSome then N.inDisc z = true else N.inLeft z = true) ↔ StablePoint (S.run E N hist).g.dt z := by
    intro z
    unfold StablePoint
    split_ifs
    · exact (hR z).1
    · exact (hR z).2
  unfold TFlagCurrent at hf
  constructor
  · intro hst i j s hp
    exact (hreg s).mp (hf.mp hst s (pole_mem hp (key.1 i j)))
  · intro hall
    refine hf.mpr fun z hz => (hreg z).mpr ?_
    obtain ⟨i, j, hij⟩ := key.2 z hz
    exact hall i j z hij

/-- **C91**, zeros of MIMO models that rounding leaves alone and whose transfer matrix is not constant and has independent columns somewhere: where no denominator vanishes, `s` is
reported as a zero exactly if the columns of the transfer matrix are dependent at `s`. `transmission_zeros` is the model of C73 with exact numerics. Missing: wide models, and
models with coefficients below the thresholds. -/
theorem C91_zeros_partial {E : TNum ℝ} (hbal : ∀ polys i, E.bal polys i ≠ 0) {N : Numerics ℝ ℂ} {Z : TzNum} (hZ : TzExact Z)
    (hE : ∀ a b c d (zs : List ℂ), transmissionZeros Z ⟨a, b, c, d⟩ = .ok (zs.map some) → N.tz a b c d = zs) {num den : TArg ℝ} {dt : Option ℝ} {S : TransferObj ℝ ℂ}
    (h : TransferObj.init E N num den dt = .ok S) (hist : List (TAssign ℝ)) (hk : TKeeps E N S hist)
    {Nn Dn : Matrix (Fin p) (Fin m) (List ℝ)} (hG : Normal (S.run E N hist).g p m Nn Dn) (hs : ¬ (p = 1 ∧ m = 1))
    (htol : NoRounding E.lcmTol E.remTol Nn Dn) (htol1 : NoRounding E.lcmTol E.remTol (fun _ _ => [1]) Dn)
    (hr : ∃ (μ : ℂ) (M : Matrix (Fin p) (Fin m) ℂ), HasVal (S.run E N hist).g p m μ M ∧ M.rank = m)
    (hc : ∃ (μ ν : ℂ) (M M' : Matrix (Fin p) (Fin m) ℂ), HasVal (S.run E N hist).g p m μ M ∧ HasVal (S.run E N hist).g p m ν M' ∧ M ≠ M')
    (s : ℂ) (M : Matrix (Fin p) (Fin m) ℂ) (hM : HasVal (S.run E N hist).g p m s M) : s ∈ (S.run E N hist).zeros ↔ M.rank < m := by
  obtain ⟨hp, -⟩ := C14_transfer_history_partial E N h hist hk
  set T := S.run E N hist with hT
  clear_value T
  unfold TPolesCurrent at hp
  have hval : ∀ {s : ℂ} {M : Matrix (Fin p) (Fin m) ℂ}, HasVal T.g p m s M →
      (∀ i j, polyAt s (Dn i j) ≠ 0) ∧ M = Matrix.of fun i j => polyAt s (Nn i j) / polyAt s (Dn i j) := by
    rintro s M ⟨n, d, h1, h2, h3⟩
    rw [hG.num] at h1
    rw [hG.den] at h2
    obtain rfl := Arr.of_inj.mp h1
    obtain rfl := Arr.of_inj.mp h2
    exact ⟨fun i j => (h3 i j).1, by ext i j; exact (h3 i j).2⟩
  obtain ⟨μ, ν, M₁, M₂, c1, c2, c3⟩ := hc
  have hconst : ∀ D : Matrix (Fin p) (Fin m) ℝ, ¬ ∀ i j, toPoly (Nn i j) = toPoly (Dn i j) * C (D i j) := by
    intro D hD
    have : ∀ {s : ℂ} {M : Matrix (Fin p) (Fin m) ℂ}, HasVal T.g p m s M → M = D.map (algebraMap ℝ ℂ) := by
      intro s M hM
      obtain ⟨h1, rfl⟩ := hval hM
      ext i j
      have h2 := h1 i j
      rw [of_apply, map_apply, polyAt, polyAt, hD i j, map_mul, aeval_C]
      rw [polyAt] at h2
      field_simp
    exact c3 ((this c1).trans (this c2).symm)
  by_cases hg : T.g.isgain = true
  · exfalso
    refine hconst (Matrix.of fun i j => (Nn i j).getD 0 0 / (Dn i j).getD 0 0) fun i j => ?_
    obtain ⟨a, ha⟩ := List.length_eq_one_iff.mp (hG.flag.mp hg i j)
    have h0 : a ≠ 0 := by have := hG.lead i j; rw [ha] at this; simpa using this
    have h1 := hG.causal i j
    have h2 : Nn i j ≠ [] := by rcases hG.trimmed i j with h | ⟨a, t, h, -⟩ <;> rw [h] <;> simp
    have := List.length_pos_iff.mpr h2
    rw [ha] at h1
    obtain ⟨b, hb⟩ := List.length_eq_one_iff.mp (show (Nn i j).length = 1 by simp at h1; omega)
    rw [ha, hb]
    simp only [toPoly, of_apply, ha, hb, List.getD_cons_zero]
    simp only [List.length_nil, pow_zero, mul_one, add_zero, ← C_mul]
    rw [mul_div_cancel₀ b h0]
  · rw [if_neg hg, if_neg (by simpa [TransferM.isSISO, hG.num] using hs)] at hp
    rcases mimoPZ_cases hbal hG (by simpa using hg) hs htol htol1 hp with ⟨n, A, B, C', D, -, e1, h2⟩ | ⟨n, A, D, -, -, h2, -⟩
    · have htf : ∀ {s : ℂ} {M : Matrix (Fin p) (Fin m) ℂ}, HasVal T.g p m s M → TfAt A B C' D s M := by
        intro s M hM
        obtain ⟨h3, rfl⟩ := hval hM
        exact h2 ℂ s h3
      have hB : B ≠ 0 := by
        rintro rfl
        refine c3 ?_
        rw [(htf c1).2, (htf c2).2]
        simp
      have hC : C' ≠ 0 := by
        rintro rfl
        refine c3 ?_
        rw [(htf c1).2, (htf c2).2]
        simp
      obtain ⟨η, M₀, h3, h4⟩ := hr
      obtain ⟨zs, h5, -, h6⟩ := C73_left_invertible (D := D) (A := A) hZ hB hC ⟨η, M₀, htf h3, h4⟩
      rw [e1, hE _ _ _ _ _ h5]
      exact h6 s M (htf hM)
    · exfalso
      refine hconst D fun i j => ?_
      refine eq_of_infinite_eval_eq _ _ ((exists_defined hG.lead).mono fun s hs => ?_)
      have := congrFun (congrFun (h2 s hs) i) j
      have h4 := hs i j
      simp only [polyAt, coe_aeval_eq_eval, of_apply] at this h4
      simp only [Set.mem_ofPred_eq, eval_mul, eval_C]
      rw [this]
      field_simp

/-! ### Rounding loses unstable poles -/

theorem t2sMimo_congr {E : TNum ℝ} {Nn Dn Nn' Dn' : Fin p → Fin m → List ℝ}
    (h : ∀ x y, t2sEntry E.remTol (Nn x y) (Dn x y) = t2sEntry E.remTol (Nn' x y) (Dn' x y)) : t2sMimo E Nn Dn = t2sMimo E Nn' Dn' := by
  unfold t2sMimo
  simp only [h]

/-- The constructor as a function to values and as a function to objects succeed together. -/
theorem init_of_mk {E : TNum ℝ} {N : Numerics ℝ ℂ} {num den : TArg ℝ} {dt : Option ℝ} {G : TransferM ℝ} (h : mkTransfer E num den dt = .ok G) :
    ∃ S, TransferObj.init E N num den dt = .ok S ∧ S.g = G := by
  obtain ⟨h1, rfl, h2, A, h3⟩ := mkTransfer_inv h
  unfold TransferObj.init
  simp only [h1, checkDt_ok h2, bind, Except.bind]
  have key : ∃ S, TransferObj.recalc E N (⟨⟨G.num, G.den, G.isgain, G.dt⟩, (G.num.r, G.num.c), none, none, 0, [], [], false⟩ : TransferObj ℝ ℂ) = (S, none) := by
    unfold TransferM.poleMatrix at h3
    unfold TransferObj.recalc
    by_cases hg : G.isgain = true
    · rw [if_pos hg]; exact ⟨_, rfl⟩
    rw [if_neg hg] at h3 ⊢
    by_cases hs : G.isSISO = true
    · rw [if_pos hs] at h3
      rw [if_pos hs]
      cases c1 : companion (G.den.entry 0 0) with
      | error e => rw [c1] at h3; cases h3
      | ok o =>
        cases o with
        | none => rw [c1] at h3; cases h3
        | some B =>
          simp only [c1, bind, Except.bind] at h3 ⊢
          split_ifs at h3 ⊢ with h4
          · exact ⟨_, rfl⟩
          · cases c2 : companion (G.num.entry 0 0) with
            | error e => rw [c2] at h3; cases h3
            | ok o =>
              cases o with
              | none => rw [c2] at h3; cases h3
              | some B => exact ⟨_, rfl⟩
    · rw [if_neg hs] at h3
      rw [if_neg hs]
      have : ∃ x, G.mimoPZ E N = .ok x := by
        unfold TransferM.mimoPZ
        cases c1 : t2sTuple E (.lists G.num) (.lists G.den) with
        | error e => rw [c1] at h3; cases h3
        | ok r =>
          obtain ⟨r1, r2⟩ := r
          cases r1 with
          | some abc => exact ⟨_, rfl⟩
          | none =>
            simp only [c1, bind, Except.bind] at h3 ⊢
            cases c2 : t2sTuple E (.lists (constArr G.p G.m [1])) (.lists G.den) with
            | error e => rw [c2] at h3; cases h3
            | ok r => exact ⟨_, rfl⟩
      obtain ⟨⟨q, z⟩, hx⟩ := this
      simp only
      rw [show (⟨G.num, G.den, G.isgain, G.dt⟩ : TransferM ℝ) = G from rfl, hx]
      exact ⟨_, rfl⟩
  obtain ⟨S, hS⟩ := key
  rw [hS]
  refine ⟨S, rfl, ?_⟩
  have := (TransferObj.recalc_g E N (⟨⟨G.num, G.den, G.isgain, G.dt⟩, (G.num.r, G.num.c), none, none, 0, [], [], false⟩ : TransferObj ℝ ℂ)).1
  rw [hS] at this
  exact this

/-- The code violates **C91**: small remainders are dropped before the poles are computed. The column with the entries `1/(s + 1)` and `(s - 1 + ε)/(s - 1)` has an unstable pole
and is reported stable. -/
theorem C91_unstable_violated {E : TNum ℝ} (hbal : ∀ polys i, E.bal polys i ≠ 0) (hl : E.lcmTol ≤ 1) (h0 : 0 < E.remTol) (hr : E.remTol ≤ 1)
    {N : Numerics ℝ ℂ} (hN : EigExact N) (hR : RegionExact N) :
    ∃ S, TransferObj.init E N (.lists (Arr.of (Matrix.of fun (i : Fin 2) (_ : Fin 1) => ![[1], [1, E.remTol / 2 - 1]] i)))
        (.lists (Arr.of (Matrix.of fun (i : Fin 2) (_ : Fin 1) => ![[1, 1], [1, -1]] i))) none = .ok S ∧
      S.isstable = true ∧ PoleAt [1, E.remTol / 2 - 1] [1, -1] 1 ∧ ¬ StablePoint none 1 := by
  set Nn : Matrix (Fin 2) (Fin 1) (List ℝ) := Matrix.of fun i _ => ![[1], [1, E.remTol / 2 - 1]] i with hNn
  set Dn : Matrix (Fin 2) (Fin 1) (List ℝ) := Matrix.of fun i _ => ![[1, 1], [1, -1]] i with hDn
  set Nn' : Matrix (Fin 2) (Fin 1) (List ℝ) := Matrix.of fun i _ => ![[1], [1]] i with hNn'
  set Dn' : Matrix (Fin 2) (Fin 1) (List ℝ) := Matrix.of fun i _ => ![[1, 1], [1]] i with hDn'
  have hTr : ∀ i j, Trimmed (Nn i j) := fun i j => by
    fin_cases i
    · exact Or.inr ⟨1, [], rfl, one_ne_zero⟩
    · exact Or.inr ⟨1, _, rfl, one_ne_zero⟩
  have hlead : ∀ i j, (Dn i j).getD 0 0 ≠ 0 := fun i j => by fin_cases i <;> simp [hDn]
  have hcaus : ∀ i j, (Nn i j).length ≤ (Dn i j).length := fun i j => by fin_cases i <;> simp [hDn, hNn]
  have hflag : ¬ ∀ i j, (Dn i j).length = 1 := fun h => by have := h 0 0; simp [hDn] at this
  have hTr' : ∀ i j, Trimmed (Nn' i j) := fun i j => by
    fin_cases i
    · exact Or.inr ⟨1, [], rfl, one_ne_zero⟩
    · exact Or.inr ⟨1, _, rfl, one_ne_zero⟩
  have hlead' : ∀ i j, (Dn' i j).getD 0 0 ≠ 0 := fun i j => by fin_cases i <;> simp [hDn']
  have hcaus' : ∀ i j, (Nn' i j).length ≤ (Dn' i j).length := fun i j => by fin_cases i <;> simp [hDn', hNn']
  have hflag' : ¬ ∀ i j, (Dn' i j).length = 1 := fun h => by have := h 0 0; simp [hDn'] at this
  have hs : ¬ ((2 : ℕ) = 1 ∧ (1 : ℕ) = 1) := by decide
  have hmk := mkTransfer_mimo_ok E hbal hl two_pos one_pos hs (dt := none) dtOk_none hlead hTr hcaus
  obtain ⟨S, hS, hSg⟩ := init_of_mk (N := N) hmk
  obtain ⟨hp, hf⟩ := (C14_transfer_partial E N (num := .lists (Arr.of Nn)) (den := .lists (Arr.of Dn)) (dt := none) (S := S)).1 hS
  refine ⟨S, hS, ?_, ?_, by simp [StablePoint]⟩
  · have hmax : maxSize (Arr.of Dn) ≠ 1 := fun e => hflag ((maxSize_eq_one two_pos one_pos fun i j e => hlead i j (by simp [e])).mp e)
    unfold TPolesCurrent at hp
    rw [if_neg (by rw [hSg]; simp [hmax]), if_neg (by rw [hSg]; simp [TransferM.isSISO])] at hp
    unfold TransferM.mimoPZ at hp
    have e : t2sTuple E (.lists S.g.num) (.lists S.g.den) = t2sTuple E (.lists (Arr.of Nn')) (.lists (Arr.of Dn')) := by
      rw [hSg, t2sTuple_lists two_pos one_pos hlead hcaus hflag hs, t2sTuple_lists two_pos one_pos hlead' hcaus' hflag' hs]
      refine t2sMimo_congr fun x y => ?_
      fin_cases x
      · rfl
      · change t2sEntry E.remTol [1, E.remTol / 2 - 1] [1, -1] = t2sEntry E.remTol [1] [1]
        have e : trimZeros [0, E.remTol / 2 - 1 - -1 * 1] = [E.remTol / 2 - 1 - -1 * 1] := by
          have : ¬ (E.remTol / 2 - 1 - -1 * 1 = 0) := by intro e; linarith
          simp only [trimZeros, List.dropWhile, decide_true, this, decide_false]
        have e2 : |E.remTol / 2 - 1 - -1 * 1| < E.remTol := by
          rw [abs_of_pos (by linarith)]; linarith
        unfold t2sEntry t2sSplit
        simp only [trimZeros_of_cons (one_ne_zero : (1 : ℝ) ≠ 0), List.length_cons, List.length_nil, polydiv_pair, e, bind, Except.bind, cleanup,
          List.map_cons, List.map_nil, e2, if_true]
        simp
    rw [e] at hp
    have htol : NoRounding E.lcmTol E.remTol Nn' Dn' := noRounding_int' hl hr (fun i _ => ![[1], [1]] i) (fun i _ => ![[1, 1], [1]] i)
      (fun i j => by fin_cases i <;> simp [hNn']) (fun i j => by fin_cases i <;> simp [hDn']) fun i j => by
        fin_cases i
        · exact ⟨[1], rfl⟩
        · exact ⟨[], rfl⟩
    cases h1 : t2sTuple E (.lists (Arr.of Nn')) (.lists (Arr.of Dn')) with
    | error e => rw [h1] at hp; cases hp
    | ok r =>
      obtain ⟨D, h2, h3⟩ := realizes_all (t2sTuple_cases hbal two_pos one_pos hTr' hlead' hcaus' hflag' hs htol h1)
      rcases h3 with ⟨-, h4⟩ | ⟨n, A, B, C', h3, h4⟩
      · exfalso
        have a1 := congrFun (congrFun (h4 0 fun i j => by fin_cases i <;> simp [hDn', polyAt, toPoly]) 0) 0
        have a2 := congrFun (congrFun (h4 1 fun i j => by fin_cases i <;> norm_num [hDn', polyAt, toPoly]) 0) 0
        rw [a1] at a2
        norm_num [hDn', hNn', polyAt, toPoly] at a2
      · simp only [h1, bind, Except.bind, h3, Except.ok.injEq, Prod.mk.injEq] at hp
        refine hf.mpr fun z hz => ?_
        rw [if_neg (by rw [hSg]; simp)]
        refine (hR z).2.mpr ?_
        rw [← hp.1] at hz
        by_contra hre
        have hdet := (h4 ℂ z fun i j => by
          fin_cases i
          · simp only [hDn', polyAt]
            simp
            intro h
            have : z = -1 := eq_neg_of_add_eq_zero_left h
            rw [this] at hre
            norm_num at hre
          · simp [hDn', polyAt, toPoly]).1
        rw [← map_charpoly_eval, hN A, eval_list_prod] at hdet
        exact hdet (List.prod_eq_zero (List.mem_map.mpr ⟨_, List.mem_map.mpr ⟨z, hz, rfl⟩, by simp⟩))
  · intro a b hb hab
    have := congrArg (eval 1) hab
    simp only [toPoly] at this
    simp [hb] at this
    exact h0.ne' this

/-! ### Non-vacuity -/

/-- Exact numerics exist. -/
theorem exists_pole_numerics : ∃ (N : Numerics ℝ ℂ) (Z : TzNum), EigExact N ∧ RegionExact N ∧ TzExact Z ∧
    ∀ a b c d (zs : List ℂ), transmissionZeros Z ⟨a, b, c, d⟩ = .ok (zs.map some) → N.tz a b c d = zs := by
  classical
  obtain ⟨Z, hZ⟩ := exists_tzExact
  obtain ⟨P, hP, -⟩ := exists_exact_numerics
  refine ⟨⟨P.eig, fun a b c d => match transmissionZeros Z ⟨a, b, c, d⟩ with | .ok z => z.filterMap id | .error _ => [], fun z => decide (‖z‖ < 1),
    fun z => decide (z.re < 0)⟩, Z, @hP, fun s => by simp, hZ, fun a b c d zs h => ?_⟩
  simp only [h, List.filterMap_map, Function.id_comp, List.filterMap_some]

/-- `diag(1/(s + 1), (s - 2)/(s + 3))` with the zeros as constants satisfies the hypotheses of `C91_mimo_partial`, `C91_stable_partial` and `C91_zeros_partial`. -/
example {E : TNum ℝ} (hbal : ∀ polys i, E.bal polys i ≠ 0) (hl : E.lcmTol ≤ 1) (hr : E.remTol ≤ 1) (N : Numerics ℝ ℂ) :
    ∃ (S : TransferObj ℝ ℂ) (Nn Dn : Matrix (Fin 2) (Fin 2) (List ℝ)), TransferObj.init E N (.lists (Arr.of Nn)) (.lists (Arr.of Dn)) none = .ok S ∧
      Normal S.g 2 2 Nn Dn ∧ NoRounding E.lcmTol E.remTol Nn Dn ∧ NoRounding E.lcmTol E.remTol (fun _ _ => [1]) Dn ∧
      (∃ (μ : ℂ) (M : Matrix (Fin 2) (Fin 2) ℂ), HasVal S.g 2 2 μ M ∧ M.rank = 2) ∧
      (∃ (μ ν : ℂ) (M M' : Matrix (Fin 2) (Fin 2) ℂ), HasVal S.g 2 2 μ M ∧ HasVal S.g 2 2 ν M' ∧ M ≠ M') ∧
      ∃ M : Matrix (Fin 2) (Fin 2) ℂ, HasVal S.g 2 2 2 M ∧ M.rank < 2 := by
  set Nn : Matrix (Fin 2) (Fin 2) (List ℝ) := !![[1], [0]; [0], [1, -2]] with hNn
  set Dn : Matrix (Fin 2) (Fin 2) (List ℝ) := !![[1, 1], [1]; [1], [1, 3]] with hDn
  have hTr : ∀ i j, Trimmed (Nn i j) := fun i j => by
    fin_cases i <;> fin_cases j
    · exact Or.inr ⟨1, [], rfl, one_ne_zero⟩
    · exact Or.inl rfl
    · exact Or.inl rfl
    · exact Or.inr ⟨1, _, rfl, one_ne_zero⟩
  have hlead : ∀ i j, (Dn i j).getD 0 0 ≠ 0 := fun i j => by fin_cases i <;> fin_cases j <;> simp [hDn]
  have hcaus : ∀ i j, (Nn i j).length ≤ (Dn i j).length := fun i j => by fin_cases i <;> fin_cases j <;> simp [hDn, hNn]
  have hflag : ¬ ∀ i j, (Dn i j).length = 1 := fun h => by have := h 0 0; simp [hDn] at this
  have hmax : maxSize (Arr.of Dn) ≠ 1 := fun e => hflag ((maxSize_eq_one two_pos two_pos fun i j e => hlead i j (by simp [e])).mp e)
  have hmk := mkTransfer_mimo_ok E hbal hl two_pos two_pos (by decide) (dt := none) dtOk_none hlead hTr hcaus
  obtain ⟨S, hS, hSg⟩ := init_of_mk (N := N) hmk
  have hden : ∀ i j, Dn i j = ((!![[1, 1], [1]; [1], [1, 3]] : Matrix (Fin 2) (Fin 2) (List ℤ)) i j).map fun x : ℤ => (x : ℝ) := fun i j => by
    fin_cases i <;> fin_cases j <;> simp [hDn]
  have hmon : ∀ i j, ∃ t, (!![[1, 1], [1]; [1], [1, 3]] : Matrix (Fin 2) (Fin 2) (List ℤ)) i j = 1 :: t := fun i j => by
    fin_cases i <;> fin_cases j
    · exact ⟨_, rfl⟩
    · exact ⟨_, rfl⟩
    · exact ⟨_, rfl⟩
    · exact ⟨_, rfl⟩
  have hv : ∀ s : ℂ, s + 1 ≠ 0 → s + 3 ≠ 0 → HasVal S.g 2 2 s !![1 / (s + 1), 0; 0, (s - 2) / (s + 3)] := fun s h1 h2 => by
    rw [hSg]
    refine ⟨Nn, Dn, rfl, rfl, fun i j => ?_⟩
    fin_cases i <;> fin_cases j <;> simp [hNn, hDn, polyAt, toPoly, h1, h2, sub_eq_add_neg]
  refine ⟨S, Nn, Dn, hS, ⟨⟨two_pos, two_pos⟩, by rw [hSg], by rw [hSg], hTr, hlead, hcaus, ?_, by rw [hSg]; exact dtOk_none⟩,
    noRounding_int' hl hr (!![[1], [0]; [0], [1, -2]] : Matrix (Fin 2) (Fin 2) (List ℤ)) _ (fun i j => by fin_cases i <;> fin_cases j <;> simp [hNn]) hden hmon,
    noRounding_int' hl hr (fun _ _ => [1]) _ (fun i j => by simp) hden hmon, ⟨0, _, hv 0 (by norm_num) (by norm_num), ?_⟩,
    ⟨0, 1, _, _, hv 0 (by norm_num) (by norm_num), hv 1 (by norm_num) (by norm_num), ?_⟩, _, hv 2 (by norm_num) (by norm_num), ?_⟩
  · rw [hSg]
    simp only [decide_eq_true_eq]
    exact ⟨fun h => absurd h hmax, fun h => absurd h hflag⟩
  · refine (rank_of_det_ne_zero ?_).trans (by simp)
    rw [det_fin_two]
    norm_num
  · intro h
    have := congrFun (congrFun h 0) 0
    norm_num at this
  · have : (!![1 / ((2 : ℂ) + 1), 0; 0, (2 - 2) / (2 + 3)] : Matrix (Fin 2) (Fin 2) ℂ) = vecMulVec ![1 / 3, 0] ![1, 0] := by
      ext i j
      fin_cases i <;> fin_cases j <;> norm_num [vecMulVec_apply]
    rw [this]
    exact lt_of_le_of_lt (rank_vecMulVec_le _ _) one_lt_two

/-- `(s - 2)/((s + 1)(s + 2))` satisfies the hypotheses of `C91_siso`. -/
example {E : TNum ℝ} (N : Numerics ℝ ℂ) : ∃ (S : TransferObj ℝ ℂ) (Nn Dn : Matrix (Fin 1) (Fin 1) (List ℝ)),
    TransferObj.init E N (.vec [1, -2]) (.vec [1, 3, 2]) none = .ok S ∧ Normal S.g 1 1 Nn Dn := by
  have hmk := mkTransfer_siso_ok E (a := [1, -2]) (b := [1, 3, 2]) (dt := none) dtOk_none (by simp) (by simp) (Or.inr ⟨1, [-2], rfl, one_ne_zero⟩) (by simp)
  obtain ⟨S, hS, hSg⟩ := init_of_mk (N := N) hmk
  refine ⟨S, Matrix.of fun _ _ => [1, -2], Matrix.of fun _ _ => [1, 3, 2], hS, ⟨one_pos, one_pos⟩, by rw [hSg]; rfl, by rw [hSg]; rfl, fun _ _ => Or.inr ⟨1, [-2], rfl, one_ne_zero⟩,
    fun _ _ => by simp, fun _ _ => by simp, ?_, by rw [hSg]; exact dtOk_none⟩
  rw [hSg]
  simp

end Harold
