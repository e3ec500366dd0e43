import Verif.Lemmas.LyapMini
import Verif.Lemmas.LyapChain
import Verif.Lemmas.LyapKernel

/-!
# The loops of the Lyapunov solvers
-/

namespace Harold

variable {K : Type} [Field K] [LinearOrder K] {κ κ' : Kern K} {bnd : ℕ → Prop} {n : ℕ} {Y0 X Y x y : Wk K} {r0 r1 c0 c1 : ℕ}

theorem kS_rel {X x : Wk K} {p q : ℕ} (hκ : ∀ k i l j, κ (r0 + k) (r0 + i) (c0 + l) (c0 + j) = κ' k i l j)
    (hX : ∀ k l, k < p → l < q → X (r0 + k) (c0 + l) = x k l) (i j : ℕ) :
    kS κ X (Finset.Ico r0 (r0 + p)) (Finset.Ico c0 (c0 + q)) (r0 + i) (c0 + j) = kS κ' x (Finset.range p) (Finset.range q) i j := by
  unfold kS
  rw [Finset.sum_Ico_eq_sum_range]
  rw [show r0 + p - r0 = p by omega]
  refine Finset.sum_congr rfl fun k hk => ?_
  rw [Finset.sum_Ico_eq_sum_range, show c0 + q - c0 = q by omega]
  refine Finset.sum_congr rfl fun l hl => ?_
  rw [hκ, hX k l (by simpa using hk) (by simpa using hl)]

theorem set_in {X x : Wk K} {i j : ℕ} (h : (r0 ≤ i ∧ i < r1) ∧ (c0 ≤ j ∧ j < c1)) : X.set id r0 r1 c0 c1 x i j = x (i - r0) (j - c0) := by
  unfold Wk.set; rw [if_pos h]; rfl

theorem set_out {X x : Wk K} {i j : ℕ} (h : ¬ ((r0 ≤ i ∧ i < r1) ∧ (c0 ≤ j ∧ j < c1))) : X.set id r0 r1 c0 c1 x i j = X i j := by
  unfold Wk.set; rw [if_neg h]

theorem add_in {X f : Wk K} {i j : ℕ} (h : (r0 ≤ i ∧ i < r1) ∧ (c0 ≤ j ∧ j < c1)) : X.add r0 r1 c0 c1 f i j = X i j + f i j := by
  unfold Wk.add; rw [if_pos h]

theorem add_out {X f : Wk K} {i j : ℕ} (h : ¬ ((r0 ≤ i ∧ i < r1) ∧ (c0 ≤ j ∧ j < c1))) : X.add r0 r1 c0 c1 f i j = X i j := by
  unfold Wk.add; rw [if_neg h]

/-- The two assignments of an off-diagonal block. -/
def setBoth (X : Wk K) (r0 r1 c0 c1 : ℕ) (x : Wk K) : Wk K := (X.set id r0 r1 c0 c1 x).set id c0 c1 r0 r1 x.tr

theorem setBoth_out {i j : ℕ} (h1 : ¬ ((r0 ≤ i ∧ i < r1) ∧ (c0 ≤ j ∧ j < c1))) (h2 : ¬ ((c0 ≤ i ∧ i < c1) ∧ (r0 ≤ j ∧ j < r1))) :
    setBoth X r0 r1 c0 c1 x i j = X i j := by
  unfold setBoth; rw [set_out h2, set_out h1]

theorem setBoth_in (hrc : r1 ≤ c0) {i j : ℕ} (h : (r0 ≤ i ∧ i < r1) ∧ (c0 ≤ j ∧ j < c1)) :
    setBoth X r0 r1 c0 c1 x i j = x (i - r0) (j - c0) := by
  unfold setBoth; rw [set_out (by omega), set_in h]

theorem setBoth_symm (hrc : r1 ≤ c0) {i j : ℕ} (h : (r0 ≤ i ∧ i < r1) ∧ (c0 ≤ j ∧ j < c1)) :
    setBoth X r0 r1 c0 c1 x i j = setBoth X r0 r1 c0 c1 x j i := by
  rw [setBoth_in hrc h]
  unfold setBoth; rw [set_in ⟨h.2, h.1⟩]; rfl

theorem setBoth_eqn {p q : ℕ} (hp : r1 = r0 + p) (hq : c1 = c0 + q) (hrc : r1 ≤ c0)
    (hκ : ∀ k i l j, κ (r0 + k) (r0 + i) (c0 + l) (c0 + j) = κ' k i l j) {r : Option (Wk K)} (hs : SolN κ' p q (Y.at r0 c0) r) (hr : r = some x)
    {i j : ℕ} (hi : r0 ≤ i) (hi' : i < r1) (hj : c0 ≤ j) (hj' : j < c1) :
    kS κ (setBoth X r0 r1 c0 c1 x) (Finset.Ico r0 r1) (Finset.Ico c0 c1) i j + Y i j = 0 := by
  subst hp hq
  obtain ⟨i, rfl⟩ := Nat.exists_eq_add_of_le hi
  obtain ⟨j, rfl⟩ := Nat.exists_eq_add_of_le hj
  rw [kS_rel hκ (x := x) fun k l hk hl => by rw [setBoth_in hrc (by omega)]; simp]
  exact hs.1 x hr i j (by omega) (by omega)

theorem set_eqn {p : ℕ} (hp : r1 = r0 + p)
    (hκ : ∀ k i l j, κ (r0 + k) (r0 + i) (r0 + l) (r0 + j) = κ' k i l j) {r : Option (Wk K)} (hs : SolS κ' p (Y.at r0 r0) r) (hr : r = some x)
    (hY : ∀ i j, r0 ≤ i → i < r1 → r0 ≤ j → j < r1 → Y i j = Y j i)
    {i j : ℕ} (hi : r0 ≤ i) (hi' : i < r1) (hj : r0 ≤ j) (hj' : j < r1) :
    X.set id r0 r1 r0 r1 x i j = X.set id r0 r1 r0 r1 x j i ∧
    kS κ (X.set id r0 r1 r0 r1 x) (Finset.Ico r0 r1) (Finset.Ico r0 r1) i j + Y i j = 0 := by
  subst hp
  have := hs.1 x hr fun h => hY _ _ (by omega) (by omega) (by omega) (by omega)
  obtain ⟨i, rfl⟩ := Nat.exists_eq_add_of_le hi
  obtain ⟨j, rfl⟩ := Nat.exists_eq_add_of_le hj
  rw [kS_rel hκ (x := x) fun k l hk hl => by rw [set_in (by omega)]; simp]
  refine ⟨?_, this.2 i j (by omega) (by omega)⟩
  rw [set_in (by omega), set_in (by omega)]
  simpa using this.1 i j (by omega) (by omega)

/-! ## The two loops -/

theorem foldlM_inv {σ : Type} {sub : ℕ → Prop} {col : σ → ℕ × ℕ → Option σ} {P : ℕ → σ → Prop} : ∀ {rest : List (ℕ × ℕ)} {a : ℕ} {s s' : σ},
    Chain sub n a rest → P a s → (∀ c ∈ rest, ∀ s s', P c.1 s → col s c = some s' → P c.2 s') → rest.foldlM col s = some s' → P n s'
  | [], a, s, s', hc, hs, _, h => by
    rw [List.foldlM_nil] at h
    cases h
    rw [Chain] at hc
    exact hc ▸ hs
  | c :: rest, a, s, s', hc, hs, hP, h => by
    obtain ⟨h1, -, -, h2⟩ := hc
    rw [List.foldlM_cons] at h
    cases hcs : col s c with
    | none => rw [hcs] at h; cases h
    | some s1 =>
      rw [hcs] at h
      exact foldlM_inv h2 (hP c List.mem_cons_self s s1 (h1 ▸ hs) hcs) (fun c' hc' => hP c' (List.mem_cons_of_mem _ hc')) h

theorem foldlM_none {σ : Type} {col : σ → ℕ × ℕ → Option σ} : ∀ {rest : List (ℕ × ℕ)} {s : σ}, rest.foldlM col s = none →
    ∃ c ∈ rest, ∃ s, col s c = none
  | [], s, h => by rw [List.foldlM_nil] at h; cases h
  | c :: rest, s, h => by
    rw [List.foldlM_cons] at h
    cases hcs : col s c with
    | none => exact ⟨c, List.mem_cons_self, s, hcs⟩
    | some s1 =>
      rw [hcs] at h
      obtain ⟨c', hc', r⟩ := foldlM_none h
      exact ⟨c', List.mem_cons_of_mem _ hc', r⟩

theorem blockLoop_inv {sub : ℕ → Prop} {row : ℕ × ℕ → List (ℕ × ℕ) → Wk K × Wk K → Option (Wk K × Wk K)} {P : ℕ → Wk K × Wk K → Prop} :
    ∀ {bl : List (ℕ × ℕ)} {a : ℕ} {s s' : Wk K × Wk K}, Chain sub n a bl → P a s →
    (∀ r rest, r :: rest <:+ bl → Chain sub n r.2 rest → ∀ s s', P r.1 s → row r rest s = some s' → P r.2 s') →
    blockLoop row bl s = some s' → P n s'
  | [], a, s, s', hc, hs, _, h => by
    rw [blockLoop] at h
    cases h
    rw [Chain] at hc
    exact hc ▸ hs
  | r :: rest, a, s, s', hc, hs, hP, h => by
    obtain ⟨h1, -, -, h2⟩ := hc
    rw [blockLoop] at h
    cases hcs : row r rest s with
    | none => rw [hcs] at h; cases h
    | some s1 =>
      rw [hcs] at h
      exact blockLoop_inv h2 (hP r rest (List.suffix_refl _) h2 s s1 (h1 ▸ hs) hcs)
        (fun r' rest' hr => hP r' rest' (hr.trans (List.suffix_cons _ _))) h

theorem blockLoop_none {row : ℕ × ℕ → List (ℕ × ℕ) → Wk K × Wk K → Option (Wk K × Wk K)} :
    ∀ {bl : List (ℕ × ℕ)} {s : Wk K × Wk K}, blockLoop row bl s = none → ∃ r rest s, r :: rest <:+ bl ∧ row r rest s = none
  | [], s, h => by rw [blockLoop] at h; cases h
  | r :: rest, s, h => by
    rw [blockLoop] at h
    cases hcs : row r rest s with
    | none => exact ⟨r, rest, s, List.suffix_refl _, hcs⟩
    | some s1 =>
      rw [hcs] at h
      obtain ⟨r', rest', s', h1, h2⟩ := blockLoop_none h
      exact ⟨r', rest', s', h1.trans (List.suffix_cons _ _), h2⟩

/-! ## The kernels -/

theorem kS_add (κ₁ κ₂ : Kern K) (X : Wk K) (s t : Finset ℕ) (i j : ℕ) :
    kS (fun k i l j => κ₁ k i l j + κ₂ k i l j) X s t i j = kS κ₁ X s t i j + kS κ₂ X s t i j := by
  simp only [kS, add_mul, Finset.sum_add_distrib]

theorem kS_sub (κ₁ κ₂ : Kern K) (X : Wk K) (s t : Finset ℕ) (i j : ℕ) :
    kS (fun k i l j => κ₁ k i l j - κ₂ k i l j) X s t i j = kS κ₁ X s t i j - kS κ₂ X s t i j := by
  simp only [kS, sub_mul, Finset.sum_sub_distrib]

theorem kS_mul (P Q X : Wk K) (s t : Finset ℕ) (i j : ℕ) :
    kS (fun k i l j => P k i * Q l j) X s t i j = ∑ k ∈ s, P k i * ∑ l ∈ t, X k l * Q l j := by
  unfold kS
  refine Finset.sum_congr rfl fun k _ => ?_
  rw [Finset.mul_sum]
  exact Finset.sum_congr rfl fun l _ => by ring

theorem sum_dlt_right (f : ℕ → K) (t : Finset ℕ) (j : ℕ) : ∑ l ∈ t, f l * dlt l j = if j ∈ t then f j else 0 := by
  simp only [dlt, mul_ite, mul_one, mul_zero, Finset.sum_ite_eq']

theorem sum_dlt_left (f : ℕ → K) (t : Finset ℕ) (j : ℕ) : ∑ l ∈ t, dlt l j * f l = if j ∈ t then f j else 0 := by
  simp only [dlt, ite_mul, one_mul, zero_mul, Finset.sum_ite_eq']

theorem kS_kC (A X : Wk K) (s t : Finset ℕ) (i j : ℕ) :
    kS (kC A A) X s t i j = (if j ∈ t then ∑ k ∈ s, A k i * X k j else 0) + (if i ∈ s then ∑ l ∈ t, X i l * A l j else 0) := by
  unfold kC
  rw [kS_add, kS_mul, kS_mul, sum_dlt_left]
  congr 1
  simp only [sum_dlt_right]
  split_ifs with h
  · rfl
  · simp

theorem kS_kD (A X : Wk K) (s t : Finset ℕ) (i j : ℕ) :
    kS (kD A A) X s t i j = (∑ k ∈ s, A k i * ∑ l ∈ t, X k l * A l j) - (if i ∈ s then if j ∈ t then X i j else 0 else 0) := by
  unfold kD
  rw [kS_sub, kS_mul, kS_mul, sum_dlt_left]
  simp only [sum_dlt_right]

theorem kS_kGC (A E X : Wk K) (s t : Finset ℕ) (i j : ℕ) :
    kS (kGC A E A E) X s t i j = (∑ k ∈ s, A k i * ∑ l ∈ t, X k l * E l j) + ∑ k ∈ s, E k i * ∑ l ∈ t, X k l * A l j := by
  unfold kGC; rw [kS_add, kS_mul, kS_mul]

theorem kS_kGD (A E X : Wk K) (s t : Finset ℕ) (i j : ℕ) :
    kS (kGD A E A E) X s t i j = (∑ k ∈ s, A k i * ∑ l ∈ t, X k l * A l j) - ∑ k ∈ s, E k i * ∑ l ∈ t, X k l * E l j := by
  unfold kGD; rw [kS_sub, kS_mul, kS_mul]

theorem dlt_zero {i k b : ℕ} (h1 : i < b) (h2 : b ≤ k) : (dlt k i : K) = 0 := if_neg (by omega)

theorem kC_tri {A : Wk K} (h : ∀ b, bnd b → ∀ k i, i < b → b ≤ k → A k i = 0) : KTri (kC A A) bnd where
  tri b hb k i l j hi hk := by simp only [kC]; rw [h b hb k i hi hk, dlt_zero hi hk]; ring
  symm k i l j := by simp only [kC]; ring

theorem kD_tri {A : Wk K} (h : ∀ b, bnd b → ∀ k i, i < b → b ≤ k → A k i = 0) : KTri (kD A A) bnd where
  tri b hb k i l j hi hk := by simp only [kD]; rw [h b hb k i hi hk, dlt_zero hi hk]; ring
  symm k i l j := by simp only [kD]; ring

theorem kGC_tri {A E : Wk K} (h : ∀ b, bnd b → ∀ k i, i < b → b ≤ k → A k i = 0) (h' : ∀ b, bnd b → ∀ k i, i < b → b ≤ k → E k i = 0) :
    KTri (kGC A E A E) bnd where
  tri b hb k i l j hi hk := by simp only [kGC]; rw [h b hb k i hi hk, h' b hb k i hi hk]; ring
  symm k i l j := by simp only [kGC]; ring

theorem kGD_tri {A E : Wk K} (h : ∀ b, bnd b → ∀ k i, i < b → b ≤ k → A k i = 0) (h' : ∀ b, bnd b → ∀ k i, i < b → b ≤ k → E k i = 0) :
    KTri (kGD A E A E) bnd where
  tri b hb k i l j hi hk := by simp only [kGD]; rw [h b hb k i hi hk, h' b hb k i hi hk]; ring
  symm k i l j := by simp only [kGD]; ring

theorem dlt_add (a i j : ℕ) : (dlt (a + i) (a + j) : K) = dlt i j := by simp [dlt]

/-! ## Continuous time -/

theorem contCol_step {A : Wk K} (h : ∀ b, bnd b → ∀ k i, i < b → b ≤ k → A k i = 0) {c : ℕ × ℕ} {s s' : Wk K × Wk K}
    (hI : ColInv (kC A A) bnd n Y0 r0 r1 c.1 s.1 s.2) (h0 : bnd r0) (h1 : bnd r1) (hc0 : bnd c.1) (hc1 : bnd c.2)
    (hr : r1 = r0 + 1 ∨ r1 = r0 + 2) (hrc : r1 ≤ c.1) (hc : c.2 = c.1 + 1 ∨ c.2 = c.1 + 2) (hn : c.2 ≤ n)
    (he : contCol id n A r0 r1 c s = some s') : ColInv (kC A A) bnd n Y0 r0 r1 c.2 s'.1 s'.2 := by
  unfold contCol at he
  have hsp := miniCn_spec (p := r1 - r0) (q := c.2 - c.1) (by omega) (by omega) (A.at r0 r0) (A.at c.1 c.1) (s.2.at r0 c.1)
  cases hm : miniCn (c.2 - c.1) (A.at c.1 c.1) (s.2.at r0 c.1) (r1 - r0) (A.at r0 r0) with
  | none => rw [hm] at he; cases he
  | some x =>
    rw [hm] at he hsp
    simp only [bind, Option.bind, Option.some.injEq] at he
    subst he
    have hin : ∀ i j, r0 ≤ i → i < r1 → c.1 ≤ j → j < c.2 → setBoth s.1 r0 r1 c.1 c.2 x i j = x (i - r0) (j - c.1) :=
      fun i j a b d e => setBoth_in hrc ⟨⟨a, b⟩, d, e⟩
    refine hI.step (X' := setBoth s.1 r0 r1 c.1 c.2 x) (kC_tri h) h0 h1 hc0 hc1 (by omega) hrc (by omega) hn (fun i j a b => setBoth_out a b)
      (fun i j a b d e => setBoth_symm hrc ⟨⟨a, b⟩, d, e⟩)
      (fun i j a b d e => setBoth_eqn (by omega) (by omega) hrc (fun k i l j => by simp only [kC, Wk.at, dlt_add]) hsp rfl a b d e)
      (fun i j a b d e => ?_) (fun i j a b d e => ?_) (fun i j a b d e => ?_)
    · dsimp only
      rw [add_out (by omega), add_in (by omega), kS_kC, if_neg (by simp; omega), if_pos (by simp; omega), zero_add]
      congr 1
      exact Finset.sum_congr rfl fun l hl => by
        simp only [Finset.mem_Ico] at hl
        rw [hin i l a b hl.1 hl.2]
    · dsimp only
      rw [add_in (by omega), add_out (by omega), kS_kC, if_pos (by simp; omega), if_neg (by simp; omega), add_zero]
      congr 1
      exact Finset.sum_congr rfl fun k hk => by
        simp only [Finset.mem_Ico] at hk
        rw [hin k j hk.1 hk.2 d e]
    · dsimp only
      rw [add_out (by omega), add_out (by omega)]

theorem contRow_step {A : Wk K} {sub : ℕ → Prop} (h : ∀ b, bnd b → ∀ k i, i < b → b ≤ k → A k i = 0) {r : ℕ × ℕ} {rest : List (ℕ × ℕ)}
    {s s' : Wk K × Wk K} (hY : ∀ i j, i < n → j < n → Y0 i j = Y0 j i)
    (hI : RowInv (kC A A) bnd n Y0 r.1 s.1 s.2) (h0 : bnd r.1) (h1 : bnd r.2) (hr : r.2 = r.1 + 1 ∨ r.2 = r.1 + 2) (hn : r.2 ≤ n)
    (hV : ∀ b, bnd b → b < r.2 → b ≤ r.1) (hch : Chain sub n r.2 rest) (hb : ∀ c ∈ rest, bnd c.1 ∧ bnd c.2)
    (he : contRow id n A r rest s = some s') : RowInv (kC A A) bnd n Y0 r.2 s'.1 s'.2 := by
  have hV' : ∀ i j, r.1 ≤ i → i < r.2 → r.1 ≤ j → ∀ b, bnd b → b ≤ i → b ≤ j := fun i j a b d e f g => by
    have := hV e f (by omega)
    omega
  unfold contRow at he
  dsimp only at he
  set Y1 : Wk K := if r.1 ≠ 0 then s.2.add r.1 r.2 r.1 n fun i j => ∑ l ∈ Finset.range r.1, s.1 i l * A l j else s.2 with hY1
  have e1 : ∀ i j, r.1 ≤ i → i < r.2 → r.1 ≤ j → j < n → Y1 i j = s.2 i j + ∑ l ∈ Finset.range r.1, s.1 i l * A l j := by
    intro i j a b d e
    rw [hY1]
    split_ifs with hz
    · rw [add_in (by omega)]
    · push Not at hz
      rw [hz]; simp
  have e2 : ∀ i j, r.2 ≤ i → Y1 i j = s.2 i j := by
    intro i j a
    rw [hY1]
    split_ifs with hz
    · rw [add_out (by omega)]
    · rfl
  have e3 : ∀ i j, r.1 ≤ i → i < r.2 → r.1 ≤ j → j < r.2 → Y1 i j = s.2 i j + kS (kC A A) s.1 (Finset.Ico r.1 r.2) (Finset.range r.1) i j := by
    intro i j a b d e
    rw [e1 i j a b d (by omega), kS_kC, if_neg (by simp; omega), if_pos (by simp; omega), zero_add]
  have hsp := miniCs_spec (k := r.2 - r.1) (by omega) (A.at r.1 r.1) (Y1.at r.1 r.1)
  cases hm : miniCs (r.2 - r.1) (A.at r.1 r.1) (Y1.at r.1 r.1) with
  | none => rw [hm] at he; cases he
  | some x =>
    rw [hm] at he hsp
    simp only [bind, Option.bind] at he
    have hYs : ∀ i j, r.1 ≤ i → i < r.2 → r.1 ≤ j → j < r.2 → Y1 i j = Y1 j i := fun i j a b d e => by
      rw [e3 i j a b d e, e3 j i d e a b]
      exact hI.diag_symm (kC_tri h) hY h1 (by omega) hn a b d e hV'
    have hS := fun i j a b d e => set_eqn (X := s.1) (κ := kC A A) (r0 := r.1) (r1 := r.2) (i := i) (j := j) (by omega)
      (fun k i l j => by simp only [kC, Wk.at, dlt_add]) hsp rfl hYs a b d e
    have hcol : ColInv (kC A A) bnd n Y0 r.1 r.2 r.2 (s.1.set id r.1 r.2 r.1 r.2 x)
        (Y1.add r.1 r.2 r.2 n fun i j => ∑ l ∈ Finset.Ico r.1 r.2, x (i - r.1) (l - r.1) * A l j) := by
      refine hI.start (kC_tri h) h0 h1 (by omega) hn hV' (fun i j a => set_out a) (fun i j a b d e => (hS i j a b d e).1)
        (fun i j a b d e => ?_) (fun i j a b d e => ?_) (fun i j a => ?_)
      · rw [kS_split_right (show r.1 ≤ r.2 by omega)]
        have := (hS i j a b d e).2
        rw [e3 i j a b d e] at this
        have h3 : kS (kC A A) (s.1.set id r.1 r.2 r.1 r.2 x) (Finset.Ico r.1 r.2) (Finset.range r.1) i j =
            kS (kC A A) s.1 (Finset.Ico r.1 r.2) (Finset.range r.1) i j :=
          kS_congr fun k hk l hl hx => absurd (set_out (by simp at hl; omega)) hx
        rw [h3]
        linear_combination this
      · rw [add_in (by omega), e1 i j a b (by omega) e, kS_kC, if_neg (by simp; omega), if_pos (by simp; omega), zero_add,
          ← Finset.sum_range_add_sum_Ico _ (show r.1 ≤ r.2 by omega), ← add_assoc]
        congr 1
        · congr 1
          exact Finset.sum_congr rfl fun l hl => by rw [set_out (by simp at hl; omega)]
        · exact Finset.sum_congr rfl fun l hl => by
            simp only [Finset.mem_Ico] at hl
            rw [set_in ⟨⟨a, b⟩, hl⟩]
      · rw [add_out (by omega), e2 i j a]
    have := foldlM_inv (P := fun c t => ColInv (kC A A) bnd n Y0 r.1 r.2 c t.1 t.2) hch hcol (fun c hcm t t' ht hstep => by
      have hcs := hch.start_le c hcm
      exact contCol_step h ht h0 h1 (hb c hcm).1 (hb c hcm).2 hr hcs.1 hcs.2.2 hcs.2.1 hstep) he
    exact this.finish (kC_tri h) hY h1

/-! ## Discrete time -/

/-- `W` holds the products `X[r0:r1, :c] @ A[:c, c:]`. -/
def RowProd (n : ℕ) (A : Wk K) (r0 r1 c : ℕ) (X W : Wk K) : Prop :=
  ∀ k j, r0 ≤ k → k < r1 → c ≤ j → j < n → W k j = ∑ l ∈ Finset.range c, X k l * A l j

theorem RowProd.step {A W : Wk K} (hW : RowProd n A r0 r1 c0 X W) (hrc : r1 ≤ c0) (hc : c0 ≤ c1) {k j : ℕ} (hk : r0 ≤ k) (hk' : k < r1)
    (hj : c0 ≤ j) (hj' : j < n) :
    W.add r0 r1 c0 n (prodL (x.off r0 c0) A c0 c1) k j = ∑ l ∈ Finset.range c1, setBoth X r0 r1 c0 c1 x k l * A l j := by
  rw [add_in (by omega), hW k j hk hk' hj hj', ← Finset.sum_range_add_sum_Ico _ hc]
  congr 1
  · exact Finset.sum_congr rfl fun l hl => by simp at hl; rw [setBoth_out (by omega) (by omega)]
  · exact Finset.sum_congr rfl fun l hl => by
      simp only [Finset.mem_Ico] at hl
      rw [setBoth_in hrc ⟨⟨hk, hk'⟩, hl⟩]; rfl

theorem prod_block {A E : Wk K} (hrc : r1 ≤ c0) (i j : ℕ) :
    prodK A (prodL (x.off r0 c0) E c0 c1) r0 r1 i j =
      ∑ k ∈ Finset.Ico r0 r1, A k i * ∑ l ∈ Finset.Ico c0 c1, setBoth X r0 r1 c0 c1 x k l * E l j := by
  unfold prodK prodL
  refine Finset.sum_congr rfl fun k hk => ?_
  congr 1
  refine Finset.sum_congr rfl fun l hl => ?_
  simp only [Finset.mem_Ico] at hk hl
  rw [setBoth_in hrc ⟨hk, hl⟩]; rfl

theorem prodK_congr {A W W' : Wk K} {i j : ℕ} (h : ∀ k, r0 ≤ k → k < r1 → W k j = W' k j) :
    prodK A W r0 r1 i j = ∑ k ∈ Finset.Ico r0 r1, A k i * W' k j := by
  unfold prodK
  exact Finset.sum_congr rfl fun k hk => by simp only [Finset.mem_Ico] at hk; rw [h k hk.1 hk.2]

theorem prodKL_left {A E : Wk K} (i j : ℕ) :
    prodK A (prodL X E 0 r0) r0 r1 i j =
      ∑ k ∈ Finset.Ico r0 r1, A k i * ∑ l ∈ Finset.range r0, X k l * E l j := by
  unfold prodK prodL
  rw [Finset.range_eq_Ico]

theorem prodKL_set {A E : Wk K} (i j : ℕ) :
    prodK A (prodL X E 0 r1) r0 r1 i j = ∑ k ∈ Finset.Ico r0 r1, A k i * ∑ l ∈ Finset.range r1, X k l * E l j := by
  unfold prodK prodL
  rw [Finset.range_eq_Ico]

theorem discCol_step {A : Wk K} (h : ∀ b, bnd b → ∀ k i, i < b → b ≤ k → A k i = 0) {c : ℕ × ℕ} {s s' : Wk K × Wk K × Wk K}
    (hI : ColInv (kD A A) bnd n Y0 r0 r1 c.1 s.1 s.2.1) (hWA : RowProd n A r0 r1 c.1 s.1 s.2.2)
    (h0 : bnd r0) (h1 : bnd r1) (hc0 : bnd c.1) (hc1 : bnd c.2)
    (hr : r1 = r0 + 1 ∨ r1 = r0 + 2) (hrc : r1 ≤ c.1) (hc : c.2 = c.1 + 1 ∨ c.2 = c.1 + 2) (hn : c.2 ≤ n)
    (he : discCol id n A r0 r1 c s = some s') :
    ColInv (kD A A) bnd n Y0 r0 r1 c.2 s'.1 s'.2.1 ∧ RowProd n A r0 r1 c.2 s'.1 s'.2.2 := by
  unfold discCol at he
  have hsp := miniDn_spec (p := r1 - r0) (q := c.2 - c.1) (by omega) (by omega) (A.at r0 r0) (A.at c.1 c.1) (s.2.1.at r0 c.1)
  cases hm : miniDn (r1 - r0) (A.at r0 r0) (s.2.1.at r0 c.1) (c.2 - c.1) (A.at c.1 c.1) with
  | none => rw [hm] at he; cases he
  | some x =>
    rw [hm] at he hsp
    simp only [bind, Option.bind, Option.some.injEq] at he
    subst he
    refine ⟨hI.step (X' := setBoth s.1 r0 r1 c.1 c.2 x) (kD_tri h) h0 h1 hc0 hc1 (by omega) hrc (by omega) hn (fun i j a b => setBoth_out a b)
      (fun i j a b d e => setBoth_symm hrc ⟨⟨a, b⟩, d, e⟩)
      (fun i j a b d e => setBoth_eqn (by omega) (by omega) hrc (fun k i l j => by simp only [kD, Wk.at, dlt_add]) hsp rfl a b d e)
      (fun i j a b d e => ?_) (fun i j a b d e => ?_) (fun i j a b d e => ?_), fun k j a b d e => ?_⟩
    · dsimp only
      rw [add_out (by omega), add_in (by omega), kS_kD, if_pos (by simp; omega), if_neg (by simp; omega), sub_zero, prod_block (X := s.1) hrc]
    · dsimp only
      rw [add_in (by omega), add_out (by omega), kS_kD, if_neg (by simp; omega), sub_zero,
        prodK_congr (W' := fun k j => ∑ l ∈ Finset.range c.2, setBoth s.1 r0 r1 c.1 c.2 x k l * A l j)
          fun k hk hk' => hWA.step hrc (by omega) hk hk' d (by omega)]
    · dsimp only
      rw [add_out (by omega), add_out (by omega)]
    · exact hWA.step hrc (by omega) a b (by omega) e

theorem discRow_step {A : Wk K} {sub : ℕ → Prop} (h : ∀ b, bnd b → ∀ k i, i < b → b ≤ k → A k i = 0) {r : ℕ × ℕ} {rest : List (ℕ × ℕ)}
    {s s' : Wk K × Wk K} (hY : ∀ i j, i < n → j < n → Y0 i j = Y0 j i)
    (hI : RowInv (kD A A) bnd n Y0 r.1 s.1 s.2) (h0 : bnd r.1) (h1 : bnd r.2) (hr : r.2 = r.1 + 1 ∨ r.2 = r.1 + 2) (hn : r.2 ≤ n)
    (hV : ∀ b, bnd b → b < r.2 → b ≤ r.1) (hch : Chain sub n r.2 rest) (hb : ∀ c ∈ rest, bnd c.1 ∧ bnd c.2)
    (he : discRow id n A r rest s = some s') : RowInv (kD A A) bnd n Y0 r.2 s'.1 s'.2 := by
  have hV' : ∀ i j, r.1 ≤ i → i < r.2 → r.1 ≤ j → ∀ b, bnd b → b ≤ i → b ≤ j := fun i j a b d e f g => by
    have := hV e f (by omega)
    omega
  unfold discRow at he
  dsimp only at he
  set Y1 : Wk K := if r.1 ≠ 0 then s.2.add r.1 r.2 r.1 r.2 (prodK A (prodL s.1 A 0 r.1) r.1 r.2) else s.2 with hY1
  have e3 : ∀ i j, r.1 ≤ i → i < r.2 → r.1 ≤ j → j < r.2 → Y1 i j = s.2 i j + kS (kD A A) s.1 (Finset.Ico r.1 r.2) (Finset.range r.1) i j := by
    intro i j a b d e
    rw [hY1]
    split_ifs with hz
    · rw [add_in (by omega), kS_kD, if_pos (by simp; omega), if_neg (by simp; omega), sub_zero, prodKL_left]
    · push Not at hz
      rw [hz]; simp [kS]
  have e2' : ∀ i j, ¬ ((r.1 ≤ i ∧ i < r.2) ∧ (r.1 ≤ j ∧ j < r.2)) → Y1 i j = s.2 i j := by
    intro i j a
    rw [hY1]
    split_ifs with hz
    · rw [add_out a]
    · rfl
  have hsp := miniDs_spec (k := r.2 - r.1) (by omega) (A.at r.1 r.1) (Y1.at r.1 r.1)
  cases hm : miniDs (r.2 - r.1) (A.at r.1 r.1) (Y1.at r.1 r.1) with
  | none => rw [hm] at he; cases he
  | some x =>
    rw [hm] at he hsp
    simp only [bind, Option.bind] at he
    have hYs : ∀ i j, r.1 ≤ i → i < r.2 → r.1 ≤ j → j < r.2 → Y1 i j = Y1 j i := fun i j a b d e => by
      rw [e3 i j a b d e, e3 j i d e a b]
      exact hI.diag_symm (kD_tri h) hY h1 (by omega) hn a b d e hV'
    have hS := fun i j a b d e => set_eqn (X := s.1) (κ := kD A A) (r0 := r.1) (r1 := r.2) (i := i) (j := j) (by omega)
      (fun k i l j => by simp only [kD, Wk.at, dlt_add]) hsp rfl hYs a b d e
    have hcol : ColInv (kD A A) bnd n Y0 r.1 r.2 r.2 (s.1.set id r.1 r.2 r.1 r.2 x)
        (Y1.add r.1 r.2 r.1 n (prodK A (prodL (s.1.set id r.1 r.2 r.1 r.2 x) A 0 r.2) r.1 r.2)) := by
      refine hI.start (kD_tri h) h0 h1 (by omega) hn hV' (fun i j a => set_out a) (fun i j a b d e => (hS i j a b d e).1)
        (fun i j a b d e => ?_) (fun i j a b d e => ?_) (fun i j a => ?_)
      · rw [kS_split_right (show r.1 ≤ r.2 by omega)]
        have := (hS i j a b d e).2
        rw [e3 i j a b d e] at this
        have h3 : kS (kD A A) (s.1.set id r.1 r.2 r.1 r.2 x) (Finset.Ico r.1 r.2) (Finset.range r.1) i j =
            kS (kD A A) s.1 (Finset.Ico r.1 r.2) (Finset.range r.1) i j :=
          kS_congr fun k hk l hl hx => absurd (set_out (by simp at hl; omega)) hx
        rw [h3]
        linear_combination this
      · rw [add_in (by omega), e2' i j (by omega), kS_kD, if_pos (by simp; omega), if_neg (by simp; omega), sub_zero, prodKL_set]
      · rw [add_out (by omega), e2' i j (by omega)]
    revert he
    generalize hf : (List.foldlM _ _ rest : Option (Wk K × Wk K × Wk K)) = o
    intro he
    cases o with
    | none => cases he
    | some t =>
      simp only [Option.some.injEq] at he
      subst he
      have := foldlM_inv (P := fun c (t : Wk K × Wk K × Wk K) => ColInv (kD A A) bnd n Y0 r.1 r.2 c t.1 t.2.1 ∧ RowProd n A r.1 r.2 c t.1 t.2.2) hch
        ⟨hcol, fun k j a b d e => by rw [Finset.range_eq_Ico]; rfl⟩ (fun c hcm t t' ht hstep => by
        obtain ⟨ht, htA⟩ := ht
        have hcs := hch.start_le c hcm
        exact discCol_step h ht htA h0 h1 (hb c hcm).1 (hb c hcm).2 hr hcs.1 hcs.2.2 hcs.2.1 hstep) hf
      exact this.1.finish (kD_tri h) hY h1

/-! ## Generalised equations -/

theorem gcontCol_step {A E : Wk K} (h : ∀ b, bnd b → ∀ k i, i < b → b ≤ k → A k i = 0) (h' : ∀ b, bnd b → ∀ k i, i < b → b ≤ k → E k i = 0) {c : ℕ × ℕ} {s s' : Wk K × Wk K × Wk K × Wk K}
    (hI : ColInv (kGC A E A E) bnd n Y0 r0 r1 c.1 s.1 s.2.1) (hWE : RowProd n E r0 r1 c.1 s.1 s.2.2.1) (hWA : RowProd n A r0 r1 c.1 s.1 s.2.2.2)
    (h0 : bnd r0) (h1 : bnd r1) (hc0 : bnd c.1) (hc1 : bnd c.2)
    (hr : r1 = r0 + 1 ∨ r1 = r0 + 2) (hrc : r1 ≤ c.1) (hc : c.2 = c.1 + 1 ∨ c.2 = c.1 + 2) (hn : c.2 ≤ n)
    (he : gcontCol id n A E r0 r1 c s = some s') :
    ColInv (kGC A E A E) bnd n Y0 r0 r1 c.2 s'.1 s'.2.1 ∧ RowProd n E r0 r1 c.2 s'.1 s'.2.2.1 ∧ RowProd n A r0 r1 c.2 s'.1 s'.2.2.2 := by
  unfold gcontCol at he
  have hsp := miniGCn_spec (p := r1 - r0) (q := c.2 - c.1) (by omega) (by omega) (A.at r0 r0) (E.at r0 r0) (A.at c.1 c.1) (E.at c.1 c.1) (s.2.1.at r0 c.1)
  cases hm : miniGCn (r1 - r0) (A.at r0 r0) (c.2 - c.1) (E.at c.1 c.1) (s.2.1.at r0 c.1) (E.at r0 r0) (A.at c.1 c.1) with
  | none => rw [hm] at he; cases he
  | some x =>
    rw [hm] at he hsp
    simp only [bind, Option.bind, Option.some.injEq] at he
    subst he
    refine ⟨hI.step (X' := setBoth s.1 r0 r1 c.1 c.2 x) (kGC_tri h h') h0 h1 hc0 hc1 (by omega) hrc (by omega) hn (fun i j a b => setBoth_out a b)
      (fun i j a b d e => setBoth_symm hrc ⟨⟨a, b⟩, d, e⟩)
      (fun i j a b d e => setBoth_eqn (by omega) (by omega) hrc (fun k i l j => by simp only [kGC, Wk.at]) hsp rfl a b d e)
      (fun i j a b d e => ?_) (fun i j a b d e => ?_) (fun i j a b d e => ?_), fun k j a b d e => ?_, fun k j a b d e => ?_⟩
    · dsimp only
      rw [add_out (by omega), add_in (by omega), kS_kGC, prod_block (X := s.1) hrc, prod_block (X := s.1) hrc]
    · dsimp only
      rw [add_in (by omega), add_out (by omega), kS_kGC,
        prodK_congr (W' := fun k j => ∑ l ∈ Finset.range c.2, setBoth s.1 r0 r1 c.1 c.2 x k l * E l j)
          fun k hk hk' => hWE.step hrc (by omega) hk hk' d (by omega),
        prodK_congr (W' := fun k j => ∑ l ∈ Finset.range c.2, setBoth s.1 r0 r1 c.1 c.2 x k l * A l j)
          fun k hk hk' => hWA.step hrc (by omega) hk hk' d (by omega)]
    · dsimp only
      rw [add_out (by omega), add_out (by omega)]
    · exact hWE.step hrc (by omega) a b (by omega) e
    · exact hWA.step hrc (by omega) a b (by omega) e

theorem gcontRow_step {A E : Wk K} {sub : ℕ → Prop} (h : ∀ b, bnd b → ∀ k i, i < b → b ≤ k → A k i = 0) (h' : ∀ b, bnd b → ∀ k i, i < b → b ≤ k → E k i = 0) {r : ℕ × ℕ} {rest : List (ℕ × ℕ)}
    {s s' : Wk K × Wk K} (hY : ∀ i j, i < n → j < n → Y0 i j = Y0 j i)
    (hI : RowInv (kGC A E A E) bnd n Y0 r.1 s.1 s.2) (h0 : bnd r.1) (h1 : bnd r.2) (hr : r.2 = r.1 + 1 ∨ r.2 = r.1 + 2) (hn : r.2 ≤ n)
    (hV : ∀ b, bnd b → b < r.2 → b ≤ r.1) (hch : Chain sub n r.2 rest) (hb : ∀ c ∈ rest, bnd c.1 ∧ bnd c.2)
    (he : gcontRow id n A E r rest s = some s') : RowInv (kGC A E A E) bnd n Y0 r.2 s'.1 s'.2 := by
  have hV' : ∀ i j, r.1 ≤ i → i < r.2 → r.1 ≤ j → ∀ b, bnd b → b ≤ i → b ≤ j := fun i j a b d e f g => by
    have := hV e f (by omega)
    omega
  unfold gcontRow at he
  dsimp only at he
  set Y1 : Wk K := if r.1 ≠ 0 then s.2.add r.1 r.2 r.1 r.2 fun i j =>
      prodK A (prodL s.1 E 0 r.1) r.1 r.2 i j + prodK E (prodL s.1 A 0 r.1) r.1 r.2 i j else s.2 with hY1
  have e3 : ∀ i j, r.1 ≤ i → i < r.2 → r.1 ≤ j → j < r.2 → Y1 i j = s.2 i j + kS (kGC A E A E) s.1 (Finset.Ico r.1 r.2) (Finset.range r.1) i j := by
    intro i j a b d e
    rw [hY1]
    split_ifs with hz
    · rw [add_in (by omega), kS_kGC, prodKL_left, prodKL_left]
    · push Not at hz
      rw [hz]; simp [kS]
  have e2' : ∀ i j, ¬ ((r.1 ≤ i ∧ i < r.2) ∧ (r.1 ≤ j ∧ j < r.2)) → Y1 i j = s.2 i j := by
    intro i j a
    rw [hY1]
    split_ifs with hz
    · rw [add_out a]
    · rfl
  have hsp := miniGCs_spec (k := r.2 - r.1) (by omega) (A.at r.1 r.1) (E.at r.1 r.1) (Y1.at r.1 r.1)
  cases hm : miniGCs (r.2 - r.1) (A.at r.1 r.1) (E.at r.1 r.1) (Y1.at r.1 r.1) with
  | none => rw [hm] at he; cases he
  | some x =>
    rw [hm] at he hsp
    simp only [bind, Option.bind] at he
    have hYs : ∀ i j, r.1 ≤ i → i < r.2 → r.1 ≤ j → j < r.2 → Y1 i j = Y1 j i := fun i j a b d e => by
      rw [e3 i j a b d e, e3 j i d e a b]
      exact hI.diag_symm (kGC_tri h h') hY h1 (by omega) hn a b d e hV'
    have hS := fun i j a b d e => set_eqn (X := s.1) (κ := kGC A E A E) (r0 := r.1) (r1 := r.2) (i := i) (j := j) (by omega)
      (fun k i l j => by simp only [kGC, Wk.at]) hsp rfl hYs a b d e
    have hcol : ColInv (kGC A E A E) bnd n Y0 r.1 r.2 r.2 (s.1.set id r.1 r.2 r.1 r.2 x)
        (Y1.add r.1 r.2 r.1 n fun i j => prodK A (prodL (s.1.set id r.1 r.2 r.1 r.2 x) E 0 r.2) r.1 r.2 i j + prodK E (prodL (s.1.set id r.1 r.2 r.1 r.2 x) A 0 r.2) r.1 r.2 i j) := by
      refine hI.start (kGC_tri h h') h0 h1 (by omega) hn hV' (fun i j a => set_out a) (fun i j a b d e => (hS i j a b d e).1)
        (fun i j a b d e => ?_) (fun i j a b d e => ?_) (fun i j a => ?_)
      · rw [kS_split_right (show r.1 ≤ r.2 by omega)]
        have := (hS i j a b d e).2
        rw [e3 i j a b d e] at this
        have h3 : kS (kGC A E A E) (s.1.set id r.1 r.2 r.1 r.2 x) (Finset.Ico r.1 r.2) (Finset.range r.1) i j =
            kS (kGC A E A E) s.1 (Finset.Ico r.1 r.2) (Finset.range r.1) i j :=
          kS_congr fun k hk l hl hx => absurd (set_out (by simp at hl; omega)) hx
        rw [h3]
        linear_combination this
      · rw [add_in (by omega), e2' i j (by omega), kS_kGC, prodKL_set, prodKL_set]
      · rw [add_out (by omega), e2' i j (by omega)]
    revert he
    generalize hf : (List.foldlM _ _ rest : Option (Wk K × Wk K × Wk K × Wk K)) = o
    intro he
    cases o with
    | none => cases he
    | some t =>
      simp only [Option.some.injEq] at he
      subst he
      have := foldlM_inv (P := fun c (t : Wk K × Wk K × Wk K × Wk K) => ColInv (kGC A E A E) bnd n Y0 r.1 r.2 c t.1 t.2.1 ∧ RowProd n E r.1 r.2 c t.1 t.2.2.1 ∧ RowProd n A r.1 r.2 c t.1 t.2.2.2) hch
        ⟨hcol, fun k j a b d e => by rw [Finset.range_eq_Ico]; rfl, fun k j a b d e => by rw [Finset.range_eq_Ico]; rfl⟩ (fun c hcm t t' ht hstep => by
        obtain ⟨ht, htE, htA⟩ := ht
        have hcs := hch.start_le c hcm
        exact gcontCol_step h h' ht htE htA h0 h1 (hb c hcm).1 (hb c hcm).2 hr hcs.1 hcs.2.2 hcs.2.1 hstep) hf
      exact this.1.finish (kGC_tri h h') hY h1

theorem gdiscCol_step {A E : Wk K} (h : ∀ b, bnd b → ∀ k i, i < b → b ≤ k → A k i = 0) (h' : ∀ b, bnd b → ∀ k i, i < b → b ≤ k → E k i = 0) {c : ℕ × ℕ} {s s' : Wk K × Wk K × Wk K × Wk K}
    (hI : ColInv (kGD A E A E) bnd n Y0 r0 r1 c.1 s.1 s.2.1) (hWE : RowProd n E r0 r1 c.1 s.1 s.2.2.1) (hWA : RowProd n A r0 r1 c.1 s.1 s.2.2.2)
    (h0 : bnd r0) (h1 : bnd r1) (hc0 : bnd c.1) (hc1 : bnd c.2)
    (hr : r1 = r0 + 1 ∨ r1 = r0 + 2) (hrc : r1 ≤ c.1) (hc : c.2 = c.1 + 1 ∨ c.2 = c.1 + 2) (hn : c.2 ≤ n)
    (he : gdiscCol id n A E r0 r1 c s = some s') :
    ColInv (kGD A E A E) bnd n Y0 r0 r1 c.2 s'.1 s'.2.1 ∧ RowProd n E r0 r1 c.2 s'.1 s'.2.2.1 ∧ RowProd n A r0 r1 c.2 s'.1 s'.2.2.2 := by
  unfold gdiscCol at he
  have hsp := miniGDn_spec (p := r1 - r0) (q := c.2 - c.1) (by omega) (by omega) (A.at r0 r0) (E.at r0 r0) (A.at c.1 c.1) (E.at c.1 c.1) (s.2.1.at r0 c.1)
  cases hm : miniGDn (c.2 - c.1) (A.at c.1 c.1) (E.at c.1 c.1) (s.2.1.at r0 c.1) (r1 - r0) (A.at r0 r0) (E.at r0 r0) with
  | none => rw [hm] at he; cases he
  | some x =>
    rw [hm] at he hsp
    simp only [bind, Option.bind, Option.some.injEq] at he
    subst he
    refine ⟨hI.step (X' := setBoth s.1 r0 r1 c.1 c.2 x) (kGD_tri h h') h0 h1 hc0 hc1 (by omega) hrc (by omega) hn (fun i j a b => setBoth_out a b)
      (fun i j a b d e => setBoth_symm hrc ⟨⟨a, b⟩, d, e⟩)
      (fun i j a b d e => setBoth_eqn (by omega) (by omega) hrc (fun k i l j => by simp only [kGD, Wk.at]) hsp rfl a b d e)
      (fun i j a b d e => ?_) (fun i j a b d e => ?_) (fun i j a b d e => ?_), fun k j a b d e => ?_, fun k j a b d e => ?_⟩
    · dsimp only
      rw [add_out (by omega), add_in (by omega), kS_kGD, prod_block (X := s.1) hrc, prod_block (X := s.1) hrc]
    · dsimp only
      rw [add_in (by omega), add_out (by omega), kS_kGD,
        prodK_congr (W' := fun k j => ∑ l ∈ Finset.range c.2, setBoth s.1 r0 r1 c.1 c.2 x k l * A l j)
          fun k hk hk' => hWA.step hrc (by omega) hk hk' d (by omega),
        prodK_congr (W' := fun k j => ∑ l ∈ Finset.range c.2, setBoth s.1 r0 r1 c.1 c.2 x k l * E l j)
          fun k hk hk' => hWE.step hrc (by omega) hk hk' d (by omega)]
    · dsimp only
      rw [add_out (by omega), add_out (by omega)]
    · exact hWE.step hrc (by omega) a b (by omega) e
    · exact hWA.step hrc (by omega) a b (by omega) e

theorem gdiscRow_step {A E : Wk K} {sub : ℕ → Prop} (h : ∀ b, bnd b → ∀ k i, i < b → b ≤ k → A k i = 0) (h' : ∀ b, bnd b → ∀ k i, i < b → b ≤ k → E k i = 0) {r : ℕ × ℕ} {rest : List (ℕ × ℕ)}
    {s s' : Wk K × Wk K} (hY : ∀ i j, i < n → j < n → Y0 i j = Y0 j i)
    (hI : RowInv (kGD A E A E) bnd n Y0 r.1 s.1 s.2) (h0 : bnd r.1) (h1 : bnd r.2) (hr : r.2 = r.1 + 1 ∨ r.2 = r.1 + 2) (hn : r.2 ≤ n)
    (hV : ∀ b, bnd b → b < r.2 → b ≤ r.1) (hch : Chain sub n r.2 rest) (hb : ∀ c ∈ rest, bnd c.1 ∧ bnd c.2)
    (he : gdiscRow id n A E r rest s = some s') : RowInv (kGD A E A E) bnd n Y0 r.2 s'.1 s'.2 := by
  have hV' : ∀ i j, r.1 ≤ i → i < r.2 → r.1 ≤ j → ∀ b, bnd b → b ≤ i → b ≤ j := fun i j a b d e f g => by
    have := hV e f (by omega)
    omega
  unfold gdiscRow at he
  dsimp only at he
  set Y1 : Wk K := if r.1 ≠ 0 then s.2.add r.1 r.2 r.1 r.2 fun i j =>
      prodK A (prodL s.1 A 0 r.1) r.1 r.2 i j - prodK E (prodL s.1 E 0 r.1) r.1 r.2 i j else s.2 with hY1
  have e3 : ∀ i j, r.1 ≤ i → i < r.2 → r.1 ≤ j → j < r.2 → Y1 i j = s.2 i j + kS (kGD A E A E) s.1 (Finset.Ico r.1 r.2) (Finset.range r.1) i j := by
    intro i j a b d e
    rw [hY1]
    split_ifs with hz
    · rw [add_in (by omega), kS_kGD, prodKL_left, prodKL_left]
    · push Not at hz
      rw [hz]; simp [kS]
  have e2' : ∀ i j, ¬ ((r.1 ≤ i ∧ i < r.2) ∧ (r.1 ≤ j ∧ j < r.2)) → Y1 i j = s.2 i j := by
    intro i j a
    rw [hY1]
    split_ifs with hz
    · rw [add_out a]
    · rfl
  have hsp := miniGDs_spec (k := r.2 - r.1) (by omega) (A.at r.1 r.1) (E.at r.1 r.1) (Y1.at r.1 r.1)
  cases hm : miniGDs (r.2 - r.1) (A.at r.1 r.1) (E.at r.1 r.1) (Y1.at r.1 r.1) with
  | none => rw [hm] at he; cases he
  | some x =>
    rw [hm] at he hsp
    simp only [bind, Option.bind] at he
    have hYs : ∀ i j, r.1 ≤ i → i < r.2 → r.1 ≤ j → j < r.2 → Y1 i j = Y1 j i := fun i j a b d e => by
      rw [e3 i j a b d e, e3 j i d e a b]
      exact hI.diag_symm (kGD_tri h h') hY h1 (by omega) hn a b d e hV'
    have hS := fun i j a b d e => set_eqn (X := s.1) (κ := kGD A E A E) (r0 := r.1) (r1 := r.2) (i := i) (j := j) (by omega)
      (fun k i l j => by simp only [kGD, Wk.at]) hsp rfl hYs a b d e
    have hcol : ColInv (kGD A E A E) bnd n Y0 r.1 r.2 r.2 (s.1.set id r.1 r.2 r.1 r.2 x)
        (Y1.add r.1 r.2 r.1 n fun i j => prodK A (prodL (s.1.set id r.1 r.2 r.1 r.2 x) A 0 r.2) r.1 r.2 i j - prodK E (prodL (s.1.set id r.1 r.2 r.1 r.2 x) E 0 r.2) r.1 r.2 i j) := by
      refine hI.start (kGD_tri h h') h0 h1 (by omega) hn hV' (fun i j a => set_out a) (fun i j a b d e => (hS i j a b d e).1)
        (fun i j a b d e => ?_) (fun i j a b d e => ?_) (fun i j a => ?_)
      · rw [kS_split_right (show r.1 ≤ r.2 by omega)]
        have := (hS i j a b d e).2
        rw [e3 i j a b d e] at this
        have h3 : kS (kGD A E A E) (s.1.set id r.1 r.2 r.1 r.2 x) (Finset.Ico r.1 r.2) (Finset.range r.1) i j =
            kS (kGD A E A E) s.1 (Finset.Ico r.1 r.2) (Finset.range r.1) i j :=
          kS_congr fun k hk l hl hx => absurd (set_out (by simp at hl; omega)) hx
        rw [h3]
        linear_combination this
      · rw [add_in (by omega), e2' i j (by omega), kS_kGD, prodKL_set, prodKL_set]
      · rw [add_out (by omega), e2' i j (by omega)]
    revert he
    generalize hf : (List.foldlM _ _ rest : Option (Wk K × Wk K × Wk K × Wk K)) = o
    intro he
    cases o with
    | none => cases he
    | some t =>
      simp only [Option.some.injEq] at he
      subst he
      have := foldlM_inv (P := fun c (t : Wk K × Wk K × Wk K × Wk K) => ColInv (kGD A E A E) bnd n Y0 r.1 r.2 c t.1 t.2.1 ∧ RowProd n E r.1 r.2 c t.1 t.2.2.1 ∧ RowProd n A r.1 r.2 c t.1 t.2.2.2) hch
        ⟨hcol, fun k j a b d e => by rw [Finset.range_eq_Ico]; rfl, fun k j a b d e => by rw [Finset.range_eq_Ico]; rfl⟩ (fun c hcm t t' ht hstep => by
        obtain ⟨ht, htE, htA⟩ := ht
        have hcs := hch.start_le c hcm
        exact gdiscCol_step h h' ht htE htA h0 h1 (hb c hcm).1 (hb c hcm).2 hr hcs.1 hcs.2.2 hcs.2.1 hstep) hf
      exact this.1.finish (kGD_tri h h') hY h1

end Harold
