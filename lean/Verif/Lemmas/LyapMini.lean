import Verif.Lemmas.LyapBlock
import Mathlib.LinearAlgebra.Matrix.ToLinearEquiv
import Mathlib.Data.Fin.VecNotation
import Mathlib.LinearAlgebra.Matrix.Notation
import Mathlib.Tactic.IntervalCases

/-!
# The 1x1 and 2x2 Sylvester solvers
-/

namespace Harold

open Matrix

variable {K : Type} [Field K] [LinearOrder K]

theorem gsolve_some {n : ℕ} {M : Matrix (Fin n) (Fin n) K} {y v : Fin n → K} (h : gsolve M y = some v) : M *ᵥ v = y := by
  unfold gsolve at h
  split_ifs at h with h0
  cases h
  rw [mulVec_mulVec, mul_nonsing_inv _ (Ne.isUnit h0), one_mulVec]

theorem gsolve_none {n : ℕ} {M : Matrix (Fin n) (Fin n) K} {y : Fin n → K} (h : gsolve M y = none) : ∃ v ≠ 0, M *ᵥ v = 0 := by
  unfold gsolve at h
  split_ifs at h with h0
  exact exists_mulVec_eq_zero_iff.mpr h0

theorem gdiv_some {x y t : K} (h : gdiv x y = some t) : y * t = x := by
  unfold gdiv at h
  split_ifs at h with h0
  cases h
  field_simp

theorem gdiv_none {x y : K} (h : gdiv x y = none) : y = 0 := by
  unfold gdiv at h
  split_ifs at h with h0
  exact h0

/-- Kronecker's delta. -/
def dlt (i j : ℕ) : K := if i = j then 1 else 0

/-- `Lᵀ X + X R`. -/
def kC (L R : Wk K) : Kern K := fun k i l j => L k i * dlt l j + dlt k i * R l j
/-- `Lᵀ X R - X`. -/
def kD (L R : Wk K) : Kern K := fun k i l j => L k i * R l j - dlt k i * dlt l j
/-- `ALᵀ X ER + ELᵀ X AR`. -/
def kGC (AL EL AR ER : Wk K) : Kern K := fun k i l j => AL k i * ER l j + EL k i * AR l j
/-- `ALᵀ X AR - ELᵀ X ER`. -/
def kGD (AL EL AR ER : Wk K) : Kern K := fun k i l j => AL k i * AR l j - EL k i * ER l j

/-- What a small solver for the kernel `κ` with a symmetric unknown guarantees. -/
def SolS (κ : Kern K) (k : ℕ) (y : Wk K) (r : Option (Wk K)) : Prop :=
  (∀ x, r = some x → (k = 2 → y 0 1 = y 1 0) →
    (∀ i j, i < k → j < k → x i j = x j i) ∧
    ∀ i j, i < k → j < k → kS κ x (Finset.range k) (Finset.range k) i j + y i j = 0) ∧
  (r = none → ∃ x : Wk K, (∃ i j, i < k ∧ j < k ∧ x i j ≠ 0) ∧ ∀ i j, i < k → j < k → kS κ x (Finset.range k) (Finset.range k) i j = 0)

/-- What a small solver for the kernel `κ` guarantees. -/
def SolN (κ : Kern K) (p q : ℕ) (y : Wk K) (r : Option (Wk K)) : Prop :=
  (∀ x, r = some x → ∀ i j, i < p → j < q → kS κ x (Finset.range p) (Finset.range q) i j + y i j = 0) ∧
  (r = none → ∃ x : Wk K, (∃ i j, i < p ∧ j < q ∧ x i j ≠ 0) ∧ ∀ i j, i < p → j < q → kS κ x (Finset.range p) (Finset.range q) i j = 0)

theorem SolS.one {κ : Kern K} {y : Wk K} {d : K} (hd : κ 0 0 0 0 = d) : SolS κ 1 y ((gdiv (-y 0 0) d).map fun t _ _ => t) := by
  subst hd
  refine ⟨fun x h _ => ?_, fun h => ⟨fun _ _ => 1, ⟨0, 0, by omega, by omega, one_ne_zero⟩, fun i j hi hj => ?_⟩⟩
  · simp only [Option.map_eq_some_iff] at h
    obtain ⟨t, h1, rfl⟩ := h
    refine ⟨fun _ _ _ _ => rfl, fun i j hi hj => ?_⟩
    interval_cases i; interval_cases j
    have := gdiv_some h1
    simp only [kS, Finset.sum_range_one]
    linear_combination this
  · simp only [Option.map_eq_none_iff] at h
    interval_cases i; interval_cases j
    simp [kS, gdiv_none h]

theorem SolN.one {κ : Kern K} {y : Wk K} {d : K} (hd : κ 0 0 0 0 = d) : SolN κ 1 1 y ((gdiv (-y 0 0) d).map fun t _ _ => t) := by
  have h := SolS.one (y := y) hd
  exact ⟨fun x hx => (h.1 x hx (by omega)).2, h.2⟩

theorem SolS.two {κ : Kern K} {y : Wk K} {M : Matrix (Fin 3) (Fin 3) K}
    (h0 : ∀ v, (M *ᵥ v) 0 = kS κ (sym22 v) (Finset.range 2) (Finset.range 2) 0 0)
    (h1 : ∀ v, (M *ᵥ v) 1 = kS κ (sym22 v) (Finset.range 2) (Finset.range 2) 0 1)
    (h2 : ∀ v, (M *ᵥ v) 1 = kS κ (sym22 v) (Finset.range 2) (Finset.range 2) 1 0)
    (h3 : ∀ v, (M *ᵥ v) 2 = kS κ (sym22 v) (Finset.range 2) (Finset.range 2) 1 1) :
    SolS κ 2 y ((gsolve M (rhs3 y)).map sym22) := by
  refine ⟨fun x h hy => ?_, fun h => ?_⟩
  · simp only [Option.map_eq_some_iff] at h
    obtain ⟨v, h4, rfl⟩ := h
    have h5 := gsolve_some h4
    refine ⟨fun i j hi hj => ?_, fun i j hi hj => ?_⟩
    · interval_cases i <;> interval_cases j <;> rfl
    · interval_cases i <;> interval_cases j
      · rw [← h0, h5]; simp [rhs3]
      · rw [← h1, h5]; simp [rhs3]
      · rw [← h2, h5]; simp [rhs3, hy]
      · rw [← h3, h5]; simp [rhs3]
  · simp only [Option.map_eq_none_iff] at h
    obtain ⟨v, hv, h5⟩ := gsolve_none h
    refine ⟨sym22 v, ?_, fun i j hi hj => ?_⟩
    · by_contra hc
      push Not at hc
      refine hv (funext fun i => ?_)
      fin_cases i
      · exact hc 0 0 (by omega) (by omega)
      · exact hc 0 1 (by omega) (by omega)
      · exact hc 1 1 (by omega) (by omega)
    · interval_cases i <;> interval_cases j
      · rw [← h0, h5]; rfl
      · rw [← h1, h5]; rfl
      · rw [← h2, h5]; rfl
      · rw [← h3, h5]; rfl

theorem SolN.two {κ : Kern K} {y : Wk K} {M : Matrix (Fin 4) (Fin 4) K}
    (h0 : ∀ v, (M *ᵥ v) 0 = kS κ (resh22 v) (Finset.range 2) (Finset.range 2) 0 0)
    (h1 : ∀ v, (M *ᵥ v) 1 = kS κ (resh22 v) (Finset.range 2) (Finset.range 2) 0 1)
    (h2 : ∀ v, (M *ᵥ v) 2 = kS κ (resh22 v) (Finset.range 2) (Finset.range 2) 1 0)
    (h3 : ∀ v, (M *ᵥ v) 3 = kS κ (resh22 v) (Finset.range 2) (Finset.range 2) 1 1) :
    SolN κ 2 2 y ((gsolve M (rhs4 y)).map resh22) := by
  refine ⟨fun x h i j hi hj => ?_, fun h => ?_⟩
  · simp only [Option.map_eq_some_iff] at h
    obtain ⟨v, h4, rfl⟩ := h
    have h5 := gsolve_some h4
    interval_cases i <;> interval_cases j
    · rw [← h0, h5]; simp [rhs4]
    · rw [← h1, h5]; simp [rhs4]
    · rw [← h2, h5]; simp [rhs4]
    · rw [← h3, h5]; simp [rhs4]
  · simp only [Option.map_eq_none_iff] at h
    obtain ⟨v, hv, h5⟩ := gsolve_none h
    refine ⟨resh22 v, ?_, fun i j hi hj => ?_⟩
    · by_contra hc
      push Not at hc
      refine hv (funext fun i => ?_)
      fin_cases i
      · exact hc 0 0 (by omega) (by omega)
      · exact hc 0 1 (by omega) (by omega)
      · exact hc 1 0 (by omega) (by omega)
      · exact hc 1 1 (by omega) (by omega)
    · interval_cases i <;> interval_cases j
      · rw [← h0, h5]; rfl
      · rw [← h1, h5]; rfl
      · rw [← h2, h5]; rfl
      · rw [← h3, h5]; rfl

theorem SolN.col {κ : Kern K} {y : Wk K} {M : Matrix (Fin 2) (Fin 2) K}
    (h0 : ∀ v, (M *ᵥ v) 0 = kS κ (col2 v) (Finset.range 2) (Finset.range 1) 0 0)
    (h1 : ∀ v, (M *ᵥ v) 1 = kS κ (col2 v) (Finset.range 2) (Finset.range 1) 1 0) :
    SolN κ 2 1 y ((gsolve M ![-y 0 0, -y 1 0]).map col2) := by
  refine ⟨fun x h i j hi hj => ?_, fun h => ?_⟩
  · simp only [Option.map_eq_some_iff] at h
    obtain ⟨v, h4, rfl⟩ := h
    have h5 := gsolve_some h4
    interval_cases j
    interval_cases i
    · rw [← h0, h5]; simp
    · rw [← h1, h5]; simp
  · simp only [Option.map_eq_none_iff] at h
    obtain ⟨v, hv, h5⟩ := gsolve_none h
    refine ⟨col2 v, ?_, fun i j hi hj => ?_⟩
    · by_contra hc
      push Not at hc
      refine hv (funext fun i => ?_)
      fin_cases i
      · exact hc 0 0 (by omega) (by omega)
      · exact hc 1 0 (by omega) (by omega)
    · interval_cases j
      interval_cases i
      · rw [← h0, h5]; rfl
      · rw [← h1, h5]; rfl

theorem SolN.row {κ : Kern K} {y : Wk K} {M : Matrix (Fin 2) (Fin 2) K}
    (h0 : ∀ v, (M *ᵥ v) 0 = kS κ (col2 v).tr (Finset.range 1) (Finset.range 2) 0 0)
    (h1 : ∀ v, (M *ᵥ v) 1 = kS κ (col2 v).tr (Finset.range 1) (Finset.range 2) 0 1) :
    SolN κ 1 2 y ((gsolve M ![-y 0 0, -y 0 1]).map fun v => (col2 v).tr) := by
  refine ⟨fun x h i j hi hj => ?_, fun h => ?_⟩
  · simp only [Option.map_eq_some_iff] at h
    obtain ⟨v, h4, rfl⟩ := h
    have h5 := gsolve_some h4
    interval_cases i
    interval_cases j
    · rw [← h0, h5]; simp
    · rw [← h1, h5]; simp
  · simp only [Option.map_eq_none_iff] at h
    obtain ⟨v, hv, h5⟩ := gsolve_none h
    refine ⟨(col2 v).tr, ?_, fun i j hi hj => ?_⟩
    · by_contra hc
      push Not at hc
      refine hv (funext fun i => ?_)
      fin_cases i
      · exact hc 0 0 (by omega) (by omega)
      · exact hc 0 1 (by omega) (by omega)
    · interval_cases i
      interval_cases j
      · rw [← h0, h5]; rfl
      · rw [← h1, h5]; rfl

theorem miniCs_spec {k : ℕ} (hk : k = 1 ∨ k = 2) (A y : Wk K) : SolS (kC A A) k y (miniCs k A y) := by
  unfold miniCs
  rcases hk with rfl | rfl
  · rw [if_pos rfl]
    exact SolS.one (by simp [kC, dlt]; ring)
  · rw [if_neg (by omega)]
    apply SolS.two <;> intro v <;>
      simp [-mul_eq_mul_right_iff, -mul_eq_mul_left_iff, mulVec, dotProduct, Fin.sum_univ_succ, kS, Finset.sum_range_succ, kC, dlt, sym22] <;> ring

theorem miniCn_spec {p q : ℕ} (hp : p = 1 ∨ p = 2) (hq : q = 1 ∨ q = 2) (Al Ar y : Wk K) :
    SolN (kC Al Ar) p q y (miniCn q Ar y p Al) := by
  unfold miniCn
  rcases hp with rfl | rfl <;> rcases hq with rfl | rfl
  · rw [if_neg (by omega), if_neg (by omega)]
    exact SolN.one (by simp [kC, dlt]; ring)
  · rw [if_pos rfl, if_neg (by omega)]
    apply SolN.row <;> intro v <;>
      simp [-mul_eq_mul_right_iff, -mul_eq_mul_left_iff, mulVec, dotProduct, Fin.sum_univ_succ, kS, Finset.sum_range_succ, kC, dlt, col2, Wk.tr] <;> ring
  · rw [if_neg (by omega), if_pos rfl]
    apply SolN.col <;> intro v <;>
      simp [-mul_eq_mul_right_iff, -mul_eq_mul_left_iff, mulVec, dotProduct, Fin.sum_univ_succ, kS, Finset.sum_range_succ, kC, dlt, col2] <;> ring
  · rw [if_pos rfl, if_pos rfl]
    apply SolN.two <;> intro v <;>
      simp [-mul_eq_mul_right_iff, -mul_eq_mul_left_iff, mulVec, dotProduct, Fin.sum_univ_succ, kS, Finset.sum_range_succ, kC, dlt, resh22] <;> ring

theorem miniDs_spec {k : ℕ} (hk : k = 1 ∨ k = 2) (A y : Wk K) : SolS (kD A A) k y (miniDs k A y) := by
  unfold miniDs
  rcases hk with rfl | rfl
  · rw [if_pos rfl]
    exact SolS.one (by simp [kD, dlt]; ring)
  · rw [if_neg (by omega)]
    apply SolS.two <;> intro v <;>
      simp [-mul_eq_mul_right_iff, -mul_eq_mul_left_iff, mulVec, dotProduct, Fin.sum_univ_succ, kS, Finset.sum_range_succ, kD, dlt, sym22] <;> ring

theorem miniDn_spec {p q : ℕ} (hp : p = 1 ∨ p = 2) (hq : q = 1 ∨ q = 2) (Al Ar y : Wk K) :
    SolN (kD Al Ar) p q y (miniDn p Al y q Ar) := by
  unfold miniDn
  rcases hp with rfl | rfl <;> rcases hq with rfl | rfl
  · rw [if_neg (by omega), if_neg (by omega)]
    exact SolN.one (by simp [kD, dlt]; ring)
  · rw [if_neg (by omega), if_pos rfl]
    apply SolN.row <;> intro v <;>
      simp [-mul_eq_mul_right_iff, -mul_eq_mul_left_iff, mulVec, dotProduct, Fin.sum_univ_succ, kS, Finset.sum_range_succ, kD, dlt, col2, Wk.tr] <;> ring
  · rw [if_pos rfl, if_neg (by omega)]
    apply SolN.col <;> intro v <;>
      simp [-mul_eq_mul_right_iff, -mul_eq_mul_left_iff, mulVec, dotProduct, Fin.sum_univ_succ, kS, Finset.sum_range_succ, kD, dlt, col2] <;> ring
  · rw [if_pos rfl, if_pos rfl]
    apply SolN.two <;> intro v <;>
      simp [-mul_eq_mul_right_iff, -mul_eq_mul_left_iff, mulVec, dotProduct, Fin.sum_univ_succ, kS, Finset.sum_range_succ, kD, dlt, resh22] <;> ring

theorem miniGCs_spec {k : ℕ} (hk : k = 1 ∨ k = 2) (A E y : Wk K) : SolS (kGC A E A E) k y (miniGCs k A E y) := by
  unfold miniGCs
  rcases hk with rfl | rfl
  · rw [if_pos rfl]
    exact SolS.one (by simp [kGC]; ring)
  · rw [if_neg (by omega)]
    apply SolS.two <;> intro v <;>
      simp [-mul_eq_mul_right_iff, -mul_eq_mul_left_iff, mulVec, dotProduct, Fin.sum_univ_succ, kS, Finset.sum_range_succ, kGC, sym22] <;> ring

theorem miniGCn_spec {p q : ℕ} (hp : p = 1 ∨ p = 2) (hq : q = 1 ∨ q = 2) (Al El Ar Er y : Wk K) :
    SolN (kGC Al El Ar Er) p q y (miniGCn p Al q Er y El Ar) := by
  unfold miniGCn
  rcases hp with rfl | rfl <;> rcases hq with rfl | rfl
  · rw [if_neg (by omega), if_neg (by omega)]
    exact SolN.one (by simp [kGC])
  · rw [if_neg (by omega), if_pos rfl]
    apply SolN.row <;> intro v <;>
      simp [-mul_eq_mul_right_iff, -mul_eq_mul_left_iff, mulVec, dotProduct, Fin.sum_univ_succ, kS, Finset.sum_range_succ, kGC, col2, Wk.tr] <;> ring
  · rw [if_pos rfl, if_neg (by omega)]
    apply SolN.col <;> intro v <;>
      simp [-mul_eq_mul_right_iff, -mul_eq_mul_left_iff, mulVec, dotProduct, Fin.sum_univ_succ, kS, Finset.sum_range_succ, kGC, col2] <;> ring
  · rw [if_pos rfl, if_pos rfl]
    apply SolN.two <;> intro v <;>
      simp [-mul_eq_mul_right_iff, -mul_eq_mul_left_iff, mulVec, dotProduct, Fin.sum_univ_succ, kS, Finset.sum_range_succ, kGC, resh22] <;> ring

theorem miniGDs_spec {k : ℕ} (hk : k = 1 ∨ k = 2) (A E y : Wk K) : SolS (kGD A E A E) k y (miniGDs k A E y) := by
  unfold miniGDs
  rcases hk with rfl | rfl
  · rw [if_pos rfl]
    exact SolS.one (by simp [kGD]; ring)
  · rw [if_neg (by omega)]
    apply SolS.two <;> intro v <;>
      simp [-mul_eq_mul_right_iff, -mul_eq_mul_left_iff, mulVec, dotProduct, Fin.sum_univ_succ, kS, Finset.sum_range_succ, kGD, sym22] <;> ring

theorem miniGDn_spec {p q : ℕ} (hp : p = 1 ∨ p = 2) (hq : q = 1 ∨ q = 2) (Al El Ar Er y : Wk K) :
    SolN (kGD Al El Ar Er) p q y (miniGDn q Ar Er y p Al El) := by
  unfold miniGDn
  rcases hp with rfl | rfl <;> rcases hq with rfl | rfl
  · rw [if_neg (by omega), if_neg (by omega)]
    exact SolN.one (by simp [kGD])
  · rw [if_pos rfl, if_neg (by omega)]
    apply SolN.row <;> intro v <;>
      simp [-mul_eq_mul_right_iff, -mul_eq_mul_left_iff, mulVec, dotProduct, Fin.sum_univ_succ, kS, Finset.sum_range_succ, kGD, col2, Wk.tr] <;> ring
  · rw [if_neg (by omega), if_pos rfl]
    apply SolN.col <;> intro v <;>
      simp [-mul_eq_mul_right_iff, -mul_eq_mul_left_iff, mulVec, dotProduct, Fin.sum_univ_succ, kS, Finset.sum_range_succ, kGD, col2] <;> ring
  · rw [if_pos rfl, if_pos rfl]
    apply SolN.two <;> intro v <;>
      simp [-mul_eq_mul_right_iff, -mul_eq_mul_left_iff, mulVec, dotProduct, Fin.sum_univ_succ, kS, Finset.sum_range_succ, kGD, resh22] <;> ring

end Harold
