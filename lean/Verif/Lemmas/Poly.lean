import Verif.Spec.Poly
import Verif.Model.Poly
import Mathlib.Data.List.GetD
import Mathlib.Algebra.Polynomial.Reverse
import Mathlib.Algebra.Polynomial.Degree.Lemmas
import Mathlib.Algebra.Polynomial.Eval.Defs
import Mathlib.Algebra.Polynomial.Monic

/-!
# Coefficient arrays and the polynomials they denote
-/

namespace Harold

open Polynomial Spec

section semiring
variable {K : Type} [CommRing K]

@[simp] theorem toPoly_nil : toPoly ([] : List K) = 0 := rfl

@[simp] theorem toPoly_cons (a : K) (l : List K) :
    toPoly (a :: l) = C a * X ^ l.length + toPoly l := rfl

theorem toPoly_append (a b : List K) : toPoly (a ++ b) = toPoly a * X ^ b.length + toPoly b := by
  induction a with
  | nil => simp
  | cons x a ih => simp only [List.cons_append, toPoly_cons, ih, List.length_append]; ring

theorem coeff_toPoly (l : List K) (i : ℕ) : (toPoly l).coeff i = l.reverse.getD i 0 := by
  induction l with
  | nil => simp
  | cons a l ih =>
    rw [toPoly_cons, coeff_add, ih, List.reverse_cons, coeff_C_mul, coeff_X_pow]
    rcases lt_trichotomy i l.length with h | h | h
    · rw [if_neg h.ne, List.getD_append _ _ _ _ (by simpa using h)]; simp
    · subst h
      rw [if_pos rfl, List.getD_append_right _ _ _ _ (by simp), List.getD_eq_default _ _ (by simp)]
      simp
    · rw [if_neg h.ne', List.getD_append_right _ _ _ _ (by simpa using h.le),
        List.getD_eq_default _ _ (by simpa using h.le), List.getD_eq_default]
      · simp
      · simp; omega

theorem coeff_toPoly_lt {l : List K} {i : ℕ} (h : i < l.length) :
    (toPoly l).coeff i = l.getD (l.length - 1 - i) 0 := by
  rw [coeff_toPoly, List.getD_eq_getElem _ _ (by simpa using h), List.getElem_reverse,
    List.getD_eq_getElem]

theorem coeff_toPoly_ge {l : List K} {i : ℕ} (h : l.length ≤ i) : (toPoly l).coeff i = 0 := by
  rw [coeff_toPoly, List.getD_eq_default _ _ (by simpa using h)]

theorem degree_toPoly_lt (l : List K) : (toPoly l).degree < l.length := by
  rw [degree_lt_iff_coeff_zero]
  intro m h
  exact coeff_toPoly_ge h

theorem natDegree_toPoly_le (l : List K) : (toPoly l).natDegree ≤ l.length - 1 := by
  rw [natDegree_le_iff_coeff_eq_zero]
  intro m h
  exact coeff_toPoly_ge (by omega)

theorem degree_toPoly_cons {a : K} (ha : a ≠ 0) (l : List K) :
    (toPoly (a :: l)).degree = l.length := by
  rw [toPoly_cons, degree_add_eq_left_of_degree_lt]
  · exact degree_C_mul_X_pow _ ha
  · rw [degree_C_mul_X_pow _ ha]; exact degree_toPoly_lt l

theorem leadingCoeff_toPoly_cons {a : K} (ha : a ≠ 0) (l : List K) :
    (toPoly (a :: l)).leadingCoeff = a := by
  rw [leadingCoeff, natDegree_eq_of_degree_eq_some (degree_toPoly_cons ha l),
    coeff_toPoly_lt (by simp)]
  simp

theorem toPoly_replicate_zero (n : ℕ) : toPoly (List.replicate n (0 : K)) = 0 := by
  induction n with
  | zero => rfl
  | succ n ih => simp [List.replicate_succ, ih]

theorem toPoly_map_mul (c : K) (l : List K) : toPoly (l.map (fun x => c * x)) = C c * toPoly l := by
  induction l with
  | nil => simp
  | cons a l ih => simp [ih, mul_add, mul_assoc]

theorem toPoly_map_neg (l : List K) : toPoly (l.map (fun x => -x)) = -toPoly l := by
  induction l with
  | nil => simp
  | cons a l ih => simp [ih, neg_mul]; ring

theorem toPoly_zipWith_add {a b : List K} (h : a.length = b.length) :
    toPoly (List.zipWith (· + ·) a b) = toPoly a + toPoly b := by
  induction a generalizing b with
  | nil => cases b <;> simp_all
  | cons x a ih =>
    cases b with
    | nil => simp at h
    | cons y b =>
      simp only [List.length_cons, Nat.add_right_cancel_iff] at h
      simp only [List.zipWith_cons_cons, toPoly_cons, ih h, List.length_zipWith, h, min_self,
        map_add]
      ring

theorem toPoly_zipWith_sub {a b : List K} (h : a.length = b.length) :
    toPoly (List.zipWith (· - ·) a b) = toPoly a - toPoly b := by
  induction a generalizing b with
  | nil => cases b <;> simp_all
  | cons x a ih =>
    cases b with
    | nil => simp at h
    | cons y b =>
      simp only [List.length_cons, Nat.add_right_cancel_iff] at h
      simp only [List.zipWith_cons_cons, toPoly_cons, ih h, List.length_zipWith, h, min_self,
        map_sub]
      ring

theorem toPoly_eq_reflect (l : List K) :
    toPoly l = reflect (l.length - 1) (toPoly l.reverse) := by
  ext i
  rw [coeff_reflect, coeff_toPoly, coeff_toPoly, List.reverse_reverse]
  by_cases h : i ≤ l.length - 1
  · rw [revAt_le h]
    by_cases hl : l.length = 0
    · rw [List.length_eq_zero_iff] at hl; subst hl; simp
    · rw [List.getD_eq_getElem _ _ (by simp; omega), List.getElem_reverse, List.getD_eq_getElem]
  · rw [revAt_eq_self_of_lt (not_le.mp h), List.getD_eq_default _ _ (by simp; omega),
      List.getD_eq_default _ _ (by omega)]

theorem coeff_toPoly_reverse (l : List K) (i : ℕ) : (toPoly l.reverse).coeff i = l.getD i 0 := by
  rw [coeff_toPoly, List.reverse_reverse]

end semiring

section field
variable {K : Type} [Field K] [DecidableEq K]

theorem toPoly_trimZeros (l : List K) : toPoly (trimZeros l) = toPoly l := by
  induction l with
  | nil => rfl
  | cons a l ih =>
    unfold trimZeros at *
    rw [List.dropWhile_cons]
    split_ifs with h
    · simp only [decide_eq_true_eq] at h
      simp [ih, h]
    · rfl

theorem trimZeros_cases (l : List K) :
    (trimZeros l = [] ∧ toPoly l = 0) ∨ ∃ a t, trimZeros l = a :: t ∧ a ≠ 0 := by
  induction l with
  | nil => left; exact ⟨rfl, rfl⟩
  | cons a l ih =>
    by_cases h : a = 0
    · subst h
      have : trimZeros (0 :: l) = trimZeros l := by simp [trimZeros]
      rw [this]
      rcases ih with ⟨h1, h2⟩ | h
      · left; exact ⟨h1, by simp [h2]⟩
      · right; exact h
    · right
      exact ⟨a, l, by simp [trimZeros, h], h⟩

theorem toPoly_ne_zero_of_cons {a : K} (ha : a ≠ 0) (l : List K) : toPoly (a :: l) ≠ 0 := by
  intro h
  have := degree_toPoly_cons ha l
  rw [h] at this
  simp at this

theorem trimZeros_eq_nil_iff (l : List K) : trimZeros l = [] ↔ toPoly l = 0 := by
  rcases trimZeros_cases l with ⟨h1, h2⟩ | ⟨a, t, h, ha⟩
  · simp [h1, h2]
  · rw [h, ← toPoly_trimZeros l, h]
    simp only [reduceCtorEq, false_iff]
    exact toPoly_ne_zero_of_cons ha t

theorem toPoly_eq_zero_iff (l : List K) : toPoly l = 0 ↔ ∀ a ∈ l, a = 0 := by
  rw [← trimZeros_eq_nil_iff, trimZeros, List.dropWhile_eq_nil_iff]
  simp

theorem trimZeros_of_cons {a : K} (ha : a ≠ 0) (l : List K) : trimZeros (a :: l) = a :: l := by
  simp [trimZeros, ha]

/-- `np.convolve` multiplies. -/
theorem convolve_ok {p x : List K} (hp : p ≠ []) (hx : x ≠ []) :
    ∃ r, convolve p x = .ok r ∧ toPoly r = toPoly p * toPoly x ∧
      r.length = p.length + x.length - 1 ∧ r.getD 0 0 = p.getD 0 0 * x.getD 0 0 := by
  have hp' : 0 < p.length := List.length_pos_iff.mpr hp
  have hx' : 0 < x.length := List.length_pos_iff.mpr hx
  refine ⟨_, by rw [convolve, if_neg (by simp [hp, hx])], ?_, by simp, ?_⟩
  · rw [toPoly_eq_reflect, toPoly_eq_reflect p, toPoly_eq_reflect x, ← reflect_mul]
    · rw [List.length_ofFn]
      congr 1
      · omega
      · ext n
        rw [coeff_toPoly_reverse, coeff_mul, Finset.Nat.sum_antidiagonal_eq_sum_range_succ_mk]
        simp only [coeff_toPoly_reverse]
        by_cases hn : n < p.length + x.length - 1
        · rw [List.getD_eq_getElem _ _ (by simpa using hn), List.getElem_ofFn]
        · rw [List.getD_eq_default _ _ (by simpa using hn)]
          symm
          apply Finset.sum_eq_zero
          intro k hk
          rw [Finset.mem_range] at hk
          by_cases hk' : k < p.length
          · rw [List.getD_eq_default x _ (by omega), mul_zero]
          · rw [List.getD_eq_default p _ (by omega), zero_mul]
    · simpa using natDegree_toPoly_le p.reverse
    · simpa using natDegree_toPoly_le x.reverse
  · rw [List.getD_eq_getElem _ _ (by simp; omega), List.getElem_ofFn]
    simp

end field

end Harold
