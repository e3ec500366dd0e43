import Verif.Lemmas.Svd
import Mathlib.Tactic.NormNum
import Mathlib.Data.Rat.Cast.Order
import Mathlib.LinearAlgebra.Matrix.Notation

/-!
# C10: `haroldker`
-/

namespace Harold

open Matrix Spec

variable {K : Type} [Field K] [LinearOrder K] [IsStrictOrderedRing K] {p m : ℕ}

/-- **C10**, trivial null space: for a matrix of full column rank (of more than one entry) a zero column is returned. Missing: matrices with one entry (`C10_scalar_violated`). -/
theorem C10_trivial_partial {S : SvdNum K} (he : 0 ≤ S.eps) {M : Matrix (Fin p) (Fin m) K} (h : SvdExact S M) (hpm : 1 < p * m)
    (hM : ∀ x, M *ᵥ x = 0 → x = 0) : haroldker S (Arr.of M) false = .ok (Arr.zeros m 1) := by
  obtain ⟨U, s, V, h1, h2, h3⟩ := h
  have hp : 0 < p := Nat.pos_of_ne_zero fun h => by simp [h] at hpm
  have hm : 0 < m := Nat.pos_of_ne_zero fun h => by simp [h] at hpm
  have hr : M.rank = m := by
    rw [Matrix.rank, LinearMap.finrank_range_of_inj]
    · simp
    · rw [← LinearMap.ker_eq_bot, LinearMap.ker_eq_bot']
      exact fun x hx => hM x (by simpa using hx)
  have hle : m ≤ p := by
    have := M.rank_le_height
    omega
  unfold haroldker kerRight
  rw [if_neg (by simp), if_neg (by simpa using hpm), haroldsvd_eq h1 (svd_ne_nil h2 hp hm)]
  simp only [bind, Except.bind, countAbove_eq_rank he h2 h3, hr]
  rw [if_pos ⟨(min_eq_right hle).symm, hle⟩]

/-- **C10**, nontrivial null space: the result has as many columns as the null space has dimensions, and they are orthonormal.
`_partial`: that they lie in the null space fails, see `C10_wrong_factor_violated`. -/
theorem C10_dimension_partial {S : SvdNum K} (he : 0 ≤ S.eps) {M : Matrix (Fin p) (Fin m) K} (h : SvdExact S M) (hpm : 1 < p * m)
    {x : Fin m → K} (hx : x ≠ 0) (hM : M *ᵥ x = 0) :
    ∃ (d : ℕ) (Z : Matrix (Fin m) (Fin d) K), haroldker S (Arr.of M) false = .ok (Arr.of Z) ∧
      d = Module.finrank K (LinearMap.ker M.mulVecLin) ∧ Zᵀ * Z = 1 := by
  obtain ⟨U, s, V, h1, h2, h3⟩ := h
  have hp : 0 < p := Nat.pos_of_ne_zero fun h => by simp [h] at hpm
  have hm : 0 < m := Nat.pos_of_ne_zero fun h => by simp [h] at hpm
  have hrn : M.rank + Module.finrank K (LinearMap.ker M.mulVecLin) = m := by
    rw [Matrix.rank, LinearMap.finrank_range_add_finrank_ker]
    simp
  have hk : 0 < Module.finrank K (LinearMap.ker M.mulVecLin) := by
    rw [Module.finrank_pos_iff_exists_ne_zero]
    exact ⟨⟨x, by simpa using hM⟩, fun h0 => hx (congrArg Subtype.val h0)⟩
  refine ⟨m - M.rank, Matrix.of fun i j => V i ⟨M.rank + j, by omega⟩, ?_, by omega, ?_⟩
  · unfold haroldker kerRight
    rw [if_neg (by simp), if_neg (by simpa using hpm), haroldsvd_eq h1 (svd_ne_nil h2 hp hm)]
    simp only [bind, Except.bind, countAbove_eq_rank he h2 h3]
    rw [if_neg (by simp; omega)]
    rfl
  · have hV : Vᵀ * V = 1 := mul_eq_one_comm.mp h2.v_orth
    ext i j
    have := congrFun (congrFun hV ⟨M.rank + i, by omega⟩) ⟨M.rank + j, by omega⟩
    simp only [Matrix.mul_apply, transpose_apply, Matrix.of_apply] at this ⊢
    rw [this]
    by_cases hij : i = j
    · subst hij; simp
    · rw [Matrix.one_apply_ne hij, Matrix.one_apply_ne (by simp only [ne_eq, Fin.mk.injEq]; intro h; exact hij (Fin.ext (by omega)))]

/-- The left null space of `M` is the right null space of its transpose. -/
theorem C10_left (S : SvdNum K) (M : Matrix (Fin p) (Fin m) K) :
    haroldker S (Arr.of M) true = haroldker S (Arr.of Mᵀ) false := rfl

/-- A backend that returns the singular value decomposition `[3/5, 4/5] = 1 · [1, 0] · [[3/5, 4/5], [-4/5, 3/5]]`. -/
def svd345 : SvdNum ℚ := ⟨fun _ => (Arr.of !![1], [1], Arr.of !![3 / 5, 4 / 5; -4 / 5, 3 / 5]), 0⟩

theorem svd345_exact : SvdExact svd345 (!![3 / 5, 4 / 5] : Matrix (Fin 1) (Fin 2) ℚ) := by
  refine ⟨!![1], [1], !![3 / 5, 4 / 5; -4 / 5, 3 / 5], rfl, ⟨?_, ?_, ?_, ?_, ?_, ?_⟩, ?_⟩
  · ext i j; fin_cases i; fin_cases j; simp [Matrix.mul_apply]
  · ext i j; fin_cases i <;> fin_cases j <;> simp [Matrix.mul_apply, Fin.sum_univ_two] <;> norm_num
  · rfl
  · simp
  · simp
  · ext i j; fin_cases i; fin_cases j <;> simp [Matrix.mul_apply, Fin.sum_univ_two, diagRect]
  · simp [rankTol, svd345]

/-- **C10** fails: `haroldker([[3/5, 4/5]])` is `[4/5, 3/5]` (the last column of `vh` instead of its last row), which `[3/5, 4/5]` does not
annihilate. -/
theorem C10_wrong_factor_violated : SvdExact svd345 (!![3 / 5, 4 / 5] : Matrix (Fin 1) (Fin 2) ℚ) ∧
    ∃ Z : Matrix (Fin 2) (Fin 1) ℚ, haroldker svd345 (Arr.of !![3 / 5, 4 / 5]) false = .ok (Arr.of Z) ∧
      (!![3 / 5, 4 / 5] : Matrix (Fin 1) (Fin 2) ℚ) * Z ≠ 0 := by
  refine ⟨svd345_exact, !![4 / 5; 3 / 5], ?_, ?_⟩
  · unfold haroldker kerRight
    rw [if_neg (by simp), if_neg (by simp), haroldsvd_eq (U := !![1]) (s := [1]) (V := !![3 / 5, 4 / 5; -4 / 5, 3 / 5]) rfl (by simp)]
    simp only [bind, Except.bind]
    have hc : countAbove (rankTol svd345.eps 1 2 [1]) [(1 : ℚ)] = 1 := by simp [countAbove, rankTol, svd345]
    rw [hc, if_neg (by simp)]
    congr 1
    unfold Arr.dropCols
    rw [Arr.of_inj]
    ext i j
    fin_cases i <;> fin_cases j <;> rfl
  · intro h
    have := congrFun (congrFun h 0) 0
    simp [Matrix.mul_apply, Fin.sum_univ_two] at this
    norm_num at this

/-- **C10** fails: the null space of `[[0]]` is the whole line, the result is the zero vector. -/
theorem C10_scalar_violated (S : SvdNum K) (k : K) (left : Bool) : haroldker S (Arr.of !![k]) left = .ok (Arr.zeros 1 1) := by
  unfold haroldker kerRight Arr.T
  cases left <;> simp

example : ∃ (d : ℕ) (Z : Matrix (Fin 2) (Fin d) ℚ), haroldker svd345 (Arr.of !![3 / 5, 4 / 5]) false = .ok (Arr.of Z) ∧
      d = Module.finrank ℚ (LinearMap.ker (!![3 / 5, 4 / 5] : Matrix (Fin 1) (Fin 2) ℚ).mulVecLin) ∧ Zᵀ * Z = 1 :=
  C10_dimension_partial (x := ![-4, 3]) le_rfl svd345_exact (by norm_num) (fun h => by simpa using congrFun h 0)
    (by ext i; fin_cases i; simp [Matrix.mulVec, dotProduct, Fin.sum_univ_two]; norm_num)

end Harold
