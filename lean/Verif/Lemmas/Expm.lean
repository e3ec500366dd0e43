import Verif.Model.Discrete
import Verif.Spec.ODE
import Verif.Props.MatrixSlice
import Mathlib.Analysis.SpecialFunctions.Exponential
import Mathlib.Analysis.Normed.Algebra.MatrixExponential
import Mathlib.Analysis.Calculus.MeanValue
import Mathlib.Analysis.Calculus.Deriv.Prod
import Mathlib.Analysis.Calculus.Deriv.Mul
import Mathlib.Analysis.Calculus.Deriv.Comp
import Mathlib.Analysis.Calculus.Deriv.Add
import Mathlib.Topology.Algebra.Module.FiniteDimension

/-!
# The matrix exponential solves linear differential equations
-/

namespace Harold

open Matrix Set NormedSpace

section ode
variable {k : Type} [Fintype k] [DecidableEq k]

/-- Entries of `t ↦ exp (t M)` are differentiable. -/
theorem hasDerivAt_exp_entry (M : Matrix k k ℝ) (t : ℝ) (i j : k) :
    HasDerivAt (fun s : ℝ => (exp (s • M)) i j) ((exp (t • M) * M) i j) t := by
  letI : SeminormedRing (Matrix k k ℝ) := Matrix.linftyOpSemiNormedRing
  letI : NormedRing (Matrix k k ℝ) := Matrix.linftyOpNormedRing
  letI : NormedAlgebra ℝ (Matrix k k ℝ) := Matrix.linftyOpNormedAlgebra
  have h := hasDerivAt_exp_smul_const (𝕂 := ℝ) M t
  let e : Matrix k k ℝ →ₗ[ℝ] ℝ :=
    { toFun := fun X => X i j, map_add' := fun _ _ => rfl, map_smul' := fun _ _ => rfl }
  exact (LinearMap.toContinuousLinearMap e).hasFDerivAt.comp_hasDerivAt t h

theorem exp_mulVec_of_deriv {M : Matrix k k ℝ} {z : ℝ → k → ℝ} {a b : ℝ} (hab : a ≤ b)
    (hc : ContinuousOn z (Icc a b))
    (hd : ∀ t ∈ Ico a b, HasDerivWithinAt z (M *ᵥ z t) (Ici t) t) :
    z b = exp ((b - a) • M) *ᵥ z a := by
  have key : ∀ t ∈ Icc a b, exp ((a - t) • M) *ᵥ z t = z a := by
    have hent : ∀ (i j : k) (t : ℝ), HasDerivAt (fun s : ℝ => (exp ((a - s) • M)) i j)
        (-((exp ((a - t) • M) * M) i j)) t := by
      intro i j t
      have h1 := hasDerivAt_exp_entry M (a - t) i j
      have h2 : HasDerivAt (fun s : ℝ => a - s) (-1) t := by
        simpa using (hasDerivAt_id t).const_sub a
      have h3 := h1.comp t h2
      rw [mul_neg_one] at h3
      exact h3
    have h := constant_of_has_deriv_right_zero (f := fun t => exp ((a - t) • M) *ᵥ z t) (a := a) (b := b)
      ?_ ?_
    · intro t ht
      have := h t ht
      simpa using this
    · refine continuousOn_pi.mpr fun i => ?_
      simp only [Matrix.mulVec, dotProduct]
      refine continuousOn_finsetSum _ fun j _ => ?_
      have h1 : ContinuousOn (fun t => (exp ((a - t) • M)) i j) (Icc a b) :=
        fun t _ => (hent i j t).continuousAt.continuousWithinAt
      exact h1.mul (continuousOn_pi.mp hc j)
    · intro t ht
      refine hasDerivWithinAt_pi.mpr fun i => ?_
      have h1 : ∀ j ∈ Finset.univ, HasDerivWithinAt
          (fun s => (exp ((a - s) • M)) i j * z s j)
          (-((exp ((a - t) • M) * M) i j) * z t j + (exp ((a - t) • M)) i j * (M *ᵥ z t) j)
          (Ici t) t := fun j _ =>
        (hent i j t).hasDerivWithinAt.mul (hasDerivWithinAt_pi.mp (hd t ht) j)
      have h2 := HasDerivWithinAt.fun_sum h1
      have h3 : ∑ j, (-((exp ((a - t) • M) * M) i j) * z t j
          + (exp ((a - t) • M)) i j * (M *ᵥ z t) j) = 0 := by
        rw [Finset.sum_add_distrib]
        have e1 : ∑ j, -((exp ((a - t) • M) * M) i j) * z t j
            = -((exp ((a - t) • M) * M) *ᵥ z t) i := by
          simp [Matrix.mulVec, dotProduct]
        have e2 : ∑ j, (exp ((a - t) • M)) i j * (M *ᵥ z t) j
            = (exp ((a - t) • M) *ᵥ (M *ᵥ z t)) i := rfl
        rw [e1, e2, Matrix.mulVec_mulVec]; ring
      rw [h3] at h2
      exact h2
  have h1 := key b ⟨hab, le_refl b⟩
  rw [← h1, Matrix.mulVec_mulVec, ← Matrix.exp_add_of_commute]
  · simp [← add_smul]
  · exact ((Commute.refl M).smul_left _).smul_right _

end ode

/-- Contract of `matrix_balance(·, permute=0, separate=1)`: the result is `D⁻¹ M D` for the
diagonal matrix `D` of the returned (nonzero) scaling vector. -/
def BalanceOk (E : DNum) : Prop :=
  ∀ {n : ℕ} (M : Matrix (Fin n) (Fin n) ℝ), (∀ i, (E.balance M).2 i ≠ 0) ∧
    ∀ i j, (E.balance M).1 i j = M i j * (E.balance M).2 j / (E.balance M).2 i

theorem balExp_of {E : DNum} (hE : BalanceOk E) {n : ℕ} (M : Matrix (Fin n) (Fin n) ℝ) (t : ℝ) :
    balExp E (Arr.of M) t = .ok (Arr.of (exp (t • M))) := by
  obtain ⟨h1, h2⟩ := hE M
  have hU : IsUnit (diagonal (E.balance M).2) := by
    rw [Matrix.isUnit_iff_isUnit_det, Matrix.det_diagonal]
    exact (Finset.prod_ne_zero_iff.mpr fun i _ => h1 i).isUnit
  have hinv : (diagonal (E.balance M).2)⁻¹ = diagonal fun i => ((E.balance M).2 i)⁻¹ := by
    refine Matrix.inv_eq_right_inv ?_
    rw [Matrix.diagonal_mul_diagonal, ← Matrix.diagonal_one]
    congr 1; funext i; exact mul_inv_cancel₀ (h1 i)
  have hs : t • (E.balance M).1 = (diagonal (E.balance M).2)⁻¹ * (t • M) * diagonal (E.balance M).2 := by
    rw [hinv]
    ext i j
    rw [Matrix.mul_diagonal, Matrix.diagonal_mul, Matrix.smul_apply, h2, Matrix.smul_apply,
      smul_eq_mul, smul_eq_mul]
    ring
  simp only [balExp, dif_pos]
  congr 2
  have e : M.submatrix id (Fin.cast rfl) = M := rfl
  rw [e, hs, Matrix.exp_conj' _ _ hU, hinv]
  ext i j
  rw [unscale, Matrix.of_apply, Matrix.mul_diagonal, Matrix.diagonal_mul]
  have := h1 i
  have := h1 j
  field_simp

theorem blk_of_submatrix {r k n m : ℕ} (X : Matrix (Fin (r + k)) (Fin (n + m)) ℝ) :
    X = blk (X.submatrix (Fin.castAdd k) (Fin.castAdd m)) (X.submatrix (Fin.castAdd k) (Fin.natAdd n))
      (X.submatrix (Fin.natAdd r) (Fin.castAdd m)) (X.submatrix (Fin.natAdd r) (Fin.natAdd n)) := by
  ext i j
  obtain ⟨i, rfl⟩ := finSumFinEquiv.surjective i
  obtain ⟨j, rfl⟩ := finSumFinEquiv.surjective j
  rcases i with i | i <;> rcases j with j | j <;> simp [blk]

/-- Cutting a matrix after row `r` and column `n`. -/
theorem cut4_of {r k n m : ℕ} (X : Matrix (Fin (r + k)) (Fin (n + m)) ℝ) :
    (Arr.of X).cut4 r n
      = (Arr.of (X.submatrix (Fin.castAdd k) (Fin.castAdd m)),
        Arr.of (X.submatrix (Fin.castAdd k) (Fin.natAdd n)),
        Arr.of (X.submatrix (Fin.natAdd r) (Fin.castAdd m)),
        Arr.of (X.submatrix (Fin.natAdd r) (Fin.natAdd n))) := by
  have h1 : cutAt (Arr.of X).r (r : ℤ) = r := cutAt_of_le (by simp)
  have h2 : cutAt (Arr.of X).c (n : ℤ) = n := cutAt_of_le (by simp)
  conv_lhs => rw [Arr.cut4]
  simp only [h1, h2]
  conv_lhs => rw [blk_of_submatrix X]
  rw [split4_blk]

theorem topBlocks_of {k n m : ℕ} (X : Matrix (Fin (n + k)) (Fin (n + m)) ℝ) :
    topBlocks (Arr.of X) n = (Arr.of (X.submatrix (Fin.castAdd k) (Fin.castAdd m)),
      Arr.of (X.submatrix (Fin.castAdd k) (Fin.natAdd n))) := by
  simp only [topBlocks, cut4_of]

/-- `cut4` with all rows kept. -/
theorem cut4_full {r n m : ℕ} (X : Matrix (Fin r) (Fin (n + m)) ℝ) :
    ((Arr.of X).cut4 r n).1 = Arr.of (X.submatrix id (Fin.castAdd m)) ∧
    ((Arr.of X).cut4 r n).2.1 = Arr.of (X.submatrix id (Fin.natAdd n)) := by
  have h := cut4_of (r := r) (k := 0) X
  exact ⟨congrArg Prod.fst h, congrArg (fun t => t.2.1) h⟩

end Harold
