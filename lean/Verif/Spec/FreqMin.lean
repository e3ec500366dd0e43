import Verif.Model.FreqMin
import Verif.Spec.Kalman

/-!
# Specification: balancing without permutations
-/

namespace Harold.Spec

open Matrix

/-- `matrix_balance` rescales the states and does not reorder them: the coordinates are a diagonal matrix. -/
def Scales (N : MinNum ℝ) : Prop :=
  ∀ {n : ℕ} (A : Matrix (Fin n) (Fin n) ℝ), ∃ d : Fin n → ℝ, (∀ i, d i ≠ 0) ∧
    N.bal (Arr.of A) = (Arr.of ((diagonal d)⁻¹ * A * diagonal d), Arr.of (diagonal d))

/-- Every state is seen by every single output. -/
def EachObservable {n p : ℕ} (A : Matrix (Fin n) (Fin n) ℝ) (C : Matrix (Fin p) (Fin n) ℝ) : Prop :=
  ∀ i : Fin p, Observable A (Matrix.of fun (_ : Fin 1) (j : Fin n) => C i j)

/-- The permutations of LAPACK's `gebal` for two states: the first row of a lower triangular matrix isolates an eigenvalue, it is exchanged with the last. -/
def Permutes (N : MinNum ℝ) : Prop :=
  ∀ x y g : ℝ, g ≠ 0 → N.bal (Arr.of (!![x, 0; g, y] : Matrix (Fin 2) (Fin 2) ℝ)) = (Arr.of (!![y, g; 0, x] : Matrix (Fin 2) (Fin 2) ℝ), Arr.of (!![0, 1; 1, 0] : Matrix (Fin 2) (Fin 2) ℝ))

end Harold.Spec
