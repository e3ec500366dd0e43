import Mathlib.Data.Matrix.Mul
import Mathlib.Data.Real.Basic

/-!
# Positive quadratic forms

What a user checks on the solution of a Lyapunov equation.
-/

namespace Harold.Spec

open Matrix

/-- The quadratic form of `X` is positive outside the origin. -/
def PosForm {n : ℕ} (X : Matrix (Fin n) (Fin n) ℝ) : Prop := ∀ x, x ≠ 0 → 0 < x ⬝ᵥ X *ᵥ x

/-- The quadratic form of `X` is nowhere negative. -/
def NonnegForm {n : ℕ} (X : Matrix (Fin n) (Fin n) ℝ) : Prop := ∀ x, 0 ≤ x ⬝ᵥ X *ᵥ x

end Harold.Spec
