import Mathlib.Data.Real.Basic
import Mathlib.Data.Matrix.Mul
import Verif.Spec.TF

/-!
# Specification: models with another unit of time
-/

namespace Harold.Spec

open Matrix

/-- The continuous time model `G'` is `G` with time measured in multiples of `τ`: with `t = τ t'` the equation `dx/dt = A x + B u` becomes `dx/dt' = τ A x + τ B u`. -/
def Rescaled {n m p : ℕ} (τ : ℝ) (A : Matrix (Fin n) (Fin n) ℝ) (B : Matrix (Fin n) (Fin m) ℝ) (C : Matrix (Fin p) (Fin n) ℝ) (D : Matrix (Fin p) (Fin m) ℝ) (G G' : StateM ℝ) : Prop :=
  G = ⟨Arr.of A, Arr.of B, Arr.of C, Arr.of D, none, false⟩ ∧ G' = ⟨Arr.of (τ • A), Arr.of (τ • B), Arr.of C, Arr.of D, none, false⟩

end Harold.Spec
