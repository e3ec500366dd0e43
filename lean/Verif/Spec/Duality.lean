import Mathlib.Data.Real.Basic
import Mathlib.Data.Matrix.Mul
import Verif.Spec.TF

/-!
# Specification: the transpose of a model
-/

namespace Harold.Spec

open Matrix

/-- `G'` is the transpose (the dual) of `G`: `State(A.T, C.T, B.T, D.T, dt)` for `State(A, B, C, D, dt)`. -/
def Transposed {n m p : ℕ} (A : Matrix (Fin n) (Fin n) ℝ) (B : Matrix (Fin n) (Fin m) ℝ) (C : Matrix (Fin p) (Fin n) ℝ) (D : Matrix (Fin p) (Fin m) ℝ) (dt : Option ℝ) (G G' : StateM ℝ) : Prop :=
  G = ⟨Arr.of A, Arr.of B, Arr.of C, Arr.of D, dt, false⟩ ∧ G' = ⟨Arr.of Aᵀ, Arr.of Cᵀ, Arr.of Bᵀ, Arr.of Dᵀ, dt, false⟩

end Harold.Spec
