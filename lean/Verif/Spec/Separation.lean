import Verif.Model.State
import Mathlib.Data.Real.Basic
import Mathlib.Data.Matrix.Mul

/-!
# Observer-based controllers
-/

namespace Harold.Spec

open Matrix

/-- The controller that runs a copy of the model, corrects it with the measured output through `L` and feeds back its state through `F`:
`x̂' = A x̂ - B F x̂ + L (y - C x̂ + D F x̂)` with output `F x̂`, to be connected with negative feedback. -/
def observerController {n m p : ℕ} (A : Matrix (Fin n) (Fin n) ℝ) (B : Matrix (Fin n) (Fin m) ℝ) (C : Matrix (Fin p) (Fin n) ℝ) (D : Matrix (Fin p) (Fin m) ℝ)
    (F : Matrix (Fin m) (Fin n) ℝ) (L : Matrix (Fin n) (Fin p) ℝ) (dt : Option ℝ) : StateM ℝ :=
  ⟨Arr.of (A - B * F - L * (C - D * F)), Arr.of L, Arr.of F, Arr.of (0 : Matrix (Fin m) (Fin p) ℝ), dt, false⟩

end Harold.Spec
