import Mathlib.LinearAlgebra.Matrix.NonsingularInverse
import Mathlib.Analysis.Complex.Basic

/-!
# Specification: quadratic forms of complex vectors
-/

namespace Harold.Spec

open Matrix

/-- `w* R w` for a real symmetric matrix `R` and a complex vector `w`. -/
def energy {m : ℕ} (R : Matrix (Fin m) (Fin m) ℝ) (w : Fin m → ℂ) : ℝ :=
  (fun i => (w i).re) ⬝ᵥ R *ᵥ (fun i => (w i).re) + (fun i => (w i).im) ⬝ᵥ R *ᵥ (fun i => (w i).im)

end Harold.Spec
