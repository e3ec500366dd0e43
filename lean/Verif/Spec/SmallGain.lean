import Verif.Spec.Freq
import Verif.Spec.TF
import Mathlib.Analysis.CStarAlgebra.Matrix

/-!
# Specification: a bound of the gain over all frequencies
-/

namespace Harold.Spec

open Matrix
open scoped Matrix.Norms.L2Operator

/-- At every frequency `ω`, that is at `s = iω`, or at `z = exp(iω dt)` for models with a sampling period, the transfer matrix has a value and its largest singular value is at most `γ`. -/
def GainBound (G : StateM ℝ) (p m : ℕ) (γ : ℝ) : Prop :=
  ∀ ω : ℝ, ∃ M : Matrix (Fin p) (Fin m) ℂ, HasTF G p m (evalPoint G.dt ω) M ∧ ‖M‖ ≤ γ

end Harold.Spec
