import Verif.Spec.TF
import Mathlib.Topology.Instances.Matrix
import Mathlib.Topology.Instances.Real.Lemmas

/-!
# Specification for C137: how fast a transfer matrix decays at infinity
-/

namespace Harold.Spec

open Filter Topology

/-- The transfer matrix of the model decays like `L / s^d` for large arguments: `s^d G(s)` tends to `L`. -/
def HasDelay (g : StateM ℝ) (p m d : ℕ) (L : Matrix (Fin p) (Fin m) ℝ) : Prop :=
  ∃ f : ℝ → Matrix (Fin p) (Fin m) ℝ, (∀ᶠ s : ℝ in atTop, HasTF g p m s (f s)) ∧ Tendsto (fun s => s ^ d • f s) atTop (𝓝 L)

end Harold.Spec
