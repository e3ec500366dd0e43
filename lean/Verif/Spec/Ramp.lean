import Verif.Spec.TF
import Mathlib.Analysis.Calculus.Deriv.Basic
import Mathlib.Topology.Instances.Real.Lemmas
import Mathlib.Topology.Instances.Matrix

/-!
# Values and slopes of transfer matrices on the real line
-/

namespace Harold.Spec

open Matrix Filter Topology

/-- The transfer matrix of the model is defined near the real number `s`, has the value `M` there and the derivative `M'`. -/
def SlopeAt (G : StateM ℝ) (p m : ℕ) (s : ℝ) (M M' : Matrix (Fin p) (Fin m) ℝ) : Prop :=
  ∃ f : ℝ → Matrix (Fin p) (Fin m) ℝ, (∀ᶠ z in 𝓝 s, HasTF G p m z (f z)) ∧ f s = M ∧ ∀ i j, HasDerivAt (fun z => f z i j) (M' i j) s

/-- `(s - s₀) G(s)` is defined near `s₀` and tends to `K`. For `s₀ = 1` and discrete models (`s₀ = 0` and continuous ones) `K` is the velocity constant of the model. -/
def VelocityConst (G : StateM ℝ) (p m : ℕ) (s₀ : ℝ) (K : Matrix (Fin p) (Fin m) ℝ) : Prop :=
  ∃ f : ℝ → Matrix (Fin p) (Fin m) ℝ, (∀ᶠ z in 𝓝[≠] s₀, HasTF G p m z (f z)) ∧ Tendsto (fun z => (z - s₀) • f z) (𝓝[≠] s₀) (𝓝 K)

end Harold.Spec
