import Verif.Spec.Stable
import Verif.Model.State
import Mathlib.Analysis.Calculus.Deriv.Basic
import Mathlib.Analysis.Normed.Group.Constructions

/-!
# Specification: motions of `x⁺ = A x` and `x' = A x`
-/

namespace Harold.Spec

open Matrix Filter Topology

variable {n : ℕ}

/-- Every motion of the model without input dies out: `x(k+1) = A x(k)` for models with a sampling period, `x' = A x` otherwise. -/
def MotionsVanish (dt : Option ℝ) (A : Matrix (Fin n) (Fin n) ℝ) : Prop :=
  match dt with
  | some _ => ∀ x : ℕ → Fin n → ℝ, (∀ k, x (k + 1) = A *ᵥ x k) → Tendsto x atTop (𝓝 0)
  | none => ∀ x : ℝ → Fin n → ℝ, (∀ t, HasDerivAt x (A *ᵥ x t) t) → Tendsto x atTop (𝓝 0)

/-- The model has no states, or all its motions without input die out. -/
def StableModel (g : StateM ℝ) : Prop :=
  g.isgain = true ∨ ∃ (n : ℕ) (A : Matrix (Fin n) (Fin n) ℝ), g.a = Arr.of A ∧ MotionsVanish g.dt A

end Harold.Spec
