import Verif.Spec.Stable
import Mathlib.Analysis.Complex.Exponential

/-!
# Sampling periods without aliasing
-/

namespace Harold.Spec

/-- Different eigenvalues stay different under `s ↦ exp (s dt)`. -/
def NoAlias {n : ℕ} (dt : ℝ) (A : Matrix (Fin n) (Fin n) ℝ) : Prop :=
  ∀ s₁ s₂ : ℂ, IsEig A s₁ → IsEig A s₂ → Complex.exp (s₁ * dt) = Complex.exp (s₂ * dt) → s₁ = s₂

end Harold.Spec
