import Verif.Spec.Freq
import Verif.Spec.TF

/-!
# Specification: passive models
-/

namespace Harold.Spec

open Matrix

/-- At every frequency `ω` the transfer matrix `M` has a value with positive semidefinite Hermitian part, `Re v* M v ≥ 0`. -/
def Passive (G : StateM ℝ) (m : ℕ) : Prop :=
  ∀ ω : ℝ, ∃ M : Matrix (Fin m) (Fin m) ℂ, HasTF G m m (evalPoint G.dt ω) M ∧ ∀ v : Fin m → ℂ, 0 ≤ (star v ⬝ᵥ M *ᵥ v).re

/-- ... with positive definite Hermitian part. -/
def StrictlyPassive (G : StateM ℝ) (m : ℕ) : Prop :=
  ∀ ω : ℝ, ∃ M : Matrix (Fin m) (Fin m) ℂ, HasTF G m m (evalPoint G.dt ω) M ∧ ∀ v : Fin m → ℂ, v ≠ 0 → 0 < (star v ⬝ᵥ M *ᵥ v).re

end Harold.Spec
