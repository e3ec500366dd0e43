import Verif.Spec.Minimality
import Verif.Spec.Transfer

/-!
# Specification: a `Transfer` and a `State` with the same transfer matrix
-/

namespace Harold.Spec

open Filter

/-- The values of a `Transfer` and the transfer matrix of a `State` agree at all large enough real arguments. -/
def Agree (G : TransferM ℝ) (g : StateM ℝ) (p m : ℕ) : Prop :=
  ∀ᶠ s : ℝ in atTop, ∀ M M' : Matrix (Fin p) (Fin m) ℝ, HasVal G p m s M → HasTF g p m s M' → M = M'

end Harold.Spec
