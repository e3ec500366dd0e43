import Verif.Spec.SimTransfer

/-!
# Specification: the number of states
-/

namespace Harold.Spec

/-- The number of states of a model, zero for a static gain. -/
def order (g : StateM ℝ) : ℕ := if g.isgain then 0 else g.a.r

/-- No model with the same transfer matrix has fewer states. -/
def LeastOrder (g : StateM ℝ) (p m : ℕ) : Prop := ∀ g', Consistent g' p m → SameTF g g' p m → order g ≤ order g'

end Harold.Spec
