import Verif.Model.TimePlotAny
import Verif.Spec.TF
import Verif.Spec.Transfer
import Mathlib.Order.Filter.AtTopBot.Basic

/-!
# Specification: a `State` model that stands for a model in a plot
-/

namespace Harold.Spec

open Filter

variable {P : Type}

/-- `S` has the values, the shape and the sampling period of the model `x`. For a `State` model it is the model itself. -/
def StandsFor (S : StateObj ℝ P) : PlotModel P → Prop
  | .state S' => S = S'
  | .transfer G => Consistent S.g G.p G.m ∧ S.g.dt = G.dt ∧
      ∀ᶠ s : ℝ in atTop, ∀ M M' : Matrix (Fin G.p) (Fin G.m) ℝ, HasVal G G.p G.m s M → HasTF S.g G.p G.m s M' → M = M'

end Harold.Spec
