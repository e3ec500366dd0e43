import Verif.Spec.Transfer
import Mathlib.Analysis.SpecialFunctions.Trigonometric.Basic

/-!
# Specification: discretization of `Transfer` models by substitution
-/

namespace Harold.Spec

variable {L : Type} [Field L] [Algebra ℝ L]

/-- The three substitution rules. -/
inductive Rule
  | tustin
  | forward
  | backward

/-- The method names of the rules. -/
def Rule.names : Rule → List String
  | .tustin => ["tustin", "bilinear"]
  | .forward => ["forward difference", "forward euler", "forward rectangular", ">>"]
  | .backward => ["backward difference", "backward euler", "backward rectangular", "<<"]

/-- `s` and `z` correspond to each other: `s = (2/dt) (z-1)/(z+1)`, `s = (z-1)/dt`, `s = (z-1)/(dt z)`. -/
def Rule.Related (dt : ℝ) (s z : L) : Rule → Prop
  | .tustin => z + 1 ≠ 0 ∧ s = 2 / algebraMap ℝ L dt * ((z - 1) / (z + 1))
  | .forward => s = (z - 1) / algebraMap ℝ L dt
  | .backward => z ≠ 0 ∧ s = (z - 1) / (algebraMap ℝ L dt * z)

/-- The finite point `s` that corresponds to `z = ∞`. -/
noncomputable def Rule.contAtInfinity (dt : ℝ) : Rule → Option ℝ
  | .tustin => some (2 / dt)
  | .forward => none
  | .backward => some (1 / dt)

/-- The finite point `z` that corresponds to `s = ∞`. -/
def Rule.discAtInfinity : Rule → Option ℝ
  | .tustin => some (-1)
  | .forward => none
  | .backward => some 0

/-- If the point is finite, no denominator of the model vanishes there. -/
def RegularAt (G : TransferM ℝ) (p m : ℕ) (x : Option ℝ) : Prop :=
  ∀ s, x = some s → ∃ M : Matrix (Fin p) (Fin m) ℝ, HasVal G p m s M

/-- Two `Transfer` models have the same values wherever both have one (all but finitely many points). -/
def SameValues (G F : TransferM ℝ) (p m : ℕ) : Prop :=
  ∀ (L : Type) [Field L] [Algebra ℝ L] (s : L) (M M' : Matrix (Fin p) (Fin m) L), HasVal G p m s M → HasVal F p m s M' → M = M'

end Harold.Spec
