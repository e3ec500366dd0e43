import Verif.Lemmas.Sim
import Verif.Model.AutoGrid

/-!
# Specification for C60
-/

namespace Harold.Spec

/-- An equidistant increasing grid `0, ts, 2 ts, ...` of at least two samples, with the sampling period of
a discrete model as increment. -/
def UsableGrid (dt : Option ℝ) (t : List ℝ) : Prop :=
  ∃ (N : ℕ) (ts : ℝ), 2 ≤ N ∧ 0 < ts ∧ t = (List.range N).map (fun k : ℕ => (k : ℝ) * ts) ∧ ∀ h, dt = some h → ts = h

/-- `z` counts as unstable (`|z| ≥ 1 + 2^-26`). -/
def Unstable (z : ℂ) : Prop := 1 + (1 / 2 : ℝ) ^ 26 ≤ ‖z‖

/-- `z` counts as a negative real number. -/
def NegReal (z : ℂ) : Prop := z.re < 0 ∧ |z.im| < (1 / 2 : ℝ) ^ 26

end Harold.Spec
