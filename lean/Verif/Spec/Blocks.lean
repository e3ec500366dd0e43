import Verif.Model.Expr
import Verif.Model.Sim
import Verif.Spec.Sim

/-!
# Specification: the signals of a block diagram

A formula over models is a block diagram. Its signals are sampled: one row per sample, one column per channel.
-/

namespace Harold.Spec

open Matrix

variable {P : Type} {N : ℕ}

/-- The signals `U` at the input and `Y` at the output fit the block diagram of the formula, when `Block G` relates the input and the output of a single block `G`: signs change, signals are added and scaled, `e @ f` feeds the output of `f` to `e`, `e + k` adds `k` times the sum of all inputs to every output, `1 / e` exchanges the roles of input and output, and `feedback(e, f)` adds the output of `f`, which is driven by the output of the loop, to the input of `e` (or subtracts it). -/
def Signals (Block : ∀ (p m : ℕ), StateM ℝ → Matrix (Fin N) (Fin m) ℝ → Matrix (Fin N) (Fin p) ℝ → Prop) :
    {p m : ℕ} → SExpr ℝ p m → Matrix (Fin N) (Fin m) ℝ → Matrix (Fin N) (Fin p) ℝ → Prop
  | p, m, .model G, U, Y => Block p m G U Y
  | _, _, .neg e, U, Y => ∃ V, Signals Block e U V ∧ Y = -V
  | _, _, .add e f, U, Y => ∃ V W, Signals Block e U V ∧ Signals Block f U W ∧ Y = V + W
  | _, _, .sub e f, U, Y => ∃ V W, Signals Block e U V ∧ Signals Block f U W ∧ Y = V - W
  | _, _, .mul e f, U, Y => ∃ V, Signals Block f U V ∧ Signals Block e V Y
  | _, _, .scale k e, U, Y => ∃ V, Signals Block e U V ∧ Y = k • V
  | p, _, .shift e k, U, Y => ∃ V, Signals Block e U V ∧ Y = V + Matrix.of fun (i : Fin N) (_ : Fin p) => k * ∑ j, U i j
  | _, _, .inv e, U, Y => Signals Block e Y U
  | _, _, .loop negative e f, U, Y => ∃ V, Signals Block f Y V ∧ Signals Block e (U + (if negative then -1 else 1 : ℝ) • V) Y

/-- `simulate_linear_system`, called with any `State` object that holds the model `G`, the samples `U`, the time argument `targ` and no initial state, returns the samples `Y` and the times `t`. -/
def Simulated (Nm : Numerics ℝ P) (B : DNum) (targ : Option (List ℝ)) (t : List ℝ) (p m : ℕ) (G : StateM ℝ) (U : Matrix (Fin N) (Fin m) ℝ) (Y : Matrix (Fin N) (Fin p) ℝ) : Prop :=
  ∀ S : StateObj ℝ P, S.g = G → simulate Nm B S (Arr.of U) targ none false = .ok (.flat (Arr.of Y), t)

/-- The time argument of a simulation of `N` samples of a model with sampling period `h`, and the times that belong to it: nothing and `0, h, 2 h, ...`, or a time array of `N` points that fits the sampling period. -/
def TimesOk (N : ℕ) (h : ℝ) (targ : Option (List ℝ)) (t : List ℝ) : Prop :=
  (targ = none ∧ t = (List.range N).map fun k : ℕ => (k : ℝ) * h) ∨ (targ = some t ∧ GridOk t ∧ PeriodOk (some h) t ∧ t.length = N)

/-- The formula has only signs, sums, differences, scalar factors and scalar summands. -/
def Superposition {K : Type} : {p m : ℕ} → SExpr K p m → Prop
  | _, _, .model _ => True
  | _, _, .neg e => Superposition e
  | _, _, .add e f => Superposition e ∧ Superposition f
  | _, _, .sub e f => Superposition e ∧ Superposition f
  | _, _, .mul _ _ => False
  | _, _, .scale _ e => Superposition e
  | _, _, .shift e _ => Superposition e
  | _, _, .inv _ => False
  | _, _, .loop _ _ _ => False

end Harold.Spec
