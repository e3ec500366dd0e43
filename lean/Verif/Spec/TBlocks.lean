import Verif.Model.TExpr
import Verif.Model.SimTransfer
import Verif.Spec.Transfer

/-!
# Specification: the signals of a block diagram of `Transfer` models
-/

namespace Harold.Spec

open Matrix

variable {P : Type} {N : ℕ}

/-- Channel `j` of a signal. -/
def chan {m : ℕ} (U : Matrix (Fin N) (Fin m) ℝ) (j : Fin m) : Matrix (Fin N) (Fin 1) ℝ := Matrix.of fun k _ => U k j

/-- The signal with `V` in channel `j` and zero in all other channels. -/
def place {m : ℕ} (j : Fin m) (V : Matrix (Fin N) (Fin 1) ℝ) : Matrix (Fin N) (Fin m) ℝ := Matrix.of fun k l => if l = j then V k 0 else 0

/-- The signals `U` at the input and `Y` at the output fit the block diagram of the formula, when `Block G` relates the input and the output of a single block `G`. A SISO factor of `*` stands in every channel behind (`left`) or in front (`right`) of the other factor. A product `*` of equal shapes connects the corresponding entries: the answer of `f` at output `i` to input `j` is input `j` of `e`, of which output `i` is used, and the contributions of all `j` add up. -/
def TSignals (Block : ∀ (p m : ℕ), TransferM ℝ → Matrix (Fin N) (Fin m) ℝ → Matrix (Fin N) (Fin p) ℝ → Prop) :
    {p m : ℕ} → TExpr ℝ p m → Matrix (Fin N) (Fin m) ℝ → Matrix (Fin N) (Fin p) ℝ → Prop
  | p, m, .model G, U, Y => Block p m G U Y
  | _, _, .neg e, U, Y => ∃ V, TSignals Block e U V ∧ Y = -V
  | _, _, .add e f, U, Y => ∃ V W, TSignals Block e U V ∧ TSignals Block f U W ∧ Y = V + W
  | _, _, .sub e f, U, Y => ∃ V W, TSignals Block e U V ∧ TSignals Block f U W ∧ Y = V - W
  | p, m, .times e f, U, Y => ∃ (V : Fin m → Matrix (Fin N) (Fin p) ℝ) (W : Fin p → Fin m → Matrix (Fin N) (Fin p) ℝ), (∀ j, TSignals Block f (place j (chan U j)) (V j)) ∧
      (∀ i j, TSignals Block e (place j (chan (V j) i)) (W i j)) ∧ Y = Matrix.of fun k i => ∑ j, W i j k i
  | _, _, .left e f, U, Y => ∃ V, TSignals Block f U V ∧ ∀ i, TSignals Block e (chan V i) (chan Y i)
  | _, m, .right e f, U, Y => ∃ V : Matrix (Fin N) (Fin m) ℝ, (∀ j, TSignals Block f (chan U j) (chan V j)) ∧ TSignals Block e V Y
  | _, _, .mul e f, U, Y => ∃ V, TSignals Block f U V ∧ TSignals Block e V Y
  | _, _, .scale k e, U, Y => ∃ V, TSignals Block e U V ∧ Y = k • V
  | p, _, .shift e k, U, Y => ∃ V, TSignals Block e U V ∧ Y = V + Matrix.of fun (i : Fin N) (_ : Fin p) => k * ∑ j, U i j

/-- `simulate_linear_system`, called with the model `G`, the samples `U` and the time argument `targ`, returns the samples `Y` and the times `t`. -/
def TSimulated (E : TNum ℝ) (Nm : Numerics ℝ P) (B : DNum) (targ : Option (List ℝ)) (t : List ℝ) (p m : ℕ) (G : TransferM ℝ) (U : Matrix (Fin N) (Fin m) ℝ) (Y : Matrix (Fin N) (Fin p) ℝ) : Prop :=
  simulateTransfer E Nm B G (Arr.of U) targ none false = .ok (.flat (Arr.of Y), t)

/-- All factors of scalar multiples and all added scalars satisfy `Z`. -/
def TFactors {K : Type} (Z : K → Prop) : {p m : ℕ} → TExpr K p m → Prop
  | _, _, .model _ => True
  | _, _, .neg e => TFactors Z e
  | _, _, .add e f => TFactors Z e ∧ TFactors Z f
  | _, _, .sub e f => TFactors Z e ∧ TFactors Z f
  | _, _, .times e f => TFactors Z e ∧ TFactors Z f
  | _, _, .left e f => TFactors Z e ∧ TFactors Z f
  | _, _, .right e f => TFactors Z e ∧ TFactors Z f
  | _, _, .mul e f => TFactors Z e ∧ TFactors Z f
  | _, _, .scale k e => Z k ∧ TFactors Z e
  | _, _, .shift e k => Z k ∧ TFactors Z e

/-- All coefficients are integers, all denominators are monic. -/
def IntegerData (p m : ℕ) (G : TransferM ℝ) : Prop :=
  ∃ A D : Matrix (Fin p) (Fin m) (List ℤ), Normal G p m (Matrix.of fun i j => (A i j).map fun x : ℤ => (x : ℝ)) (Matrix.of fun i j => (D i j).map fun x : ℤ => (x : ℝ)) ∧
    ∀ i j, ∃ t, D i j = 1 :: t

/-- Integer coefficients, monic denominators, positive leading coefficients of the numerators, sampling period `dt`. -/
def PositiveInteger (dt : Option ℝ) (p m : ℕ) (G : TransferM ℝ) : Prop := IntegerData p m G ∧ G.dt = dt ∧ ∀ (i : Fin p) (j : Fin m), 0 < (G.num.entry i j).getD 0 0

end Harold.Spec
