import Verif.Spec.Coarse
import Verif.Model.FeedbackTransfer
import Verif.Spec.TF
import Verif.Spec.Transfer
import Verif.Spec.TransferInv

/-!
# Specification: operands and results of `feedback`
-/

namespace Harold.Spec

open Matrix

/-- The `Transfer` model `G` in normal form has `p` outputs, `m` inputs, the value `M` at `s` and the limit `D` for large arguments. -/
def TransferHas {L : Type} [Field L] [Algebra ℝ L] (G : TransferM ℝ) (p m : ℕ) (s : L) (M : Matrix (Fin p) (Fin m) L)
    (D : Matrix (Fin p) (Fin m) ℝ) : Prop :=
  ∃ A B, Normal G p m A B ∧ HasVal G p m s M ∧ AtInfinity A B D

/-- The operand has `p` outputs, `m` inputs, the value `M` at `s` and the feedthrough `D`. -/
def OpHas {L : Type} [Field L] [Algebra ℝ L] (G : FbOp) (p m : ℕ) (s : L) (M : Matrix (Fin p) (Fin m) L) (D : Matrix (Fin p) (Fin m) ℝ) : Prop :=
  match G with
  | .state G => HasTF G p m s M ∧ G.d = Arr.of D ∧ DtOk G.dt
  | .transfer G => TransferHas G p m s M D
  | .gain (.scalar k) => p = 1 ∧ m = 1 ∧ (D = fun _ _ => k) ∧ M = D.map (algebraMap ℝ L)
  | .gain (.vec v) => p = 1 ∧ ∃ h : m = v.length, (D = fun _ j => v.get (Fin.cast h j)) ∧ M = D.map (algebraMap ℝ L)
  | .gain (.arr x) => x = Arr.of D ∧ M = D.map (algebraMap ℝ L)

/-- If the operand is a `Transfer` model, its conversion meets no nonzero coefficients below the thresholds. -/
def OpClear (τl τr : ℝ) (G : FbOp) : Prop :=
  match G with
  | .transfer G => ClearModel τl τr G
  | _ => True

/-- The operand does not depend on the frequency. -/
def OpStatic (G : FbOp) : Prop :=
  match G with
  | .state G => G.isgain = true
  | .transfer G => ∃ (p m : ℕ) (A B : Matrix (Fin p) (Fin m) (List ℝ)), Normal G p m A B ∧ AllConstant A B
  | .gain _ => True

/-- The sampling period of a loop: that of its models. -/
def LoopDt (G H : FbOp) (dt : Option ℝ) : Prop :=
  (∀ S, G = .state S ∨ H = .state S → S.dt = dt) ∧ (∀ F, G = .transfer F ∨ H = .transfer F → F.dt = dt) ∧
  ((∃ g h, G = .gain g ∧ H = .gain h) → dt = none)

/-- The documented class of the result: a `Transfer` if one operand is a `Transfer` and none is a `State`. -/
def WantsTransfer (G H : FbOp) : Prop :=
  ((∃ F, G = .transfer F) ∨ ∃ F, H = .transfer F) ∧ (∀ S, G ≠ .state S) ∧ ∀ S, H ≠ .state S

/-- The result is of the documented class and has the value `M` at `s` and the sampling period `dt`. -/
def ResHas {L : Type} [Field L] [Algebra ℝ L] (G H : FbOp) (R : FbRes) (p m : ℕ) (s : L) (M : Matrix (Fin p) (Fin m) L) (dt : Option ℝ) : Prop :=
  (WantsTransfer G H ∧ ∃ F, R = .transfer F ∧ HasVal F p m s M ∧ F.dt = dt) ∨
  (¬ WantsTransfer G H ∧ ∃ S, R = .state S ∧ HasTF S p m s M ∧ S.dt = dt)

end Harold.Spec
