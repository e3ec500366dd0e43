import Verif.Model.Feedback
import Verif.Model.ToTransfer

/-!
# `feedback` with `Transfer` operands

Models `/repo/harold/_bd_algebra.py:12-199` with all kinds of operands.
-/

namespace Harold

/-- An operand of `feedback`: a `State` model, a `Transfer` model, a scalar or an array. -/
inductive FbOp where
  | state (G : StateM ℝ)
  | transfer (G : TransferM ℝ)
  | gain (g : Gain ℝ)

/-- What `feedback` returns. -/
inductive FbRes where
  | state (G : StateM ℝ)
  | transfer (G : TransferM ℝ)

/-- The operands as `State` models and the flag `tf_convert` (`_bd_algebra.py:150-190`). -/
noncomputable def fbOperands (E : TNum ℝ) (G H : FbOp) : Res (StateM ℝ × StateM ℝ × Bool) :=
  match G, H with
  -- 155-156
  | .gain g, .gain h => do
    let g ← gainState g none
    let h ← gainState h none
    .ok (g, h, false)
  -- 158-176
  | .transfer G, .transfer H =>
    if G.dt ≠ H.dt then .error .value
    else do
      let g ← transferToState E G
      let h ← transferToState E H
      .ok (g, h, true)
  | .transfer G, .state H =>
    if G.dt ≠ H.dt then .error .value
    else do
      let g ← transferToState E G
      .ok (g, H, false)
  | .state G, .transfer H =>
    if G.dt ≠ H.dt then .error .value
    else do
      let h ← transferToState E H
      .ok (G, h, false)
  | .state G, .state H => if G.dt ≠ H.dt then .error .value else .ok (G, H, false)
  -- 180-185
  | .state G, .gain h => do
    let h ← gainState h G.dt
    .ok (G, h, false)
  | .transfer G, .gain h => do
    let h ← gainState h G.dt
    let g ← transferToState E G
    .ok (g, h, true)
  -- 186-190
  | .gain g, .state H => do
    let g ← gainState g H.dt
    .ok (g, H, false)
  | .gain g, .transfer H => do
    let g ← gainState g H.dt
    let h ← transferToState E H
    .ok (g, h, true)

/-- The conversion of the result (`_bd_algebra.py:94`, `105-108`, `126-129`). `Transfer(mat, dt=dt)` for two static models is what
`state_to_transfer` does with a static gain. -/
noncomputable def fbResult (E : TNum ℝ) (N : Numerics ℝ ℂ) (conv : Bool) (R : StateM ℝ) : Res FbRes :=
  if conv then .transfer <$> stateToTransfer E N R else .ok (.state R)

/-- `feedback(G, H, negative)` (`_bd_algebra.py:12-199`). The shapes are compared in lines 192-196. -/
noncomputable def feedbackAny (E : TNum ℝ) (N : Numerics ℝ ℂ) (G H : FbOp) (negative : Bool) : Res FbRes := do
  let x ← fbOperands E G H
  if x.1.p ≠ x.2.1.m ∨ x.1.m ≠ x.2.1.p then .error .value
  else do
    let R ← closeLoop x.1 x.2.1 negative
    fbResult E N x.2.2 R

end Harold
