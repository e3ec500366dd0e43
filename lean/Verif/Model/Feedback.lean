import Verif.Model.MatrixSlice

/-!
# `feedback`

Models `/repo/harold/_bd_algebra.py` for `State` models, arrays and scalars. `Transfer` operands are
converted with `transfer_to_state` first (`Verif.Model.Convert`).
-/

namespace Harold

open Matrix

variable {K : Type} [Field K] [LinearOrder K]

/-- "The smallest singular value of the square matrix `D` is at most `τ`"
(`np.min(svdvals(D)) <= τ`): some nonzero vector is shrunk to length at most `τ` times its own. -/
def HasSVAtMost (τ : K) {n : ℕ} (D : Matrix (Fin n) (Fin n) K) : Prop :=
  ∃ x : Fin n → K, x ≠ 0 ∧ (D *ᵥ x) ⬝ᵥ (D *ᵥ x) ≤ τ ^ 2 * (x ⬝ᵥ x)

/-- `np.spacing(10.)`. -/
def spacing10 : K := 1 / 2 ^ 49

/-- An operand of `feedback`: a `State` model, a scalar or an array. -/
inductive FbArg (K : Type) where
  | state (G : StateM K)
  | gain (g : Gain K)

/-- `State(_check_for_int_float_array(x), dt=dt)` (`_arg_utils.py:59-96`): one-element arrays become
scalars, scalars `1 × 1` gains and 1-D arrays rows. Complex data is not modelled. -/
def gainState (g : Gain K) (dt : Option K) : Res (StateM K) :=
  match g with
  | .scalar k => mkGain (Arr.scalar k) dt
  | .vec v => mkGain (rowArr v) dt
  | .arr x => mkGain x dt

/-- `_check_for_feedback_ic` (`_bd_algebra.py:132-199`) without `Transfer` operands. -/
def checkFeedbackIc (G H : FbArg K) : Res (StateM K × StateM K) := do
  let (g, h) ← (match G, H with
    | .gain g, .gain h => do
      let g ← gainState g none
      let h ← gainState h none
      .ok (g, h)
    | .state G, .state H => if G.dt ≠ H.dt then .error .value else .ok (G, H)
    | .state G, .gain h => do
      let h ← gainState h G.dt
      .ok (G, h)
    | .gain g, .state H => do
      let g ← gainState g H.dt
      .ok (g, H) : Res (StateM K × StateM K))
  if g.p ≠ h.m ∨ g.m ≠ h.p then .error .value else .ok (g, h)

/-- `np.block([[x, y], [z, w]])`. -/
def block22 (x y z w : Arr K) : Res (Arr K) := do
  let top ← Arr.hstack x y
  let bot ← Arr.hstack z w
  Arr.vstack top bot

/-- `State(*matrix_slice(acl + sign * bcl @ solve(delta, ncl), (s, s)), dt=dt)`. -/
noncomputable def closeWith (acl bcl ncl delta : Arr K) (sign : K) (s : ℕ) (dt : Option K) :
    Res (StateM K) := do
  let x ← delta.solve ncl
  let y ← (bcl.smul sign).matmul x
  let M ← acl.add y
  let (a, b, c, d) ← matrixSlice M s s "nw"
  mkState (some a) (some b) (some c) (some d) dt

/-- The test of lines 83-84: `np.min(svdvals(delta)) <= m1 * np.spacing(10.)`. -/
def illPosed (m : ℕ) (delta : Arr K) : Prop :=
  ∃ h : delta.r = delta.c, HasSVAtMost (m * spacing10 : K) (delta.m.submatrix id (Fin.cast h))

/-- Lines 89-129 of `feedback`, after the well-posedness test. -/
noncomputable def closeBody (g h : StateM K) (sign : K) (nd delta : Arr K) : Res (StateM K) :=
  if g.isgain && h.isgain then
    -- 90-94: `mat` is only assigned when both gains are nonzero
    if g.d.any && h.d.any then do
      let x ← delta.solve nd
      let y ← g.d.matmul x
      let mat ← g.d.add (y.smul sign)
      mkGain mat g.dt
    else .error .unboundLocal
  else if !g.isgain && !h.isgain then do
    -- 96-104
    let lc ← h.b.matmul g.c
    let ld ← h.b.matmul g.d
    let nc ← h.d.matmul g.c
    let r1 ← Arr.hstack g.a (Arr.zeros g.n h.n)
    let r1 ← Arr.hstack r1 g.b
    let r2 ← Arr.hstack lc h.a
    let r2 ← Arr.hstack r2 ld
    let r3 ← Arr.hstack g.c (Arr.zeros g.p h.n)
    let r3 ← Arr.hstack r3 g.d
    let r12 ← Arr.vstack r1 r2
    let acl ← Arr.vstack r12 r3
    let b12 ← Arr.vstack g.b ld
    let bcl ← Arr.vstack b12 g.d
    let n12 ← Arr.hstack nc h.c
    let ncl ← Arr.hstack n12 nd
    closeWith acl bcl ncl delta sign (g.n + h.n) g.dt
  else if g.isgain then do
    -- 112-118
    let ld ← h.b.matmul g.d
    let acl ← block22 h.a ld (Arr.zeros g.p h.n) g.d
    let bcl ← Arr.vstack ld g.d
    let ncl ← Arr.hstack h.c nd
    closeWith acl bcl ncl delta sign h.n g.dt
  else do
    -- 119-125
    let nc ← h.d.matmul g.c
    let acl ← block22 g.a g.b g.c g.d
    let bcl ← Arr.vstack g.b g.d
    let ncl ← Arr.hstack nc nd
    closeWith acl bcl ncl delta sign g.n g.dt

open Classical in
/-- The body of `feedback` after the argument check (`_bd_algebra.py:49-129`). -/
noncomputable def closeLoop (g h : StateM K) (negative : Bool) : Res (StateM K) := do
  let nd ← h.d.matmul g.d
  -- 78: `delta = np.eye(m1) - n @ d` for both signs
  let delta ← (Arr.eye g.m).sub nd
  if illPosed g.m delta then .error .value
  else closeBody g h (if negative then -1 else 1) nd delta

/-- `feedback(G, H, negative)` (`_bd_algebra.py:12-129`). -/
noncomputable def feedback (G H : FbArg K) (negative : Bool) : Res (StateM K) := do
  let (g, h) ← checkFeedbackIc G H
  closeLoop g h negative

end Harold
