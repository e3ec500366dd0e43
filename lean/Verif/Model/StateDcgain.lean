import Verif.Model.MinrealState
import Verif.Model.Dcgain

/-!
# `State.dcgain`

Models `/repo/harold/_system_funcs.py:536-582`.
-/

namespace Harold

open Matrix

variable {K : Type} [Field K] [LinearOrder K]

/-- `v + d` for a number `d`. -/
def DcVal.addNum (v : DcVal K) (d : K) : DcVal K :=
  match v with
  | .fin x => .fin (x + d)
  | .inf => .inf
  | .nan => .nan

/-- `R[R > 1/np.spacing(1.)] = np.inf` (`_system_funcs.py:551`), one entry; `big` is `1/np.spacing(1.)`. -/
def capAbove (big x : K) : DcVal K := if big < x then .inf else .fin x

/-- `if abs(val) > 1/np.spacing(1.): val = np.inf` (`_system_funcs.py:573-574`). -/
def capAbs (big x : K) : DcVal K := if big < |x| then .inf else .fin x

/-- `R + self.d` (`_system_funcs.py:552, 579`); both arrays have the same shape, broadcasting is not needed. -/
def dcPlus (R : Arr (DcVal K)) (d : Arr K) : Res (Arr (DcVal K)) :=
  if h : R.r = d.r ∧ R.c = d.c then .ok (Arr.of (Matrix.of fun (i : Fin R.r) (j : Fin R.c) => (R.m i j).addNum (d.m (Fin.cast h.1 i) (Fin.cast h.2 j))))
  else .error .value

/-- `np.eye(aa.shape[0]) - aa if self._dt else -aa` (`_system_funcs.py:550`). -/
def dcMatrix (dt : Option K) (aa : Arr K) : Res (Arr K) := if dt.isSome then Arr.sub (Arr.eye aa.r) aa else .ok aa.neg

/-- The body of the outer `try` (`_system_funcs.py:547-552`). For an `aa` without rows `solve` is assumed to return an empty array. -/
noncomputable def dcFirst (S : SvdNum K) (N : MinNum K) (tol big : K) (G : StateM K) : Res (Arr (DcVal K)) := do
  let q ← minrealMatrices S N tol G.a G.b G.c
  let x ← dcMatrix G.dt q.1
  let y ← Arr.solve x q.2.1
  let R ← q.2.2.matmul y
  dcPlus (Arr.of (R.m.map (capAbove big))) G.d

/-- `aa -= np.eye(aa.shape[0])` if the model is discrete (`_system_funcs.py:566-568`), then `-aa`. -/
def dcMatrixCh (dt : Option K) (aa : Arr K) : Res (Arr K) := do
  let a ← if dt.isSome then Arr.sub aa (Arr.eye aa.r) else .ok aa
  .ok a.neg

/-- The body of the inner `try` (`_system_funcs.py:569-575`); `val` is a `1 × 1` array. -/
noncomputable def dcChannelVal (big : K) (x bb cc : Arr K) : Res (DcVal K) := do
  let y ← Arr.solve x bb
  let R ← cc.matmul y
  if h : 0 < R.r ∧ 0 < R.c then .ok (capAbs big (R.m ⟨0, h.1⟩ ⟨0, h.2⟩)) else .error .value

/-- `except LinAlgError: R[r, c] = np.inf` (`_system_funcs.py:576-578`). -/
def orInf (v : Res (DcVal K)) : Res (DcVal K) :=
  match v with
  | .error .linAlg => .ok .inf
  | v => v

/-- One pass of the inner loop (`_system_funcs.py:562-578`). -/
noncomputable def dcChannel (S : SvdNum K) (N : MinNum K) (tol big : K) (G : StateM K) (r c : ℕ) : Res (DcVal K) := do
  let q ← minrealMatrices S N tol G.a (G.b.slice 0 G.b.r c (c + 1)) (G.c.slice r (r + 1) 0 G.c.c)
  let x ← dcMatrixCh G.dt q.1
  orInf (dcChannelVal big x q.2.1 q.2.2)

/-- The loops over the channels (`_system_funcs.py:559-579`). -/
noncomputable def dcChannels (S : SvdNum K) (N : ℕ → MinNum K) (tol big : K) (G : StateM K) : Res (Arr (DcVal K)) := do
  let e ← matM fun (c : Fin G.d.c) (r : Fin G.d.r) => dcChannel S (N (1 + c * G.d.r + r)) tol big G r c
  dcPlus (Arr.of (Matrix.of fun (r : Fin G.d.r) (c : Fin G.d.c) => e c r)) G.d

/-- `except LinAlgError:` (`_system_funcs.py:554-579`). -/
noncomputable def dcSecond (S : SvdNum K) (N : ℕ → MinNum K) (tol big : K) (G : StateM K) (v : Res (Arr (DcVal K))) : Res (Arr (DcVal K)) :=
  match v with
  | .error .linAlg => if G.isSISO then .ok (Arr.of (Matrix.of fun (_ _ : Fin 1) => .inf)) else dcChannels S N tol big G
  | v => v

/-- `G.dcgain` (`_system_funcs.py:536-579`). `N i` are the routines used by call number `i` of `_minimal_realization_state`, `tol` is its default tolerance,
`big` is `1/np.spacing(1.)`. For a SISO model with infinite gain the code returns the number `inf`, here a `1 × 1` array. -/
noncomputable def StateM.dcgain (S : SvdNum K) (N : ℕ → MinNum K) (tol big : K) (G : StateM K) : Res (Arr (DcVal K)) :=
  if G.isgain then .ok (Arr.of (G.d.m.map DcVal.fin))
  else dcSecond S N tol big G (dcFirst S (N 0) tol big G)

end Harold
