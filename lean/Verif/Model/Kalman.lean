import Verif.Model.Svd
import Verif.Model.State

/-!
# Kalman controllability, observability and decomposition

Models `/repo/harold/_kalman_ops.py`.
-/

namespace Harold

open Matrix

variable {K : Type} [Field K] [LinearOrder K]

/-- `np.linalg.matrix_power(x, k)`. -/
def Arr.pow (x : Arr K) : ℕ → Res (Arr K)
  | 0 => if x.r = x.c then .ok (Arr.eye x.r) else .error .linAlg
  | k + 1 => do
    let y ← x.pow k
    y.matmul x

/-- The loop of `controllability_matrix` (`_kalman_ops.py:47-51`). -/
def ctrbLoop (a b : Arr K) : Res (Arr K) :=
  (List.range' 1 (a.r - 1)).foldlM (fun acc i => do
    let P ← a.pow i
    let Y ← P.matmul b
    acc.hstack Y) b

/-- The checks of `_state_or_abcd((a, b), 2)` (`_classes.py:3316-3331`). -/
def checkAB (a b : Arr K) : Res Unit :=
  if a.r ≠ a.c then .error .linAlg else if b.r ≠ a.r then .error .value else .ok ()

/-- The checks of `_state_or_abcd((a, c), -1)` (`_classes.py:3316-3318`, `3351-3358`); the error message mentions an undefined name. -/
def checkAC (a c : Arr K) : Res Unit :=
  if a.r ≠ a.c then .error .linAlg else if c.c ≠ a.r then .error .unboundLocal else .ok ()

/-- `controllability_matrix((a, b))` (`_kalman_ops.py:12-59`): the matrix, the left factor of its singular value decomposition, the rank. -/
def controllabilityMatrix (S : SvdNum K) (a b : Arr K) : Res (Arr K × Arr K × ℕ) := do
  checkAB a b
  let Cc ← ctrbLoop a b
  let r ← haroldsvd S Cc
  .ok (Cc, r.1, r.2.2.2)

/-- The loop of `observability_matrix` (`_kalman_ops.py:99-103`). -/
def obsvLoop (a c : Arr K) : Res (Arr K) :=
  (List.range' 1 (a.r - 1)).foldlM (fun acc i => do
    let P ← a.pow i
    let Y ← c.matmul P
    acc.vstack Y) c

/-- `observability_matrix((a, c))` (`_kalman_ops.py:62-110`): the matrix, the factor `vh`, the rank. -/
def observabilityMatrix (S : SvdNum K) (a c : Arr K) : Res (Arr K × Arr K × ℕ) := do
  checkAC a c
  let Co ← obsvLoop a c
  let r ← haroldsvd S Co
  .ok (Co, r.2.2.1, r.2.2.2)

/-- `is_kalman_controllable` (`_kalman_ops.py:255-284`). -/
def isKalmanControllable (S : SvdNum K) (a b : Arr K) : Res Bool := do
  let r ← controllabilityMatrix S a b
  .ok (if r.2.2 < a.r then false else true)

/-- `is_kalman_observable` (`_kalman_ops.py:287-314`). -/
def isKalmanObservable (S : SvdNum K) (a c : Arr K) : Res Bool := do
  let r ← observabilityMatrix S a c
  .ok (if r.2.2 < a.r then false else true)

/-- `x[abs(x) < thr] = 0.`. -/
def Arr.clean (thr : K) (x : Arr K) : Arr K := Arr.of (x.m.map fun t => if |t| < thr then 0 else t)

/-- `x[r0:r1, c0:c1]`. -/
def Arr.slice (x : Arr K) (r0 r1 c0 c1 : ℕ) : Arr K :=
  Arr.of (Matrix.of fun (i : Fin (min r1 x.r - r0)) (j : Fin (min c1 x.c - c0)) => x.m ⟨r0 + i, by omega⟩ ⟨c0 + j, by omega⟩)

/-- `solve(T, a) @ T, solve(T, b), c @ T`, cleaned up (`_kalman_ops.py:197-202` and `226-233`). -/
noncomputable def kalmanApply (thr : K) (T a b c : Arr K) : Res (Arr K × Arr K × Arr K) := do
  let x ← T.solve a
  let a' ← x.matmul T
  let b' ← T.solve b
  let c' ← c.matmul T
  .ok (a'.clean thr, b'.clean thr, c'.clean thr)

/-- The first transformation and the rank (`_kalman_ops.py:190-195`). -/
def kalmanTc (S : SvdNum K) (a b : Arr K) : Res (Arr K × ℕ) := do
  let t ← isKalmanControllable S a b
  if t then .ok (Arr.eye a.r, a.r)
  else do
    let r ← controllabilityMatrix S a b
    .ok r.2

/-- The second transformation (`_kalman_ops.py:204-224`). -/
def kalmanTo (S : SvdNum K) (r : ℕ) (ac cc : Arr K) : Res (Arr K) :=
  if r ≠ ac.r then do
    let t1 ← observabilityMatrix S (ac.slice 0 r 0 r) (cc.slice 0 cc.r 0 r)
    let t2 ← observabilityMatrix S (ac.slice r ac.r r ac.c) (cc.slice 0 cc.r r cc.c)
    .ok (t1.2.1.blockDiag t2.2.1)
  else do
    let t ← isKalmanObservable S ac cc
    if t then .ok (Arr.eye ac.r)
    else do
      let r ← observabilityMatrix S ac cc
      .ok r.2.1

/-- `kalman_decomposition(G, compute_T=True, cleanup_threshold=thr)` (`_kalman_ops.py:113-252`). A static gain is returned without a transformation. -/
noncomputable def kalmanDecomposition (S : SvdNum K) (thr : K) (G : StateM K) : Res (StateM K × Option (Arr K)) :=
  if G.isgain then .ok (G, none)
  else do
    let t ← kalmanTc S G.a G.b
    let x ← kalmanApply thr t.1 G.a G.b G.c
    if t.2 = 0 then .error .value
    else do
      let To ← kalmanTo S t.2 x.1 x.2.2
      let y ← kalmanApply thr To x.1 x.2.1 x.2.2
      let R ← mkState (some y.1) (some y.2.1) (some y.2.2) (some G.d) G.dt
      let T ← t.1.matmul To
      .ok (R, some T)

end Harold
