import Verif.Model.Kalman

/-!
# `controllability_matrix` and `observability_matrix` with all their arguments

Models `_state_or_abcd` (`/repo/harold/_classes.py:3266-3360`) for `n = 2` and `n = -1`, the only values
used in harold, and `/repo/harold/_kalman_ops.py:12-110, 255-314` with the argument `compress`.
-/

namespace Harold

variable {K : Type} [Field K] [LinearOrder K]

/-- The argument `G`: a `State`, a tuple of 2-D arrays, or something else. -/
inductive ModelArg (K : Type) where
  | state (G : StateM K)
  | tuple (l : List (Arr K))
  | other

/-- `_state_or_abcd(G, 2)` and the selection of `A, B` (`_classes.py:3316-3335`, `_kalman_ops.py:41-46`).
A tuple with one array is taken for a static gain: four values are returned, unpacking them into two
raises `ValueError`. Further arrays are ignored. -/
def ModelArg.ab : ModelArg K → Res (Arr K × Arr K)
  | .state G => .ok (G.a, G.b)
  | .tuple [] => .error .index
  | .tuple [_] => .error .value
  | .tuple (a :: b :: _) => do
    checkAB a b
    .ok (a, b)
  | .other => .error .value

/-- `_state_or_abcd(G, -1)` and the selection of `A, C` (`_classes.py:3316-3321, 3351-3358`,
`_kalman_ops.py:91-98`). -/
def ModelArg.ac : ModelArg K → Res (Arr K × Arr K)
  | .state G => .ok (G.a, G.c)
  | .tuple [] => .error .index
  | .tuple [_] => .error .value
  | .tuple (a :: c :: _) => do
    checkAC a c
    .ok (a, c)
  | .other => .error .value

/-- The `return` statements of `controllability_matrix` (`_kalman_ops.py:53-59`): `S.dot(V.T), T, r` if
`compress`, else `Cc, T, r`. -/
def ctrbReturn (S : SvdNum K) (Cc : Arr K) (compress : Bool) : Res (Arr K × Arr K × ℕ) := do
  let (T, s, V, r) ← haroldsvd S Cc
  if compress then do
    let M ← s.matmul V.T
    .ok (M, T, r)
  else .ok (Cc, T, r)

/-- `controllability_matrix(G, compress)` (`_kalman_ops.py:12-59`). -/
def controllabilityMatrixArg (S : SvdNum K) (G : ModelArg K) (compress : Bool) : Res (Arr K × Arr K × ℕ) := do
  let (a, b) ← G.ab
  let Cc ← ctrbLoop a b
  ctrbReturn S Cc compress

/-- The `return` statements of `observability_matrix` (`_kalman_ops.py:105-110`): `T.dot(S), V.T, r` if
`compress`, else `Co, V, r`. -/
def obsvReturn (S : SvdNum K) (Co : Arr K) (compress : Bool) : Res (Arr K × Arr K × ℕ) := do
  let (T, s, V, r) ← haroldsvd S Co
  if compress then do
    let M ← T.matmul s
    .ok (M, V.T, r)
  else .ok (Co, V, r)

/-- `observability_matrix(G, compress)` (`_kalman_ops.py:62-110`). -/
def observabilityMatrixArg (S : SvdNum K) (G : ModelArg K) (compress : Bool) : Res (Arr K × Arr K × ℕ) := do
  let (a, c) ← G.ac
  let Co ← obsvLoop a c
  obsvReturn S Co compress

/-- `is_kalman_controllable(G)` (`_kalman_ops.py:255-284`). -/
def isKalmanControllableArg (S : SvdNum K) (G : ModelArg K) : Res Bool := do
  let (a, b) ← G.ab
  let r ← controllabilityMatrixArg S (.tuple [a, b]) false
  .ok (if r.2.2 < a.r then false else true)

/-- `is_kalman_observable(G)` (`_kalman_ops.py:287-314`). -/
def isKalmanObservableArg (S : SvdNum K) (G : ModelArg K) : Res Bool := do
  let (a, c) ← G.ac
  let r ← observabilityMatrixArg S (.tuple [a, c]) false
  .ok (if r.2.2 < a.r then false else true)

end Harold
