import Verif.Model.MatrixSlice
import Verif.Model.State

/-!
# `lqr`

Models `/repo/harold/_static_ctrl_design.py:15-133` for `State` models; a `Transfer` is first converted by `transfer_to_state` (line 86).
Simplification: the weights are two dimensional arrays.
-/

namespace Harold

open Matrix

variable {K : Type} [Field K] [LinearOrder K]

/-- `scipy.linalg.solve_continuous_are(a, b, q, r, s=s)` and `solve_discrete_are`; they check the shapes and can fail. -/
structure AreNum (K : Type) where
  care : Arr K → Arr K → Arr K → Arr K → Option (Arr K) → Res (Arr K)
  dare : Arr K → Arr K → Arr K → Arr K → Option (Arr K) → Res (Arr K)

/-- `'output'`. Strings are lists of characters here. -/
def strOutput : List Char := ['o', 'u', 't', 'p', 'u', 't']

/-- `'state'`. -/
def strState : List Char := ['s', 't', 'a', 't', 'e']

/-- `weight_on.lower() in ('state, output')` (`_static_ctrl_design.py:82`): the parentheses do not make a tuple, so this is a substring test. Simplification: `lower`
only changes the letters A-Z. -/
def weightAccepted (w : List Char) : Prop := w.map Char.toLower <:+: strState ++ [',', ' '] ++ strOutput

instance (w : List Char) : Decidable (weightAccepted w) := by unfold weightAccepted; infer_instance

/-- `fact` for given `S` (`_static_ctrl_design.py:112-118`). -/
def lqrFact (p m : ℕ) (q r : Arr K) (s : Option (Arr K)) : Res (Arr K) :=
  match s with
  | none => .ok (q.blockDiag r)
  | some s =>
    if s.r ≠ p ∨ s.c ≠ m then .error .value
    else do
      let top ← Arr.hstack q s
      let bot ← Arr.hstack s.T r
      Arr.vstack top bot

/-- The weights on the states for weights on the outputs (`_static_ctrl_design.py:101-121`): `Q, S, R`. -/
def lqrOutput (G : StateM K) (q r : Arr K) (s : Option (Arr K)) : Res (Arr K × Arr K × Arr K) :=
  if q.r ≠ G.d.r ∨ q.r ≠ q.c then .error .value
  else if r.r ≠ G.d.c ∨ r.r ≠ r.c then .error .value
  else do
    let top ← Arr.hstack G.c G.d
    let bot ← Arr.hstack (Arr.zeros G.d.c G.a.r) (Arr.eye G.d.c)
    let mat ← Arr.vstack top bot
    let fact ← lqrFact G.d.r G.d.c q r s
    let x ← mat.T.matmul fact
    let fact ← x.matmul mat
    let f ← matrixSlice fact G.d.c G.d.c "se"
    .ok (f.1, f.2.1, f.2.2.2)

/-- `M` or `M + S.T`. -/
def lqrAddCross (x : Arr K) (s : Option (Arr K)) : Res (Arr K) :=
  match s with
  | none => .ok x
  | some s => x.add s.T

/-- The Riccati equation and the gain (`_static_ctrl_design.py:122-131`): `K`, `X` and the matrix `A - B K` whose eigenvalues are returned. -/
noncomputable def lqrSolve (N : AreNum K) (G : StateM K) (q r : Arr K) (s : Option (Arr K)) : Res (Arr K × Arr K × Arr K) := do
  let x ← if G.dt.isNone then N.care G.a G.b q r s else N.dare G.a G.b q r s
  let bx ← G.b.T.matmul x
  let k ← if G.dt.isNone then do
      let y ← lqrAddCross bx s
      Arr.solve r y
    else do
      let bxb ← bx.matmul G.b
      let lhs ← bxb.add r
      let bxa ← bx.matmul G.a
      let y ← lqrAddCross bxa s
      Arr.solve lhs y
  let bk ← G.b.matmul k
  let acl ← G.a.sub bk
  .ok (k, x, acl)

/-- `lqr(G, Q, R, S, weight_on)` (`_static_ctrl_design.py:15-133`). -/
noncomputable def lqr (N : AreNum K) (G : StateM K) (q : Arr K) (r s : Option (Arr K)) (w : List Char) : Res (Arr K × Arr K × Arr K) :=
  if G.isgain then .error .value
  else if ¬ weightAccepted w then .error .value
  else
    let r := r.getD (Arr.eye G.d.c)
    if w = strOutput then do
      let f ← lqrOutput G q r s
      lqrSolve N G f.1 f.2.2 (some f.2.1)
    else lqrSolve N G q r s

end Harold
