import Verif.Model.Stair
import Verif.Model.State

/-!
# `minimal_realization` of `State` models

Models `/repo/harold/_system_funcs.py:335-344` and `355-421`. `matrix_balance` and the number computed by `cancellation_distance` are parameters.
-/

namespace Harold

open Matrix

variable {K : Type} [Field K] [LinearOrder K]

/-- The numerical routines: `bal` is `scipy.linalg.matrix_balance`, returning the balanced matrix and the transformation, `dist k F G` the first number
`upper2` returned by the call of `cancellation_distance(F, G)` number `k` (it depends on random numbers). -/
structure MinNum (K : Type) where
  bal : Arr K → Arr K × Arr K
  dist : ℕ → Arr K → Arr K → K

/-- `cancellation_distance(F, G)` (`_system_funcs.py:225-295`): the checks of the shapes. For an empty `F`, line 287 takes the last element of an empty array. -/
def cancelDist (N : MinNum K) (k : ℕ) (f g : Arr K) : Res K :=
  if f.r ≠ f.c then .error .value
  else if f.r ≠ g.r then .error .value
  else if f.r = 0 then .error .index
  else .ok (N.dist k f g)

/-- The removal of uncontrollable states (`_system_funcs.py:392-400`). -/
def kcLoop (N : MinNum K) (tol : K) : ℕ → ℕ → K → Arr K → Arr K → Arr K → Res (Arr K × Arr K × Arr K)
  | 0, _, _, a, b, c => .ok (a, b, c)
  | fuel + 1, k, kc, a, b, c =>
    if kc ≤ tol then
      let a := a.slice 0 (a.r - 1) 0 (a.c - 1)
      let b := b.slice 0 (b.r - 1) 0 b.c
      let c := c.slice 0 c.r 0 (c.c - 1)
      if a.r = 0 then .ok (a, b, c)
      else do
        let kc ← cancelDist N k a b
        kcLoop N tol fuel (k + 1) kc a b c
    else .ok (a, b, c)

/-- The removal of unobservable states (`_system_funcs.py:409-416`). -/
def koLoop (N : MinNum K) (tol : K) : ℕ → ℕ → K → Arr K → Arr K → Arr K → Res (Arr K × Arr K × Arr K)
  | 0, _, _, a, b, c => .ok (a, b, c)
  | fuel + 1, k, ko, a, b, c =>
    if ko ≤ tol then
      let a := a.slice 1 a.r 1 a.c
      let b := b.slice 1 b.r 0 b.c
      let c := c.slice 0 c.r 1 c.c
      if a.r = 0 then .ok (a, b, c)
      else do
        let ko ← cancelDist N k a b
        koLoop N tol fuel (k + 1) ko a b c
    else .ok (a, b, c)

/-- `if kc <= tol:` (`_system_funcs.py:388-405`). -/
def minrealC (N : MinNum K) (tol kc ko : K) (a b c ac bc cc : Arr K) : Res ((Arr K × Arr K × Arr K) × K) :=
  if kc ≤ tol then do
    let q ← kcLoop N tol a.r 2 kc ac bc cc
    let ko ← cancelDist N (2 + a.r) q.1.T q.2.2.T
    .ok (q, ko)
  else .ok ((a, b, c), ko)

/-- `if ko <= tol:` (`_system_funcs.py:408-419`). -/
def minrealO (S : SvdNum K) (N : MinNum K) (tol ko : K) (k : ℕ) (a b c : Arr K) : Res (Arr K × Arr K × Arr K) :=
  if ko ≤ tol then do
    let q ← staircase S "o" true a b c
    koLoop N tol a.r k ko q.1 q.2.1 q.2.2.1
  else .ok (a, b, c)

/-- `_minimal_realization_state(A, B, C, tol)` (`_system_funcs.py:355-421`). -/
noncomputable def minrealMatrices (S : SvdNum K) (N : MinNum K) (tol : K) (a b c : Arr K) : Res (Arr K × Arr K × Arr K) :=
  if a.r = 0 ∨ a.c = 0 then .ok (a, b, c)
  else do
    let t := N.bal a
    let b ← Arr.solve t.2 b
    let c ← c.matmul t.2
    let qc ← staircase S "c" false t.1 b c
    let qo ← staircase S "o" true t.1 b c
    let kc ← cancelDist N 0 qc.1 qc.2.1
    let ko ← cancelDist N 1 qo.1.T qo.2.2.1.T
    if tol < min kc ko then .ok (t.1, b, c)
    else do
      let q ← minrealC N tol kc ko t.1 b c qc.1 qc.2.1 qc.2.2.1
      minrealO S N tol q.2 (3 + a.r) q.1.1 q.1.2.1 q.1.2.2

/-- `minimal_realization(G, tol)` for a `State` model (`_system_funcs.py:335-344`). -/
noncomputable def minrealState (S : SvdNum K) (N : MinNum K) (tol : K) (G : StateM K) : Res (StateM K) :=
  if G.isgain then mkGain G.d none
  else do
    let q ← minrealMatrices S N tol G.a G.b G.c
    if 0 < q.1.r then mkState (some q.1) (some q.2.1) (some q.2.2) (some G.d) G.dt else mkGain G.d G.dt

end Harold
