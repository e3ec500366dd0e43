import Verif.Model.Discrete
import Verif.Model.ToTransfer
import Verif.Model.TransferObj

/-!
# `discretize` and `undiscretize` for `Transfer` models

Models the `Transfer` branches of `/repo/harold/_discrete_funcs.py:38-133` and `220-279`. Poles, zeros and the stability flag of the results
are not modelled here (see `Verif.Model.TransferObj`).
-/

namespace Harold

/-- A new `Transfer` instance with the data `G`; poles, zeros and the stability flag are left out. -/
def TransferObj.plain (G : TransferM ℝ) : TransferObj ℝ ℂ := ⟨G, (G.num.r, G.num.c), none, none, 0, [], [], false⟩

/-- Execute an assignment statement, propagating its exception. -/
noncomputable def TransferObj.set (E : TNum ℝ) (N : Numerics ℝ ℂ) (S : TransferObj ℝ ℂ) (x : TAssign ℝ) : Res (TransferObj ℝ ℂ) :=
  match S.assign E N x with
  | (S', none) => .ok S'
  | (_, some e) => .error e

/-- `_discretize(T, dt, method, prewarp_at, q)` for the result `T` of `transfer_to_state`. If `T` is a static gain its `NumberOfStates` is
`None`, and `zeros((m, m+n))` of lines 148 and 171 raises `TypeError`. -/
noncomputable def discArgsT (B : DNum) (T : StateM ℝ) (dt : ℝ) (method : String) (prewarp : ℝ) (q : Option (Arr ℝ)) :
    Res (Arr ℝ × Arr ℝ × Arr ℝ × Arr ℝ) :=
  if T.isgain ∧ (method = "zoh" ∨ method = "foh") then .error .type
  else discretizeArgs B T dt method prewarp q

/-- Lines 126-129: record the interconnection matrix or the prewarping frequency. -/
noncomputable def recordArgsT (E : TNum ℝ) (N : Numerics ℝ ℂ) (S : TransferObj ℝ ℂ) (method : String) (prewarp : ℝ) (q : Option (Arr ℝ)) :
    Res (TransferObj ℝ ℂ) :=
  if method = "lft" then S.set E N (.discretizationMatrix (q.getD Arr.empty))
  else if method ∈ tustinNames then S.set E N (.prewarpFrequency prewarp)
  else .ok S

/-- Lines 116-131: the dynamic case. -/
noncomputable def discretizeDynT (E : TNum ℝ) (N : Numerics ℝ ℂ) (B : DNum) (T : StateM ℝ) (dt : ℝ) (method : String) (prewarp : ℝ)
    (q : Option (Arr ℝ)) : Res (TransferObj ℝ ℂ) := do
  let r ← discArgsT B T dt method prewarp q
  let g ← mkState (some r.1) (some r.2.1) (some r.2.2.1) (some r.2.2.2) (some dt)
  let F ← stateToTransfer E N g
  let S ← (TransferObj.plain F).set E N (.discretizedWith method)
  let S ← recordArgsT E N S method prewarp q
  S.set E N (.samplingPeriod (some dt))

/-- `discretize(G, dt, method, prewarp_at, q)` (`_discrete_funcs.py:38-133`) for a `Transfer` `G`. -/
noncomputable def discretizeTransfer (E : TNum ℝ) (N : Numerics ℝ ℂ) (B : DNum) (G : TransferM ℝ) (dt : ℝ) (method : String) (prewarp : ℝ)
    (q : Option (Arr ℝ)) : Res (TransferObj ℝ ℂ) :=
  if method ∉ knownMethods then .error .value
  else if G.dt.isSome then .error .value
  else do
    let T ← transferToState E G
    if G.isgain then do
      let x ← G.toArray
      let F ← mkTransfer E (.arr x) .none (some dt)
      (TransferObj.plain F).set E N (.samplingPeriod (some dt))
    else discretizeDynT E N B T dt method prewarp q

/-- Lines 252-256: the method used. -/
def undiscMethodT (G : TransferObj ℝ ℂ) (method : Option String) : String :=
  method.getD (G.discWith.getD "tustin")

/-- Lines 258-267: the interconnection matrix used. -/
def undiscQT (G : TransferObj ℝ ℂ) (method : String) (q : Option (Arr ℝ)) : Res (Option (Arr ℝ)) :=
  if method = "lft" then
    if G.discMat.isNone ∧ q.isNone then .error .value
    else .ok (if q.isNone then G.discMat else q)
  else .ok q

/-- `_undiscretize(T, dt, method, prewarp_at, q)` for the result `T` of `transfer_to_state`; `NumberOfStates` of a static gain is `None`
(lines 297, 330). -/
noncomputable def undiscArgsT (B : DNum) (T : StateM ℝ) (dt : ℝ) (method : String) (prewarp : ℝ) (q : Option (Arr ℝ)) :
    Res (Arr ℝ × Arr ℝ × Arr ℝ × Arr ℝ) :=
  if T.isgain ∧ (method = "zoh" ∨ method = "foh") then .error .type
  else undiscretizeArgs B T dt method prewarp q

/-- `undiscretize(G, method, prewarp_at, q)` (`_discrete_funcs.py:220-279`) for a `Transfer` `G`. Line 271 passes the method object
`G.to_array` itself to `Transfer`, which raises `ValueError` (`_classes.py:1328-1334`). -/
noncomputable def undiscretizeTransfer (E : TNum ℝ) (N : Numerics ℝ ℂ) (B : DNum) (G : TransferObj ℝ ℂ) (method : Option String) (prewarp : ℝ)
    (q : Option (Arr ℝ)) : Res (TransferM ℝ) :=
  match G.g.dt with
  | none => .error .value
  | some dt => do
    let q ← undiscQT G (undiscMethodT G method) q
    if G.g.isgain then .error .value
    else do
      let T ← transferToState E G.g
      let r ← undiscArgsT B T dt (undiscMethodT G method) prewarp q
      let g ← mkState (some r.1) (some r.2.1) (some r.2.2.1) (some r.2.2.2) none
      stateToTransfer E N g

end Harold
