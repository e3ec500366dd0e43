import Verif.Model.Transfer
import Verif.Model.StateObj

/-!
# `Transfer` objects as mutable records

Models the property setters of `Transfer` and `_recalc` (`/repo/harold/_classes.py:259-385`). As for `State`, an
assignment returns the object after the statement and the exception raised, if any.
-/

namespace Harold

variable {K P : Type}

/-- The attributes of a `Transfer` instance (`_classes.py:30-73`): `_num, _den, _isgain, _dt` (in `g`), `_shape`,
`_DiscretizedWith`, `_DiscretizationMatrix`, `_PrewarpFrequency`, `poles`, `zeros`, `_isstable`. -/
structure TransferObj (K P : Type) where
  g : TransferM K
  shape : ℕ × ℕ
  discWith : Option String
  discMat : Option (Arr K)
  prewarp : K
  poles : List P
  zeros : List P
  isstable : Bool

/-- `_set_stability` (`_classes.py:380-384`). -/
def TransferObj.setStability (N : Numerics K P) (S : TransferObj K P) : TransferObj K P :=
  { S with isstable := if S.g.dt.isSome then S.poles.all N.inDisc else S.poles.all N.inLeft }

section
variable [Field K] [LinearOrder K]

/-- The dynamic MIMO case of `_recalc` (`_classes.py:361-374`): poles and zeros. -/
noncomputable def TransferM.mimoPZ (E : TNum K) (N : Numerics K P) (G : TransferM K) : Res (List P × List P) := do
  let r ← t2sTuple E (.lists G.num) (.lists G.den)
  match r.1 with
  | some (a, b, c) => .ok (N.eig a, N.tz a b c r.2)
  | none => do
    let r ← t2sTuple E (.lists (constArr G.p G.m [1])) (.lists G.den)
    let q := N.eig ((r.1.map fun x => x.1).getD Arr.empty)
    .ok (q, q)

/-- `_recalc` (`_classes.py:347-378`). In the SISO case the poles are stored before the zeros are computed. `eigvals` of the
1-D array that `haroldcompanion` returns for a constant raises `ValueError`. -/
noncomputable def TransferObj.recalc (E : TNum K) (N : Numerics K P) (S : TransferObj K P) :
    TransferObj K P × Option Err :=
  if S.g.isgain then (TransferObj.setStability N { S with poles := [], zeros := [] }, none)
  else if S.g.isSISO then
    match companion (S.g.den.entry 0 0) with
    | .error e => (S, some e)
    | .ok none => (S, some .value)
    | .ok (some A) =>
      let S := { S with poles := N.eig A }
      if (S.g.num.entry 0 0).length = 1 then (TransferObj.setStability N { S with zeros := [] }, none)
      else match companion (S.g.num.entry 0 0) with
        | .error e => (S, some e)
        | .ok none => (S, some .value)
        | .ok (some B) => (TransferObj.setStability N { S with zeros := N.eig B }, none)
  else
    match S.g.mimoPZ E N with
    | .error e => (S, some e)
    | .ok (q, z) => (TransferObj.setStability N { S with poles := q, zeros := z }, none)

/-- `Transfer.__init__` (`_classes.py:30-73`). -/
noncomputable def TransferObj.init (E : TNum K) (N : Numerics K P) (num den : TArg K) (dt : Option K) :
    Res (TransferObj K P) := do
  let (n, d, g) ← validateTransfer num den
  let dt ← checkDt dt
  match TransferObj.recalc E N ⟨⟨n, d, g, dt⟩, (n.r, n.c), none, none, 0, [], [], false⟩ with
  | (S, none) => .ok S
  | (_, some e) => .error e

/-- One assignment statement `G.<property> = value`. -/
inductive TAssign (K : Type) where
  | num (v : TArg K)
  | den (v : TArg K)
  | samplingPeriod (v : Option K)
  | discretizedWith (v : String)
  | discretizationMatrix (v : Arr K)
  | prewarpFrequency (v : K)

/-- A stored polynomial array as an argument of `validate_arguments`: a 2-D array with one row for SISO models, a
list of lists otherwise. -/
def TransferObj.stored (S : TransferObj K P) (x : Arr (List K)) : TArg K :=
  if S.g.isSISO then .vec (x.entry 0 0) else .lists x

/-- The setters (`_classes.py:259-345`). `num` and `den` store the new value before `_recalc` runs; `_isgain` is not
touched. -/
noncomputable def TransferObj.assign (E : TNum K) (N : Numerics K P) (S : TransferObj K P) :
    TAssign K → TransferObj K P × Option Err
  | .num v =>
    match validateTransfer v (S.stored S.g.den) with
    | .error e => (S, some e)
    | .ok r =>
      if (r.1.r, r.1.c) ≠ S.shape then (S, some .index)
      else TransferObj.recalc E N { S with g := { S.g with num := r.1 } }
  | .den v =>
    match validateTransfer (S.stored S.g.num) v with
    | .error e => (S, some e)
    | .ok r =>
      if (r.1.r, r.1.c) ≠ S.shape then (S, some .index)
      else TransferObj.recalc E N { S with g := { S.g with den := r.2.1 } }
  | .samplingPeriod none => ({ S with g := { S.g with dt := none } }, none)
  | .samplingPeriod (some t) =>
    if t ≤ 0 then (S, some .value) else ({ S with g := { S.g with dt := some t } }, none)
  | .discretizedWith m =>
    if m ∈ knownMethods then
      if S.g.dt.isNone then (S, some .value) else ({ S with discWith := some m }, none)
    else (S, some .value)
  | .discretizationMatrix q =>
    if S.discWith = some "lft" then
      if q.shape ≠ (2, 2) then (S, some .value) else ({ S with discMat := some q }, none)
    else (S, some .value)
  | .prewarpFrequency w =>
    if (S.discWith.getD "") ∈ tustinNames then
      match S.g.dt with
      | none => (S, some .type)
      | some t => if w > 1 / (2 * t) then (S, some .value) else ({ S with prewarp := w }, none)
    else (S, some .value)

/-- Executing a history of assignment statements, each inside `try/except`. -/
noncomputable def TransferObj.run (E : TNum K) (N : Numerics K P) (S : TransferObj K P) (h : List (TAssign K)) :
    TransferObj K P :=
  h.foldl (fun S x => (S.assign E N x).1) S

end

end Harold
