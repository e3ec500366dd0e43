import Verif.Model.State

/-!
# `State` objects as mutable records

Models the property setters of `State` (`/repo/harold/_classes.py:1807-1919`). An assignment is a
function from the object to the object after the statement together with the exception raised, if
any, so that the effect of a rejected assignment is visible.
-/

namespace Harold

variable {K P : Type}

/-- The numerical routines used by `State._recalc` (`_classes.py:1910-1927`), as parameters:
`eig` is `eigvals`, `tz` is `transmission_zeros`, `inDisc z` is `1 > abs(z)`, `inLeft z` is
`0 > real(z)`. `P` is the type of the computed poles. -/
structure Numerics (K P : Type) where
  eig : Arr K → List P
  tz : Arr K → Arr K → Arr K → Arr K → List P
  inDisc : P → Bool
  inLeft : P → Bool

/-- The attributes of a `State` instance (`_classes.py:1619-1638`): the matrices and `_dt`,
`_isgain` (in `g`), `_shape`, `_DiscretizedWith`, `_DiscretizationMatrix`, `_PrewarpFrequency`,
`poles`, `zeros`, `_isstable`. `_rz` is `'Z'` and `_isdiscrete` is true exactly when `_dt` is a
number (the three are always set together, 1858-1866), so they are not stored. -/
structure StateObj (K P : Type) where
  g : StateM K
  shape : ℕ × ℕ
  discWith : Option String
  discMat : Option (Arr K)
  prewarp : K
  poles : List P
  zeros : List P
  isstable : Bool

/-- `_KnownDiscretizationMethods` (`_global_constants.py`). -/
def knownMethods : List String :=
  ["bilinear", "tustin", "zoh", "foh", "forward difference", "forward euler",
   "forward rectangular", "backward difference", "backward euler", "backward rectangular",
   "lft", ">>", "<<"]

/-- The tuple of lines 1801 and 1893. -/
def tustinNames : List String := ["tustin", "bilinear", "trapezoidal"]

/-- `_recalc` and `_set_stability` (`_classes.py:1910-1925`). -/
def StateObj.recalc (N : Numerics K P) (S : StateObj K P) : StateObj K P :=
  let zeros := if S.g.isgain then [] else N.tz S.g.a S.g.b S.g.c S.g.d
  let poles := if S.g.isgain then [] else N.eig S.g.a
  let st := if S.g.dt.isSome then poles.all N.inDisc else poles.all N.inLeft
  { S with poles := poles, zeros := zeros, isstable := st }

section
variable [Field K] [LinearOrder K]

/-- `State.__init__` (`_classes.py:1602-1638`). -/
def StateObj.init (N : Numerics K P) (a b c d : Option (Arr K)) (dt : Option K) :
    Res (StateObj K P) := do
  let g ← mkState a b c d dt
  .ok (StateObj.recalc N ⟨g, g.d.shape, none, none, 0, [], [], false⟩)

/-- One assignment statement `G.<property> = value`. The values of the matrix properties have
already been converted by `np.atleast_2d(np.array(value, dtype=float))`. -/
inductive Assign (K : Type) where
  | a (v : Option (Arr K))
  | b (v : Option (Arr K))
  | c (v : Option (Arr K))
  | d (v : Option (Arr K))
  | samplingPeriod (v : Option K)
  | discretizedWith (v : String)
  | discretizationMatrix (v : Arr K)
  | prewarpFrequency (v : K)

/-- `np.zeros_like`. -/
def Arr.zerosLike (x : Arr K) : Arr K := Arr.zeros x.r x.c

/-- The setters `a, b, c, d, SamplingPeriod, DiscretizedWith, DiscretizationMatrix,
PrewarpFrequency` (`_classes.py:1807-1908`). The second component is the exception raised. -/
def StateObj.assign (N : Numerics K P) (S : StateObj K P) : Assign K → StateObj K P × Option Err
  | .a v =>
    match validateState v (some S.g.b.zerosLike) (some S.g.c.zerosLike) (some S.g.d.zerosLike) with
    | .error e => (S, some e)
    | .ok r => (StateObj.recalc N { S with g := { S.g with a := r.1 } }, none)
  | .b v =>
    match validateState (some S.g.a.zerosLike) v (some S.g.c.zerosLike) (some S.g.d.zerosLike) with
    | .error e => (S, some e)
    | .ok r => (StateObj.recalc N { S with g := { S.g with b := r.2.1 } }, none)
  | .c v =>
    match validateState (some S.g.a.zerosLike) (some S.g.b.zerosLike) v (some S.g.d.zerosLike) with
    | .error e => (S, some e)
    | .ok r => (StateObj.recalc N { S with g := { S.g with c := r.2.2.1 } }, none)
  | .d v =>
    match validateState (some S.g.a.zerosLike) (some S.g.b.zerosLike) (some S.g.c.zerosLike) v with
    | .error e => (S, some e)
    | .ok r => (StateObj.recalc N { S with g := { S.g with d := r.2.2.2.1 } }, none)
  | .samplingPeriod none => ({ S with g := { S.g with dt := none } }, none)
  | .samplingPeriod (some t) =>
    if t ≤ 0 then (S, some .value) else ({ S with g := { S.g with dt := some t } }, none)
  | .discretizedWith m =>
    if m ∈ knownMethods then
      if S.g.dt.isNone then (S, some .value) else ({ S with discWith := some m }, none)
    else (S, some .value)
  | .discretizationMatrix q =>
    if S.discWith = some "lft" then ({ S with discMat := some q }, none) else (S, some .value)
  | .prewarpFrequency w =>
    if (S.discWith.getD "") ∈ tustinNames then
      match S.g.dt with
      | none => (S, some .type)   -- `2*None`
      | some t => if w > 1 / (2 * t) then (S, some .value) else ({ S with prewarp := w }, none)
    else (S, some .value)

/-- Executing a history of assignment statements, each inside `try/except`. -/
def StateObj.run (N : Numerics K P) (S : StateObj K P) (h : List (Assign K)) : StateObj K P :=
  h.foldl (fun S x => (S.assign N x).1) S

/-- The `PrewarpFrequency` getter (`_classes.py:1794-1804`). -/
def StateObj.prewarpFrequency (S : StateObj K P) : Option K :=
  if S.g.dt.isNone ∨ (S.discWith.getD "") ∉ tustinNames then none else some S.prewarp

end

end Harold
