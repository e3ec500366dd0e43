import Verif.Model.Lcm
import Verif.Model.State
import Mathlib.Algebra.BigOperators.Fin

/-!
# The `Transfer` class: construction and conversion to `State`

Models `/repo/harold/_classes.py`: `Transfer.validate_arguments` (1079-1594), `Transfer.__init__` and
`_recalc` (30-73, 347-378) and `transfer_to_state` (2898-3147).

Coefficient arrays are lists in decreasing powers (a `1 × k` array of the code); numerators and
denominators are 2-D arrays of coefficient lists, a SISO model has shape `1 × 1`. Arithmetic is exact.
-/

namespace Harold

open Matrix

variable {K : Type}

/-! ## Sequencing over array entries -/

/-- Run `f 0, f 1, ...`, stop at the first exception. -/
def finM {α : Type} : {n : ℕ} → (Fin n → Res α) → Res (Fin n → α)
  | 0, _ => .ok Fin.elim0
  | n + 1, f => do
    let a ← f 0
    let g ← finM (n := n) fun i => f i.succ
    .ok (Fin.cons a g)

/-- Run `f` over the entries of a 2-D array, row by row. -/
def matM {α : Type} {p m : ℕ} (f : Fin p → Fin m → Res α) : Res (Fin p → Fin m → α) :=
  finM fun i => finM (f i)

/-! ## Arguments -/

/-- What the user passes as `num` or `den`.
`lists x`: a list of lists with rows of equal length whose entries are numbers or coefficient
sequences (a number is read as a one-element sequence); `ragged`: rows of different length;
`flat`: an unnested list of numbers; `vec`, `arr`: 1-D and 2-D `ndarray`s; `other`: anything else. -/
inductive TArg (K : Type) where
  | none
  | scalar (k : K)
  | flat (l : List K)
  | lists (x : Arr (List K))
  | ragged
  | vec (v : List K)
  | arr (x : Arr K)
  | other

/-- A regularised argument: `None`, a SISO polynomial or a MIMO array of polynomials. -/
inductive RegArg (K : Type) where
  | none
  | siso (l : List K)
  | mimo (x : Arr (List K))

/-- Entry `(i, j)` of a list of lists. -/
def Arr.entry (x : Arr (List K)) (i j : ℕ) : List K :=
  if h : i < x.r ∧ j < x.c then x.m ⟨i, h.1⟩ ⟨j, h.2⟩ else []

/-- The `p × m` list of lists with all entries equal. -/
def constArr (p m : ℕ) (l : List K) : Arr (List K) := Arr.of (Matrix.of fun (_ : Fin p) (_ : Fin m) => l)

/-- `x.flatten()`. -/
def Arr.flatten (x : Arr K) : List K := (List.finRange x.r).flatMap fun i => List.ofFn (x.m i)

/-- Some entry satisfies `P`. -/
def Arr.exists (x : Arr (List K)) (P : Fin x.r → Fin x.c → Prop) : Prop := ∃ i j, P i j

/-- Data of a `Transfer` object: `_num, _den, _isgain, _dt`. `_shape` is the shape of `_num`. -/
structure TransferM (K : Type) where
  num : Arr (List K)
  den : Arr (List K)
  isgain : Bool
  dt : Option K

namespace TransferM
/-- `_p`. -/
def p (G : TransferM K) : ℕ := G.num.r
/-- `_m`. -/
def m (G : TransferM K) : ℕ := G.num.c
/-- `_isSISO` (`_classes.py:66-67`). -/
def isSISO (G : TransferM K) : Bool := decide (G.num.r = 1 ∧ G.num.c = 1)
end TransferM

/-- External numerics: `bal` are the scalings of `matrix_balance` in `haroldlcm`, `lcmTol` its
`cleanup_threshold` (`1e-9`), `remTol` is `spacing(100.)`. -/
structure TNum (K : Type) where
  bal : ∀ polys : List (List K), BIdx polys → K
  lcmTol : K
  remTol : K

section
variable [Field K] [LinearOrder K]

/-- The first loop of `validate_arguments` (`_classes.py:1191-1321`). A 2-D array with one row or one
column is a SISO polynomial (1298-1309); its shape is not kept. An entry of a one-element list of lists
is not trimmed (1214-1223), an unnested list is (1264-1279). -/
def regArg : TArg K → Res (RegArg K)
  | .none => .ok .none
  | .scalar k => .ok (.siso [k])
  | .flat l =>
    if l = [] then .error .value     -- `max([])`, an empty list passes the "list of lists" test
    else if ∀ a ∈ l, a = 0 then .ok (.siso [0])
    else .ok (.siso (trimZeros l))
  | .lists x =>
    if x.r = 1 ∧ x.c = 1 then .ok (.siso (x.entry 0 0))
    else if x.r = 0 then .error .value
    else .ok (.mimo x)
  | .ragged => .error .index
  | .vec v => .ok (.siso v)
  | .arr x =>
    if 1 < min x.r x.c then .ok (.mimo (Arr.of (Matrix.of fun i j => [x.m i j])))
    else .ok (.siso x.flatten)
  | .other => .error .value

open Classical in
/-- The SISO/MIMO decision and the causality checks (`_classes.py:1336-1564`): regularised numerator
and denominator of equal shape. -/
noncomputable def combineArgs : RegArg K → RegArg K → Res (Arr (List K) × Arr (List K))
  | .mimo n, .mimo d =>
    -- 1339-1388: causality is checked on trimmed arrays
    if ¬ (n.r = d.r ∧ n.c = d.c) then .error .index
    else if ∃ i j, (trimZeros (d.entry i j)).length < (trimZeros (n.entry i j)).length then .error .value
    else .ok (n, d)
  | .none, .mimo d => .ok (constArr d.r d.c [1], d)                     -- 1406-1421
  | .siso n, .mimo d =>
    -- 1424-1461: the denominators are not trimmed
    if ∃ i j, (d.m i j).length < (trimZeros n).length then .error .value
    else .ok (constArr d.r d.c n, d)
  | .mimo n, .none =>
    -- 1469-1510
    if ∃ i j, ¬ (n.m i j).length < 2 then .error .value
    else .ok (n, constArr n.r n.c [1])
  | .mimo n, .siso d =>
    -- 1513-1547
    if ∃ i j, (trimZeros d).length < (n.m i j).length then .error .value
    else .ok (n, constArr n.r n.c d)
  | .none, .none => .error .attribute                                   -- 1553-1562: `[].size`
  | .none, .siso d => if d.length < 1 then .error .value else .ok (constArr 1 1 [1], constArr 1 1 d)
  | .siso n, .none => if 1 < n.length then .error .value else .ok (constArr 1 1 n, constArr 1 1 [1])
  | .siso n, .siso d =>
    if d.length < n.length then .error .value else .ok (constArr 1 1 n, constArr 1 1 d)

/-- The largest entry size, `max([x.size for x in sum(den, [])])`; `0` for an array without entries. -/
def maxSize (x : Arr (List K)) : ℕ :=
  Finset.univ.sup fun i : Fin x.r => Finset.univ.sup fun j : Fin x.c => (x.m i j).length

/-- `Transfer.validate_arguments(num, den)` (`_classes.py:1079-1594`): numerator, denominator and the
static gain flag. -/
noncomputable def validateTransfer (num den : TArg K) : Res (Arr (List K) × Arr (List K) × Bool) := do
  let n ← regArg num
  let d ← regArg den
  let (n, d) ← combineArgs n d
  if d.r = 0 ∨ d.c = 0 then .error .value     -- `max([])`
  else .ok (n, d, decide (maxSize d = 1))

/-! ## `transfer_to_state` -/

/-- A `1 × n` array that starts with the entries of `l`. -/
def rowOf (n : ℕ) (l : List K) : Arr K := Arr.of (Matrix.of fun (_ : Fin 1) (j : Fin n) => l.getD j 0)

/-- The dynamic SISO case (`_classes.py:2961-2995`). The first component is `none` if `A, B, C` are
`None`. Dividing by `den[0]` when it is one is the identity. -/
def t2sSiso (tol : K) (num den : List K) : Res (Option (Arr K × Arr K × Arr K) × Arr K) := do
  match ← companion den with
  | none => .error .value      -- np.zeros((-1, 1))
  | some A => do
    let B ← Arr.vstack (Arr.zeros (A.r - 1) 1) (Arr.scalar 1)
    let d := (trimZeros den).getD 0 0
    let num := (trimZeros num).map fun x => x / d
    let den := (trimZeros den).map fun x => x / d
    if num.length < den.length then
      .ok (some (A, B, rowOf (den.length - 1) num.reverse), Arr.scalar 0)
    else do
      let (q, r) ← polydiv num den
      let r := cleanup tol r
      if r.length = 0 then .ok (none, rowArr q)
      else .ok (some (A, B, rowOf (den.length - 1) r.reverse), rowArr q)

/-- The direct feedthrough of one MIMO entry and what is left of it (`_classes.py:3003-3036`):
`(D[x, y], num[x][y], den[x][y])` before the denominator is made monic. -/
def t2sSplit (tol : K) (num den : List K) : Res (K × List K × List K) :=
  let dn := trimZeros num
  let dd := trimZeros den
  if dd.length = 1 then
    if 1 < dn.length then .error .value
    else .ok (dn.getD 0 0 / dd.getD 0 0, [0], den)
  else if dn.length < dd.length then .ok (0, num, den)
  else do
    let (q, r) ← polydiv dn dd
    let r := cleanup tol r
    if q.length ≠ 1 then .error .value
    else if ∀ a ∈ r, a = 0 then .ok (q.getD 0 0, [0], [1])
    else .ok (q.getD 0 0, r, den)

/-- The body of the first MIMO loop, with the denominator made monic (`_classes.py:3003-3041`). -/
def t2sEntry (tol : K) (num den : List K) : Res (K × List K × List K) := do
  let (d, num, den) ← t2sSplit tol num den
  match den with
  | [] => .error .index
  | a :: _ => .ok (d, num.map fun x => 1 / a * x, den.map fun x => 1 / a * x)

/-- One diagonal block: the companion matrix of a nonconstant polynomial, `np.empty((0, 0))` for a
constant (`_classes.py:3112-3117`). -/
def compBlock (l : List K) : Res (Matrix (Fin (l.length - 1)) (Fin (l.length - 1)) K) :=
  if l.length ≤ 1 then .ok 0
  else match companionSq l with
    | some M => .ok M
    | none => .error .value

/-- The realization with one companion block per column (`_classes.py:3062-3080` and `3108-3130`):
`A = block_diag(...)`, `B` has a one in the last row of block `y` of column `y`, and block `y` of row `x`
of `C` starts with the reversed coefficients of `num[x][y]`. The flattened position of `(y, j)` is the
sum of the degrees of the earlier columns plus `j`. -/
def realize {p m : ℕ} (num : Fin p → Fin m → List K) (den : Fin m → List K) :
    Res (Arr K × Arr K × Arr K) :=
  if h : ∀ y, (compBlock (den y)).toOption.isSome then
    let pos : Fin (∑ y, ((den y).length - 1)) → Σ y : Fin m, Fin ((den y).length - 1) :=
      finSigmaFinEquiv.symm
    .ok (Arr.of ((blockDiagonal' fun y => (compBlock (den y)).toOption.get (h y)).submatrix pos pos),
      Arr.of (Matrix.of fun i (y : Fin m) =>
        if (pos i).1 = y ∧ ((pos i).2 : ℕ) + 1 = (den (pos i).1).length - 1 then 1 else 0),
      Arr.of (Matrix.of fun (x : Fin p) i => (num x (pos i).1).reverse.getD (pos i).2 0))
  else .error .value

open Classical in
/-- The common denominator case (`_classes.py:3049-3083`) for `p ≥ m`. The numerators have lower degree
than `den` here; the coefficients beyond the block are leading zeros, which are written into the next
block before that block is filled. In the last block there is no room for them and numpy raises
`ValueError` (3079). -/
noncomputable def t2sCommon {p m : ℕ} (num : Fin p → Fin m → List K) (den : List K) :
    Res (Arr K × Arr K × Arr K) :=
  if ∃ x, ∃ y : Fin m, (y : ℕ) + 1 = m ∧ den.length - 1 < (num x y).length ∧ (num x y).length ≠ 1 then
    .error .value
  else realize num fun _ => den

/-- One column of the LCM case (`_classes.py:3097-3113`): the common denominator and the numerators. -/
noncomputable def t2sColumn (E : TNum K) {p : ℕ} (num den : Fin p → List K) :
    Res (List K × (Fin p → List K)) := do
  let (l, mults) ← lcm E.bal E.lcmTol (List.ofFn den)
  let nums ← finM fun x : Fin p => do
    let r ← polymul [num x, mults.getD x []] false
    let t := trimZeros r
    .ok (if t.length = 0 then [0] else t)
  .ok (l, nums)

/-- The LCM case (`_classes.py:3084-3130`) for `p ≥ m`. -/
noncomputable def t2sLcm (E : TNum K) {p m : ℕ} (num den : Fin p → Fin m → List K) :
    Res (Arr K × Arr K × Arr K) := do
  let cols ← finM fun y : Fin m => t2sColumn E (fun x => num x y) (fun x => den x y)
  realize (fun x y => (cols y).2 x) fun y => (cols y).1

open Classical in
/-- Lines 3048-3130 for `p ≥ m`. -/
noncomputable def t2sTall (E : TNum K) {p m : ℕ} (num den : Fin p → Fin m → List K) :
    Res (Arr K × Arr K × Arr K) :=
  if h : ∃ d, ∀ x y, den x y = d then t2sCommon num h.choose
  else t2sLcm E num den

open Classical in
/-- The dynamic MIMO case (`_classes.py:2998-3133`). -/
noncomputable def t2sMimo (E : TNum K) {p m : ℕ} (num den : Fin p → Fin m → List K) :
    Res (Option (Arr K × Arr K × Arr K) × Arr K) := do
  let e ← matM fun x y => t2sEntry E.remTol (num x y) (den x y)
  let D : Arr K := Arr.of (Matrix.of fun x y => (e x y).1)
  if ∀ x y, (e x y).2.1 = [0] then .ok (none, D)
  else if m ≤ p then do
    let abc ← t2sTall E (fun x y => (e x y).2.1) (fun x y => (e x y).2.2)
    .ok (some abc, D)
  else do
    -- pertransposed
    let (a, b, c) ← t2sTall E (fun y x => (e x y).2.1) (fun y x => (e x y).2.2)
    .ok (some (a.T, c.T, b.T), D)

/-- `num[x][y] / den[x][y]` stored in a float array (`_classes.py:2966`, `1068-1069`): both must have
one entry. -/
def gainEntry (num den : List K) : Res K :=
  if num.length = 1 ∧ den.length = 1 then .ok (num.getD 0 0 / den.getD 0 0) else .error .value

/-- The quotients of the entries of a static gain (`_classes.py:2960-2968`, `to_array` 1056-1076). -/
def gainArr (num den : Arr (List K)) : Res (Arr K) := do
  let d ← matM fun (i : Fin num.r) (j : Fin num.c) => gainEntry (num.m i j) (den.entry i j)
  .ok (Arr.of (Matrix.of d))

/-- `transfer_to_state(..., output='matrices')` after the arguments are regularised
(`_classes.py:2958-3133`). `none` stands for empty or absent `A, B, C`. -/
noncomputable def t2sData (E : TNum K) (num den : Arr (List K)) (isgain : Bool) :
    Res (Option (Arr K × Arr K × Arr K) × Arr K) :=
  if isgain then do
    let d ← gainArr num den
    .ok (none, d)
  else if num.r = 1 ∧ num.c = 1 then t2sSiso E.remTol (num.entry 0 0) (den.entry 0 0)
  else t2sMimo E num.m fun i j => den.entry i j

/-- `transfer_to_state(G)` for a `Transfer` (`_classes.py:2898-3147`). -/
noncomputable def transferToState (E : TNum K) (G : TransferM K) : Res (StateM K) := do
  let (abc, d) ← t2sData E G.num G.den G.isgain
  match abc with
  | none => mkGain d G.dt
  | some (a, b, c) => mkState (some a) (some b) (some c) (some d) G.dt

/-- `transfer_to_state((num, den), output='matrices')`. -/
noncomputable def t2sTuple (E : TNum K) (num den : TArg K) :
    Res (Option (Arr K × Arr K × Arr K) × Arr K) := do
  let (n, d, g) ← validateTransfer num den
  t2sData E n d g

/-! ## Construction -/

/-- The argument of `eigvals` for the poles in `_recalc` (`_classes.py:347-374`), or the exception it
raises; `none` for static gains. `eigvals` of a 1-D array raises `ValueError`. -/
noncomputable def TransferM.poleMatrix (E : TNum K) (G : TransferM K) : Res (Option (Arr K)) :=
  if G.isgain then .ok none
  else if G.isSISO then do
    match ← companion (G.den.entry 0 0) with
    | none => .error .value
    | some A =>
      if (G.num.entry 0 0).length = 1 then .ok (some A)
      else do
        match ← companion (G.num.entry 0 0) with
        | none => .error .value
        | some _ => .ok (some A)
  else do
    let r ← t2sTuple E (.lists G.num) (.lists G.den)
    match r.1 with
    | some (a, _, _) => .ok (some a)
    | none => do
      let r ← t2sTuple E (.lists (constArr G.p G.m [1])) (.lists G.den)
      .ok (some ((r.1.map fun x => x.1).getD Arr.empty))

/-- `Transfer(num, den, dt)` (`_classes.py:30-73`). Poles, zeros and stability are attributes of
`TransferObj`; here only whether computing them raises. -/
noncomputable def mkTransfer (E : TNum K) (num den : TArg K) (dt : Option K) : Res (TransferM K) := do
  let (n, d, g) ← validateTransfer num den
  let dt ← checkDt dt
  let G : TransferM K := ⟨n, d, g, dt⟩
  let _ ← G.poleMatrix E
  .ok G

end

end Harold
