import Verif.Base.Arr
import Verif.Model.Index

/-!
# The `State` class: construction and arithmetic

Models `/repo/harold/_classes.py`, class `State` (lines 1597-2700) without the property setters
(those are in `Verif.Model.StateObj`), the printing methods and the operations with `Transfer`
operands (those are in `Verif.Model.Mixed`).
-/

namespace Harold

open Matrix

variable {K : Type}

/-- The data of a `State` instance that the arithmetic methods use: `_a, _b, _c, _d`
(`_classes.py:1629`), `_dt` and `_isgain`. The attributes `_p, _m, _n, _shape, _isSISO`
(1630-1634) are derived: after `validate_arguments` `_shape` is the shape of `_d`. -/
structure StateM (K : Type) where
  a : Arr K
  b : Arr K
  c : Arr K
  d : Arr K
  dt : Option K
  isgain : Bool

namespace StateM

/-- `_shape` / `shape`, `_p`, `_m` (`_classes.py:1630`, `1719`). -/
def p (G : StateM K) : ℕ := G.d.r
/-- `_m`, `NumberOfInputs`. -/
def m (G : StateM K) : ℕ := G.d.c
/-- `NumberOfStates` (`_classes.py:1698-1702`). -/
def n (G : StateM K) : ℕ := G.a.r
/-- `_isSISO` (`_classes.py:1633-1634`). -/
def isSISO (G : StateM K) : Bool := decide (G.d.r = 1 ∧ G.d.c = 1)

end StateM

section
variable [Field K] [LinearOrder K]

/-- `State.validate_arguments` (`_classes.py:2560-2700`). An omitted argument is `none`; the type
checks and the conversion of scalars/lists to 2-D float arrays (lines 2598-2629) have already
happened. Returns `(a, b, c, d, Gain_flag)`; `user_shape` is the shape of the returned `d`. -/
def validateState (a b c d : Option (Arr K)) :
    Res (Arr K × Arr K × Arr K × Arr K × Bool) :=
  let a' := a.getD Arr.empty
  let b' := b.getD Arr.empty
  let c' := c.getD Arr.empty
  let d' := d.getD Arr.empty
  -- 2633-2639: only the first argument is given, the list is reversed
  if b.isNone && c.isNone && d.isNone then .ok (d', c', b', a', true)
  -- 2643-2646: (None, None, None, D)
  else if a.isNone && b.isNone && c.isNone then .ok (a', b', c', d', true)
  else
    -- 2655-2657
    if a'.r ≠ a'.c then .error .value
    else
      -- 2659-2670
      match (if b'.r ≠ a'.r then
               (if b'.r = 1 ∧ b'.c = a'.r then .ok b'.T else .error .value)
             else .ok b' : Res (Arr K)) with
      | .error e => .error e
      | .ok b' =>
        -- 2672-2676
        if c'.c ≠ a'.c then .error .value
        else
          -- 2678-2696
          let d' := if d.isNone then Arr.zeros c'.r b'.c else d'
          if d'.r = c'.r ∧ d'.c = b'.c then .ok (a', b', c', d', false)
          else if d'.r = 1 ∧ (d'.r = b'.c ∧ d'.c = c'.r) then .ok (a', b', c', d'.T, false)
          else .error .value

/-- The `SamplingPeriod` setter (`_classes.py:1852-1866`): `None` or a positive number. -/
def checkDt (dt : Option K) : Res (Option K) :=
  match dt with
  | none => .ok none
  | some t => if t ≤ 0 then .error .value else .ok (some t)

/-- `State(a, b, c, d, dt)` (`State.__init__`, `_classes.py:1602-1638`); poles, zeros and
stability are computed in `Verif.Model.StateObj`. -/
def mkState (a b c d : Option (Arr K)) (dt : Option K) : Res (StateM K) := do
  let (a, b, c, d, g) ← validateState a b c d
  let dt ← checkDt dt
  .ok ⟨a, b, c, d, dt, g⟩

/-- `State(d, dt=dt)`, a static gain. -/
def mkGain (d : Arr K) (dt : Option K) : Res (StateM K) := mkState (some d) none none none dt

/-- `State.__neg__` (`_classes.py:1935-1939`). -/
def StateM.neg (G : StateM K) : Res (StateM K) :=
  if G.isgain then mkGain G.d.neg G.dt
  else mkState (some G.a) (some G.b) (some G.c.neg) (some G.d.neg) G.dt

/-- A scalar or array operand as the user passes it: `int/float`, a 1-D or a 2-D `ndarray`
(real valued; complex data is rejected by lines 2041-2043, 2267-2269, 2357-2359). -/
inductive Gain (K : Type) where
  | scalar (k : K)
  | vec (v : List K)
  | arr (x : Arr K)

/-- The regularised operand `s` of lines 2045-2055 / 2271-2288 / 2361-2378: a float or a 2-D array. -/
inductive SA (K : Type) where
  | sc (k : K)
  | ar (x : Arr K)

/-- `np.atleast_2d` of a 1-D array. -/
def rowArr (v : List K) : Arr K := Arr.of (Matrix.of fun (_ : Fin 1) (j : Fin v.length) => v.get j)

/-- Lines 2045-2055: a 1-D array with one entry becomes a float, other 1-D arrays a row. -/
def Gain.regular : Gain K → SA K
  | .scalar k => .sc k
  | .vec [k] => .sc k
  | .vec v => .ar (rowArr v)
  | .arr x => .ar x

/-- The broadcast of a SISO model to shape `p × m` (`_classes.py:1987-1989`, `1992-1995`,
`2085-2087`): all entries equal the SISO model. `np.ones(m)` and `np.ones(p)[:, None]` are
`1 × m` and `p × 1` inside `kron`. -/
def StateM.broadcast (G : StateM K) (p m : ℕ) (dt : Option K) : Res (StateM K) := do
  let d ← (Arr.ones p m).mul G.d
  mkState (some G.a) (some (Arr.kron (Arr.ones 1 m) G.b)) (some (Arr.kron (Arr.ones p 1) G.c))
    (some d) dt

/-- `State.__add__` for scalars and arrays (`_classes.py:2038-2098`) on a regularised operand.
The first argument is the remaining recursion depth: line 2085-2087 calls `+` again. -/
def StateM.addSA : ℕ → StateM K → SA K → Res (StateM K)
  | 0, _, _ => .error .recursion
  | fuel + 1, G, s =>
    if G.isgain then
      match s with
      | .sc k => mkGain (G.d.addScalar k) G.dt
      | .ar x => do
        let mat ← G.d.add x
        mkGain mat G.dt
    else if G.isSISO then
      match s with
      | .sc k => mkState (some G.a) (some G.b) (some G.c) (some (G.d.addScalar k)) G.dt
      | .ar x => do
        let G' ← G.broadcast x.r x.c G.dt
        StateM.addSA fuel G' (.ar x)
    else
      match s with
      | .sc k => mkState (some G.a) (some G.b) (some G.c) (some (G.d.addScalar k)) G.dt
      | .ar x => do
        let d ← G.d.add x
        mkState (some G.a) (some G.b) (some G.c) (some d) G.dt

/-- `G + other` for `other` a scalar or an array. -/
def StateM.addGain (fuel : ℕ) (G : StateM K) (g : Gain K) : Res (StateM K) :=
  G.addSA fuel g.regular

/-- The parallel connection (`_classes.py:1972-1982`). Line 1982 does not pass `dt`. -/
def StateM.parallel (G H : StateM K) : Res (StateM K) := do
  let b ← Arr.vstack G.b H.b
  let c ← Arr.hstack G.c H.c
  let d ← Arr.add G.d H.d
  mkState (some (Arr.blockDiag G.a H.a)) (some b) (some c) (some d) none

/-- `State.__add__` for two `State` operands (`_classes.py:1946-1995`). The recursion of lines
1989 and 1992 on equally shaped operands is at most two deep and runs the sampling period check
of line 1947 again. -/
def StateM.add : ℕ → StateM K → StateM K → Res (StateM K)
  | 0, _, _ => .error .recursion
  | fuel + 1, G, H =>
    if G.dt ≠ H.dt then .error .value
    else if G.isgain && H.isgain then do
      let d ← G.d.add H.d
      mkGain d G.dt
    else if G.isgain then H.addSA fuel (.ar G.d)      -- ndarray + State -> State.__radd__
    else if H.isgain then G.addSA fuel (.ar H.d)
    else if G.isSISO && H.isSISO then G.parallel H
    else if !G.isSISO && !H.isSISO then
      if G.p ≠ H.p ∨ G.m ≠ H.m then .error .value else G.parallel H
    else if G.isSISO then do
      let G' ← G.broadcast H.p H.m G.dt
      StateM.add fuel G' H
    else do
      let H' ← H.broadcast G.p G.m G.dt
      StateM.add fuel G H'

/-- `State.__sub__` (`_classes.py:2107-2108`). -/
def StateM.sub (fuel : ℕ) (G H : StateM K) : Res (StateM K) := do
  let H' ← H.neg
  G.add fuel H'

/-- SISO model times a nonzero array (`_classes.py:2321-2331` and `2410-2420`, identical code). -/
def StateM.sisoTimesArr (G : StateM K) (s : Arr K) : Res (StateM K) := do
  let k := min s.r s.c
  let ba := Arr.repDiag k G.a
  let d ← s.mul G.d
  if s.c < s.r then
    mkState (some ba) (some (Arr.repDiag k G.b)) (some (Arr.kron s G.c)) (some d) G.dt
  else
    mkState (some ba) (some (Arr.kron s G.b)) (some (Arr.repDiag k G.c)) (some d) G.dt

/-- The shape check of `State.__matmul__` (`_classes.py:2281-2285`); it looks at `other.shape[0]` of
the array before it is made two dimensional. -/
def StateM.matmulShapeBad (G : StateM K) : Gain K → Bool
  | .scalar _ => false
  | .vec v => decide (G.m ≠ v.length) && !G.isSISO
  | .arr x => decide (G.m ≠ x.r) && !G.isSISO

/-- `State.__matmul__` for scalars and arrays after the shape check (`_classes.py:2290-2340`). -/
def StateM.matmulSA (G : StateM K) : SA K → Res (StateM K)
  | .sc k =>
    -- 2300: `to_array() @ float` raises ValueError, then 2303 multiplies a method object
    if G.isgain then .error .type
    else if G.isSISO then
      if k = 0 then mkGain (Arr.scalar 0) G.dt
      else mkState (some G.a) (some (G.b.smul k)) (some G.c) (some (G.d.smul k)) G.dt
    else mkState (some G.a) (some (G.b.smul k)) (some G.c) (some (G.d.smul k)) G.dt
  | .ar x =>
    if G.isgain then
      match G.d.matmul x with
      | .ok mat => mkGain mat G.dt
      | .error .value => .error .type
      | .error e => .error e
    else if G.isSISO then
      if x.any then G.sisoTimesArr x else mkGain (Arr.zeros x.r x.c) G.dt
    else do
      let b ← G.b.matmul x
      let d ← G.d.matmul x
      mkState (some G.a) (some b) (some G.c) (some d) G.dt

/-- `State.__matmul__` for scalars and arrays (`_classes.py:2264-2340`). -/
def StateM.matmulGain (G : StateM K) (g : Gain K) : Res (StateM K) :=
  if G.matmulShapeBad g then .error .value else G.matmulSA g.regular

/-- `State.__rmatmul__` (`_classes.py:2346-2433`), i.e. `other @ G` for `other` a scalar or array. -/
def StateM.rmatmulGain (g : Gain K) (G : StateM K) : Res (StateM K) :=
  -- 2371: `other.shape[1]` of a 1-D array raises IndexError
  match g with
  | .vec _ => .error .index
  | .scalar k =>
    if G.isgain then mkGain (G.d.smul k) G.dt
    else if G.isSISO then
      if k = 0 then mkGain (Arr.scalar 0) G.dt
      else mkState (some G.a) (some G.b) (some (G.c.smul k)) (some (G.d.smul k)) G.dt
    else mkState (some G.a) (some G.b) (some (G.c.smul k)) (some (G.d.smul k)) G.dt
  | .arr x =>
    if G.p ≠ x.c && !G.isSISO then .error .value
    else if G.isgain then
      match x.matmul G.d with
      | .ok mat => mkGain mat G.dt
      | .error .value => do
        let mat ← G.d.mul x
        mkGain mat G.dt
      | .error e => .error e
    else if G.isSISO then
      if x.any then G.sisoTimesArr x else mkGain (Arr.zeros x.r x.c) G.dt
    else do
      let c ← x.matmul G.c
      let d ← x.matmul G.d
      mkState (some G.a) (some G.b) (some c) (some d) G.dt

/-- `State.__rmul__` (`_classes.py:2120-2124`): `other * G` is `other @ G`. -/
def StateM.rmulGain (g : Gain K) (G : StateM K) : Res (StateM K) := StateM.rmatmulGain g G

/-- The series connection (`_classes.py:2203-2208`). -/
def StateM.series (G H : StateM K) : Res (StateM K) := do
  let bc ← G.b.matmul H.c
  -- block_diag(self._a, other.a) with the upper right block overwritten
  let top ← Arr.hstack G.a bc
  let bot ← Arr.hstack (Arr.zeros H.a.r G.a.c) H.a
  let a ← Arr.vstack top bot
  let bd ← G.b.matmul H.d
  let b ← Arr.vstack bd H.b
  let dc ← G.d.matmul H.c
  let c ← Arr.hstack G.c dc
  let d ← G.d.matmul H.d
  mkState (some a) (some b) (some c) (some d) G.dt

/-- `State.__matmul__` for two `State` operands (`_classes.py:2131-2208`); the first argument is the
remaining recursion depth. -/
def StateM.matmul : ℕ → StateM K → StateM K → Res (StateM K)
  | 0, _, _ => .error .recursion
  | fuel + 1, G, H =>
    if G.dt ≠ H.dt then .error .value
    else if G.isgain && H.isgain then do
      let d ← G.d.matmul H.d
      mkGain d G.dt
    else if G.isgain then
      if G.isSISO then StateM.rmatmulGain (.scalar (G.d.bget 0 0)) H
      else StateM.rmatmulGain (.arr G.d) H
    else if H.isgain then
      if H.isSISO then G.matmulGain (.scalar (H.d.bget 0 0))
      else G.matmulGain (.arr H.d)
    else if (G.isSISO != H.isSISO) && decide (G.m ≠ H.p) then
      if G.isSISO then
        if H.m = 1 then StateM.matmul fuel H G
        else if H.p = 1 then StateM.matmul fuel G H
        else if H.m ≤ H.p then do
          let G' ← G.matmulGain (.arr (Arr.eye (min H.p H.m)))
          StateM.matmul fuel H G'
        else do
          let G' ← G.matmulGain (.arr (Arr.eye (min H.p H.m)))
          StateM.matmul fuel G' H
      else
        if G.m = 1 then StateM.matmul fuel G H
        else if G.p = 1 then StateM.matmul fuel H G
        else if G.m ≤ G.p then do
          let H' ← H.matmulGain (.arr (Arr.eye (min G.p G.m)))
          StateM.matmul fuel G H'
        else do
          let H' ← H.matmulGain (.arr (Arr.eye (min G.p G.m)))
          StateM.matmul fuel H' G
    else if !G.isSISO && !H.isSISO && decide (G.m ≠ H.p) then .error .value
    else G.series H

/-- "Some singular value of the square matrix `D` is smaller than `τ`"
(`np.any(svdvals(d) < tau)`): there is a nonzero vector that `D` shrinks below `τ`. Over the reals
this is exactly a statement about the smallest singular value. -/
def HasSVBelow (τ : K) {n : ℕ} (D : Matrix (Fin n) (Fin n) K) : Prop :=
  ∃ x : Fin n → K, x ≠ 0 ∧ (D *ᵥ x) ⬝ᵥ (D *ᵥ x) < τ ^ 2 * (x ⬝ᵥ x)

/-- `np.spacing(1.)`. -/
def spacing1 : K := 1 / 2 ^ 52

open Classical in
/-- The model that `1/G` multiplies with (`State.__rtruediv__`, `_classes.py:2445-2465`): the
inverse system. -/
noncomputable def StateM.invert (G : StateM K) : Res (StateM K) :=
  if h : G.d.r = G.d.c then
    if HasSVBelow spacing1 (G.d.m.submatrix id (Fin.cast h)) then .error .linAlg
    else do
      let di ← G.d.solve (Arr.eye G.d.r)       -- inv(d)
      if G.isgain then mkState none none none (some di) G.dt
      else do
        let x ← G.d.solve G.c
        let bx ← G.b.matmul x
        let ai ← G.a.sub bx
        let y ← G.d.T.solve G.b.T
        mkState (some ai) (some y.T) (some x.neg) (some di) G.dt
  else .error .value

/-- `other / G` for a scalar or array `other` (`_classes.py:2441-2465`). -/
noncomputable def StateM.rtruedivGain (g : Gain K) (G : StateM K) : Res (StateM K) := do
  let Gi ← G.invert
  StateM.rmatmulGain g Gi

/-- `G / other` for two `State` operands (`_classes.py:2435-2439`). -/
noncomputable def StateM.truediv (fuel : ℕ) (G H : StateM K) : Res (StateM K) := do
  let Hi ← StateM.rtruedivGain (.scalar 1) H
  G.matmul fuel Hi

/-- Select rows `rs` and columns `cs` (all in range; entries out of range read as zero). -/
def Arr.select (x : Arr K) (rs cs : List ℕ) : Arr K :=
  Arr.of (Matrix.of fun (i : Fin rs.length) (j : Fin cs.length) =>
    if h : rs.get i < x.r ∧ cs.get j < x.c then x.m ⟨_, h.1⟩ ⟨_, h.2⟩ else 0)

/-- `State.__getitem__` (`_classes.py:2467-2500`). Selections that are empty are simplified to an
`IndexError` (numpy's behaviour on them depends on the other index). -/
def StateM.getitem (G : StateM K) (rows cols : Idx) : Res (StateM K) := do
  let rc ← arangeIdx G.p rows
  let cb ← arangeIdx G.m cols
  if rc = [] ∨ cb = [] then .error .index
  else if G.isgain then mkGain (G.d.select rc cb) G.dt
  else
    mkState (some G.a) (some (G.b.select (List.range G.n) cb))
      (some (G.c.select rc (List.range G.n))) (some (G.d.select rc cb)) G.dt

/-- `State.to_array` (`_classes.py:2548-2557`). -/
def StateM.toArray (G : StateM K) : Res (Arr K) :=
  if G.isgain then .ok G.d else .error .value

end

end Harold
