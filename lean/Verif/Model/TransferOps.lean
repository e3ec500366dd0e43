import Verif.Model.Transfer

/-!
# Arithmetic of the `Transfer` class

Models `/repo/harold/_classes.py:394-993` and `1056-1076` for `Transfer`, scalar and array operands
(`State` operands are in `Verif.Model.Mixed`).

The code passes SISO data as 2-D or 1-D arrays and MIMO data as lists of lists; a one-element list of
lists is read by the constructor in the same way as the array in it, so the model always passes lists.
-/

namespace Harold

open Matrix

variable {K : Type} [Field K] [LinearOrder K]

/-- `Transfer(newnum, newden, dt)` for lists that were filled entry by entry. -/
noncomputable def mkEntries (E : TNum K) (p m : ℕ) (f : Fin p → Fin m → Res (List K × List K))
    (dt : Option K) : Res (TransferM K) := do
  let e ← matM f
  mkTransfer E (.lists (Arr.of (Matrix.of fun i j => (e i j).1)))
    (.lists (Arr.of (Matrix.of fun i j => (e i j).2))) dt

/-- `Transfer(x.tolist(), dt=dt)`. -/
noncomputable def mkList (E : TNum K) (x : Arr K) (dt : Option K) : Res (TransferM K) :=
  mkTransfer E (.lists (Arr.of (Matrix.of fun i j => [x.m i j]))) .none dt

namespace TransferM

/-- `to_array` (`_classes.py:1056-1076`). -/
def toArray (G : TransferM K) : Res (Arr K) :=
  if G.isgain then gainArr G.num G.den else .error .value

/-- `__neg__` (`_classes.py:394-404`). -/
noncomputable def neg (E : TNum K) (G : TransferM K) : Res (TransferM K) :=
  mkTransfer E (.lists (Arr.of (Matrix.of fun i j => (G.num.m i j).map fun x => -x))) (.lists G.den) G.dt

/-- One entry of the sum (`_classes.py:488-503`). -/
noncomputable def addEntry (E : TNum K) (n₁ d₁ n₂ d₂ : List K) : Res (List K × List K) :=
  match d₁, d₂ with
  | c₀ :: _, c₁ :: _ => do
    let (l, mults) ← lcm E.bal E.lcmTol [d₁, d₂]
    let x ← convolve n₁ ((mults.getD 0 []).map fun x => x * c₁)
    let y ← convolve n₂ ((mults.getD 1 []).map fun x => x * c₀)
    let n ← polyadd [x, y]
    .ok (n, l.map fun x => x * c₀ * c₁)
  | _, _ => .error .index

open Classical in
/-- Sum of two models that are both SISO or both MIMO (`_classes.py:468-518`); the loops run over the
shape of the left operand. -/
noncomputable def addSame (E : TNum K) (G H : TransferM K) : Res (TransferM K) := do
  let e ← matM fun (i : Fin G.num.r) (j : Fin G.num.c) =>
    if i < H.num.r ∧ j < H.num.c then
      addEntry E (G.num.m i j) (G.den.entry i j) (H.num.entry i j) (H.den.entry i j)
    else .error .index
  if ∃ i j, ¬ ∀ a ∈ (e i j).1, a = 0 then
    mkTransfer E (.lists (Arr.of (Matrix.of fun i j => (e i j).1)))
      (.lists (Arr.of (Matrix.of fun i j => (e i j).2))) G.dt
  else mkList E (Arr.zeros G.num.r G.num.c) G.dt

/-- Sum of two static gains (`_classes.py:455-466`): `(x + y).reshape(*self.shape, 1).tolist()`. -/
noncomputable def addGains (E : TNum K) (G H : TransferM K) : Res (TransferM K) := do
  let x ← G.toArray
  let y ← H.toArray
  let z ← x.add y
  if z.r * z.c ≠ G.num.r * G.num.c then .error .value
  else if z.r = G.num.r ∧ z.c = G.num.c then mkList E z G.dt
  else
    -- the sum has the same number of entries but another shape: `1 × 1` only broadcasts to a larger one
    .error .value

/-- `__add__` for two `Transfer`s (`_classes.py:446-532`). -/
noncomputable def add (E : TNum K) (G H : TransferM K) : Res (TransferM K) :=
  if G.dt ≠ H.dt then .error .value
  else if G.isgain ∧ H.isgain then addGains E G H
  else if G.isSISO = H.isSISO then addSame E G H
  else .error .attribute     -- 523-532: `other.m`

/-- Entry of a product with a number: zero is emptied out (`_classes.py:614-634`, `664-668`). -/
def scaleEntry (k : K) (n d : List K) : List K × List K :=
  if k = 0 then ([0], [1]) else (n.map fun x => k * x, d)

/-- `__mul__` with a number (`_classes.py:613-636`). -/
noncomputable def mulScalar (E : TNum K) (G : TransferM K) (k : K) : Res (TransferM K) :=
  mkEntries E G.num.r G.num.c (fun i j => .ok (scaleEntry k (G.num.m i j) (G.den.entry i j))) G.dt

/-- `__mul__` with a 2-D array (`_classes.py:644-690`), elementwise. -/
noncomputable def mulArr (E : TNum K) (G : TransferM K) (x : Arr K) : Res (TransferM K) :=
  if x.r * x.c = 1 then mulScalar E G (x.bget 0 0)
  else if G.isSISO then
    mkEntries E x.r x.c (fun i j => .ok (scaleEntry (x.m i j) (G.num.entry 0 0) (G.den.entry 0 0))) G.dt
  else if G.num.r = x.r ∧ G.num.c = x.c then
    mkEntries E x.r x.c (fun i j => .ok (scaleEntry (x.m i j) (G.num.entry i j) (G.den.entry i j))) G.dt
  else .error .value

/-- `__mul__` with a number or an array. -/
noncomputable def mulGain (E : TNum K) (G : TransferM K) : Gain K → Res (TransferM K)
  | .scalar k => mulScalar E G k
  | .vec v => mulArr E G (rowArr v)
  | .arr x => mulArr E G x

/-- Product of two entries (`_classes.py:716-721`, `736-742`, `766-772`). -/
def mulEntry (n₁ d₁ n₂ d₂ : List K) : Res (List K × List K) :=
  if (∀ a ∈ n₁, a = 0) ∨ (∀ a ∈ n₂, a = 0) then .ok ([0], [1])
  else do
    let n ← polymul [n₁, n₂]
    let d ← polymul [d₁, d₂]
    .ok (n, d)

/-- `__mul__` for two `Transfer`s (`_classes.py:699-773`), elementwise. For a static SISO gain only the
numerator is used (708). -/
noncomputable def mul (E : TNum K) (G H : TransferM K) : Res (TransferM K) :=
  if G.dt ≠ H.dt then .error .value
  else if G.isgain then
    if G.isSISO then
      match G.num.entry 0 0 with
      | [k] => mulScalar E H k
      | _ => .error .type
    else do
      let x ← gainArr G.num G.den
      mulArr E H x
  else if G.isSISO then
    -- SISO * SISO and SISO * MIMO
    mkEntries E H.num.r H.num.c (fun i j =>
      mulEntry (G.num.entry 0 0) (G.den.entry 0 0) (H.num.m i j) (H.den.entry i j)) G.dt
  else if H.isSISO then
    mkEntries E G.num.r G.num.c (fun i j =>
      mulEntry (H.num.entry 0 0) (H.den.entry 0 0) (G.num.m i j) (G.den.entry i j)) G.dt
  else if G.num.r = H.num.r ∧ G.num.c = H.num.c then
    mkEntries E G.num.r G.num.c (fun i j =>
      mulEntry (G.num.m i j) (G.den.entry i j) (H.num.entry i j) (H.den.entry i j)) G.dt
  else .error .value

/-- `__add__` with a number or an array (`_classes.py:535-590`). -/
noncomputable def addGain (E : TNum K) (G : TransferM K) (s : Gain K) : Res (TransferM K) :=
  if G.isgain then do
    let x ← G.toArray
    match s.regular with
    | .sc k => mkTransfer E (.arr (x.addScalar k)) .none G.dt
    | .ar y => do
      let z ← x.add y
      mkTransfer E (.arr z) .none G.dt
  else if G.isSISO then
    match s.regular with
    | .sc k => do
      let H ← mkTransfer E (.scalar k) .none G.dt
      add E G H
    | .ar y => do
      let F ← mulArr E G (Arr.ones y.r y.c)
      let H ← mkList E y G.dt
      add E F H
  else
    match s with
    | .scalar k => do
      let H ← mkTransfer E (.arr ((Arr.ones G.num.r G.num.c).smul k)) .none G.dt
      add E G H
    | .vec [k] => do
      let H ← mkTransfer E (.arr ((Arr.ones G.num.r G.num.c).smul k)) .none G.dt
      add E G H
    | .vec _ => .error .value      -- a 1-D shape never equals a 2-D shape
    | .arr y =>
      if G.num.r = y.r ∧ G.num.c = y.c then do
        let H ← mkList E y G.dt
        add E G H
      else .error .value

/-- `__sub__` (`_classes.py:601-602`). -/
noncomputable def sub (E : TNum K) (G H : TransferM K) : Res (TransferM K) := do
  let N ← neg E H
  add E G N

/-- `__rtruediv__` of a number for SISO models (`_classes.py:803-809`). The MIMO case goes through
`state_to_transfer`, see `Model/TransferInv.lean`. -/
noncomputable def rdiv (E : TNum K) (k : K) (G : TransferM K) : Res (TransferM K) :=
  if G.isSISO then
    if (G.num.entry 0 0).length ≠ (G.den.entry 0 0).length then .error .value
    else do
      let H ← mkTransfer E (.vec (G.den.entry 0 0)) (.vec (G.num.entry 0 0)) G.dt
      mulScalar E H k
  else .error .notImplemented

/-- `__getitem__` (`_classes.py:968-993`). A `1 × 1` selection with a list or a slice is a SISO model
here; the code keeps 3-D arrays in it (a one-element list of lists of 2-D arrays is not flattened). -/
noncomputable def getitem (E : TNum K) (G : TransferM K) (rows cols : Idx) : Res (TransferM K) := do
  let rc ← arangeIdx G.p rows
  let cb ← arangeIdx G.m cols
  if G.isSISO then .ok G
  else
    mkTransfer E
      (.lists (Arr.of (Matrix.of fun (i : Fin rc.length) (j : Fin cb.length) => G.num.entry (rc.get i) (cb.get j))))
      (.lists (Arr.of (Matrix.of fun (i : Fin rc.length) (j : Fin cb.length) => G.den.entry (rc.get i) (cb.get j))))
      G.dt

/-- `self[r, c]` for two integers in range. -/
noncomputable def item (E : TNum K) (G : TransferM K) (r c : ℕ) : Res (TransferM K) :=
  getitem E G (.int r) (.int c)

/-- `t_G = Transfer(0, 1, dt); for ind in range(k): t_G += f(ind)` (`_classes.py:880-883`, `925-928`). -/
noncomputable def sumLoop (E : TNum K) (dt : Option K) (f : ℕ → Res (TransferM K)) : ℕ → Res (TransferM K)
  | 0 => mkTransfer E (.scalar 0) (.scalar 1) dt
  | k + 1 => do
    let t ← sumLoop E dt f k
    let g ← f k
    add E t g

/-- The product loop (`_classes.py:872-896`, `910-934`): num and den of the sums of entry products. -/
noncomputable def prodLoop (E : TNum K) (p m k : ℕ) (f : ℕ → ℕ → ℕ → Res (TransferM K)) (dt : Option K) :
    Res (TransferM K) :=
  mkEntries E p m (fun r c => do
    let t ← sumLoop E dt (fun ind => f r c ind) k
    .ok (t.num.entry 0 0, t.den.entry 0 0)) dt

/-- `__matmul__` with a 2-D array (`_classes.py:851-896`). -/
noncomputable def matmulArr (E : TNum K) (G : TransferM K) (x : Arr K) : Res (TransferM K) :=
  if G.isSISO then mulArr E G x
  else if x.r * x.c = 1 then mulScalar E G (x.bget 0 0)
  else if G.num.c ≠ x.r then .error .value
  else if G.isgain then do
    let y ← G.toArray
    let z ← y.matmul x
    mkTransfer E (.arr z) .none G.dt
  else
    prodLoop E G.num.r x.c G.num.c (fun r c ind => do
      let g ← item E G r ind
      mulScalar E g (if h : ind < x.r ∧ c < x.c then x.m ⟨ind, h.1⟩ ⟨c, h.2⟩ else 0)) G.dt

/-- `__matmul__` with a number or an array. The entries of a 1-D array are read with two indices
(882), which raises `IndexError`. -/
noncomputable def matmulGain (E : TNum K) (G : TransferM K) : Gain K → Res (TransferM K)
  | .scalar k => mulScalar E G k
  | .arr x => matmulArr E G x
  | .vec v =>
    if G.isSISO then mulArr E G (rowArr v)
    else match v with
      | [k] => mulScalar E G k
      | v =>
        if G.num.c ≠ 1 then .error .value
        else if G.isgain then matmulArr E G (rowArr v)
        else if v = [] then .error .value
        else .error .index

/-- `__matmul__` for two `Transfer`s (`_classes.py:845-934`). For a `1 × 1` result the code returns the
sum itself (912-916), which the constructor would reproduce. -/
noncomputable def matmul (E : TNum K) (G H : TransferM K) : Res (TransferM K) :=
  if G.isSISO then mul E G H
  else if G.dt ≠ H.dt then .error .value
  else if H.isSISO then mul E G H
  else if G.num.c ≠ H.num.r then .error .value
  else if G.num.r = 1 ∧ H.num.c = 1 then
    sumLoop E G.dt (fun ind => do
      let g ← item E G 0 ind
      let h ← item E H ind 0
      mul E g h) G.num.c
  else
    prodLoop E G.num.r H.num.c G.num.c (fun r c ind => do
      let g ← item E G r ind
      let h ← item E H ind c
      mul E g h) G.dt

/-- `__rmatmul__` with an array (`_classes.py:940-961`): the sampling period is passed as denominator. -/
noncomputable def rmatmulGain (E : TNum K) (G : TransferM K) : Gain K → Res (TransferM K)
  | .scalar k => mulScalar E G k
  | s => do
    let x : Arr K := match s with
      | .scalar k => Arr.scalar k
      | .vec v => rowArr v
      | .arr x => x
    if x.r * x.c = 1 then mulScalar E G (x.bget 0 0)
    else do
      let H ← mkTransfer E (.lists (Arr.of (Matrix.of fun i j => [x.m i j])))
        (match G.dt with | none => .none | some t => .scalar t) none
      matmul E H G

/-- `__truediv__` of a `Transfer` by a number: `self @ (1/other)`; Python raises
`ZeroDivisionError` for zero. -/
noncomputable def divScalar (E : TNum K) (G : TransferM K) (k : K) : Res (TransferM K) :=
  if k = 0 then .error .zeroDivision else mulScalar E G (1 / k)

end TransferM

end Harold
