import Verif.Model.TransferOps

/-!
# Arithmetic between `Transfer` and `State` models

Models the `State` branches of the `Transfer` operators (`/repo/harold/_classes.py:413-451`, `692-697`, `845-901`) and the
`Transfer` branches of the `State` operators (`1997-2037`, `2113-2124`, `2210-2262`).
-/

namespace Harold

variable {K : Type} [Field K] [LinearOrder K]

/-- A model of either class. -/
inductive Sys (K : Type) where
  | st (G : StateM K)
  | tf (G : TransferM K)

/-- `G + H` for a `State` `G` and a `Transfer` `H` (`_classes.py:1997-2037`). `ndarray + Transfer` is `Transfer.__radd__`, so the result is a
`Transfer` if only `G` is static. -/
noncomputable def addST (E : TNum K) (fuel : ℕ) (G : StateM K) (H : TransferM K) : Res (Sys K) :=
  if G.dt ≠ H.dt then .error .value
  else if G.isgain ∧ H.isgain then do
    let x ← G.toArray
    let y ← H.toArray
    let z ← x.add y
    .st <$> mkGain z G.dt
  else if G.isgain then do
    let x ← G.toArray
    .tf <$> H.addGain E (.arr x)
  else if H.isgain then do
    let y ← H.toArray
    .st <$> G.addGain fuel (.arr y)
  else if !G.isSISO && !H.isSISO && decide ((G.p, G.m) ≠ (H.p, H.m)) then .error .value
  else do
    let S ← transferToState E H
    .st <$> G.add fuel S

/-- `G + H` for a `Transfer` `G` and a `State` `H` (`_classes.py:413-451`). -/
noncomputable def addTS (E : TNum K) (fuel : ℕ) (G : TransferM K) (H : StateM K) : Res (Sys K) :=
  if G.dt ≠ H.dt then .error .value
  else if G.isgain ∧ H.isgain then do
    let x ← G.toArray
    let y ← H.toArray
    let z ← x.add y
    .st <$> mkGain z G.dt
  else if G.isgain then do
    let x ← G.toArray
    .st <$> H.addGain fuel (.arr x)
  else if H.isgain then do
    let S ← transferToState E G
    let y ← H.toArray
    .st <$> S.addGain fuel (.arr y)
  else if !G.isSISO && !H.isSISO && decide ((G.p, G.m) ≠ (H.p, H.m)) then .error .value
  else do
    let S ← transferToState E G
    .st <$> H.add fuel S

/-- `G @ H` and `G * H` for a `State` `G` and a `Transfer` `H` (`_classes.py:2113-2118`, `2210-2262`). `ndarray @ Transfer` is
`Transfer.__rmatmul__`. -/
noncomputable def matmulST (E : TNum K) (fuel : ℕ) (G : StateM K) (H : TransferM K) : Res (Sys K) :=
  if G.dt ≠ H.dt then .error .value
  else if G.isgain ∧ H.isgain then do
    let x ← G.toArray
    let y ← H.toArray
    let z ← x.matmul y
    .st <$> mkGain z G.dt
  else if G.isgain then do
    let x ← G.toArray
    .tf <$> H.rmatmulGain E (.arr x)
  else if H.isgain then do
    let y ← H.toArray
    .st <$> G.matmulGain (.arr y)
  else if G.isSISO = H.isSISO then
    if !G.isSISO && decide (G.m ≠ H.p) then .error .value
    else do
      let S ← transferToState E H
      .st <$> G.matmul fuel S
  else if G.isSISO then do
    let k := min H.p H.m
    let S ← transferToState E H
    let G' ← G.matmulGain (.arr (Arr.eye k))
    .st <$> if H.m ≤ H.p then S.matmul fuel G' else G'.matmul fuel S
  else do
    let k := min G.p G.m
    let S ← transferToState E H
    let S' ← S.matmulGain (.arr (Arr.eye k))
    .st <$> if G.m ≤ G.p then G.matmul fuel S' else S'.matmul fuel G

/-- `G * H` for a `Transfer` `G` and a `State` `H` (`_classes.py:692-697`): `other * transfer_to_state(self)`. -/
noncomputable def mulTS (E : TNum K) (fuel : ℕ) (G : TransferM K) (H : StateM K) : Res (Sys K) :=
  if G.dt ≠ H.dt then .error .value
  else do
    let S ← transferToState E G
    .st <$> H.matmul fuel S

/-- `G @ H` for a `Transfer` `G` and a `State` `H` (`_classes.py:847-849`, `900-906`): for MIMO `G` the second operand in the code is the
class `State`, for which `State.__matmul__` raises `ValueError` (2341-2343). -/
noncomputable def matmulTS (E : TNum K) (fuel : ℕ) (G : TransferM K) (H : StateM K) : Res (Sys K) :=
  if G.isSISO then mulTS E fuel G H
  else if G.dt ≠ H.dt then .error .value
  else do
    let _ ← transferToState E G
    .error .value

end Harold
