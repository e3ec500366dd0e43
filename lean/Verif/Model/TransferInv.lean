import Verif.Model.ToTransfer

/-!
# `1/G` and `G/H` of `Transfer` models

Models `Transfer.__rtruediv__` (`/repo/harold/_classes.py:799-834`) with the case of several inputs and
outputs, and `Transfer.__truediv__` (793-797) for two `Transfer` operands. Arithmetic is exact.
-/

namespace Harold

open Classical in
/-- `Transfer(num_inv, den_inv, dt=self._dt)` from the matrices of `transfer_to_state`
(`_classes.py:814-832`). `abc = none` stands for three arrays `np.empty((0, 0))`. `state_to_transfer` of
a tuple (2813-2829) takes a model without states for a gain and returns `D` and an array of ones. -/
noncomputable def invTransfer (E : TNum ℝ) (N : Numerics ℝ ℂ) (abc : Option (Arr ℝ × Arr ℝ × Arr ℝ)) (d : Arr ℝ) (isgain : Bool)
    (dt : Option ℝ) : Res (TransferM ℝ) :=
  if h : d.r = d.c then
    if HasSVBelow spacing1 (d.m.submatrix id (Fin.cast h)) then .error .linAlg
    else if isgain then do
      let di ← d.solve (Arr.eye d.r)
      mkTransfer E (.arr di) (.arr (Arr.of (Matrix.of fun (_ : Fin d.r) (_ : Fin d.c) => 1))) dt
    else do
      let (a, b, c) := abc.getD (Arr.empty, Arr.empty, Arr.empty)
      let x ← d.solve c
      let bx ← b.matmul x
      let ai ← a.sub bx
      let y ← d.T.solve b.T
      let di ← d.solve (Arr.eye d.r)
      if ai.r = 0 then
        mkTransfer E (.arr di) (.arr (Arr.of (Matrix.of fun (_ : Fin d.r) (_ : Fin d.c) => 1))) dt
      else stateToTransfer E N ⟨ai, y.T, x.neg, di, dt, false⟩
  else .error .linAlg

namespace TransferM

/-- `k / G` for a number `k` (`_classes.py:799-834`). -/
noncomputable def rtruediv (E : TNum ℝ) (N : Numerics ℝ ℂ) (k : ℝ) (G : TransferM ℝ) : Res (TransferM ℝ) :=
  if G.isSISO then rdiv E k G
  else if G.num.r ≠ G.num.c then .error .value
  else do
    let (abc, d) ← t2sTuple E (.lists G.num) (.lists G.den)
    let F ← invTransfer E N abc d G.isgain G.dt
    mulScalar E F k

/-- `G / H` (`_classes.py:793-797`). -/
noncomputable def truediv (E : TNum ℝ) (N : Numerics ℝ ℂ) (G H : TransferM ℝ) : Res (TransferM ℝ) := do
  let R ← rtruediv E N 1 H
  matmul E G R

end TransferM

end Harold
