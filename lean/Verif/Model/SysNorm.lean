import Verif.Model.Lyap
import Verif.Model.StateObj
import Mathlib.Analysis.SpecialFunctions.Sqrt

/-!
# `system_norm` with `p=2`

Models the branch `p == 2` of `/repo/harold/_system_props.py:15-148` for `State` models; a `Transfer` is first converted by `transfer_to_state`
(line 69).
-/

namespace Harold

open Matrix

/-- A floating point result. -/
inductive FVal where
  | inf
  | nan
  | fin (x : ℝ)

/-- `np.sqrt(x)`. -/
noncomputable def npSqrt (x : ℝ) : FVal := if x < 0 then .nan else .fin (Real.sqrt x)

/-- `np.trace(x)`. -/
noncomputable def Arr.trace (x : Arr ℝ) : ℝ := ∑ i ∈ Finset.range (min x.r x.c), x.wk i i

/-- `np.allclose(d, np.zeros_like(d))` (`_system_props.py:75`); `tol` is `1e-8`. -/
def allCloseZero (tol : ℝ) (d : Arr ℝ) : Prop := ∀ i j, |d.m i j| ≤ tol

/-- `np.sqrt(np.trace(c @ x @ c.T))` and `np.sqrt(np.trace(c @ x @ c.T + d @ d.T))` (`_system_props.py:80`, `83`). -/
noncomputable def h2Finish (disc : Bool) (c d x : Arr ℝ) : Res FVal := do
  let cx ← c.matmul x
  let cxc ← cx.matmul c.T
  if disc then do
    let dd ← d.matmul d.T
    let y ← cxc.add dd
    .ok (npSqrt y.trace)
  else .ok (npSqrt cxc.trace)

/-- The gramian is NaN if the solver met a singular equation. -/
noncomputable def h2OfGram (disc : Bool) (c d : Arr ℝ) : Option (Arr ℝ) → Res FVal
  | none => .ok .nan
  | some x => h2Finish disc c d x

open Classical in
/-- `system_norm(G, p=2)` (`_system_props.py:61-83`) for a `State` object with the attribute `_isstable`. -/
noncomputable def systemNorm2 {P : Type} (L : LyapNum ℝ) (X0 : Wk ℝ) (tol : ℝ) (S : StateObj ℝ P) : Res FVal :=
  if ¬ allCloseZero tol S.g.d ∨ S.isstable = false then .ok .inf
  else do
    let bb ← S.g.b.matmul S.g.b.T
    let x ← lyapunovEqSolver L id X0 S.g.a.T bb none (if S.g.dt.isNone then "c" else "d")
    h2OfGram S.g.dt.isSome S.g.c S.g.d x

end Harold
