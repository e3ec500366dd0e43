import Verif.Model.Kalman
import Mathlib.Data.Complex.Basic

/-!
# `ackermann`

Models `/repo/harold/_static_ctrl_design.py:136-186`.
-/

namespace Harold

open Matrix

section
variable {K : Type} [Field K]

/-- One step of `numpy.poly`: `convolve(a, [1, -r])`. -/
def polyStep (a : List K) (r : K) : List K := List.zipWith (· - ·) (a ++ [0]) ((0 :: a).map fun x => r * x)

/-- `numpy.poly(loc)` for a nonempty 1-D array: coefficients in decreasing powers. -/
def npPoly (loc : List K) : List K := loc.foldl polyStep [1]

variable [LinearOrder K]

/-- `pmat += p[pow_a] * matrix_power(A, pow_a)` (`_static_ctrl_design.py:180-183`). -/
def ackSum (p : List K) (a : Arr K) : ℕ → Res (Arr K)
  | 0 => .ok (Arr.zeros a.r a.r)
  | k + 1 => do
    let acc ← ackSum p a k
    match p[k]? with
    | none => .error .index
    | some c => do
      let P ← a.pow k
      acc.add (P.smul c)

/-- `x[[-1], :]`. -/
def Arr.lastRow (x : Arr K) : Res (Arr K) :=
  if h : 0 < x.r then .ok (Arr.of (Matrix.of fun (_ : Fin 1) (j : Fin x.c) => x.m ⟨x.r - 1, by omega⟩ j)) else .error .index

/-- `ackermann((a, b), loc)` after `loc` has been converted to a float array (`_static_ctrl_design.py:160-186`). `numpy.poly([])` is the number `1.0`,
which cannot be reversed. -/
noncomputable def ackermannReal (S : SvdNum K) (a b : Arr K) (loc : List K) : Res (Arr K) := do
  checkAB a b
  if b.c ≠ 1 then .error .value
  else do
    let r ← controllabilityMatrix S a b
    if r.2.2 < r.1.r then .error .value
    else if loc = [] then .error .type
    else do
      let pmat ← ackSum (npPoly loc).reverse a (a.r + 1)
      let x ← r.1.solve pmat
      x.lastRow

end

/-- The pole locations: a sequence or array of real numbers, a Python sequence with complex entries, or a complex array. -/
inductive LocArg where
  | real (loc : List ℝ)
  | complexSeq (loc : List ℂ)
  | complexArr (loc : List ℂ)

/-- `array(loc, dtype=float)` (`_static_ctrl_design.py:168`): a sequence with complex entries is a `TypeError`, a complex array loses the imaginary
parts (with a warning). -/
def LocArg.floats : LocArg → Res (List ℝ)
  | .real loc => .ok loc
  | .complexSeq _ => .error .type
  | .complexArr loc => .ok (loc.map Complex.re)

/-- `ackermann((a, b), loc)`. -/
noncomputable def ackermann (S : SvdNum ℝ) (a b : Arr ℝ) (loc : LocArg) : Res (Arr ℝ) := do
  checkAB a b
  if b.c ≠ 1 then .error .value
  else do
    let l ← loc.floats
    ackermannReal S a b l

end Harold
