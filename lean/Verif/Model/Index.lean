import Verif.Base.Err
import Mathlib.Data.List.Range
import Mathlib.Order.Basic
import Mathlib.Algebra.Order.Ring.Int

/-!
# `np.arange(n)[expr]`

Index expressions as used by `e_i` (`_aux_linalg.py:352`), `State.__getitem__`
(`_classes.py:2476-2477`) and `Transfer.__getitem__`.
-/

namespace Harold

/-- A Python index expression: an integer, a sequence of integers or a slice. -/
inductive Idx where
  | int (i : ℤ)
  | seq (l : List ℤ)
  | slice (start stop step : Option ℤ)

/-- One integer index into an axis of length `n`: negative indices count from the end and
out-of-range indices raise `IndexError`. -/
def pyIndex (n : ℕ) (i : ℤ) : Res ℕ :=
  if 0 ≤ i ∧ i < n then .ok i.toNat
  else if i < 0 ∧ 0 ≤ i + n then .ok (i + n).toNat
  else .error .index

/-- `slice.indices`: clip a bound into `[lo, hi]` after adding `n` to negative values. -/
def clipBound (n : ℕ) (lo hi : ℤ) (x : ℤ) : ℤ :=
  let y := if x < 0 then x + n else x
  if y < lo then lo else if hi < y then hi else y

/-- The integers `start, start+step, ...` strictly before `stop`, at most `fuel` of them
(`fuel = n + 1` is enough as the result has at most `n` elements). -/
def sliceWalk (step stop : ℤ) : ℕ → ℤ → List ℕ
  | 0, _ => []
  | fuel + 1, i =>
    if (0 < step ∧ i < stop) ∨ (step < 0 ∧ stop < i) then
      i.toNat :: sliceWalk step stop fuel (i + step)
    else []

/-- Positions selected by a slice on an axis of length `n` (CPython `slice.indices`). -/
def pySlice (n : ℕ) (start stop step : Option ℤ) : Res (List ℕ) :=
  let st := step.getD 1
  if st = 0 then .error .value
  else if 0 < st then
    let a := match start with | none => 0 | some x => clipBound n 0 n x
    let b := match stop with | none => (n : ℤ) | some x => clipBound n 0 n x
    .ok (sliceWalk st b (n + 1) a)
  else
    let a := match start with | none => (n : ℤ) - 1 | some x => clipBound n (-1) (n - 1) x
    let b := match stop with | none => -1 | some x => clipBound n (-1) (n - 1) x
    .ok (sliceWalk st b (n + 1) a)

/-- All integers of a sequence index must be in range. -/
def pySeq (n : ℕ) : List ℤ → Res (List ℕ)
  | [] => .ok []
  | i :: l => do
    let k ← pyIndex n i
    let ks ← pySeq n l
    .ok (k :: ks)

/-- `np.atleast_1d(np.arange(n)[expr])`. -/
def arangeIdx (n : ℕ) : Idx → Res (List ℕ)
  | .int i => do
    let k ← pyIndex n i
    .ok [k]
  | .seq l => pySeq n l
  | .slice a b s => pySlice n a b s

end Harold
