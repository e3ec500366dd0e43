import Verif.Model.Index

/-!
# Specification: which positions a Python index expression selects
-/

namespace Harold.Spec

/-- The integer index `i` means position `k` of an axis of length `n`: either `i = k` or, counted
from the end, `i = k - n`. -/
def Resolves (n : ℕ) (i : ℤ) (k : ℕ) : Prop := k < n ∧ (i = k ∨ i = (k : ℤ) - n)

/-- A negative bound of a slice is counted from the end. -/
def fromEnd (n : ℕ) (x : ℤ) : ℤ := if x < 0 then x + n else x

/-- `start:stop:step` selects the positions `start, start + step, ...` before `stop` that exist.
For positive steps an omitted start is the first position; a start before the first position is
the first position. For negative steps the walk goes down from the last position. -/
def sliceSpec (n : ℕ) (start stop : Option ℤ) (step : ℤ) : List ℕ :=
  if 0 < step then
    let a : ℤ := match start with | none => 0 | some x => max 0 (fromEnd n x)
    (List.range n).filter fun k => a ≤ k ∧ (∀ x ∈ stop, (k : ℤ) < fromEnd n x) ∧ step ∣ (k : ℤ) - a
  else
    let a : ℤ := match start with | none => n - 1 | some x => min (n - 1) (fromEnd n x)
    (List.range n).reverse.filter fun k =>
      (k : ℤ) ≤ a ∧ (∀ x ∈ stop, fromEnd n x < (k : ℤ)) ∧ step ∣ (k : ℤ) - a

/-- The positions that an index expression selects on an axis of length `n`. -/
inductive Selects (n : ℕ) : Idx → List ℕ → Prop
  | int {i : ℤ} {k : ℕ} (h : Resolves n i k) : Selects n (.int i) [k]
  | seq {l : List ℤ} {ks : List ℕ} (h : List.Forall₂ (Resolves n) l ks) : Selects n (.seq l) ks
  | slice {start stop step : Option ℤ} (h : step.getD 1 ≠ 0) :
      Selects n (.slice start stop step) (sliceSpec n start stop (step.getD 1))

end Harold.Spec
