import Mathlib.Data.List.Basic
import Mathlib.Data.Nat.Notation

/-!
# Specification: maximal repetitions in a list
-/

namespace Harold.Spec

variable {P : Type}

/-- The entries `s, …, e - 1` of `l` are at least two, all equal, and the entries before and after them (if any) are different. -/
def Repetition (l : List P) (s e : ℕ) : Prop :=
  s + 2 ≤ e ∧ e ≤ l.length ∧ (∃ v, (∀ i, s ≤ i → i < e → l[i]? = some v) ∧ (∀ i, i + 1 = s → l[i]? ≠ some v) ∧ l[e]? ≠ some v)

/-- Equal entries stand side by side. -/
def Grouped (l : List P) : Prop := ∀ i j k : ℕ, i ≤ j → j ≤ k → k < l.length → l[i]? = l[k]? → l[j]? = l[i]?

end Harold.Spec
