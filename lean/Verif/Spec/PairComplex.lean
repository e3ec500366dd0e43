import Mathlib.Algebra.Order.Field.Basic
import Mathlib.Data.List.Perm.Basic

/-!
# Specification for C11
-/

namespace Harold.Spec

variable {K : Type} [Field K] [LinearOrder K]

/-- The complex conjugate of `(re, im)`. -/
def conj (z : K × K) : K × K := (z.1, -z.2)

/-- The collection is closed under conjugation, with multiplicities. -/
def ConjClosed (l : List (K × K)) : Prop := (l.map conj).Perm l

/-- A number counts as real when its imaginary part is below the tolerance. -/
def cleaned (rtol : K) (z : K × K) : K × K := if |z.2| < rtol then (z.1, 0) else z

/-- `l` consists of adjacent conjugate pairs, the member with the positive imaginary part first (`pf`) or second. -/
def AdjacentPairs (pf : Bool) (l : List (K × K)) : Prop :=
  ∃ ps : List (K × K), (∀ q ∈ ps, 0 < q.2) ∧ l = ps.flatMap fun q => if pf then [q, conj q] else [conj q, q]

/-- Real numbers in ascending order. -/
def SortedReals (l : List (K × K)) : Prop := (∀ z ∈ l, z.2 = 0) ∧ l.Pairwise fun z w => z.1 ≤ w.1

end Harold.Spec
