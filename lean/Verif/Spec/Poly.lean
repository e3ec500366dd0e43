import Mathlib.Algebra.Polynomial.Basic
import Mathlib.Algebra.Polynomial.Coeff

/-!
# Specification: the polynomial that a coefficient array denotes
-/

namespace Harold.Spec

open Polynomial

/-- The polynomial with the given coefficients in decreasing powers: `[1, 0, 5]` is `s² + 5`. -/
noncomputable def toPoly {K : Type} [Semiring K] : List K → K[X]
  | [] => 0
  | a :: l => C a * X ^ l.length + toPoly l

/-- A coefficient array in normal form: it does not start with a zero, unless it is `[0]`. -/
def Trimmed {K : Type} [Zero K] (l : List K) : Prop := l = [0] ∨ ∃ a t, l = a :: t ∧ a ≠ 0

end Harold.Spec
