import Verif.Spec.Poly
import Verif.Model.StateObj
import Mathlib.Analysis.Complex.Norm
import Mathlib.LinearAlgebra.Complex.Module

/-!
# Specification: poles of a quotient of polynomials, stability regions
-/

namespace Harold.Spec

open Polynomial

/-- The quotient `n / d` has a pole at `s`: it is no quotient `a / b` of polynomials with `b(s) ≠ 0`. -/
def PoleAt (n d : List ℝ) (s : ℂ) : Prop :=
  ∀ a b : ℂ[X], b.eval s ≠ 0 → a * (toPoly d).map (algebraMap ℝ ℂ) ≠ (toPoly n).map (algebraMap ℝ ℂ) * b

/-- The open unit disc for models with a sampling period, the open left half plane otherwise. -/
def StablePoint (dt : Option ℝ) (s : ℂ) : Prop := if dt.isSome then ‖s‖ < 1 else s.re < 0

/-- The comparisons of the code with the unit circle and the imaginary axis are right. -/
def RegionExact (N : Numerics ℝ ℂ) : Prop :=
  ∀ s, (N.inDisc s = true ↔ ‖s‖ < 1) ∧ (N.inLeft s = true ↔ s.re < 0)

end Harold.Spec
