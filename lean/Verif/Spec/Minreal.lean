import Verif.Spec.Transfer
import Mathlib.Analysis.Complex.Basic

/-!
# Specification: roots of polynomials
-/

namespace Harold.Spec

open Polynomial

/-- The numbers `r` are the complex roots of the polynomial with the real coefficients `l`, with multiplicities: it is its leading coefficient times the
product of the `X - r`. -/
def RootsOf (l : List ℝ) (r : List ℂ) : Prop := (toPoly l).map (algebraMap ℝ ℂ) = C ((l.getD 0 0 : ℝ) : ℂ) * (r.map fun x => X - C x).prod

/-- A root finder that returns the roots of every polynomial with nonzero leading coefficient. -/
def RootFinder (roots : List ℝ → List ℂ) : Prop := ∀ l, l.getD 0 0 ≠ 0 → RootsOf l (roots l)

/-- Zeros and poles that are considered equal with the tolerance `tol` are equal. -/
def Coincide (tol : ℝ) (num den : List ℝ) : Prop :=
  ∀ z p : ℂ, polyAt z num = 0 → polyAt p den = 0 → ‖p - z‖ < tol + tol * ‖z‖ → p = z

end Harold.Spec
