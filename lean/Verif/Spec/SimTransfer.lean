import Verif.Spec.TF
import Mathlib.Data.Real.Basic
import Mathlib.Algebra.BigOperators.Group.Finset.Basic
import Mathlib.Order.Filter.AtTopBot.Basic

/-!
# Difference equations and equality of transfer functions (specification)
-/

namespace Harold.Spec

open Finset Filter

/-- The numerator padded with zeros on the left to the length of the denominator. -/
def padNum (num den : List ℝ) : List ℝ := List.replicate (den.length - num.length) 0 ++ num

/-- `y` is the response of `num / den` to `u`, both zero before time zero:
`a_0 y_k + a_1 y_(k-1) + ... = b_0 u_k + b_1 u_(k-1) + ...` for all `k`, where `a` and `b` are the coefficients of the denominator and of
the (padded) numerator in decreasing powers. -/
def DiffEq (num den : List ℝ) (u y : ℕ → ℝ) : Prop :=
  ∀ k, ∑ l ∈ range (k + 1), den.getD l 0 * y (k - l) = ∑ l ∈ range (k + 1), (padNum num den).getD l 0 * u (k - l)

/-- Channel `j` of an input given at `N` samples, continued by zero. -/
def sampleSeq {N m : ℕ} (U : Matrix (Fin N) (Fin m) ℝ) (j : Fin m) (k : ℕ) : ℝ := if h : k < N then U ⟨k, h⟩ j else 0

/-- The transfer matrices of two `State` models agree at all large enough real arguments. -/
def SameTF (g g' : StateM ℝ) (p m : ℕ) : Prop :=
  ∀ᶠ s : ℝ in atTop, ∀ M M' : Matrix (Fin p) (Fin m) ℝ, HasTF g p m s M → HasTF g' p m s M' → M = M'

end Harold.Spec
