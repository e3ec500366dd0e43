import Verif.Spec.Transfer
import Mathlib.Algebra.Polynomial.FieldDivision

/-!
# Specification: polynomials that the rounding of small coefficients does not touch

`haroldlcm` sets coefficients below `1e-9` to zero, `transfer_to_state` does the same with remainders at
another threshold. The predicates here say, about the polynomials only, that no nonzero coefficient is
that small.
-/

namespace Harold.Spec

open Polynomial

variable {K : Type} [Field K] [LinearOrder K]

/-- No nonzero coefficient of `P` is smaller than `τ` in modulus. -/
def Coarse (τ : K) (P : K[X]) : Prop := ∀ k, P.coeff k = 0 ∨ τ ≤ |P.coeff k|

omit [LinearOrder K] in
/-- `M` is the monic least common multiple of `args`. -/
def IsMonicLcm (args : List K[X]) (M : K[X]) : Prop :=
  M.Monic ∧ (∀ p ∈ args, p ∣ M) ∧ ∀ M' : K[X], (∀ p ∈ args, p ∣ M') → M ∣ M'

/-- No nonzero coefficient of the monic least common multiple of `args`, or of one of the monic
polynomials it is the multiple by, is smaller than `τ` in modulus. -/
def CoarseLcm (τ : K) (args : List K[X]) : Prop :=
  ∀ M, IsMonicLcm args M → Coarse τ M ∧ ∀ p ∈ args, ∀ Q : K[X], Q.Monic → Associated (Q * p) M → Coarse τ Q

open Classical in
omit [LinearOrder K] in
/-- The denominator that matters for the dynamics of an entry: none if the entry is a nonzero constant. -/
noncomputable def dynDen (N D : K[X]) : K[X] := if N ≠ 0 ∧ D ∣ N then 1 else D

/-- The polynomials met by the conversion of the matrix of quotients `N / D` have no nonzero coefficients
below the thresholds: the remainders of the entries none below `τr`, the least common denominators of the
columns (of the rows, if there are more columns than rows) none below `τl`. -/
def ClearMatrix (τl τr : K) {p m : ℕ} (N D : Fin p → Fin m → K[X]) : Prop :=
  (∀ i j, Coarse τr (N i j % D i j)) ∧
  (m ≤ p → ∀ j, CoarseLcm τl (List.ofFn fun i => dynDen (N i j) (D i j))) ∧
  (p < m → ∀ i, CoarseLcm τl (List.ofFn fun j => dynDen (N i j) (D i j)))

/-- The conversion of the coefficient lists `N`, `D` of a `p × m` `Transfer` model meets no nonzero
coefficients below the thresholds. In the SISO case numerator and denominator are divided by the leading
coefficient of the denominator first. -/
def NoRounding (τl τr : K) {p m : ℕ} (N D : Fin p → Fin m → List K) : Prop :=
  (p = 1 ∧ m = 1 → ∀ i j, Coarse τr
    (C (toPoly (D i j)).leadingCoeff⁻¹ * (toPoly (N i j) % toPoly (D i j)))) ∧
  (¬ (p = 1 ∧ m = 1) → ClearMatrix τl τr (fun i j => toPoly (N i j)) fun i j => toPoly (D i j))

/-- The conversion of the model `G` meets no nonzero coefficients below the thresholds. -/
def ClearModel (τl τr : K) (G : TransferM K) : Prop :=
  NoRounding τl τr (fun (i : Fin G.num.r) (j : Fin G.num.c) => G.num.entry i j)
    fun (i : Fin G.num.r) (j : Fin G.num.c) => G.den.entry i j

/-- The entrywise least common denominators of `G` and `H` and the factors by which the denominators are
extended have no nonzero coefficients below `τ`. -/
def SumClear (τ : K) (G H : TransferM K) : Prop :=
  ∀ i j, CoarseLcm τ [toPoly (G.den.entry i j), toPoly (H.den.entry i j)]

/-- The denominators of `G`, divided by their leading coefficients, have no nonzero coefficients below `τ`. -/
def DenClear (τ : K) (G : TransferM K) : Prop :=
  ∀ i j, Coarse τ (C (toPoly (G.den.entry i j)).leadingCoeff⁻¹ * toPoly (G.den.entry i j))

/-- Every monic divisor of `W` is without nonzero coefficients below `τ`. -/
def CoarseFactors (τ : K) (W : K[X]) : Prop := ∀ P : K[X], P.Monic → P ∣ W → Coarse τ P

/-- Every monic divisor of the products of denominators that are added in an entry of the matrix product of
the `p × k` model `G` and the `k × m` model `H` is without nonzero coefficients below `τ`. -/
def MatmulClear (τ : K) (p k m : ℕ) (G H : TransferM K) : Prop :=
  ∀ (r : Fin p) (c : Fin m), CoarseFactors τ (∏ i : Fin k, toPoly (G.den.entry r i) * toPoly (H.den.entry i c))

/-- The same for the product of the `p × k` model `G` with an array. -/
def RowsClear (τ : K) (p k : ℕ) (G : TransferM K) : Prop :=
  ∀ r : Fin p, CoarseFactors τ (∏ i : Fin k, toPoly (G.den.entry r i))

end Harold.Spec
