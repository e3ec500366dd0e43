import Verif.Model.Transfer
import Verif.Spec.Poly
import Verif.Spec.TF
import Mathlib.Algebra.Polynomial.AlgebraMap

/-!
# Specification: the value of a `Transfer` model
-/

namespace Harold.Spec

open Polynomial

variable {K L : Type} [Field K] [Field L] [Algebra K L]

/-- The value at `s` of the polynomial with coefficients `l` in decreasing powers. -/
noncomputable def polyAt (s : L) (l : List K) : L := aeval s (toPoly l)

/-- The `Transfer` model `G` has `p` outputs and `m` inputs, `s` (in an extension field `L` of `K`,
think of `ℝ ⊆ ℂ`) is not a root of any of its denominators, and the quotients of its numerators and
denominators at `s` are `M`. -/
def HasVal (G : TransferM K) (p m : ℕ) (s : L) (M : Matrix (Fin p) (Fin m) L) : Prop :=
  ∃ (num den : Matrix (Fin p) (Fin m) (List K)), G.num = Arr.of num ∧ G.den = Arr.of den ∧
    ∀ i j, polyAt s (den i j) ≠ 0 ∧ M i j = polyAt s (num i j) / polyAt s (den i j)

/-- `num / den` is proper: the degree of the numerator does not exceed that of the denominator,
which is not zero. -/
def ProperPair (num den : List K) : Prop := toPoly den ≠ 0 ∧ (toPoly num).degree ≤ (toPoly den).degree

/-- No denominator starts with a zero coefficient (in particular none is the zero polynomial). -/
def DenLead (G : TransferM K) : Prop := ∀ i j, (G.den.m i j).getD 0 0 ≠ 0

/-- `G` has value `M` at `s` and its denominators do not start with zeros. -/
def Valued (G : TransferM K) (p m : ℕ) (s : L) (M : Matrix (Fin p) (Fin m) L) : Prop :=
  HasVal G p m s M ∧ DenLead G

/-- Constant denominators are `[1]`. The product of the code ignores the denominator of a static SISO
gain on the left. -/
def UnitDen (G : TransferM K) : Prop := ∀ i j, (G.den.m i j).length = 1 → G.den.m i j = [1]

/-- The gain flag is set only if all denominators are constants. -/
def FlagOk (G : TransferM K) : Prop := G.isgain = true → ∀ i j, (G.den.m i j).length = 1

/-- Normal form of a `p × m` model (what the constructor makes of coefficient lists without leading
zeros): numerators without leading zeros (or `[0]`), denominators starting with a nonzero coefficient and
at least as long as the numerators, a gain flag that says whether all denominators have length one, and
an admissible sampling period. -/
structure Normal [LT K] (G : TransferM K) (p m : ℕ) (N D : Matrix (Fin p) (Fin m) (List K)) : Prop where
  pos : 0 < p ∧ 0 < m
  num : G.num = Arr.of N
  den : G.den = Arr.of D
  trimmed : ∀ i j, Trimmed (N i j)
  lead : ∀ i j, (D i j).getD 0 0 ≠ 0
  causal : ∀ i j, (N i j).length ≤ (D i j).length
  flag : G.isgain = true ↔ ∀ i j, (D i j).length = 1
  dt : DtOk G.dt

end Harold.Spec
