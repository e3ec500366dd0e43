import Verif.Model.TExpr
import Verif.Spec.Coarse

/-!
# Specification: the value of a formula over `Transfer` models
-/

namespace Harold.Spec

open Matrix Polynomial

/-- The formula `e`, read as a formula over matrices of rational functions, takes the value `M` at `s`: models stand for their values, `-`, `+`, `@`, `k *`
for the matrix operations, `*` for the entrywise product (a SISO factor multiplies every entry) and `e + k` for the addition of `k` to every entry. No
denominator of a model vanishes at `s`. -/
def TValue {K L : Type} [Field K] [Field L] [Algebra K L] (s : L) : {p m : ℕ} → TExpr K p m → Matrix (Fin p) (Fin m) L → Prop
  | p, m, .model G, M => HasVal G p m s M
  | _, _, .neg e, M => ∃ E, TValue s e E ∧ M = -E
  | _, _, .add e f, M => ∃ E F, TValue s e E ∧ TValue s f F ∧ M = E + F
  | _, _, .sub e f, M => ∃ E F, TValue s e E ∧ TValue s f F ∧ M = E - F
  | _, _, .times e f, M => ∃ E F, TValue s e E ∧ TValue s f F ∧ M = Matrix.of fun i j => E i j * F i j
  | _, _, .left e f, M => ∃ E F, TValue s e E ∧ TValue s f F ∧ M = Matrix.of fun i j => E 0 0 * F i j
  | _, _, .right e f, M => ∃ E F, TValue s e E ∧ TValue s f F ∧ M = Matrix.of fun i j => E i j * F 0 0
  | _, _, .mul e f, M => ∃ E F, TValue s e E ∧ TValue s f F ∧ M = E * F
  | _, _, .scale k e, M => ∃ E, TValue s e E ∧ M = algebraMap K L k • E
  | _, _, .shift e k, M => ∃ E, TValue s e E ∧ M = Matrix.of fun i j => E i j + algebraMap K L k

/-- Every model of the formula satisfies `P p m G` for its place in the formula. -/
def TAllModels {K : Type} (P : ℕ → ℕ → TransferM K → Prop) : {p m : ℕ} → TExpr K p m → Prop
  | p, m, .model G => P p m G
  | _, _, .neg e => TAllModels P e
  | _, _, .add e f => TAllModels P e ∧ TAllModels P f
  | _, _, .sub e f => TAllModels P e ∧ TAllModels P f
  | _, _, .times e f => TAllModels P e ∧ TAllModels P f
  | _, _, .left e f => TAllModels P e ∧ TAllModels P f
  | _, _, .right e f => TAllModels P e ∧ TAllModels P f
  | _, _, .mul e f => TAllModels P e ∧ TAllModels P f
  | _, _, .scale _ e => TAllModels P e
  | _, _, .shift e _ => TAllModels P e

/-- A formula of products with `*`, multiples and negatives only. -/
def TProducts {K : Type} : {p m : ℕ} → TExpr K p m → Prop
  | _, _, .model _ => True
  | _, _, .neg e => TProducts e
  | _, _, .times e f => TProducts e ∧ TProducts f
  | _, _, .left e f => TProducts e ∧ TProducts f
  | _, _, .right e f => TProducts e ∧ TProducts f
  | _, _, .scale _ e => TProducts e
  | _, _, .add _ _ | _, _, .sub _ _ | _, _, .mul _ _ | _, _, .shift _ _ => False

/-- A formula of sums, products of both kinds and positive multiples only. -/
def TPositive {K : Type} [Zero K] [LT K] : {p m : ℕ} → TExpr K p m → Prop
  | _, _, .model _ => True
  | _, _, .add e f => TPositive e ∧ TPositive f
  | _, _, .times e f => TPositive e ∧ TPositive f
  | _, _, .left e f => TPositive e ∧ TPositive f
  | _, _, .right e f => TPositive e ∧ TPositive f
  | _, _, .mul e f => TPositive e ∧ TPositive f
  | _, _, .scale k e => 0 < k ∧ TPositive e
  | _, _, .neg _ | _, _, .sub _ _ | _, _, .shift _ _ => False

/-- A set of monic polynomials that contains one, products and least common multiples, such that no least common multiple and no cofactor of it has a nonzero
coefficient below `τ`. -/
structure CoarseClass {K : Type} [Field K] [LinearOrder K] (τ : K) (S : Set K[X]) : Prop where
  monic : ∀ P ∈ S, P.Monic
  one : 1 ∈ S
  mul : ∀ P ∈ S, ∀ Q ∈ S, P * Q ∈ S
  lcm : ∀ P ∈ S, ∀ Q ∈ S, ∀ M, IsMonicLcm [P, Q] M → M ∈ S
  coarse : ∀ P ∈ S, ∀ Q ∈ S, CoarseLcm τ [P, Q]

/-- The monic polynomials with integer coefficients. -/
def monicInt (K : Type) [Field K] : Set K[X] := {P | ∃ Q : ℤ[X], Q.Monic ∧ P = Q.map (Int.castRingHom K)}

/-- A `p × m` model in normal form with denominators in `S`. -/
def NormalIn {K : Type} [Field K] [LinearOrder K] (S : Set K[X]) (p m : ℕ) (G : TransferM K) : Prop :=
  ∃ N D, Normal G p m N D ∧ ∀ i j, toPoly (D i j) ∈ S

/-- The same with sampling period `dt`, and every numerator starts with a positive coefficient. -/
def PositiveIn {K : Type} [Field K] [LinearOrder K] (S : Set K[X]) (dt : Option K) (p m : ℕ) (G : TransferM K) : Prop :=
  G.dt = dt ∧ ∃ N D, Normal G p m N D ∧ (∀ i j, toPoly (D i j) ∈ S) ∧ ∀ i j, 0 < (N i j).getD 0 0

end Harold.Spec
