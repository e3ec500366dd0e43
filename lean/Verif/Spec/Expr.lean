import Verif.Model.Expr
import Verif.Spec.TF

/-!
# Specification: the value of a formula over models

A formula over models denotes the same formula over their transfer matrices.
-/

namespace Harold.Spec

open Matrix

/-- The formula `e`, read as a formula over transfer matrices, is defined at `s` and takes the value `M`: models stand for their values, `-`, `+`, `@`, `k *` for the matrix operations, `e + k` for the addition of `k` to every entry, `1 / e` for the inverse of an invertible matrix, and `feedback(e, f)` for `E (1 ∓ F E)⁻¹` with `1 ∓ F E` invertible. -/
def Value {K L : Type} [Field K] [Field L] [Algebra K L] (s : L) : {p m : ℕ} → SExpr K p m → Matrix (Fin p) (Fin m) L → Prop
  | p, m, .model G, M => HasTF G p m s M
  | _, _, .neg e, M => ∃ E, Value s e E ∧ M = -E
  | _, _, .add e f, M => ∃ E F, Value s e E ∧ Value s f F ∧ M = E + F
  | _, _, .sub e f, M => ∃ E F, Value s e E ∧ Value s f F ∧ M = E - F
  | _, _, .mul e f, M => ∃ E F, Value s e E ∧ Value s f F ∧ M = E * F
  | _, _, .scale k e, M => ∃ E, Value s e E ∧ M = algebraMap K L k • E
  | _, _, .shift e k, M => ∃ E, Value s e E ∧ M = Matrix.of fun i j => E i j + algebraMap K L k
  | _, m, .inv e, M => ∃ E : Matrix (Fin m) (Fin m) L, Value s e E ∧ E.det ≠ 0 ∧ M = E⁻¹
  | p, m, .loop negative e f, M => ∃ (E : Matrix (Fin p) (Fin m) L) (F : Matrix (Fin m) (Fin p) L), Value s e E ∧ Value s f F ∧
      ((1 - (if negative then -1 else 1 : L) • (F * E)).det : L) ≠ 0 ∧ M = E * (1 - (if negative then -1 else 1 : L) • (F * E))⁻¹

/-- The value of the formula at `s = ∞`: every model stands for its feedthrough matrix. -/
def ValueInf {K : Type} [Field K] : {p m : ℕ} → SExpr K p m → Matrix (Fin p) (Fin m) K → Prop
  | _, _, .model G, M => G.d = Arr.of M
  | _, _, .neg e, M => ∃ E, ValueInf e E ∧ M = -E
  | _, _, .add e f, M => ∃ E F, ValueInf e E ∧ ValueInf f F ∧ M = E + F
  | _, _, .sub e f, M => ∃ E F, ValueInf e E ∧ ValueInf f F ∧ M = E - F
  | _, _, .mul e f, M => ∃ E F, ValueInf e E ∧ ValueInf f F ∧ M = E * F
  | _, _, .scale k e, M => ∃ E, ValueInf e E ∧ M = k • E
  | _, _, .shift e k, M => ∃ E, ValueInf e E ∧ M = Matrix.of fun i j => E i j + k
  | _, _, .inv e, M => ∃ E, ValueInf e E ∧ M = E⁻¹
  | _, _, .loop negative e f, M => ∃ E F, ValueInf e E ∧ ValueInf f F ∧ M = E * (1 - (if negative then -1 else 1 : K) • (F * E))⁻¹

/-- No inverse and no loop in the formula is numerically singular at `s = ∞`: what `1 / e` inverts has no singular value below `2⁻⁵²` there, and `1 - F E` of a loop with `m` inputs none up to `m 2⁻⁴⁹`. -/
def Regular {K : Type} [Field K] [LinearOrder K] : {p m : ℕ} → SExpr K p m → Prop
  | _, _, .model _ => True
  | _, _, .neg e => Regular e
  | _, _, .add e f => Regular e ∧ Regular f
  | _, _, .sub e f => Regular e ∧ Regular f
  | _, _, .mul e f => Regular e ∧ Regular f
  | _, _, .scale _ e => Regular e
  | _, _, .shift e _ => Regular e
  | _, _, .inv e => Regular e ∧ ∀ E, ValueInf e E → ¬ HasSVBelow (1 / 2 ^ 52 : K) E
  | _, m, .loop _ e f => Regular e ∧ Regular f ∧ ∀ E F, ValueInf e E → ValueInf f F → ¬ HasSVAtMost (m * (1 / 2 ^ 49) : K) (1 - F * E)

/-- Every model of the formula satisfies `P p m G` for its place in the formula. -/
def AllModels {K : Type} (P : ℕ → ℕ → StateM K → Prop) : {p m : ℕ} → SExpr K p m → Prop
  | p, m, .model G => P p m G
  | _, _, .neg e => AllModels P e
  | _, _, .add e f => AllModels P e ∧ AllModels P f
  | _, _, .sub e f => AllModels P e ∧ AllModels P f
  | _, _, .mul e f => AllModels P e ∧ AllModels P f
  | _, _, .scale _ e => AllModels P e
  | _, _, .shift e _ => AllModels P e
  | _, _, .inv e => AllModels P e
  | _, _, .loop _ e f => AllModels P e ∧ AllModels P f

/-- In every negative feedback loop of the formula one of the two operands has no direct feedthrough, more generally the feedthrough of the loop vanishes. -/
def NoDirectLoop {K : Type} [Field K] [LinearOrder K] (fuel : ℕ) : {p m : ℕ} → SExpr K p m → Prop
  | _, _, .model _ => True
  | _, _, .neg e => NoDirectLoop fuel e
  | _, _, .add e f => NoDirectLoop fuel e ∧ NoDirectLoop fuel f
  | _, _, .sub e f => NoDirectLoop fuel e ∧ NoDirectLoop fuel f
  | _, _, .mul e f => NoDirectLoop fuel e ∧ NoDirectLoop fuel f
  | _, _, .scale _ e => NoDirectLoop fuel e
  | _, _, .shift e _ => NoDirectLoop fuel e
  | _, _, .inv e => NoDirectLoop fuel e
  | p, m, .loop negative e f => NoDirectLoop fuel e ∧ NoDirectLoop fuel f ∧ (negative = true →
      ∀ G H (D : Matrix (Fin p) (Fin m) K) (N : Matrix (Fin m) (Fin p) K), e.eval fuel = .ok G → f.eval fuel = .ok H → G.d = Arr.of D → H.d = Arr.of N → N * D = 0)

/-- The formula has no sum and no difference of two models. -/
def NoSum {K : Type} : {p m : ℕ} → SExpr K p m → Prop
  | _, _, .model _ => True
  | _, _, .neg e => NoSum e
  | _, _, .add _ _ => False
  | _, _, .sub _ _ => False
  | _, _, .mul e f => NoSum e ∧ NoSum f
  | _, _, .scale _ e => NoSum e
  | _, _, .shift e _ => NoSum e
  | _, _, .inv e => NoSum e
  | _, _, .loop _ e f => NoSum e ∧ NoSum f

/-- No factor of a scalar product is zero. -/
def NonzeroFactors {K : Type} [Zero K] : {p m : ℕ} → SExpr K p m → Prop
  | _, _, .model _ => True
  | _, _, .neg e => NonzeroFactors e
  | _, _, .add e f => NonzeroFactors e ∧ NonzeroFactors f
  | _, _, .sub e f => NonzeroFactors e ∧ NonzeroFactors f
  | _, _, .mul e f => NonzeroFactors e ∧ NonzeroFactors f
  | _, _, .scale k e => k ≠ 0 ∧ NonzeroFactors e
  | _, _, .shift e _ => NonzeroFactors e
  | _, _, .inv e => NonzeroFactors e
  | _, _, .loop _ e f => NonzeroFactors e ∧ NonzeroFactors f

/-- The numbers of states of the models of the formula, added up. -/
def totalStates {K : Type} : {p m : ℕ} → SExpr K p m → ℕ
  | _, _, .model G => G.a.r
  | _, _, .neg e => totalStates e
  | _, _, .add e f => totalStates e + totalStates f
  | _, _, .sub e f => totalStates e + totalStates f
  | _, _, .mul e f => totalStates e + totalStates f
  | _, _, .scale _ e => totalStates e
  | _, _, .shift e _ => totalStates e
  | _, _, .inv e => totalStates e
  | _, _, .loop _ e f => totalStates e + totalStates f

end Harold.Spec
