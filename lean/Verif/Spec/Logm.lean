import Verif.Model.Discrete
import Verif.Spec.Stable

/-!
# Specification: the principal matrix logarithm
-/

namespace Harold.Spec

open Matrix

/-- All eigenvalues have imaginary part in `(-r, r)`. -/
def ImBelow {n : ℕ} (r : ℝ) (X : Matrix (Fin n) (Fin n) ℝ) : Prop := ∀ z : ℂ, IsEig X z → |z.im| < r

/-- `X` is the principal logarithm of `M`: `exp X = M`, eigenvalues in the strip `|Im| < π`. -/
def IsPrincipalLog {n : ℕ} (X M : Matrix (Fin n) (Fin n) ℝ) : Prop := NormedSpace.exp X = M ∧ ImBelow Real.pi X

/-- Contract of `scipy.linalg.logm`: if the (real) principal logarithm exists it is returned, and nothing else is returned as a real matrix. -/
def LogmOk (E : DNum) : Prop :=
  ∀ {n : ℕ} (M : Matrix (Fin n) (Fin n) ℝ), (∀ X, E.logm M = some X → IsPrincipalLog X M) ∧ ∀ X, IsPrincipalLog X M → ∃ Y, E.logm M = some Y

end Harold.Spec
