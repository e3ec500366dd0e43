import Mathlib.Analysis.Complex.Basic
import Mathlib.LinearAlgebra.Matrix.Determinant.Basic

/-!
# Specification: stability of a real matrix
-/

namespace Harold.Spec

open Matrix

/-- `z` is an eigenvalue of the real matrix `A`. -/
def IsEig {n : ℕ} (A : Matrix (Fin n) (Fin n) ℝ) (z : ℂ) : Prop :=
  (z • (1 : Matrix (Fin n) (Fin n) ℂ) - A.map (algebraMap ℝ ℂ)).det = 0

/-- All eigenvalues are in the open left half plane. -/
def Hurwitz {n : ℕ} (A : Matrix (Fin n) (Fin n) ℝ) : Prop := ∀ z, IsEig A z → z.re < 0

/-- All eigenvalues are in the open unit disc. -/
def Schur {n : ℕ} (A : Matrix (Fin n) (Fin n) ℝ) : Prop := ∀ z, IsEig A z → ‖z‖ < 1

end Harold.Spec
