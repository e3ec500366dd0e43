import Verif.Model.StateObj
import Mathlib.LinearAlgebra.Matrix.Charpoly.Basic
import Mathlib.Analysis.Complex.Norm
import Mathlib.LinearAlgebra.Complex.Module

/-!
# Specification: exact eigenvalues and zeros
-/

namespace Harold.Spec

open Polynomial Matrix

/-- The numerator polynomial `c · adj(sI - A) · b` of `c (sI - A)⁻¹ b`. -/
noncomputable def numPoly {K : Type} [CommRing K] {n : ℕ} (A : Matrix (Fin n) (Fin n) K) (b c : Fin n → K) : K[X] :=
  (fun i => C (c i)) ⬝ᵥ ((charmatrix A).adjugate *ᵥ fun i => C (b i))

/-- `eig` returns the eigenvalues with multiplicities: the characteristic polynomial is `∏ (s - λᵢ)`. -/
def EigExact (N : Numerics ℝ ℂ) : Prop :=
  ∀ {n : ℕ} (A : Matrix (Fin n) (Fin n) ℝ),
    A.charpoly.map (algebraMap ℝ ℂ) = ((N.eig (Arr.of A)).map fun z => X - C z).prod

/-- For models with one input, one output and no feedthrough `tz` returns the zeros with multiplicities: the numerator
polynomial is a multiple of `∏ (s - zᵢ)`, unless it vanishes identically. -/
def ZerosExact (N : Numerics ℝ ℂ) : Prop :=
  ∀ {n : ℕ} (A : Matrix (Fin n) (Fin n) ℝ) (b : Matrix (Fin n) (Fin 1) ℝ) (c : Matrix (Fin 1) (Fin n) ℝ),
    numPoly A (fun i => b i 0) (c 0) ≠ 0 →
    ∃ k : ℂ, (numPoly A (fun i => b i 0) (c 0)).map (algebraMap ℝ ℂ)
      = C k * ((N.tz (Arr.of A) (Arr.of b) (Arr.of c) (Arr.zeros 1 1)).map fun z => X - C z).prod

end Harold.Spec
