import Mathlib.LinearAlgebra.Matrix.Charpoly.Basic
import Mathlib.Data.Complex.Basic

/-!
# Specification: pole placement
-/

namespace Harold.Spec

open Matrix Polynomial

/-- The eigenvalues of `A - b F`, with multiplicities, are the entries of `loc`. -/
def PlacesPoles {K : Type} [Field K] {n : ℕ} (A : Matrix (Fin n) (Fin n) K) (b : Matrix (Fin n) (Fin 1) K) (F : Matrix (Fin 1) (Fin n) K)
    (loc : List K) : Prop := (A - b * F).charpoly = (loc.map fun r => X - C r).prod

/-- The complex eigenvalues of `A - b F`, with multiplicities, are the entries of `loc`. -/
def PlacesPolesC {n : ℕ} (A : Matrix (Fin n) (Fin n) ℝ) (b : Matrix (Fin n) (Fin 1) ℝ) (F : Matrix (Fin 1) (Fin n) ℝ)
    (loc : List ℂ) : Prop := ((A - b * F).charpoly.map Complex.ofRealHom) = (loc.map fun r => X - C r).prod

end Harold.Spec
