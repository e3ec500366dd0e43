import Verif.Spec.Poly
import Verif.Model.Gcd
import Mathlib.Algebra.Polynomial.Monic
import Mathlib.LinearAlgebra.Matrix.Rank

/-!
# Specification: greatest common divisors, and the numerical routines used to compute them
-/

namespace Harold.Spec

open Polynomial

variable {K : Type} [Field K]

/-- `g` is the monic greatest common divisor of the polynomials in `l`: it is monic, and its divisors
are exactly the common divisors of `l`. -/
def IsMonicGcd (l : List K[X]) (g : K[X]) : Prop :=
  g.Monic ∧ ∀ q : K[X], q ∣ g ↔ ∀ f ∈ l, q ∣ f

/-- `U` is the triangular factor of a decomposition `S = P L U` with a permutation of the rows and a
factor `L` that is lower trapezoidal with ones on the diagonal. -/
def IsLuFactor {M N : ℕ} (S : Matrix (Fin M) (Fin N) K)
    (U : Matrix (Fin (min M N)) (Fin N) K) : Prop :=
  (∀ i j, j.val < i.val → U i j = 0) ∧
  ∃ (σ : Equiv.Perm (Fin M)) (L : Matrix (Fin M) (Fin (min M N)) K),
    (∀ i j, i.val < j.val → L i j = 0) ∧ (∀ i j, i.val = j.val → L i j = 1) ∧
    S.submatrix σ id = L * U

/-- The numerical routines are exact: the rank is the rank, and `lu` returns a triangular factor. -/
structure GcdNumOk [LinearOrder K] (E : GcdNum K) : Prop where
  rank : ∀ {M N : ℕ} (S : Matrix (Fin M) (Fin N) K), E.rank S = S.rank
  lu : ∀ {M N : ℕ} (S : Matrix (Fin M) (Fin N) K), IsLuFactor S (E.lu S)

end Harold.Spec
