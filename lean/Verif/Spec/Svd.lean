import Verif.Model.Svd
import Mathlib.LinearAlgebra.Matrix.Rank

/-!
# Specification: singular value decompositions

The contract of `numpy.linalg.svd`.
-/

namespace Harold.Spec

open Matrix

variable {K : Type} [Field K] [LinearOrder K] {p m : ℕ}

/-- `M = U diag(s) V` with orthogonal `U`, `V` and nonnegative, descending `s` of length `min p m`. -/
structure IsSvd (M : Matrix (Fin p) (Fin m) K) (U : Matrix (Fin p) (Fin p) K) (s : List K) (V : Matrix (Fin m) (Fin m) K) :
    Prop where
  u_orth : Uᵀ * U = 1
  v_orth : V * Vᵀ = 1
  len : s.length = min p m
  nonneg : ∀ t ∈ s, 0 ≤ t
  desc : s.Pairwise (· ≥ ·)
  eq : M = U * diagRect p m s * V

/-- The backend returns a singular value decomposition of `M`. -/
def SvdOk (S : SvdNum K) (M : Matrix (Fin p) (Fin m) K) : Prop :=
  ∃ U s V, S.svd (Arr.of M) = (Arr.of U, s, Arr.of V) ∧ IsSvd M U s V

/-- ... and the rank threshold separates the nonzero singular values from zero. -/
def SvdExact (S : SvdNum K) (M : Matrix (Fin p) (Fin m) K) : Prop :=
  ∃ U s V, S.svd (Arr.of M) = (Arr.of U, s, Arr.of V) ∧ IsSvd M U s V ∧ ∀ t ∈ s, t ≠ 0 → rankTol S.eps p m s < t

end Harold.Spec
