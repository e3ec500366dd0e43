import Verif.Model.Lyap

/-!
# Specification: the contracts of `scipy.linalg.schur` and `scipy.linalg.qz`
-/

namespace Harold.Spec

open Matrix

variable {K : Type} [Field K] [LinearOrder K] {n : ℕ}

/-- Upper triangular with 1x1 and 2x2 blocks on the diagonal; entries that the solver takes for zero are zero. -/
structure QuasiTri (tol : K) (T : Matrix (Fin n) (Fin n) K) : Prop where
  below : ∀ i j : Fin n, (j : ℕ) + 1 < i → T i j = 0
  subdiag : ∀ i j : Fin n, (i : ℕ) = j + 1 → T i j ≠ 0 → tol < |T i j|
  isolated : ∀ i j k : Fin n, (j : ℕ) = i + 1 → (k : ℕ) = j + 1 → tol < |T j i| → ¬ tol < |T k j|

/-- `schur(A, output='real')` returns a real Schur decomposition `A = S As Sᵀ`. -/
def SchurOk (N : LyapNum K) (A : Matrix (Fin n) (Fin n) K) : Prop :=
  ∃ As S : Matrix (Fin n) (Fin n) K, N.schur (Arr.of A) = (Arr.of As, Arr.of S) ∧ Sᵀ * S = 1 ∧ A = S * As * Sᵀ ∧ QuasiTri 0 As

/-- `qz(A, E)` returns a generalised real Schur decomposition `A = Q As Zᵀ`, `E = Q Es Zᵀ`. -/
def QzOk (N : LyapNum K) (A E : Matrix (Fin n) (Fin n) K) : Prop :=
  ∃ As Es Q Z : Matrix (Fin n) (Fin n) K, N.qz (Arr.of A) (Arr.of E) = (Arr.of As, Arr.of Es, Arr.of Q, Arr.of Z) ∧
    Qᵀ * Q = 1 ∧ Zᵀ * Z = 1 ∧ A = Q * As * Zᵀ ∧ E = Q * Es * Zᵀ ∧ QuasiTri N.tol As ∧ ∀ i j : Fin n, j < i → Es i j = 0

end Harold.Spec
