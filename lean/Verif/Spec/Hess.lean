import Verif.Model.Hess

/-!
# Specification: the contracts of `scipy.linalg.qr` and `scipy.linalg.hessenberg`
-/

namespace Harold.Spec

open Matrix

variable {K : Type} [Field K] [LinearOrder K] {n m : ℕ}

/-- `qr(B)` returns `Q, R` with `Q` orthogonal, `R` upper trapezoidal and `B = Q R`. -/
def QrOk (N : HessNum K) (B : Matrix (Fin n) (Fin m) K) : Prop :=
  ∃ (Q : Matrix (Fin n) (Fin n) K) (R : Matrix (Fin n) (Fin m) K), N.qr (Arr.of B) = (Arr.of Q, Arr.of R) ∧ Qᵀ * Q = 1 ∧ B = Q * R ∧
    ∀ (i : Fin n) (j : Fin m), (j : ℕ) < i → R i j = 0

/-- Zero below the first subdiagonal. -/
def IsHess (H : Matrix (Fin n) (Fin n) K) : Prop := ∀ i j : Fin n, (j : ℕ) + 1 < i → H i j = 0

/-- `hessenberg(A, calc_q=True)` returns `H, Q` with `Q` orthogonal, `H` a Hessenberg matrix and `A = Q H Qᵀ`; the first column of `Q` is the
first unit vector (the reflectors of LAPACK's `gehrd` do not touch the first coordinate). -/
def HessOk (N : HessNum K) (A : Matrix (Fin n) (Fin n) K) : Prop :=
  ∃ H Q : Matrix (Fin n) (Fin n) K, N.hess (Arr.of A) = (Arr.of H, Arr.of Q) ∧ Qᵀ * Q = 1 ∧ A = Q * H * Qᵀ ∧ IsHess H ∧
    ∀ i j : Fin n, (j : ℕ) = 0 → Q i j = if i = j then 1 else 0

end Harold.Spec
