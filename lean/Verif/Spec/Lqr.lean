import Verif.Model.Lqr

/-!
# Linear quadratic regulators
-/

namespace Harold.Spec

open Matrix

variable {K : Type} [Field K] {n m p : ℕ}

/-- The cost `[x; u]' [Q, S; S', R] [x; u]` per unit of time. -/
def cost (Q : Matrix (Fin n) (Fin n) K) (S : Matrix (Fin n) (Fin m) K) (R : Matrix (Fin m) (Fin m) K) (x : Fin n → K) (u : Fin m → K) : K :=
  x ⬝ᵥ Q *ᵥ x + x ⬝ᵥ S *ᵥ u + u ⬝ᵥ Sᵀ *ᵥ x + u ⬝ᵥ R *ᵥ u

/-- What `solve_continuous_are` returns if it succeeds: a symmetric solution of the Riccati equation, for symmetric weights. -/
def CareOk (N : AreNum K) (A : Matrix (Fin n) (Fin n) K) (B : Matrix (Fin n) (Fin m) K) (Q : Matrix (Fin n) (Fin n) K) (R : Matrix (Fin m) (Fin m) K)
    (S : Option (Matrix (Fin n) (Fin m) K)) : Prop :=
  ∀ x, N.care (Arr.of A) (Arr.of B) (Arr.of Q) (Arr.of R) (S.map Arr.of) = .ok x → ∃ X : Matrix (Fin n) (Fin n) K, x = Arr.of X ∧ Xᵀ = X ∧ Rᵀ = R ∧
    Aᵀ * X + X * A - (X * B + S.getD 0) * R⁻¹ * (Bᵀ * X + (S.getD 0)ᵀ) + Q = 0

/-- What `solve_discrete_are` returns if it succeeds. -/
def DareOk (N : AreNum K) (A : Matrix (Fin n) (Fin n) K) (B : Matrix (Fin n) (Fin m) K) (Q : Matrix (Fin n) (Fin n) K) (R : Matrix (Fin m) (Fin m) K)
    (S : Option (Matrix (Fin n) (Fin m) K)) : Prop :=
  ∀ x, N.dare (Arr.of A) (Arr.of B) (Arr.of Q) (Arr.of R) (S.map Arr.of) = .ok x → ∃ X : Matrix (Fin n) (Fin n) K, x = Arr.of X ∧ Xᵀ = X ∧ Rᵀ = R ∧
    Aᵀ * X * A - X - (Aᵀ * X * B + S.getD 0) * (R + Bᵀ * X * B)⁻¹ * (Bᵀ * X * A + (S.getD 0)ᵀ) + Q = 0

end Harold.Spec
