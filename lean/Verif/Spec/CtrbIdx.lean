import Verif.Model.CtrbIdx
import Verif.Lemmas.Kalman

/-!
# Controllability indices
-/

namespace Harold.Spec

open Matrix

variable {n m : ℕ}

/-- The rank of `[B, A B, ..., A^(j-1) B]`. -/
noncomputable def kdim (A : Matrix (Fin n) (Fin n) ℝ) (B : Matrix (Fin n) (Fin m) ℝ) : ℕ → ℕ
  | 0 => 0
  | j + 1 => (ctrbM A B j).rank

/-- The numbers `μ` are the controllability indices of `(A, B)`, up to their order: for every `j`, as many of them exceed `j` as there are columns in `A^j B` that are
independent of the columns before. -/
def CtrbIndices (A : Matrix (Fin n) (Fin n) ℝ) (B : Matrix (Fin n) (Fin m) ℝ) (μ : Fin m → ℕ) : Prop :=
  ∀ j, kdim A B j + (Finset.univ.filter fun c => j < μ c).card = kdim A B (j + 1)

/-- What the pivoted QR decomposition returns in exact arithmetic: `B P = Q R` with orthonormal columns `Q`, upper triangular `R`, and every diagonal element of `R`
dominates the elements to the right and below. -/
def QrpOk (N : QrpNum) (B : Matrix (Fin n) (Fin m) ℝ) : Prop :=
  (N.qr B).1ᵀ * (N.qr B).1 = 1 ∧ (∀ i j, B i ((N.qr B).2.2 j) = ((N.qr B).1 * (N.qr B).2.1) i j) ∧
  (∀ (i : Fin (min n m)) (j : Fin m), (j : ℕ) < i → (N.qr B).2.1 i j = 0) ∧
  ∀ (i l : Fin (min n m)) (j : Fin m), (i : ℕ) ≤ l → (i : ℕ) ≤ j → |(N.qr B).2.1 l j| ≤ |(N.qr B).2.1 i (Fin.castLE (min_le_right n m) i)|

end Harold.Spec
