import Verif.Model.Stair

/-!
# Specification: orthogonal changes of coordinates up to rounding
-/

namespace Harold.Spec

open Matrix

variable {K : Type} [Field K] [LinearOrder K] {n m p : ℕ}

/-- The squared Frobenius norm. -/
def frobSq {r c : ℕ} (M : Matrix (Fin r) (Fin c) K) : K := ∑ i, ∑ j, M i j ^ 2

/-- `(Ah, Bh, Ch)` is `(TᵀAT, TᵀB, CT)` for the orthogonal `T`, where the first two may differ by errors with squared Frobenius norms at most `ea` and `eb`. -/
structure Coordinates (A : Matrix (Fin n) (Fin n) K) (B : Matrix (Fin n) (Fin m) K) (C : Matrix (Fin p) (Fin n) K) (ea eb ec : K)
    (Ah : Matrix (Fin n) (Fin n) K) (Bh : Matrix (Fin n) (Fin m) K) (Ch : Matrix (Fin p) (Fin n) K) (T : Matrix (Fin n) (Fin n) K) : Prop where
  orth : Tᵀ * T = 1
  a : frobSq (Ah - Tᵀ * A * T) ≤ ea
  b : frobSq (Bh - Tᵀ * B) ≤ eb
  c : frobSq (Ch - C * T) ≤ ec

/-- The largest absolute column sum. -/
def norm1 (A : Matrix (Fin n) (Fin n) K) : K := Finset.univ.fold max 0 fun j => ∑ i, |A i j|

/-- The bound on the error in `A`: each of at most `n` singular values set to zero is at most `n · ‖A‖₁ · eps`. -/
def stairErrA (eps : K) (A : Matrix (Fin n) (Fin n) K) : K := n * (n * norm1 A * eps) ^ 2

/-- The bound on the error in `B`: each of at most `min n m` singular values set to zero is at most `max n m · eps` times the largest one. -/
def stairErrB (eps : K) (B : Matrix (Fin n) (Fin m) K) : K := (min n m : ℕ) * (((max n m : ℕ) : K) * eps) ^ 2 * frobSq B

end Harold.Spec
