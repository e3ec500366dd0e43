import Mathlib.LinearAlgebra.Matrix.NonsingularInverse

/-!
# Specification: reachability and observability
-/

namespace Harold.Spec

open Matrix

variable {K : Type} [Field K] {n m p : ℕ}

/-- The state of `x⁺ = A x + B u` after an input sequence, started at the origin. -/
def finalState (A : Matrix (Fin n) (Fin n) K) (B : Matrix (Fin n) (Fin m) K) (us : List (Fin m → K)) : Fin n → K :=
  us.foldl (fun x u => A *ᵥ x + B *ᵥ u) 0

/-- Every state is reached from the origin by some input sequence. -/
def Reachable (A : Matrix (Fin n) (Fin n) K) (B : Matrix (Fin n) (Fin m) K) : Prop := ∀ x, ∃ us, finalState A B us = x

/-- Only the zero initial state gives the zero output sequence of `x⁺ = A x`, `y = C x`. -/
def Observable (A : Matrix (Fin n) (Fin n) K) (C : Matrix (Fin p) (Fin n) K) : Prop :=
  ∀ x, (∀ k : ℕ, C *ᵥ ((A ^ k) *ᵥ x) = 0) → x = 0

end Harold.Spec
