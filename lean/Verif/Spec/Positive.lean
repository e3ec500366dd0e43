import Verif.Spec.Sim

/-!
# Positive models

Specification for C136: matrices without negative entries and models whose matrices have none. For continuous models the diagonal of `A` is free.
-/

namespace Harold.Spec

open Matrix

/-- No negative entry. -/
def NoNeg {r c : ℕ} (X : Matrix (Fin r) (Fin c) ℝ) : Prop := ∀ i j, 0 ≤ X i j

/-- No negative entry off the diagonal. -/
def NoNegOff {n : ℕ} (X : Matrix (Fin n) (Fin n) ℝ) : Prop := ∀ i j, i ≠ j → 0 ≤ X i j

/-- The matrices of a positive model. -/
def Positive4 {n m p : ℕ} (dt : Option ℝ) (A : Matrix (Fin n) (Fin n) ℝ) (B : Matrix (Fin n) (Fin m) ℝ) (C : Matrix (Fin p) (Fin n) ℝ) (D : Matrix (Fin p) (Fin m) ℝ) : Prop :=
  (if dt.isSome then NoNeg A else NoNegOff A) ∧ NoNeg B ∧ NoNeg C ∧ NoNeg D

end Harold.Spec
