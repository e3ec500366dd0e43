import Verif.Spec.Sim

/-!
# Nearby models

Specification for C135: two matrices whose entries differ by less than `ε`.
-/

namespace Harold.Spec

open Matrix

/-- All entries differ by less than `ε`. -/
def Near {r c : ℕ} (ε : ℝ) (X Y : Matrix (Fin r) (Fin c) ℝ) : Prop := ∀ i j, |X i j - Y i j| < ε

/-- All four matrices of a model differ by less than `ε`. -/
def Near4 {n m p : ℕ} (ε : ℝ) (A A' : Matrix (Fin n) (Fin n) ℝ) (B B' : Matrix (Fin n) (Fin m) ℝ) (C C' : Matrix (Fin p) (Fin n) ℝ) (D D' : Matrix (Fin p) (Fin m) ℝ) : Prop :=
  Near ε A' A ∧ Near ε B' B ∧ Near ε C' C ∧ Near ε D' D

end Harold.Spec
