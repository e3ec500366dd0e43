import Verif.Spec.Kalman
import Verif.Model.KalmanArg

/-!
# Specification: arguments and results of the Kalman matrices
-/

namespace Harold.Spec

open Matrix

variable {K : Type} [Field K] {n m p q : ℕ}

/-- The block row `[B, AB, ..., A^(n-1) B]`: column `j` of block `k` is in position `k m + j`. -/
def IsCtrb (A : Matrix (Fin n) (Fin n) K) (B : Matrix (Fin n) (Fin m) K) (M : Matrix (Fin n) (Fin q) K) : Prop :=
  q = n * m ∧ ∀ (k : ℕ) (i : Fin n) (j : Fin m) (l : Fin q), (l : ℕ) = k * m + j → M i l = (A ^ k * B) i j

/-- The block column of `C, CA, ..., CA^(n-1)`. -/
def IsObsv (A : Matrix (Fin n) (Fin n) K) (C : Matrix (Fin p) (Fin n) K) (M : Matrix (Fin q) (Fin n) K) : Prop :=
  q = n * p ∧ ∀ (k : ℕ) (i : Fin p) (j : Fin n) (l : Fin q), (l : ℕ) = k * p + i → M l j = (C * A ^ k) i j

/-- `G` is given by `A` and `B`: a `State` with these matrices or a tuple that starts with them. -/
inductive GivesAB (A : Matrix (Fin n) (Fin n) K) (B : Matrix (Fin n) (Fin m) K) : ModelArg K → Prop
  | state (G : StateM K) : G.a = Arr.of A → G.b = Arr.of B → GivesAB A B (.state G)
  | tuple (l : List (Arr K)) : GivesAB A B (.tuple (Arr.of A :: Arr.of B :: l))

/-- `G` is given by `A` and `C`. -/
inductive GivesAC (A : Matrix (Fin n) (Fin n) K) (C : Matrix (Fin p) (Fin n) K) : ModelArg K → Prop
  | state (G : StateM K) : G.a = Arr.of A → G.c = Arr.of C → GivesAC A C (.state G)
  | tuple (l : List (Arr K)) : GivesAC A C (.tuple (Arr.of A :: Arr.of C :: l))

end Harold.Spec
