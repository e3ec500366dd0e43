import Verif.Model.TransZeros
import Verif.Spec.Svd
import Mathlib.LinearAlgebra.Matrix.Rank
import Mathlib.LinearAlgebra.Matrix.Block

/-!
# Specification: zeros of a state space model

`s` is a zero of `(A, B, C, D)` if the system pencil `[[A - sI, B], [C, D]]` has a smaller rank at `s` than elsewhere.
-/

namespace Harold.Spec

open Matrix

variable {n m p : ℕ}

/-- The system pencil `[[A - sI, B], [C, D]]`. -/
def sysPencil (A : Matrix (Fin n) (Fin n) ℝ) (B : Matrix (Fin n) (Fin m) ℝ) (C : Matrix (Fin p) (Fin n) ℝ) (D : Matrix (Fin p) (Fin m) ℝ) (s : ℂ) :
    Matrix (Fin n ⊕ Fin p) (Fin n ⊕ Fin m) ℂ :=
  fromBlocks (A.map Complex.ofReal - s • 1) (B.map Complex.ofReal) (C.map Complex.ofReal) (D.map Complex.ofReal)

/-- The rank of the system pencil drops at `s`. -/
def InvariantZero (A : Matrix (Fin n) (Fin n) ℝ) (B : Matrix (Fin n) (Fin m) ℝ) (C : Matrix (Fin p) (Fin n) ℝ) (D : Matrix (Fin p) (Fin m) ℝ) (s : ℂ) : Prop :=
  ∃ s', (sysPencil A B C D s).rank < (sysPencil A B C D s').rank

/-- The contract of `qz(E, F, output='complex')`: `E = Q a Z` and `F = Q b Z` with upper triangular `a`, `b` and invertible (unitary) `Q`, `Z`. -/
def IsQz (E F : Matrix (Fin n) (Fin n) ℝ) (a b : Matrix (Fin n) (Fin n) ℂ) : Prop :=
  a.BlockTriangular id ∧ b.BlockTriangular id ∧ ∃ Q Z : Matrix (Fin n) (Fin n) ℂ, Qᴴ * Q = 1 ∧ Zᴴ * Z = 1 ∧
    E.map Complex.ofReal = Q * a * Z ∧ F.map Complex.ofReal = Q * b * Z

/-- All routines compute exactly: singular value decompositions and QZ factors as specified, no rounding thresholds. -/
structure TzExact (N : TzNum) : Prop where
  svd : ∀ {p m : ℕ} (M : Matrix (Fin p) (Fin m) ℝ), SvdOk N.svd M
  eps : N.svd.eps = 0
  spacing : ∀ x, N.spacing x = 0
  qz : ∀ {n : ℕ} (E F : Matrix (Fin n) (Fin n) ℝ), ∃ a b, N.qz (Arr.of E) (Arr.of F) = (Arr.of a, Arr.of b) ∧ IsQz E F a b

end Harold.Spec
