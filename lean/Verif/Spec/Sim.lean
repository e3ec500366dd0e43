import Mathlib.LinearAlgebra.Matrix.Defs
import Mathlib.Data.Matrix.Mul
import Mathlib.Data.Real.Basic

/-!
# Responses of linear discrete-time systems (specification)
-/

namespace Harold.Spec

open Matrix

variable {n m p N : ℕ}

/-- The output at sample `i` for the initial state `x0` and the input samples `U`:
`C A^i x0 + ∑_{j<i} C A^(i-1-j) B u_j + D u_i`. -/
def output (A : Matrix (Fin n) (Fin n) ℝ) (B : Matrix (Fin n) (Fin m) ℝ) (C : Matrix (Fin p) (Fin n) ℝ)
    (D : Matrix (Fin p) (Fin m) ℝ) (x0 : Fin n → ℝ) (U : Fin N → Fin m → ℝ) (i : Fin N) : Fin p → ℝ :=
  C *ᵥ (A ^ (i : ℕ) *ᵥ x0)
    + ∑ j : Fin N with j < i, C *ᵥ (A ^ ((i : ℕ) - 1 - j) *ᵥ (B *ᵥ U j))
    + D *ᵥ U i

/-- Markov parameters `D, C B, C A B, ...`. -/
def markov (A : Matrix (Fin n) (Fin n) ℝ) (B : Matrix (Fin n) (Fin m) ℝ) (C : Matrix (Fin p) (Fin n) ℝ)
    (D : Matrix (Fin p) (Fin m) ℝ) : ℕ → Matrix (Fin p) (Fin m) ℝ
  | 0 => D
  | k + 1 => C * A ^ k * B

/-- `x0` is what the optional argument `x0=` stands for. -/
def InitArg (arg : Option (List ℝ)) (x0 : Fin n → ℝ) : Prop :=
  (arg = none ∧ x0 = 0) ∨ (arg = some (List.ofFn x0) ∧ n ≠ 1)

/-- The grid has at least two points, increases, and all increments equal the first one up to
`1e-8 + 1e-5 |increment|` (the tolerance of `numpy.allclose`). -/
def GridOk (t : List ℝ) : Prop :=
  2 ≤ t.length ∧ 0 < t.getD 1 0 - t.getD 0 0 ∧
  ∀ i, i + 1 < t.length → |(t.getD (i + 1) 0 - t.getD i 0) - (t.getD 1 0 - t.getD 0 0)|
    ≤ 1 / 100000000 + 1 / 100000 * |t.getD 1 0 - t.getD 0 0|

/-- The first increment agrees with the sampling period, up to the same tolerance. -/
def PeriodOk (dt : Option ℝ) (t : List ℝ) : Prop :=
  ∀ h, dt = some h → |h - (t.getD 1 0 - t.getD 0 0)|
    ≤ 1 / 100000000 + 1 / 100000 * |t.getD 1 0 - t.getD 0 0|

end Harold.Spec
