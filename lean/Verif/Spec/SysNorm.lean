import Verif.Model.SysNorm
import Verif.Spec.Stable
import Mathlib.Analysis.Normed.Algebra.MatrixExponential
import Mathlib.Topology.Algebra.InfiniteSum.Basic
import Mathlib.MeasureTheory.Integral.IntervalIntegral.Basic

/-!
# Specification: the energy of the impulse response
-/

namespace Harold.Spec

open Matrix Filter Topology

variable {n m p : ℕ}

/-- The squared Frobenius norm. -/
def fro2 (M : Matrix (Fin p) (Fin m) ℝ) : ℝ := ∑ i, ∑ j, M i j ^ 2

/-- The impulse response of a discrete time model: `D, C B, C A B, ...`. -/
def dimpulse (A : Matrix (Fin n) (Fin n) ℝ) (B : Matrix (Fin n) (Fin m) ℝ) (C : Matrix (Fin p) (Fin n) ℝ) (D : Matrix (Fin p) (Fin m) ℝ) : ℕ → Matrix (Fin p) (Fin m) ℝ
  | 0 => D
  | k + 1 => C * A ^ k * B

/-- The impulse response has the energy `e`. -/
def DEnergy (A : Matrix (Fin n) (Fin n) ℝ) (B : Matrix (Fin n) (Fin m) ℝ) (C : Matrix (Fin p) (Fin n) ℝ) (D : Matrix (Fin p) (Fin m) ℝ) (e : ℝ) : Prop :=
  HasSum (fun k => fro2 (dimpulse A B C D k)) e

/-- The impulse response `C exp(A t) B` of a continuous time model without feedthrough has the energy `e`. -/
def CEnergy (A : Matrix (Fin n) (Fin n) ℝ) (B : Matrix (Fin n) (Fin m) ℝ) (C : Matrix (Fin p) (Fin n) ℝ) (e : ℝ) : Prop :=
  Tendsto (fun T : ℝ => ∫ t in 0..T, fro2 (C * NormedSpace.exp (t • A) * B)) atTop (𝓝 e)

end Harold.Spec
