import Verif.Spec.TF
import Mathlib.Data.Real.Basic
import Mathlib.LinearAlgebra.Matrix.Determinant.Basic

/-!
# Integrators and other modes in every channel
-/

namespace Harold.Spec

open Matrix

/-- The model contains the mode `s` in each of its `m` input channels: there are `m` combinations `W x` of its states that obey `q (W x) = s (W x) + (W B) u` (`q` the derivative or the shift)
with `W B` invertible. With `s = 0` (continuous) or `s = 1` (discrete) these are integrators, with `s = i ω` or `exp (i ω dt)` oscillators. -/
def HasMode {L : Type} [Field L] [Algebra ℝ L] (G : StateM ℝ) (m : ℕ) (s : L) : Prop :=
  ∃ (n : ℕ) (A : Matrix (Fin n) (Fin n) ℝ) (B : Matrix (Fin n) (Fin m) ℝ) (W : Matrix (Fin m) (Fin n) L), G.isgain = false ∧ G.a = Arr.of A ∧ G.b = Arr.of B ∧
    W * A.map (algebraMap ℝ L) = s • W ∧ (W * B.map (algebraMap ℝ L)).det ≠ 0

/-- `State(I, dt=dt)`, the feedback of a unity feedback loop. -/
def unity (m : ℕ) (dt : Option ℝ) : StateM ℝ := ⟨Arr.empty, Arr.empty, Arr.empty, Arr.of (1 : Matrix (Fin m) (Fin m) ℝ), dt, true⟩

end Harold.Spec
