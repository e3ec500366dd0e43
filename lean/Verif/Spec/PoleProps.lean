import Mathlib.Analysis.SpecialFunctions.Complex.Log

/-!
# Specification: natural frequency and damping ratio of a mode
-/

namespace Harold.Spec

/-- `s` is a root of the standard second-order polynomial `s² + 2ζω s + ω²`. -/
def Oscillator (s : ℂ) (ω ζ : ℝ) : Prop :=
  0 < ω ∧ |ζ| ≤ 1 ∧ s ^ 2 + 2 * ζ * ω * s + ω ^ 2 = 0

/-- `s` is the continuous-time mode whose samples at distance `d` are the powers of `p`, with the
lowest oscillation frequency. -/
def Sampled (d : ℝ) (p s : ℂ) : Prop :=
  Complex.exp (d * s) = p ∧ |d * s.im| ≤ Real.pi

end Harold.Spec
