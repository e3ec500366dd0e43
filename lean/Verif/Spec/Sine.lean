import Verif.Spec.Blocks
import Verif.Spec.Motion
import Mathlib.Analysis.Complex.Exponential

/-!
# Specification: sinusoids
-/

namespace Harold.Spec

open Matrix Filter Topology

/-- The sinusoid with the complex amplitudes `a` at `ω` rad/s after `k` samples of period `h`: channel `j` has the value `|a j| cos (ω k h + arg (a j))`. -/
noncomputable def sineAt {m : ℕ} (ω h : ℝ) (a : Fin m → ℂ) (k : ℕ) (j : Fin m) : ℝ := (a j * Complex.exp (Complex.I * (ω * h * k))).re

/-- The answer to every sinusoid at `ω` rad/s, started from rest, tends to a sinusoid with the amplitudes multiplied by `H`: the difference `d`, which is the same for all lengths of the
simulation, tends to zero. -/
def SteadyState (sim : Arr ℝ → Option (List ℝ) → Res (SimOut × List ℝ)) (p m : ℕ) (h ω : ℝ) (H : Matrix (Fin p) (Fin m) ℂ) : Prop :=
  ∀ a : Fin m → ℂ, ∃ d : ℕ → Fin p → ℝ, Tendsto d atTop (𝓝 0) ∧ ∀ (N : ℕ) (targ : Option (List ℝ)) (t : List ℝ), 2 ≤ N → TimesOk N h targ t →
    sim (Arr.of (Matrix.of fun (k : Fin N) j => sineAt ω h a k j)) targ = .ok (.flat (Arr.of (Matrix.of fun (k : Fin N) i => sineAt ω h (H *ᵥ a) k i + d k i)), t)

end Harold.Spec
