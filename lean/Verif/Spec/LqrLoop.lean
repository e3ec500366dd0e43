import Verif.Spec.Lqr
import Verif.Spec.Stable
import Mathlib.MeasureTheory.Integral.IntervalIntegral.Basic
import Mathlib.Analysis.Calculus.Deriv.Basic

/-!
# Specification: what a linear quadratic regulator does to the closed loop
-/

namespace Harold.Spec

open Matrix

variable {K : Type} [Field K] {n m p : ℕ}

/-- The weight is never negative. -/
def CostNonneg [LinearOrder K] (Q : Matrix (Fin n) (Fin n) K) (S : Matrix (Fin n) (Fin m) K) (R : Matrix (Fin m) (Fin m) K) : Prop :=
  ∀ x u, 0 ≤ cost Q S R x u

/-- Every motion `v exp(z t)` (or `v z ^ t`) that does not decay, with a nonzero `v`, costs something; `keep z` says that `z` does not decay. Real and imaginary parts are weighted separately. -/
def CostSees (keep : ℂ → Prop) (A : Matrix (Fin n) (Fin n) ℝ) (B : Matrix (Fin n) (Fin m) ℝ) (Q : Matrix (Fin n) (Fin n) ℝ) (S : Matrix (Fin n) (Fin m) ℝ)
    (R : Matrix (Fin m) (Fin m) ℝ) : Prop :=
  ∀ (z : ℂ) (v : Fin n → ℂ) (u : Fin m → ℂ), keep z → A.map (algebraMap ℝ ℂ) *ᵥ v + B.map (algebraMap ℝ ℂ) *ᵥ u = z • v →
    cost Q S R (fun i => (v i).re) (fun i => (u i).re) + cost Q S R (fun i => (v i).im) (fun i => (u i).im) = 0 → v = 0

/-- The motion `z` under the input `u` of `x' = A x + B u` starts in `x₀` and goes to zero. -/
def CDriven (A : Matrix (Fin n) (Fin n) ℝ) (B : Matrix (Fin n) (Fin m) ℝ) (x₀ : Fin n → ℝ) (z : ℝ → Fin n → ℝ) (u : ℝ → Fin m → ℝ) : Prop :=
  z 0 = x₀ ∧ ContinuousOn u (Set.Ici 0) ∧ (∀ t, 0 ≤ t → HasDerivAt z (A *ᵥ z t + B *ᵥ u t) t) ∧ Filter.Tendsto z Filter.atTop (nhds 0)

/-- The total costs of the inputs that drive the state from `x₀` to zero in continuous time. -/
def CCosts (A : Matrix (Fin n) (Fin n) ℝ) (B : Matrix (Fin n) (Fin m) ℝ) (f : (Fin n → ℝ) → (Fin m → ℝ) → ℝ) (x₀ : Fin n → ℝ) : Set ℝ :=
  {J | ∃ z u, CDriven A B x₀ z u ∧ Filter.Tendsto (fun T => ∫ t in 0..T, f (z t) (u t)) Filter.atTop (nhds J)}

/-- The motion `z` under the input `u` of `x(t + 1) = A x(t) + B u(t)` starts in `x₀` and goes to zero. -/
def DDriven (A : Matrix (Fin n) (Fin n) ℝ) (B : Matrix (Fin n) (Fin m) ℝ) (x₀ : Fin n → ℝ) (z : ℕ → Fin n → ℝ) (u : ℕ → Fin m → ℝ) : Prop :=
  z 0 = x₀ ∧ (∀ t, z (t + 1) = A *ᵥ z t + B *ᵥ u t) ∧ Filter.Tendsto z Filter.atTop (nhds 0)

/-- The total costs of the inputs that drive the state from `x₀` to zero in discrete time. -/
def DCosts (A : Matrix (Fin n) (Fin n) ℝ) (B : Matrix (Fin n) (Fin m) ℝ) (f : (Fin n → ℝ) → (Fin m → ℝ) → ℝ) (x₀ : Fin n → ℝ) : Set ℝ :=
  {J | ∃ z u, DDriven A B x₀ z u ∧ Filter.Tendsto (fun T => ∑ t ∈ Finset.range T, f (z t) (u t)) Filter.atTop (nhds J)}

end Harold.Spec
