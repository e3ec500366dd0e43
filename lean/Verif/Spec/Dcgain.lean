import Verif.Model.Dcgain
import Verif.Spec.Transfer

/-!
# Specification: the low frequency gain
-/

namespace Harold.Spec

open Polynomial

variable {K : Type} [Field K]

/-- After the common factors `x - z₀` of `P` and `Q` are cancelled, `P / Q` has the value `v` at `z₀`, infinite if a pole remains there. -/
def LowFreqGain (z₀ : K) (P Q : K[X]) (v : DcVal K) : Prop :=
  ∃ (k : ℕ) (P' Q' : K[X]), P = (X - C z₀) ^ k * P' ∧ Q = (X - C z₀) ^ k * Q' ∧ (P'.eval z₀ ≠ 0 ∨ Q'.eval z₀ ≠ 0) ∧
    ((Q'.eval z₀ ≠ 0 ∧ v = .fin (P'.eval z₀ / Q'.eval z₀)) ∨ (Q'.eval z₀ = 0 ∧ v = .inf))

/-- What remains of `P` and `Q` after all common factors `x - z₀` are cancelled is not below `tol` at `z₀`. -/
def Separated [LinearOrder K] (tol z₀ : K) (P Q : K[X]) : Prop :=
  ∀ (k : ℕ) (P' Q' : K[X]), P = (X - C z₀) ^ k * P' → Q = (X - C z₀) ^ k * Q' → (P'.eval z₀ ≠ 0 ∨ Q'.eval z₀ ≠ 0) →
    tol ≤ |P'.eval z₀| ∨ tol ≤ |Q'.eval z₀|

/-- The frequency zero: `s = 0` in continuous time, `z = 1` in discrete time. -/
def zeroFreq (dt : Option K) : K := if dt.isSome then 1 else 0

end Harold.Spec
