import Verif.Model.Hinf
import Verif.Spec.Freq
import Verif.Spec.Stable

/-!
# Specification: the largest gain over all frequencies
-/

namespace Harold.Spec

open Matrix
open scoped Matrix.Norms.L2Operator

variable {n m p : ℕ}

/-- `g` is the largest singular value of the transfer matrix `C (sI - A)⁻¹ B + D` at the frequency
`ω`. -/
def IsGainAt (A : Matrix (Fin n) (Fin n) ℝ) (B : Matrix (Fin n) (Fin m) ℝ)
    (C : Matrix (Fin p) (Fin n) ℝ) (D : Matrix (Fin p) (Fin m) ℝ) (dt : Option ℝ) (ω g : ℝ) : Prop :=
  ∃ M : Matrix (Fin p) (Fin m) ℂ, IsTF (A.map (algebraMap ℝ ℂ)) (B.map (algebraMap ℝ ℂ))
    (C.map (algebraMap ℝ ℂ)) (D.map (algebraMap ℝ ℂ)) (evalPoint dt ω) M ∧ g = ‖M‖

/-- `N` is the H∞ norm: the least upper bound of the gain over all frequencies. -/
def IsHinf (A : Matrix (Fin n) (Fin n) ℝ) (B : Matrix (Fin n) (Fin m) ℝ)
    (C : Matrix (Fin p) (Fin n) ℝ) (D : Matrix (Fin p) (Fin m) ℝ) (dt : Option ℝ) (N : ℝ) : Prop :=
  IsLUB {g | ∃ ω, IsGainAt A B C D dt ω g} N

/-- `frequency_response` returns the values of the transfer matrix at the frequencies asked for; an
empty list of frequencies is refused in discrete time. -/
structure FreqExact (E : HinfNum) (A : Matrix (Fin n) (Fin n) ℝ) (B : Matrix (Fin n) (Fin m) ℝ)
    (C : Matrix (Fin p) (Fin n) ℝ) (D : Matrix (Fin p) (Fin m) ℝ) (dt : Option ℝ) (G : StateM ℝ) :
    Prop where
  cont : dt = none → ∀ w, E.freq G w = .ok (w.map fun ω => Arr.of
    (C.map (algebraMap ℝ ℂ) * (evalPoint dt ω • (1 : Matrix (Fin n) (Fin n) ℂ)
      - A.map (algebraMap ℝ ℂ))⁻¹ * B.map (algebraMap ℝ ℂ) + D.map (algebraMap ℝ ℂ)))
  disc : ∀ t, dt = some t → ∀ w, w ≠ [] → (∀ ω ∈ w, ω ≤ Real.pi / t) →
    E.freq G w = .ok (w.map fun ω => Arr.of
      (C.map (algebraMap ℝ ℂ) * (evalPoint dt ω • (1 : Matrix (Fin n) (Fin n) ℂ)
        - A.map (algebraMap ℝ ℂ))⁻¹ * B.map (algebraMap ℝ ℂ) + D.map (algebraMap ℝ ℂ)))
  empty : ∀ t, dt = some t → E.freq G [] = .error .value

/-- `eigvals` returns the eigenvalues. -/
def EigvalsExact (E : HinfNum) : Prop :=
  ∀ (k : ℕ) (H : Matrix (Fin k) (Fin k) ℝ) (z : ℂ), z ∈ E.eig (Arr.of H) ↔ IsEig H z

end Harold.Spec
