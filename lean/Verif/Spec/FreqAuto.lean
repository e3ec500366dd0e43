import Verif.Model.FreqAuto
import Verif.Spec.Freq
import Verif.Spec.TransZeros

/-!
# Specification: poles and zeros on a frequency axis
-/

namespace Harold.Spec

/-- The distance of double precision numbers to the next larger one: `2^-52` at `1`, `2^-46` at `100`, `2^-43` at `1000`. -/
structure SpacingOk (N : GridNum) : Prop where
  one : N.eps = 2⁻¹ ^ 52
  hundred : N.spacing 100 = 2⁻¹ ^ 46
  thousand : N.spacing 1000 = 2⁻¹ ^ 43

/-- A list of numbers that contains the conjugates of its members. -/
def ConjPairs (l : List ℂ) : Prop := ∀ z ∈ l, (starRingEnd ℂ) z ∈ l

/-- A pole or zero (of a continuous model) whose damping ratio is below the square root of `eps`. -/
def Undamped (eps : ℝ) (z : ℂ) : Prop := |z.re| < √eps * ‖z‖

/-- The frequency at which the gain of a second order lag with poles `z` and `conj z` is largest; the natural frequency if there is no peak. -/
noncomputable def peak (z : ℂ) : ℝ := if 2 * |z.re| < ‖z‖ then √(‖z‖ ^ 2 - 2 * z.re ^ 2) else ‖z‖

/-- The frequencies `w` reach from one decade below to one decade above `ω`. -/
def Spans (w : List ℝ) (ω : ℝ) : Prop := (∃ x ∈ w, x ≤ ω / 10) ∧ ∃ x ∈ w, 10 * ω ≤ x

/-- `z` is a zero of the channel from input `j` to output `i`. -/
def ChannelZero {n m p : ℕ} (A : Matrix (Fin n) (Fin n) ℝ) (B : Matrix (Fin n) (Fin m) ℝ) (C : Matrix (Fin p) (Fin n) ℝ) (D : Matrix (Fin p) (Fin m) ℝ) (i : Fin p) (j : Fin m) (z : ℂ) : Prop :=
  InvariantZero A (Matrix.of fun k (_ : Fin 1) => B k j) (Matrix.of fun (_ : Fin 1) k => C i k) (Matrix.of fun (_ _ : Fin 1) => D i j) z

/-- The transfer function from input `j` to output `i` does not vanish, and it is not only the entry of `D`. -/
def ChannelLive {n m p : ℕ} (A : Matrix (Fin n) (Fin n) ℝ) (B : Matrix (Fin n) (Fin m) ℝ) (C : Matrix (Fin p) (Fin n) ℝ) (D : Matrix (Fin p) (Fin m) ℝ) (i : Fin p) (j : Fin m) : Prop :=
  (∃ k, B k j ≠ 0) ∧ (∃ k, C i k ≠ 0) ∧ ∃ (s : ℂ) (M : Matrix (Fin p) (Fin m) ℂ),
    IsTF (A.map Complex.ofReal) (B.map Complex.ofReal) (C.map Complex.ofReal) (D.map Complex.ofReal) s M ∧ M i j ≠ 0

end Harold.Spec
