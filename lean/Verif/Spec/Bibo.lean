import Verif.Model.Sim

/-!
# Specification: bounded responses
-/

namespace Harold.Spec

/-- All entries of the result of a simulation are at most `c` in absolute value. -/
def OutLe (c : ℝ) : SimOut → Prop
  | .flat y => ∀ i j, |y.m i j| ≤ c
  | .perChannel ys => ∀ y ∈ ys, ∀ i j, |y.m i j| ≤ c

/-- In every successful simulation from rest, of any length, with any admissible time array and either setting of `per_channel`, the outputs are at most `κ` times the
bound of the inputs. -/
def BoundedResponses {P : Type} (Nm : Numerics ℝ P) (E : DNum) (S : StateObj ℝ P) (m : ℕ) (κ : ℝ) : Prop :=
  ∀ (N : ℕ) (U : Matrix (Fin N) (Fin m) ℝ) (targ : Option (List ℝ)) (pc : Bool) (y : SimOut) (t : List ℝ), simulate Nm E S (Arr.of U) targ none pc = .ok (y, t) →
    ∀ b, (∀ k j, |U k j| ≤ b) → OutLe (κ * b) y

end Harold.Spec
