import Verif.Model.TimePlot

/-!
# Specification: responses shown in a panel
-/

namespace Harold.Spec

variable {P : Type}

/-- `y` is output `i` of the answer of `simulate_linear_system` on the grid `t` to the input whose channel `j` is
`v` and whose other channels are zero. -/
def ShowsChannel (Nm : Numerics ℝ P) (E : DNum) (S : StateObj ℝ P) (t : List ℝ) (v : ℕ → ℝ) (i j : ℕ) (y : List ℝ) : Prop :=
  ∃ (Y : Matrix (Fin t.length) (Fin S.g.p) ℝ) (hi : i < S.g.p),
    simulate Nm E S (Arr.of (Matrix.of fun (q : Fin t.length) (l : Fin S.g.m) => if (l : ℕ) = j then v q else 0)) (some t) none
      false = .ok (.flat (Arr.of Y), t) ∧ y = List.ofFn fun q => Y q ⟨i, hi⟩

/-- The unit step, and the pulse of area one. -/
def unitStep (_ : ℕ) : ℝ := 1
noncomputable def unitPulse (ts : ℝ) (q : ℕ) : ℝ := if q = 0 then 1 / ts else 0

end Harold.Spec
