import Verif.Spec.TF
import Mathlib.Analysis.Complex.Basic

/-!
# Hidden modes (C140)
-/

namespace Harold.Spec

/-- A mode `s` that no input can excite: a motion in the direction `w` runs on its own. -/
def InputHidden (G : StateM ℝ) (m : ℕ) (s : ℂ) : Prop :=
  G.isgain = false ∧ ∃ (n : ℕ) (A : Matrix (Fin n) (Fin n) ℝ) (B : Matrix (Fin n) (Fin m) ℝ) (w : Matrix (Fin 1) (Fin n) ℂ), G.a = Arr.of A ∧ G.b = Arr.of B ∧
    w ≠ 0 ∧ w * A.map (algebraMap ℝ ℂ) = s • w ∧ w * B.map (algebraMap ℝ ℂ) = 0

/-- A mode `s` that no output shows. -/
def OutputHidden (G : StateM ℝ) (p : ℕ) (s : ℂ) : Prop :=
  G.isgain = false ∧ ∃ (n : ℕ) (A : Matrix (Fin n) (Fin n) ℝ) (C : Matrix (Fin p) (Fin n) ℝ) (x : Matrix (Fin n) (Fin 1) ℂ), G.a = Arr.of A ∧ G.c = Arr.of C ∧
    x ≠ 0 ∧ A.map (algebraMap ℝ ℂ) * x = s • x ∧ C.map (algebraMap ℝ ℂ) * x = 0

end Harold.Spec
