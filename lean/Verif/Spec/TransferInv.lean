import Verif.Spec.Transfer
import Mathlib.Topology.Instances.Real.Lemmas

/-!
# Specification: inverses of transfer matrices
-/

namespace Harold.Spec

open Polynomial Filter

/-- The quotients `num / den` tend to the entries of `H` for large arguments. -/
def AtInfinity {p m : ℕ} (num den : Matrix (Fin p) (Fin m) (List ℝ)) (H : Matrix (Fin p) (Fin m) ℝ) : Prop :=
  ∀ i j, Tendsto (fun s : ℝ => polyAt s (num i j) / polyAt s (den i j)) atTop (nhds (H i j))

/-- All quotients `num / den` are constants. -/
def AllConstant {p m : ℕ} (num den : Matrix (Fin p) (Fin m) (List ℝ)) : Prop :=
  ∀ i j, ∃ c : ℝ, toPoly (num i j) = C c * toPoly (den i j)

end Harold.Spec
