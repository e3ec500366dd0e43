import Verif.Model.RandomState
import Verif.Spec.Stable

/-!
# Specification for C58
-/

namespace Harold.Spec

open Matrix

/-- Outcomes the random generator can produce: pole types from `[0, 1]` if `stable` else `[0, 1, 2, 3]`,
signs `±1`, uniform numbers in `[0, 1)`, an orthogonal matrix `T`. -/
structure ValidDraws {n p m : ℕ} (stable : Bool) (w : RandDraws n p m) : Prop where
  ptype : ∀ k, w.ptype k < if stable then 2 else 4
  sign : ∀ k, w.sign k = 1 ∨ w.sign k = -1
  signL : w.signL = 1 ∨ w.signL = -1
  r1 : ∀ k, 0 ≤ w.r1 k ∧ w.r1 k < 1
  r2 : ∀ k, 0 ≤ w.r2 k ∧ w.r2 k < 1
  rL : 0 ≤ w.rL ∧ w.rL < 1
  a1 : 0 ≤ w.a1 ∧ w.a1 < 1
  T : w.Tᵀ * w.T = 1

/-- The eigenvalues of `A` lie in the stability region of models with sampling period `dt`. -/
def StableFor {n : ℕ} (dt : Option ℝ) (A : Matrix (Fin n) (Fin n) ℝ) : Prop :=
  match dt with
  | none => Hurwitz A
  | some _ => Schur A

end Harold.Spec
