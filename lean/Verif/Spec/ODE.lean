import Mathlib.Analysis.Calculus.Deriv.Basic
import Mathlib.Analysis.Normed.Field.Basic
import Mathlib.Analysis.Normed.Group.Constructions
import Mathlib.Data.Matrix.Mul
import Mathlib.Analysis.RCLike.Basic

/-!
# Trajectories of linear differential equations (specification)
-/

namespace Harold.Spec

open Matrix Set

variable {n m : ℕ}

/-- `x` solves `x' = A x + B u` from time `a` to time `b`: it is continuous and has this right
derivative at every time. (The right derivative is used because inputs may jump at sampling times.) -/
def IsSolution (A : Matrix (Fin n) (Fin n) ℝ) (B : Matrix (Fin n) (Fin m) ℝ) (u : ℝ → Fin m → ℝ)
    (x : ℝ → Fin n → ℝ) (a b : ℝ) : Prop :=
  ContinuousOn x (Icc a b) ∧
    ∀ t ∈ Ico a b, HasDerivWithinAt x (A *ᵥ x t + B *ᵥ u t) (Ici t) t

theorem IsSolution.mono {A : Matrix (Fin n) (Fin n) ℝ} {B : Matrix (Fin n) (Fin m) ℝ}
    {u : ℝ → Fin m → ℝ} {x : ℝ → Fin n → ℝ} {a b a' b' : ℝ} (h : IsSolution A B u x a b)
    (ha : a ≤ a') (hb : b' ≤ b) : IsSolution A B u x a' b' :=
  ⟨h.1.mono (Icc_subset_Icc ha hb), fun t ht => h.2 t (Ico_subset_Ico ha hb ht)⟩

end Harold.Spec
