import Verif.Model.CancDist

/-!
# Specification: perturbations that make a pencil rank deficient
-/

namespace Harold.Spec

open Matrix
open scoped Matrix.Norms.L2Operator

variable {N M : ℕ}

/-- `[F - pI | G]` does not have full row rank. -/
def RankDeficient (F : Matrix (Fin N) (Fin N) ℂ) (G : Matrix (Fin N) (Fin M) ℂ) (p : ℂ) : Prop :=
  ∃ y : Fin N → ℂ, y ≠ 0 ∧ y ᵥ* (F - p • 1) = 0 ∧ y ᵥ* G = 0

/-- The perturbation `[dF | dG]` makes the pencil of `(F, G)` rank deficient at `p`. -/
def Breaks (F : Matrix (Fin N) (Fin N) ℝ) (G : Matrix (Fin N) (Fin M) ℝ)
    (dF : Matrix (Fin N) (Fin N) ℂ) (dG : Matrix (Fin N) (Fin M) ℂ) (p : ℂ) : Prop :=
  RankDeficient (F.map (algebraMap ℝ ℂ) + dF) (G.map (algebraMap ℝ ℂ) + dG) p

/-- The spectral norm of the perturbation `[dF | dG]`. -/
noncomputable def pertNorm (dF : Matrix (Fin N) (Fin N) ℂ) (dG : Matrix (Fin N) (Fin M) ℂ) : ℝ :=
  ‖hcat dF dG‖

/-- `σ` is the smallest singular value of a matrix with at least as many rows as columns. -/
def IsSmallest {r c : ℕ} (A : Matrix (Fin r) (Fin c) ℂ) (σ : ℝ) : Prop :=
  (∃ x, vnorm x = 1 ∧ vnorm (A *ᵥ x) = σ) ∧ ∀ x, σ * vnorm x ≤ vnorm (A *ᵥ x)

/-- `svdvals` and `cond` are exact, `eig` returns an eigenvector basis of this matrix. -/
structure CancExact (E : CancNum) (H : Matrix (Fin (N + M)) (Fin (N + M)) ℝ) : Prop where
  svd : ∀ A : Matrix (Fin (N + M)) (Fin N) ℂ, IsSmallest A (E.svdLast (N + M) N A)
  eig : H.map (algebraMap ℝ ℂ) * (E.eig (N + M) H).2 = (E.eig (N + M) H).2 * diagonal (E.eig (N + M) H).1
  unit : ∀ x, vnorm (fun i => (E.eig (N + M) H).2 i x) = 1
  basis : (E.eig (N + M) H).2.det ≠ 0
  cond : ∀ V : Matrix (Fin (N + M)) (Fin (N + M)) ℂ, V.det ≠ 0 → E.cond (N + M) V = ‖V‖ * ‖V⁻¹‖

end Harold.Spec
