import Mathlib.Analysis.CStarAlgebra.Matrix
import Mathlib.LinearAlgebra.Matrix.ConjTranspose

/-!
# Euclidean norms of complex vectors and the spectral norm
-/

namespace Harold

open Matrix
open scoped Matrix.Norms.L2Operator

variable {k l n : ℕ}

/-- The Euclidean norm of a vector (`norm(v)`). -/
noncomputable def vnorm (v : Fin k → ℂ) : ℝ := √(∑ i, ‖v i‖ ^ 2)

theorem vnorm_eq (v : Fin k → ℂ) : vnorm v = ‖(WithLp.toLp 2 v : EuclideanSpace ℂ (Fin k))‖ := by
  rw [vnorm, EuclideanSpace.norm_eq]

theorem vnorm_nonneg (v : Fin k → ℂ) : 0 ≤ vnorm v := Real.sqrt_nonneg _

theorem vnorm_eq_zero {v : Fin k → ℂ} : vnorm v = 0 ↔ v = 0 := by
  rw [vnorm_eq, norm_eq_zero]
  constructor
  · intro h
    ext i
    exact congrFun (congrArg WithLp.ofLp h) i
  · rintro rfl; rfl

theorem vnorm_pos {v : Fin k → ℂ} (h : v ≠ 0) : 0 < vnorm v :=
  lt_of_le_of_ne (vnorm_nonneg v) fun e => h (vnorm_eq_zero.1 e.symm)

theorem vnorm_add_le (u v : Fin k → ℂ) : vnorm (u + v) ≤ vnorm u + vnorm v := by
  simp only [vnorm_eq]
  exact norm_add_le (WithLp.toLp 2 u : EuclideanSpace ℂ (Fin k)) (WithLp.toLp 2 v)

theorem vnorm_smul (c : ℂ) (v : Fin k → ℂ) : vnorm (c • v) = ‖c‖ * vnorm v := by
  simp only [vnorm_eq]
  exact norm_smul c (WithLp.toLp 2 v : EuclideanSpace ℂ (Fin k))

theorem vnorm_neg (v : Fin k → ℂ) : vnorm (-v) = vnorm v := by
  simp [vnorm]

theorem vnorm_star (v : Fin k → ℂ) : vnorm (star v) = vnorm v := by
  simp [vnorm]

theorem vnorm_sub_le (u v : Fin k → ℂ) : vnorm (u - v) ≤ vnorm u + vnorm v := by
  rw [sub_eq_add_neg, ← vnorm_neg v]; exact vnorm_add_le _ _

theorem vnorm_mulVec_le (A : Matrix (Fin k) (Fin l) ℂ) (v : Fin l → ℂ) :
    vnorm (A *ᵥ v) ≤ ‖A‖ * vnorm v := by
  simp only [vnorm_eq]
  exact Matrix.l2_opNorm_mulVec A (WithLp.toLp 2 v)

theorem opNorm_le {A : Matrix (Fin k) (Fin l) ℂ} {c : ℝ} (hc : 0 ≤ c)
    (h : ∀ v, vnorm (A *ᵥ v) ≤ c * vnorm v) : ‖A‖ ≤ c := by
  rw [Matrix.l2_opNorm_def]
  refine ContinuousLinearMap.opNorm_le_bound _ hc fun x => ?_
  have := h (WithLp.ofLp x)
  simp only [vnorm_eq] at this
  exact this

theorem dot_le (u v : Fin k → ℂ) : ‖u ⬝ᵥ v‖ ≤ vnorm u * vnorm v := by
  have := norm_inner_le_norm (𝕜 := ℂ) (WithLp.toLp 2 (star u) : EuclideanSpace ℂ (Fin k)) (WithLp.toLp 2 v)
  rw [← vnorm_eq, ← vnorm_eq, vnorm_star, EuclideanSpace.inner_toLp_toLp, star_star, dotProduct_comm] at this
  exact this

theorem norm_vecMulVec_le (u : Fin k → ℂ) (v : Fin l → ℂ) : ‖vecMulVec u v‖ ≤ vnorm u * vnorm v := by
  refine opNorm_le (mul_nonneg (vnorm_nonneg _) (vnorm_nonneg _)) fun x => ?_
  have e : vecMulVec u v *ᵥ x = (v ⬝ᵥ x) • u := by
    ext i
    simp only [mulVec, dotProduct, vecMulVec_apply, Pi.smul_apply, smul_eq_mul, Finset.sum_mul]
    exact Finset.sum_congr rfl fun j _ => by ring
  rw [e, vnorm_smul]
  have := dot_le v x
  have h0 := vnorm_nonneg u
  nlinarith

theorem norm_map_star (A : Matrix (Fin k) (Fin l) ℂ) : ‖A.map star‖ = ‖A‖ := by
  have key : ∀ A : Matrix (Fin k) (Fin l) ℂ, ‖A.map star‖ ≤ ‖A‖ := by
    intro A
    refine opNorm_le (norm_nonneg _) fun v => ?_
    have e : A.map star *ᵥ v = star (A *ᵥ star v) := by
      ext i
      simp [mulVec, dotProduct, mul_comm]
    rw [e, vnorm_star, ← vnorm_star v]
    exact vnorm_mulVec_le _ _
  refine le_antisymm (key A) ?_
  have := key (A.map star)
  have e : (A.map star).map star = A := by ext i j; simp
  rwa [e] at this

theorem norm_transpose (A : Matrix (Fin k) (Fin l) ℂ) : ‖Aᵀ‖ = ‖A‖ := by
  rw [← norm_map_star A, ← Matrix.l2_opNorm_conjTranspose (A.map star)]
  congr 1
  ext i j; simp

/-- Bauer and Fike: an eigenvalue of a perturbation of a diagonalizable matrix. -/
theorem bauer_fike {M V E : Matrix (Fin n) (Fin n) ℂ} {d : Fin n → ℂ} (hV : V.det ≠ 0)
    (hM : M * V = V * diagonal d) {p : ℂ} {z : Fin n → ℂ} (hz : z ≠ 0) (h : M *ᵥ z + E *ᵥ z = p • z) :
    ∃ i, ‖p - d i‖ ≤ ‖V‖ * ‖V⁻¹‖ * ‖E‖ := by
  have hu := isUnit_iff_ne_zero.2 hV
  obtain ⟨w, hw⟩ : ∃ w, w = V⁻¹ *ᵥ z := ⟨_, rfl⟩
  have hVw : V *ᵥ w = z := by rw [hw, mulVec_mulVec, Matrix.mul_nonsing_inv _ hu, one_mulVec]
  have hw0 : w ≠ 0 := by
    intro e
    rw [e, mulVec_zero] at hVw
    exact hz hVw.symm
  haveI : Nonempty (Fin n) := by
    by_contra hcon
    rw [not_nonempty_iff] at hcon
    exact hw0 (Subsingleton.elim _ _)
  have h1 : V⁻¹ *ᵥ (E *ᵥ z) = fun i => (p - d i) * w i := by
    have e1 : M *ᵥ z = V *ᵥ (diagonal d *ᵥ w) := by
      have : M *ᵥ (V *ᵥ w) = V *ᵥ (diagonal d *ᵥ w) := by rw [mulVec_mulVec, mulVec_mulVec, hM]
      rwa [hVw] at this
    have e2 : E *ᵥ z = p • z - V *ᵥ (diagonal d *ᵥ w) := by rw [← h, e1]; abel
    rw [e2, mulVec_sub, mulVec_smul, ← hw, mulVec_mulVec, Matrix.nonsing_inv_mul _ hu, one_mulVec]
    ext i
    simp [mulVec_diagonal]
    ring
  obtain ⟨i, -, hi⟩ := Finset.exists_min_image Finset.univ (fun i => ‖p - d i‖) Finset.univ_nonempty
  refine ⟨i, ?_⟩
  have h2 : ‖p - d i‖ * vnorm w ≤ vnorm (V⁻¹ *ᵥ (E *ᵥ z)) := by
    rw [h1, vnorm, vnorm, ← Real.sqrt_sq (norm_nonneg (p - d i)), ← Real.sqrt_mul (sq_nonneg _)]
    apply Real.sqrt_le_sqrt
    rw [Finset.mul_sum]
    refine Finset.sum_le_sum fun j _ => ?_
    rw [norm_mul, mul_pow]
    have := hi j (Finset.mem_univ _)
    have h0 := norm_nonneg (p - d i)
    gcongr
  have h3 : vnorm (V⁻¹ *ᵥ (E *ᵥ z)) ≤ ‖V⁻¹‖ * (‖E‖ * (‖V‖ * vnorm w)) := by
    refine (vnorm_mulVec_le _ _).trans (mul_le_mul_of_nonneg_left ?_ (norm_nonneg _))
    refine (vnorm_mulVec_le _ _).trans (mul_le_mul_of_nonneg_left ?_ (norm_nonneg _))
    rw [← hVw]
    exact vnorm_mulVec_le _ _
  have hp := vnorm_pos hw0
  refine le_of_mul_le_mul_right ?_ hp
  calc _ ≤ _ := h2.trans h3
    _ = _ := by ring

end Harold
