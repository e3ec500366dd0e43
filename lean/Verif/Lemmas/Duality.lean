import Verif.Lemmas.HoldInverse
import Verif.Lemmas.Truncate

/-!
# The input matrices of holds as functions of the state matrix
-/

namespace Harold

open Matrix Spec NormedSpace

variable {n m p r₁ r₂ c₁ c₂ : ℕ}

theorem transpose_blk' (a : Matrix (Fin r₁) (Fin c₁) ℝ) (b : Matrix (Fin r₁) (Fin c₂) ℝ) (c : Matrix (Fin r₂) (Fin c₁) ℝ) (d : Matrix (Fin r₂) (Fin c₂) ℝ) :
    (blk a b c d)ᵀ = blk aᵀ cᵀ bᵀ dᵀ := by
  unfold blk
  rw [transpose_submatrix, fromBlocks_transpose]

theorem transpose_hcat' (a : Matrix (Fin r₁) (Fin c₁) ℝ) (b : Matrix (Fin r₁) (Fin c₂) ℝ) : (hcat a b)ᵀ = vcat aᵀ bᵀ := by
  unfold hcat vcat
  rw [transpose_submatrix, transpose_fromCols]

/-- `∫₀¹ exp(A t) dt`. -/
noncomputable def phi1 (A : Matrix (Fin n) (Fin n) ℝ) : Matrix (Fin n) (Fin n) ℝ := gam A 1 0

theorem gam_phi1 (A : Matrix (Fin n) (Fin n) ℝ) (B : Matrix (Fin n) (Fin m) ℝ) : gam A B 0 = phi1 A * B := by
  have h : exp (blk A (1 : Matrix (Fin n) (Fin n) ℝ) 0 (0 : Matrix (Fin n) (Fin n) ℝ)) * blk (1 : Matrix (Fin n) (Fin n) ℝ) 0 0 B =
      blk (1 : Matrix (Fin n) (Fin n) ℝ) 0 0 B * exp (blk A B 0 (0 : Matrix (Fin m) (Fin m) ℝ)) := exp_intertwine (by
    rw [blk_mul, blk_mul]
    simp)
  rw [exp_blk, exp_blk, blk_mul, blk_mul] at h
  simp only [Matrix.mul_zero, Matrix.zero_mul, Matrix.one_mul, add_zero, zero_add] at h
  exact (blk_inj h).2.1.symm

theorem phi1_transpose (A : Matrix (Fin n) (Fin n) ℝ) : phi1 Aᵀ = (phi1 A)ᵀ := by
  have h : exp (blk Aᵀ (1 : Matrix (Fin n) (Fin n) ℝ) 0 (0 : Matrix (Fin n) (Fin n) ℝ)) * blk (0 : Matrix (Fin n) (Fin n) ℝ) 1 1 (-Aᵀ) =
      blk (0 : Matrix (Fin n) (Fin n) ℝ) 1 1 (-Aᵀ) * exp (blk A (1 : Matrix (Fin n) (Fin n) ℝ) 0 (0 : Matrix (Fin n) (Fin n) ℝ))ᵀ := exp_intertwine (by
    rw [transpose_blk', blk_mul, blk_mul]
    simp)
  rw [exp_transpose, exp_blk, exp_blk, transpose_blk', blk_mul, blk_mul] at h
  simp only [Matrix.mul_zero, Matrix.zero_mul, Matrix.one_mul, Matrix.mul_one, add_zero, zero_add] at h
  exact (blk_inj h).1

theorem phi1_comm (A : Matrix (Fin n) (Fin n) ℝ) : Commute A (phi1 A) := by
  have h : exp (blk A (1 : Matrix (Fin n) (Fin n) ℝ) 0 (0 : Matrix (Fin n) (Fin n) ℝ)) * blk A 0 0 A =
      blk A 0 0 A * exp (blk A (1 : Matrix (Fin n) (Fin n) ℝ) 0 (0 : Matrix (Fin n) (Fin n) ℝ)) := exp_intertwine (by
    rw [blk_mul, blk_mul]
    simp)
  rw [exp_blk, blk_mul, blk_mul] at h
  simp only [Matrix.mul_zero, Matrix.zero_mul, Matrix.one_mul, Matrix.mul_one, add_zero, zero_add] at h
  exact (blk_inj h).2.1.symm

/-- `∫₀¹ (1 - t) exp(A t) dt`. -/
noncomputable def phi2 (A : Matrix (Fin n) (Fin n) ℝ) : Matrix (Fin n) (Fin n) ℝ := (gam_first A (1 : Matrix (Fin n) (Fin n) ℝ) 0).choose

theorem phi2_spec (A : Matrix (Fin n) (Fin n) ℝ) : gam A (hcat (1 : Matrix (Fin n) (Fin n) ℝ) 0) (shiftN n) = hcat (phi1 A) (phi2 A) :=
  (gam_first A (1 : Matrix (Fin n) (Fin n) ℝ) 0).choose_spec

theorem exp_phi2 (A : Matrix (Fin n) (Fin n) ℝ) : exp (blk A (hcat (1 : Matrix (Fin n) (Fin n) ℝ) 0) 0 (shiftN n)) = blk (exp A) (hcat (phi1 A) (phi2 A)) 0 (blk 1 1 0 1) := by
  rw [exp_blk, phi2_spec, exp_shiftN]

theorem gam_phi2 (A : Matrix (Fin n) (Fin n) ℝ) (B : Matrix (Fin n) (Fin m) ℝ) : gam A (hcat B 0) (shiftN m) = hcat (gam A B 0) (phi2 A * B) := by
  have h : exp (blk A (hcat (1 : Matrix (Fin n) (Fin n) ℝ) 0) 0 (shiftN n)) * blk (1 : Matrix (Fin n) (Fin n) ℝ) 0 0 (blk B 0 0 B) =
      blk (1 : Matrix (Fin n) (Fin n) ℝ) 0 0 (blk B 0 0 B) * exp (blk A (hcat B 0) 0 (shiftN m)) := exp_intertwine (by
    rw [blk_mul, blk_mul, shiftN, shiftN, blk_mul, blk_mul, hcat_mul_blk]
    simp)
  rw [exp_phi2, exp_blk] at h
  simp only [blk_mul, hcat_mul_blk, Matrix.mul_zero, Matrix.zero_mul, Matrix.one_mul, add_zero, zero_add] at h
  rw [gam_phi1]
  exact (blk_inj h).2.1.symm

theorem phi2_transpose (A : Matrix (Fin n) (Fin n) ℝ) : phi2 Aᵀ = (phi2 A)ᵀ := by
  have h : exp (blk Aᵀ (hcat (1 : Matrix (Fin n) (Fin n) ℝ) 0) 0 (shiftN n)) * blk (0 : Matrix (Fin n) (Fin n) ℝ) (hcat 0 1) (vcat 0 1) (blk 1 (-Aᵀ) (-Aᵀ) 0) =
      blk (0 : Matrix (Fin n) (Fin n) ℝ) (hcat 0 1) (vcat 0 1) (blk 1 (-Aᵀ) (-Aᵀ) 0) * exp (blk A (hcat (1 : Matrix (Fin n) (Fin n) ℝ) 0) 0 (shiftN n))ᵀ := exp_intertwine (by
    rw [transpose_blk', transpose_hcat', shiftN, transpose_blk', blk_mul, blk_mul, blk_mul, blk_mul, hcat_mul_blk, hcat_mul_blk, blk_mul_vcat, blk_mul_vcat, hcat_mul_vcat', hcat_mul_vcat', mul_hcat, vcat_mul]
    simp [hcat_add, vcat_add])
  rw [exp_transpose, exp_phi2, exp_phi2, transpose_blk', transpose_hcat', transpose_blk'] at h
  simp only [blk_mul, hcat_mul_vcat', Matrix.mul_zero, Matrix.zero_mul, Matrix.one_mul, Matrix.mul_one, add_zero, zero_add] at h
  exact (blk_inj h).1

theorem phi2_comm (A : Matrix (Fin n) (Fin n) ℝ) : Commute A (phi2 A) := by
  have h : exp (blk A (hcat (1 : Matrix (Fin n) (Fin n) ℝ) 0) 0 (shiftN n)) * blk A 0 0 (blk A 0 0 A) =
      blk A 0 0 (blk A 0 0 A) * exp (blk A (hcat (1 : Matrix (Fin n) (Fin n) ℝ) 0) 0 (shiftN n)) := exp_intertwine (by
    rw [blk_mul, blk_mul, shiftN, blk_mul, blk_mul, hcat_mul_blk, mul_hcat]
    simp)
  rw [exp_phi2] at h
  simp only [blk_mul, hcat_mul_blk, mul_hcat, Matrix.mul_zero, Matrix.zero_mul, add_zero, zero_add] at h
  exact (hcat_inj (blk_inj h).2.1).2.symm

/-- A factor commuting with the state matrix may be moved from the input to the output matrix. -/
theorem tf_move {L : Type} [Field L] {A F : Matrix (Fin n) (Fin n) L} {B : Matrix (Fin n) (Fin m) L} {C : Matrix (Fin p) (Fin n) L} {D M : Matrix (Fin p) (Fin m) L} {s : L} (hF : Commute A F) :
    IsTF A (F * B) C D s M ↔ IsTF A B (C * F) D s M := by
  unfold IsTF
  refine and_congr_right fun hd => ?_
  have hu : IsUnit (s • (1 : Matrix (Fin n) (Fin n) L) - A).det := Ne.isUnit hd
  have h : (s • (1 : Matrix (Fin n) (Fin n) L) - A)⁻¹ * F = F * (s • (1 : Matrix (Fin n) (Fin n) L) - A)⁻¹ := by
    have h1 : (s • (1 : Matrix (Fin n) (Fin n) L) - A) * F = F * (s • (1 : Matrix (Fin n) (Fin n) L) - A) := by
      rw [Matrix.sub_mul, Matrix.mul_sub, hF.eq]
      simp
    calc _ = (s • (1 : Matrix (Fin n) (Fin n) L) - A)⁻¹ * (F * (s • (1 : Matrix (Fin n) (Fin n) L) - A)) * (s • (1 : Matrix (Fin n) (Fin n) L) - A)⁻¹ := by
          rw [Matrix.mul_assoc, Matrix.mul_assoc, mul_nonsing_inv _ hu, Matrix.mul_one]
      _ = _ := by rw [← h1, nonsing_inv_mul_cancel_left _ _ hu]
  rw [← Matrix.mul_assoc, Matrix.mul_assoc C, h, ← Matrix.mul_assoc]

theorem tf_transpose_iff {L : Type} [Field L] {A : Matrix (Fin n) (Fin n) L} {B : Matrix (Fin n) (Fin m) L} {C : Matrix (Fin p) (Fin n) L} {D M : Matrix (Fin p) (Fin m) L} {s : L} :
    IsTF Aᵀ Cᵀ Bᵀ Dᵀ s Mᵀ ↔ IsTF A B C D s M := ⟨fun h => by simpa using h.transpose, fun h => h.transpose⟩

end Harold
