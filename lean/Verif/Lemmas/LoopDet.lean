import Verif.Lemmas.HoldInverse
import Mathlib.LinearAlgebra.Matrix.SchurComplement

/-!
# The characteristic determinant of a feedback loop
-/

namespace Harold

open Matrix Harold.Spec

variable {L : Type} [Field L] {k n₁ n₂ m p : ℕ}

/-- `P` is the direct feedthrough around the loop, `T` its transfer matrix. -/
theorem det_loop {X : Matrix (Fin k) (Fin k) L} {U Y : Matrix (Fin k) (Fin m) L} {V : Matrix (Fin m) (Fin k) L} {E P T : Matrix (Fin m) (Fin m) L} {σ : L}
    (hX : X.det ≠ 0) (hY : X * Y = U) (hV : V * Y = T - P) (hP : σ • P = P) (hE : E * (1 - P) = 1) :
    (X - σ • U * (E * V)).det * (1 - P).det = X.det * (1 - σ • T).det := by
  have e1 : X - σ • U * (E * V) = X + U * (-(σ • (E * V))) := by
    rw [Matrix.mul_neg, Matrix.mul_smul, Matrix.smul_mul, sub_eq_add_neg]
  have hY' : X⁻¹ * U = Y := by rw [← hY, ← Matrix.mul_assoc, nonsing_inv_mul _ (Ne.isUnit hX), Matrix.one_mul]
  have hE' : (1 - P) * E = 1 := mul_eq_one_comm.mp hE
  rw [e1, det_add_mul _ _ (Ne.isUnit hX), mul_assoc, mul_comm _ (1 - P).det, ← det_mul]
  congr 2
  rw [Matrix.mul_assoc (-(σ • (E * V))), hY', Matrix.neg_mul, Matrix.smul_mul, Matrix.mul_assoc, hV, Matrix.mul_add, Matrix.mul_one, Matrix.mul_neg, Matrix.mul_smul,
    ← Matrix.mul_assoc, hE', Matrix.one_mul, smul_sub, hP]
  abel

theorem smul_one_sub_blk (s : L) (A : Matrix (Fin n₁) (Fin n₁) L) (Q : Matrix (Fin n₁) (Fin n₂) L) (R : Matrix (Fin n₂) (Fin n₁) L) (Ka : Matrix (Fin n₂) (Fin n₂) L) :
    s • (1 : Matrix (Fin (n₁ + n₂)) (Fin (n₁ + n₂)) L) - blk A Q R Ka = blk (s • 1 - A) (-Q) (-R) (s • 1 - Ka) := by
  ext i j
  obtain ⟨i, rfl⟩ := finSumFinEquiv.surjective i
  obtain ⟨j, rfl⟩ := finSumFinEquiv.surjective j
  have h1 : ∀ (a : Fin n₁) (b : Fin n₂), Fin.castAdd n₂ a ≠ Fin.natAdd n₁ b := fun a b h => by
    have := congrArg Fin.val h
    simp at this
    omega
  rcases i with i | i <;> rcases j with j | j <;> simp [blk, Matrix.one_apply, h1, (h1 _ _).symm]

theorem det_blk_lower (A : Matrix (Fin n₁) (Fin n₁) L) (R : Matrix (Fin n₂) (Fin n₁) L) (Ka : Matrix (Fin n₂) (Fin n₂) L) :
    (blk A 0 R Ka).det = A.det * Ka.det := by
  rw [blk, det_submatrix_equiv_self, det_fromBlocks_zero₁₂]

theorem det_blk_upper (A : Matrix (Fin n₁) (Fin n₁) L) (R : Matrix (Fin n₁) (Fin n₂) L) (Ka : Matrix (Fin n₂) (Fin n₂) L) :
    (blk A R 0 Ka).det = A.det * Ka.det := by
  rw [blk, det_submatrix_equiv_self, det_fromBlocks_zero₂₁]

variable {A : Matrix (Fin n₁) (Fin n₁) L} {B : Matrix (Fin n₁) (Fin m) L} {C : Matrix (Fin p) (Fin n₁) L} {D : Matrix (Fin p) (Fin m) L}
  {Ka : Matrix (Fin n₂) (Fin n₂) L} {Lb : Matrix (Fin n₂) (Fin p) L} {Mc : Matrix (Fin m) (Fin n₂) L} {Nd : Matrix (Fin m) (Fin p) L} {s σ : L}
  {G : Matrix (Fin p) (Fin m) L} {H : Matrix (Fin m) (Fin p) L} {E : Matrix (Fin m) (Fin m) L}

theorem det_loop_dd (h₁ : IsTF A B C D s G) (h₂ : IsTF Ka Lb Mc Nd s H) (hσ : σ • (Nd * D) = Nd * D) (hE : E * (1 - Nd * D) = 1) :
    (s • (1 : Matrix (Fin (n₁ + n₂)) (Fin (n₁ + n₂)) L) - (blk A 0 (Lb * C) Ka + σ • vcat B (Lb * D) * (E * hcat (Nd * C) Mc))).det * (1 - Nd * D).det =
      (s • 1 - A).det * (s • 1 - Ka).det * (1 - σ • (H * G)).det := by
  obtain ⟨hd₁, X₁, hX₁, hG⟩ := isTF_iff_sol.mp h₁
  obtain ⟨hd₂, X₂, hX₂, hH⟩ := isTF_iff_sol.mp h₂
  have hdet : (s • (1 : Matrix (Fin (n₁ + n₂)) (Fin (n₁ + n₂)) L) - blk A 0 (Lb * C) Ka).det = (s • 1 - A).det * (s • 1 - Ka).det := by
    rw [smul_one_sub_blk, neg_zero, det_blk_lower]
  rw [← hdet, ← sub_sub]
  refine det_loop (Y := vcat X₁ (X₂ * G)) (by rw [hdet]; exact mul_ne_zero hd₁ hd₂) ?_ ?_ hσ hE
  · rw [smul_one_sub_blk, blk_mul_vcat, hX₁, ← Matrix.mul_assoc (s • 1 - Ka), hX₂, neg_zero, Matrix.zero_mul, add_zero, hG]
    congr 1
    rw [Matrix.mul_add, Matrix.neg_mul, Matrix.mul_assoc, neg_add_cancel_left]
  · rw [hcat_mul_vcat', hH, Matrix.add_mul, Matrix.mul_assoc, Matrix.mul_assoc]
    conv_rhs => rw [show Nd * G = Nd * (C * X₁) + Nd * D by rw [hG, Matrix.mul_add]]
    abel

theorem det_loop_ds (h₁ : IsTF A B C D s G) (hσ : σ • (Nd * D) = Nd * D) (hE : E * (1 - Nd * D) = 1) :
    (s • 1 - (A + σ • B * (E * (Nd * C)))).det * (1 - Nd * D).det = (s • 1 - A).det * (1 - σ • (Nd * G)).det := by
  obtain ⟨hd₁, X₁, hX₁, hG⟩ := isTF_iff_sol.mp h₁
  rw [← sub_sub]
  refine det_loop (Y := X₁) hd₁ hX₁ ?_ hσ hE
  rw [hG, Matrix.mul_add, Matrix.mul_assoc, add_sub_cancel_right]

theorem det_loop_sd (h₂ : IsTF Ka Lb Mc Nd s H) (hσ : σ • (Nd * D) = Nd * D) (hE : E * (1 - Nd * D) = 1) :
    (s • 1 - (Ka + σ • (Lb * D) * (E * Mc))).det * (1 - Nd * D).det = (s • 1 - Ka).det * (1 - σ • (H * D)).det := by
  obtain ⟨hd₂, X₂, hX₂, hH⟩ := isTF_iff_sol.mp h₂
  rw [← sub_sub]
  refine det_loop (Y := X₂ * D) hd₂ (by rw [← Matrix.mul_assoc, hX₂]) ?_ hσ hE
  rw [hH, Matrix.add_mul, ← Matrix.mul_assoc, add_sub_cancel_right]

end Harold
