import Verif.Props.LqrChange
import Verif.Props.Discrete

/-!
# Lyapunov and Riccati equations under the bilinear transformation
-/

namespace Harold

open Matrix Spec

variable {n m : ℕ} {A X Q P Z : Matrix (Fin n) (Fin n) ℝ} {B S L V : Matrix (Fin n) (Fin m) ℝ} {R : Matrix (Fin m) (Fin m) ℝ} {K : Matrix (Fin m) (Fin n) ℝ} {y w : ℝ}

theorem cayley_xx (h : y * y = w + w) (hP : P = y • 1 + w • Z) : (1 + y • Z)ᵀ * X * (1 + y • Z) - X = Zᵀ * X * P + Pᵀ * X * Z := by
  subst hP
  simp only [transpose_add, transpose_smul, transpose_one, Matrix.mul_add, Matrix.add_mul, Matrix.mul_smul, Matrix.smul_mul, smul_smul, Matrix.mul_one, Matrix.one_mul, h, add_smul, smul_add]
  abel

theorem cayley_xu (h : y * y = w + w) (hP : P = y • 1 + w • Z) (hL : L = w • V) : (1 + y • Z)ᵀ * X * (y • V) = Zᵀ * X * L + Pᵀ * X * V := by
  subst hP hL
  simp only [transpose_add, transpose_smul, transpose_one, Matrix.add_mul, Matrix.mul_smul, Matrix.smul_mul, smul_smul, Matrix.one_mul, h, add_smul, smul_add]
  abel

theorem cayley_uu (h : y * y = w + w) (hL : L = w • V) : (y • V)ᵀ * X * (y • V) = Vᵀ * X * L + Lᵀ * X * V := by
  subst hL
  simp only [transpose_smul, Matrix.mul_smul, Matrix.smul_mul, smul_smul, h, add_smul]

/-- The Lyapunov equation. -/
theorem cayley_lyap (h : y * y = w + w) (hP : P = y • 1 + w • Z) (hZ : Z = A * P) : (1 + y • Z)ᵀ * X * (1 + y • Z) - X + Pᵀ * Q * P = Pᵀ * (Aᵀ * X + X * A + Q) * P := by
  rw [cayley_xx h hP, hZ]
  simp only [transpose_mul, Matrix.mul_add, Matrix.add_mul, Matrix.mul_assoc]

/-- The Riccati equation: the same solution, with the gain of the transformed problem. -/
theorem cayley_riccati (h : y * y = w + w) (hP : P = y • 1 + w • Z) (hZ : Z = A * P) (hL : L = w • V) (hV : V = A * L + B) (hX : Xᵀ = X) (hR : Rᵀ = R)
    (hK : R * K = Bᵀ * X + Sᵀ) (he : Aᵀ * X + X * A - Kᵀ * (Bᵀ * X + Sᵀ) + Q = 0) (hW : (1 + K * L).det ≠ 0) :
    (Lᵀ * Q * L + Lᵀ * S + Sᵀ * L + R + (y • V)ᵀ * X * (y • V)) * ((1 + K * L)⁻¹ * (K * P)) = (y • V)ᵀ * X * (1 + y • Z) + (Pᵀ * (Q * L + S))ᵀ ∧
    (1 + y • Z)ᵀ * X * (1 + y • Z) - X - ((1 + K * L)⁻¹ * (K * P))ᵀ * ((y • V)ᵀ * X * (1 + y • Z) + (Pᵀ * (Q * L + S))ᵀ) + Pᵀ * Q * P = 0 ∧
    Lᵀ * Q * L + Lᵀ * S + Sᵀ * L + R + (y • V)ᵀ * X * (y • V) = (1 + K * L)ᵀ * R * (1 + K * L) := by
  have hα : Aᵀ * X + X * A + Q = Kᵀ * R * K := by
    rw [← hK, ← Matrix.mul_assoc] at he
    rw [← sub_eq_zero, ← he]
    abel
  have hβ : X * B + S = Kᵀ * R := by
    have := congrArg transpose hK
    rw [transpose_mul, transpose_add, transpose_mul, transpose_transpose, transpose_transpose, hX, hR] at this
    exact this.symm
  have hβ' : Bᵀ * X + Sᵀ = R * K := hK.symm
  have e1 : Lᵀ * Q * L + Lᵀ * S + Sᵀ * L + R + (y • V)ᵀ * X * (y • V) = (1 + K * L)ᵀ * R * (1 + K * L) := by
    have : Lᵀ * Q * L + Lᵀ * S + Sᵀ * L + R + (y • V)ᵀ * X * (y • V) = Lᵀ * (Aᵀ * X + X * A + Q) * L + Lᵀ * (X * B + S) + (Bᵀ * X + Sᵀ) * L + R := by
      rw [cayley_uu h hL, hV]
      simp only [transpose_add, transpose_mul, Matrix.mul_add, Matrix.add_mul, Matrix.mul_assoc]
      abel
    rw [this, hα, hβ, hβ']
    simp only [transpose_add, transpose_mul, transpose_one, Matrix.mul_add, Matrix.add_mul, Matrix.mul_assoc, Matrix.mul_one, Matrix.one_mul]
    abel
  have e2 : (y • V)ᵀ * X * (1 + y • Z) + (Pᵀ * (Q * L + S))ᵀ = (1 + K * L)ᵀ * R * (K * P) := by
    have h1 : (1 + y • Z)ᵀ * X * (y • V) + Pᵀ * (Q * L + S) = Pᵀ * ((Aᵀ * X + X * A + Q) * L + (X * B + S)) := by
      rw [cayley_xu h hP hL, hV, hZ]
      simp only [transpose_mul, Matrix.mul_add, Matrix.add_mul, Matrix.mul_assoc]
      abel
    have h2 := congrArg transpose h1
    rw [transpose_add, transpose_mul, transpose_mul, transpose_transpose, hX, ← Matrix.mul_assoc, hα, hβ] at h2
    rw [h2]
    simp only [transpose_add, transpose_mul, transpose_transpose, transpose_one, hR, Matrix.mul_add, Matrix.add_mul, Matrix.mul_assoc, Matrix.one_mul]
    abel
  have hu : IsUnit (1 + K * L).det := isUnit_iff_ne_zero.mpr hW
  refine ⟨?_, ?_, e1⟩
  · rw [e1, e2, Matrix.mul_assoc ((1 + K * L)ᵀ * R), mul_nonsing_inv_cancel_left _ _ hu]
  · rw [e2]
    have e3 : ((1 + K * L)⁻¹ * (K * P))ᵀ * ((1 + K * L)ᵀ * R * (K * P)) = (K * P)ᵀ * R * (K * P) := by
      rw [Matrix.mul_assoc (1 + K * L)ᵀ, ← Matrix.mul_assoc _ (1 + K * L)ᵀ, ← transpose_mul, mul_nonsing_inv_cancel_left _ _ hu, Matrix.mul_assoc]
    have e4 := cayley_lyap (X := X) (Q := Q) h hP hZ
    rw [e3]
    have e5 : (1 + y • Z)ᵀ * X * (1 + y • Z) - X - (K * P)ᵀ * R * (K * P) + Pᵀ * Q * P = ((1 + y • Z)ᵀ * X * (1 + y • Z) - X + Pᵀ * Q * P) - (K * P)ᵀ * R * (K * P) := by abel
    rw [e5, e4, hα, transpose_mul]
    simp only [Matrix.mul_assoc, sub_self]

/-- The closed loop is transformed alike, and the gain. -/
theorem cayley_loop (hP : P = y • 1 + w • Z) (hZ : Z = A * P) (hL : L = w • V) (hV : V = A * L + B) (hW : (1 + K * L).det ≠ 0) (hd : (1 - w • (A - B * K)).det ≠ 0) :
    (1 + y • Z) - (y • V) * ((1 + K * L)⁻¹ * (K * P)) = 1 + (y * y) • ((A - B * K) * (1 - w • (A - B * K))⁻¹) ∧
    (1 + K * L)⁻¹ * (K * P) = y • (K * (1 - w • (A - B * K))⁻¹) := by
  set Kd := (1 + K * L)⁻¹ * (K * P) with hKd
  have h1 : Kd + K * L * Kd = K * P := by
    have : (1 + K * L) * Kd = K * P := by rw [hKd, mul_nonsing_inv_cancel_left _ _ (isUnit_iff_ne_zero.mpr hW)]
    rwa [Matrix.add_mul, Matrix.one_mul] at this
  have h2 : Kd = K * (P - L * Kd) := by rw [Matrix.mul_sub, ← h1, Matrix.mul_assoc]; abel
  have h3 : Z - V * Kd = (A - B * K) * (P - L * Kd) := by
    rw [Matrix.sub_mul, Matrix.mul_assoc B, ← h2, hZ, hV]
    simp only [Matrix.mul_sub, Matrix.add_mul, Matrix.mul_assoc]
    abel
  have h4 : (1 - w • (A - B * K)) * (P - L * Kd) = y • 1 := by
    rw [Matrix.sub_mul, Matrix.one_mul, Matrix.smul_mul, ← h3]
    conv_lhs => rw [hP, hL]
    rw [Matrix.smul_mul, smul_sub]
    abel
  have h5 : P - L * Kd = y • (1 - w • (A - B * K))⁻¹ := by
    rw [← nonsing_inv_mul_cancel_left _ (P - L * Kd) (isUnit_iff_ne_zero.mpr hd), h4, Matrix.mul_smul, Matrix.mul_one]
  refine ⟨by rw [Matrix.smul_mul, add_sub_assoc, ← smul_sub, h3, h5, Matrix.mul_smul, smul_smul], ?_⟩
  rw [h2, h5, Matrix.mul_smul]

/-- The matrices of the transformation. -/
theorem cayley_parts (hd : (1 - w • A).det ≠ 0) : let P := y • (1 - w • A)⁻¹
    let L := w • ((1 - w • A)⁻¹ * B)
    P = y • 1 + w • (A * P) ∧ L = w • (A * L + B) ∧ (y * y) • (A * (1 - w • A)⁻¹) = y • (A * P) ∧ y • ((1 - w • A)⁻¹ * B) = y • (A * L + B) := by
  intro P L
  have hu := isUnit_iff_ne_zero.mpr hd
  have h1 : (1 - w • A)⁻¹ = 1 + w • (A * (1 - w • A)⁻¹) := by
    have := mul_nonsing_inv _ hu
    rw [Matrix.sub_mul, Matrix.one_mul, Matrix.smul_mul] at this
    exact sub_eq_iff_eq_add.mp this
  have h2 : A * L + B = (1 - w • A)⁻¹ * B := by
    conv_rhs => rw [h1]
    rw [Matrix.add_mul, Matrix.one_mul, add_comm]
    simp only [L, Matrix.smul_mul, Matrix.mul_smul, Matrix.mul_assoc]
  refine ⟨?_, ?_, ?_, ?_⟩
  · simp only [P]
    conv_lhs => rw [h1]
    rw [smul_add, Matrix.mul_smul, smul_comm]
  · rw [h2]
  · simp only [P, Matrix.mul_smul, smul_smul]
  · rw [h2]

end Harold
