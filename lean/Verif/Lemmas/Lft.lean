import Verif.Model.Discrete
import Verif.Lemmas.StateMul
import Verif.Props.MatrixSlice

/-!
# The star product of `_simple_lft_connect`
-/

namespace Harold

open Matrix Harold.Spec

section
variable {K : Type} [Field K] [DecidableEq K] {n m p : ℕ}

theorem q2_get (x y z w : K) : (q2 x y z w).r = 2 ∧ (q2 x y z w).c = 2 ∧
    (q2 x y z w).bget 0 0 = x ∧ (q2 x y z w).bget 0 1 = y ∧ (q2 x y z w).bget 1 0 = z ∧
    (q2 x y z w).bget 1 1 = w := by
  simp [q2, Arr.bget]

theorem naInv_of {w : K} {A : Matrix (Fin n) (Fin n) K} (h : (1 - w • A).det ≠ 0) :
    naInv w (Arr.of A) = .ok (Arr.of (1 - w • A)⁻¹) := by
  have e1 : (Arr.eye n : Arr K) = Arr.of 1 := rfl
  unfold naInv
  split_ifs with hw
  · simp [hw, e1]
  · simp only [Arr.of_r, e1, Arr.smul_of, Arr.sub_of, bind, Except.bind, Arr.solve_of, if_neg h,
      Matrix.mul_one]

theorem naInv_sing {w : K} {A : Matrix (Fin n) (Fin n) K} (h : (1 - w • A).det = 0) :
    naInv w (Arr.of A) = .error .linAlg := by
  have e1 : (Arr.eye n : Arr K) = Arr.of 1 := rfl
  unfold naInv
  split_ifs with hw
  · simp [hw] at h
  · simp only [Arr.of_r, e1, Arr.smul_of, Arr.sub_of, bind, Except.bind, Arr.solve_of, if_pos h]

omit [DecidableEq K] in
/-- `I + w A N = N` for `N = (I - w A)⁻¹`. -/
theorem naInv_fix {w : K} {A : Matrix (Fin n) (Fin n) K} (h : (1 - w • A).det ≠ 0) :
    w • (A * (1 - w • A)⁻¹) + 1 = (1 - w • A)⁻¹ := by
  have h1 : (1 - w • A) * (1 - w • A)⁻¹ = 1 := mul_nonsing_inv _ (Ne.isUnit h)
  rw [sub_mul, one_mul, smul_mul] at h1
  rw [← sub_eq_iff_eq_add'.mp h1]

theorem simpleLft_of (x y z w : K) (A : Matrix (Fin n) (Fin n) K) (B : Matrix (Fin n) (Fin m) K)
    (C : Matrix (Fin p) (Fin n) K) (D : Matrix (Fin p) (Fin m) K) (h : (1 - w • A).det ≠ 0) :
    simpleLft (q2 x y z w) (Arr.of A) (Arr.of B) (Arr.of C) (Arr.of D)
      = .ok (Arr.of (x • 1 + (z * y) • (A * (1 - w • A)⁻¹)), Arr.of (y • ((1 - w • A)⁻¹ * B)),
          Arr.of (z • (C * (1 - w • A)⁻¹)), Arr.of (D + w • (C * (1 - w • A)⁻¹ * B))) := by
  obtain ⟨h1, h2, h3, h4, h5, h6⟩ := q2_get x y z w
  have e1 : (Arr.eye n : Arr K) = Arr.of 1 := rfl
  have hB : lftB y w (Arr.of A) (Arr.of (1 - w • A)⁻¹) (Arr.of B)
      = .ok (Arr.of (y • ((1 - w • A)⁻¹ * B))) := by
    unfold lftB
    split_ifs with hw
    · simp [hw]
    · simp only [Arr.matmul_of, bind, Except.bind, Arr.smul_of, Arr.of_r, e1, Arr.add_of]
      rw [naInv_fix h, smul_mul]
  have hD : lftD w (Arr.of (1 - w • A)⁻¹) (Arr.of B) (Arr.of C) (Arr.of D)
      = .ok (Arr.of (D + w • (C * (1 - w • A)⁻¹ * B))) := by
    unfold lftD
    split_ifs with hw
    · simp [hw]
    · simp only [Arr.matmul_of, bind, Except.bind, Arr.smul_of, Arr.add_of]
      rw [smul_mul]
  unfold simpleLft
  rw [if_pos ⟨h1, h2⟩, h3, h4, h5, h6]
  simp only [naInv_of h, bind, Except.bind, Arr.smul_of, Arr.matmul_of, Arr.of_r, e1, Arr.add_of,
    hB, hD, smul_mul, smul_smul]

theorem simpleLft_sing (x y z w : K) (A : Matrix (Fin n) (Fin n) K) (b c d : Arr K)
    (h : (1 - w • A).det = 0) :
    simpleLft (q2 x y z w) (Arr.of A) b c d = .error .linAlg := by
  obtain ⟨h1, h2, h3, h4, h5, h6⟩ := q2_get x y z w
  unfold simpleLft
  rw [if_pos ⟨h1, h2⟩, h6]
  simp only [naInv_sing h, bind, Except.bind]

end

section
variable {K : Type} [Field K] [DecidableEq K] {n m p : ℕ}

/-- The star product with `Δ⁻¹ [[-q11, q21], [q12, -q22]]`, `Δ = q12 q21 - q11 q22`, undoes the star
product with `q`. -/
theorem simpleLft_inverse {x y z w Δ : K} (hΔ : Δ = z * y - x * w) (hΔ0 : Δ ≠ 0) (hyz : z * y ≠ 0)
    (A : Matrix (Fin n) (Fin n) K) (B : Matrix (Fin n) (Fin m) K)
    (C : Matrix (Fin p) (Fin n) K) (D : Matrix (Fin p) (Fin m) K) (h : (1 - w • A).det ≠ 0) :
    simpleLft (q2 (-x / Δ) (z / Δ) (y / Δ) (-w / Δ))
      (Arr.of (x • 1 + (z * y) • (A * (1 - w • A)⁻¹))) (Arr.of (y • ((1 - w • A)⁻¹ * B)))
      (Arr.of (z • (C * (1 - w • A)⁻¹))) (Arr.of (D + w • (C * (1 - w • A)⁻¹ * B)))
    = .ok (Arr.of A, Arr.of B, Arr.of C, Arr.of D) := by
  obtain ⟨N, hNdef⟩ : ∃ N, N = (1 - w • A)⁻¹ := ⟨_, rfl⟩
  have hN : N * (1 - w • A) = 1 := by rw [hNdef]; exact nonsing_inv_mul _ (Ne.isUnit h)
  have hN' : (1 - w • A) * N = 1 := mul_eq_one_comm.mp hN
  have hfix : w • (A * N) = N - 1 := by
    rw [hNdef, ← naInv_fix h, add_sub_cancel_right, naInv_fix h]
  have hz : z ≠ 0 := left_ne_zero_of_mul hyz
  have hy : y ≠ 0 := right_ne_zero_of_mul hyz
  rw [← hNdef]
  set Ad := x • (1 : Matrix (Fin n) (Fin n) K) + (z * y) • (A * N) with hAd
  have h1 : 1 - (-w / Δ) • Ad = (z * y / Δ) • N := by
    have e : (-w / Δ) • Ad = (-w * x / Δ) • (1 : Matrix (Fin n) (Fin n) K) - (z * y / Δ) • (w • (A * N)) := by
      rw [hAd, smul_add, smul_smul, smul_smul, smul_smul, sub_eq_add_neg, ← neg_smul]
      congr 2
      · ring
      · ring
    rw [e, hfix, sub_sub_eq_add_sub]
    have e2 : (1 : Matrix (Fin n) (Fin n) K) - (-w * x / Δ) • 1 = (z * y / Δ) • 1 := by
      conv_lhs => rw [← one_smul K (1 : Matrix (Fin n) (Fin n) K)]
      rw [smul_smul, ← sub_smul]
      congr 1
      field_simp
      rw [hΔ]; ring
    have e3 : (1 : Matrix (Fin n) (Fin n) K) + (z * y / Δ) • (N - 1) - (-w * x / Δ) • 1
        = (z * y / Δ) • N := by
      rw [smul_sub]
      rw [show (1 : Matrix (Fin n) (Fin n) K) + ((z * y / Δ) • N - (z * y / Δ) • 1) - (-w * x / Δ) • 1
        = (1 - (-w * x / Δ) • 1) + ((z * y / Δ) • N - (z * y / Δ) • 1) by abel, e2]
      abel
    exact e3
  have hdet : (1 - (-w / Δ) • Ad).det ≠ 0 := by
    rw [h1, det_smul]
    refine mul_ne_zero (pow_ne_zero _ (div_ne_zero hyz hΔ0)) ?_
    intro h0
    have := congrArg det hN
    rw [det_mul, h0, zero_mul, det_one] at this
    exact zero_ne_one this
  have hinv : (1 - (-w / Δ) • Ad)⁻¹ = (Δ / (z * y)) • (1 - w • A) := by
    apply Matrix.inv_eq_left_inv
    rw [h1, Matrix.mul_smul, smul_mul, smul_smul, hN']
    have : z * y / Δ * (Δ / (z * y)) = 1 := by field_simp
    rw [this, one_smul]
  rw [simpleLft_of _ _ _ _ _ _ _ _ hdet, hinv]
  have hAdN : Ad * (1 - w • A) = x • (1 - w • A) + (z * y) • A := by
    rw [hAd, add_mul, smul_mul, one_mul, smul_mul, Matrix.mul_assoc, hN, Matrix.mul_one]
  congr 1
  refine Prod.ext ?_ (Prod.ext ?_ (Prod.ext ?_ ?_))
  · simp only
    congr 1
    rw [Matrix.mul_smul, hAdN, smul_add, smul_add, smul_smul, smul_smul, smul_smul, smul_smul,
      smul_sub, smul_smul]
    have c1 : y / Δ * (z / Δ) * (Δ / (z * y)) * x = x / Δ := by field_simp
    have c2 : y / Δ * (z / Δ) * (Δ / (z * y)) * (z * y) = z * y / Δ := by field_simp
    simp only [← mul_assoc] at c1 c2 ⊢
    rw [c1, c2, neg_div, neg_smul]
    have : (z * y / Δ) • A - (x / Δ * w) • A = A := by
      rw [← sub_smul]
      have : z * y / Δ - x / Δ * w = 1 := by field_simp; rw [hΔ]
      rw [this, one_smul]
    rw [← this]
    simp only [this]
    conv_rhs => rw [← this]
    abel
  · simp only
    congr 1
    rw [smul_mul, Matrix.mul_smul, ← Matrix.mul_assoc, hN', Matrix.one_mul, smul_smul, smul_smul]
    have : z / Δ * (Δ / (z * y) * y) = 1 := by field_simp
    rw [← mul_assoc] at this
    rw [this, one_smul]
  · simp only
    congr 1
    rw [Matrix.mul_smul, smul_mul, Matrix.mul_assoc, hN, Matrix.mul_one, smul_smul, smul_smul]
    have : y / Δ * (Δ / (z * y)) * z = 1 := by field_simp
    rw [this, one_smul]
  · simp only
    congr 1
    have e : z • (C * N) * (Δ / (z * y)) • (1 - w • A) * y • (N * B) = Δ • (C * N * B) := by
      simp only [Matrix.mul_smul, smul_mul, smul_smul]
      rw [Matrix.mul_assoc C, hN, Matrix.mul_one, Matrix.mul_assoc]
      congr 1
      field_simp
    rw [e, smul_smul, add_assoc, ← add_smul]
    have : w + -w / Δ * Δ = 0 := by field_simp; ring
    rw [this, zero_smul, add_zero]

end

/-- The transfer function of the star product: `1/s = q22 + q21 q12 / (z - q11)`. -/
theorem IsTF.lft {L n m p : Type} [Field L] [Fintype n] [DecidableEq n] [Fintype m] [Fintype p]
    {A : Matrix n n L} {B : Matrix n m L} {C : Matrix p n L} {D : Matrix p m L} {s : L}
    {M : Matrix p m L} (h : IsTF A B C D s M) {x y z w ζ : L} {N : Matrix n n L}
    (hN : N * (1 - w • A) = 1)
    (hβ : w * (ζ - x) + z * y ≠ 0) (hs : s * (w * (ζ - x) + z * y) = ζ - x) :
    IsTF (x • 1 + (z * y) • (A * N)) (y • (N * B)) (z • (C * N)) (D + w • (C * N * B)) ζ M := by
  set β := w * (ζ - x) + z * y with hβdef
  obtain ⟨hd, X, hX, hM⟩ := isTF_iff_sol.mp h
  have hN' : (1 - w • A) * N = 1 := mul_eq_one_comm.mp hN
  have hcomm : A * N = N * A := by
    by_cases hw : w = 0
    · simp only [hw, zero_smul, sub_zero, mul_one] at hN
      simp [hN]
    · have h1 : w • (A * N) = w • (N * A) := by
        rw [← smul_mul, ← Matrix.mul_smul]
        rw [sub_mul, one_mul] at hN'
        rw [mul_sub, mul_one] at hN
        have := hN'.trans hN.symm
        exact sub_right_inj.mp this
      exact smul_right_injective _ hw h1
  have key : ζ • (1 : Matrix n n L) - (x • 1 + (z * y) • (A * N)) = (β • (s • 1 - A)) * N := by
    have e : (β • (s • (1 : Matrix n n L) - A)) = (ζ - x) • (1 - w • A) - (z * y) • A := by
      rw [smul_sub, smul_smul, mul_comm β s, hs, smul_sub, smul_smul, hβdef, add_smul, mul_comm w]
      abel
    rw [e, sub_mul, smul_mul, hN', smul_mul, sub_smul]
    abel
  rw [isTF_iff_sol]
  refine ⟨?_, (y * β⁻¹) • X, ?_, ?_⟩
  · rw [key, det_mul, det_smul]
    refine mul_ne_zero (mul_ne_zero (pow_ne_zero _ hβ) hd) ?_
    intro h0
    have := congrArg det hN
    rw [det_mul, h0, zero_mul, det_one] at this
    exact zero_ne_one this
  · rw [key, Matrix.mul_smul, smul_mul, smul_mul, smul_smul, mul_assoc y, inv_mul_cancel₀ hβ, mul_one]
    congr 1
    have hcomm2 : (s • 1 - A) * N = N * (s • 1 - A) := by
      rw [sub_mul, mul_sub, hcomm]; simp
    rw [hcomm2, Matrix.mul_assoc, hX]
  · rw [hM]
    have hNX : N * ((z * y * β⁻¹) • X + w • B) = X := by
      have : (z * y * β⁻¹) • X + w • B = (1 - w • A) * X := by
        rw [← hX]
        simp only [Matrix.sub_mul, Matrix.one_mul, smul_sub, smul_mul, smul_smul]
        have : z * y * β⁻¹ + w * s = 1 := by
          field_simp
          linear_combination w * hs - hβdef
        have e2 : (z * y * β⁻¹) • X + (w * s) • X = X := by rw [← add_smul, this, one_smul]
        rw [← add_sub_assoc, e2]
      rw [this, ← Matrix.mul_assoc, hN, Matrix.one_mul]
    calc C * X + D = C * (N * ((z * y * β⁻¹) • X + w • B)) + D := by rw [hNX]
      _ = _ := by
        simp only [Matrix.mul_add, Matrix.mul_smul, smul_mul, smul_smul, Matrix.mul_assoc]
        rw [mul_assoc z, mul_comm z]
        abel

end Harold
