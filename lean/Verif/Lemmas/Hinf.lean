import Verif.Lemmas.Decay
import Mathlib.Analysis.CStarAlgebra.Matrix
import Mathlib.Analysis.CStarAlgebra.Spectrum
import Mathlib.Topology.Order.IntermediateValue

/-!
# The Hamiltonian test for the largest singular value on the imaginary axis
-/

namespace Harold

open Matrix Filter Topology
open scoped Matrix.Norms.L2Operator

variable {n m p : ℕ}

/-- `C (s I - A)⁻¹ B + D`. -/
noncomputable def tfAt (A : Matrix (Fin n) (Fin n) ℂ) (B : Matrix (Fin n) (Fin m) ℂ)
    (C : Matrix (Fin p) (Fin n) ℂ) (D : Matrix (Fin p) (Fin m) ℂ) (s : ℂ) : Matrix (Fin p) (Fin m) ℂ :=
  C * (s • (1 : Matrix (Fin n) (Fin n) ℂ) - A)⁻¹ * B + D

theorem continuous_tfAt (A : Matrix (Fin n) (Fin n) ℂ) (B : Matrix (Fin n) (Fin m) ℂ)
    (C : Matrix (Fin p) (Fin n) ℂ) (D : Matrix (Fin p) (Fin m) ℂ)
    (h : ∀ w : ℝ, ((Complex.I * w) • (1 : Matrix (Fin n) (Fin n) ℂ) - A).det ≠ 0) :
    Continuous fun w : ℝ => tfAt A B C D (Complex.I * w) := by
  have h1 : Continuous fun w : ℝ => (Complex.I * (w : ℂ)) • (1 : Matrix (Fin n) (Fin n) ℂ) - A :=
    ((continuous_const.mul Complex.continuous_ofReal).smul continuous_const).sub continuous_const
  have h2 : Continuous fun w : ℝ =>
      ((Complex.I * (w : ℂ)) • (1 : Matrix (Fin n) (Fin n) ℂ) - A)⁻¹ := by
    simp only [Matrix.inv_def, Ring.inverse_eq_inv']
    exact (h1.matrix_det.inv₀ h).smul h1.matrix_adjugate
  exact ((continuous_const.matrix_mul h2).matrix_mul continuous_const).add continuous_const

theorem tendsto_resolvent (A : Matrix (Fin n) (Fin n) ℂ)
    (h : ∀ w : ℝ, ((Complex.I * w) • (1 : Matrix (Fin n) (Fin n) ℂ) - A).det ≠ 0) :
    Tendsto (fun w : ℝ => ((Complex.I * (w : ℂ)) • (1 : Matrix (Fin n) (Fin n) ℂ) - A)⁻¹)
      atTop (𝓝 0) := by
  rw [tendsto_zero_iff_norm_tendsto_zero]
  have hb : ∀ w : ℝ, ‖A‖ < w →
      ‖((Complex.I * (w : ℂ)) • (1 : Matrix (Fin n) (Fin n) ℂ) - A)⁻¹‖ ≤
        ‖(1 : Matrix (Fin n) (Fin n) ℂ)‖ / (w - ‖A‖) := by
    intro w hw
    set X := ((Complex.I * (w : ℂ)) • (1 : Matrix (Fin n) (Fin n) ℂ) - A)⁻¹ with hX
    have h1 : ((Complex.I * (w : ℂ)) • (1 : Matrix (Fin n) (Fin n) ℂ) - A) * X = 1 :=
      Matrix.mul_nonsing_inv _ (isUnit_iff_ne_zero.2 (h w))
    have h2 : (Complex.I * (w : ℂ)) • X = 1 + A * X := by
      rw [Matrix.sub_mul, Matrix.smul_mul, Matrix.one_mul] at h1
      rw [← h1]; abel
    have h0 : 0 ≤ ‖A‖ := norm_nonneg A
    have h3 : w * ‖X‖ ≤ ‖(1 : Matrix (Fin n) (Fin n) ℂ)‖ + ‖A‖ * ‖X‖ := by
      have e : w * ‖X‖ = ‖(Complex.I * (w : ℂ)) • X‖ := by
        rw [norm_smul, norm_mul, Complex.norm_I, one_mul, Complex.norm_real, Real.norm_of_nonneg
          (h0.trans hw.le)]
      rw [e, h2]
      exact (norm_add_le _ _).trans (add_le_add le_rfl (norm_mul_le _ _))
    rw [le_div_iff₀ (by linarith)]
    linarith
  have hlim : Tendsto (fun w : ℝ => ‖(1 : Matrix (Fin n) (Fin n) ℂ)‖ / (w - ‖A‖)) atTop (𝓝 0) :=
    Tendsto.div_atTop tendsto_const_nhds (tendsto_atTop_add_const_right _ _ tendsto_id)
  refine squeeze_zero' (Eventually.of_forall fun w => norm_nonneg _) ?_ hlim
  filter_upwards [eventually_gt_atTop ‖A‖] with w hw using hb w hw

theorem tendsto_tfAt (A : Matrix (Fin n) (Fin n) ℂ) (B : Matrix (Fin n) (Fin m) ℂ)
    (C : Matrix (Fin p) (Fin n) ℂ) (D : Matrix (Fin p) (Fin m) ℂ)
    (h : ∀ w : ℝ, ((Complex.I * w) • (1 : Matrix (Fin n) (Fin n) ℂ) - A).det ≠ 0) :
    Tendsto (fun w : ℝ => ‖tfAt A B C D (Complex.I * w)‖) atTop (𝓝 ‖D‖) := by
  have hc : Continuous fun X : Matrix (Fin n) (Fin n) ℂ => C * X * B + D :=
    ((continuous_const.matrix_mul continuous_id).matrix_mul continuous_const).add continuous_const
  have h1 := (hc.tendsto 0).comp (tendsto_resolvent A h)
  simp only [Matrix.mul_zero, Matrix.zero_mul, zero_add] at h1
  exact (continuous_norm.tendsto D).comp h1

/-- The largest singular value is one. -/
theorem exists_singular (G : Matrix (Fin p) (Fin m) ℂ) (hG : ‖G‖ ≠ 0) :
    ∃ u : Fin m → ℂ, u ≠ 0 ∧ Gᴴ *ᵥ (G *ᵥ u) = ((‖G‖ ^ 2 : ℝ) : ℂ) • u := by
  have hm : Nonempty (Fin m) := by
    by_contra hcon
    rw [not_nonempty_iff] at hcon
    apply hG
    have : G = 0 := by ext i j; exact hcon.elim j
    rw [this, norm_zero]
  haveI : Nontrivial (Matrix (Fin m) (Fin m) ℂ) := inferInstance
  have hsa : IsSelfAdjoint (Gᴴ * G) := Matrix.isHermitian_conjTranspose_mul_self G
  obtain ⟨z, hz, hzr⟩ := spectrum.exists_nnnorm_eq_spectralRadius (Gᴴ * G)
  rw [hsa.spectralRadius_eq_nnnorm, ENNReal.coe_inj] at hzr
  have hzn : ‖z‖ = ‖G‖ ^ 2 := by
    have : ‖z‖ = ‖Gᴴ * G‖ := congrArg NNReal.toReal hzr
    rw [this, l2_opNorm_conjTranspose_mul_self, sq]
  obtain ⟨u, hu, huz⟩ : ∃ u : Fin m → ℂ, u ≠ 0 ∧ (Gᴴ * G) *ᵥ u = z • u := by
    rw [spectrum.mem_iff, Matrix.isUnit_iff_isUnit_det, isUnit_iff_ne_zero, not_not] at hz
    obtain ⟨u, hu, h0⟩ := Matrix.exists_mulVec_eq_zero_iff.2 hz
    refine ⟨u, hu, ?_⟩
    rw [Matrix.sub_mulVec, Matrix.algebraMap_eq_diagonal, sub_eq_zero] at h0
    rw [← h0]
    ext i
    simp [Matrix.mulVec_diagonal]
  have hq : star (G *ᵥ u) ⬝ᵥ (G *ᵥ u) = z * (star u ⬝ᵥ u) := by
    rw [star_mulVec, ← dotProduct_mulVec, mulVec_mulVec, huz, dotProduct_smul, smul_eq_mul]
  have hre : ∀ {k : ℕ} (v : Fin k → ℂ), star v ⬝ᵥ v = ((∑ i, ‖v i‖ ^ 2 : ℝ) : ℂ) := by
    intro k v
    simp only [dotProduct, Pi.star_apply, RCLike.star_def]
    rw [Complex.ofReal_sum]
    exact Finset.sum_congr rfl fun i _ => by rw [Complex.conj_mul']; simp
  have hpos : 0 < ∑ i, ‖u i‖ ^ 2 := by
    obtain ⟨i, hi⟩ := Function.ne_iff.1 hu
    exact Finset.sum_pos' (fun _ _ => sq_nonneg _)
      ⟨i, Finset.mem_univ _, by have := norm_pos_iff.2 hi; positivity⟩
  rw [hre, hre] at hq
  have hz2 : z = (((∑ i, ‖(G *ᵥ u) i‖ ^ 2) / (∑ i, ‖u i‖ ^ 2) : ℝ) : ℂ) := by
    rw [Complex.ofReal_div, hq, mul_div_assoc, div_self, mul_one]
    exact Complex.ofReal_ne_zero.2 hpos.ne'
  have hnn : 0 ≤ (∑ i, ‖(G *ᵥ u) i‖ ^ 2) / (∑ i, ‖u i‖ ^ 2) :=
    div_nonneg (Finset.sum_nonneg fun _ _ => sq_nonneg _) hpos.le
  have hz3 : z = ((‖G‖ ^ 2 : ℝ) : ℂ) := by
    rw [← hzn, hz2, Complex.norm_real, Real.norm_of_nonneg hnn]
  exact ⟨u, hu, by rw [mulVec_mulVec, huz, hz3]⟩

/-- If `g` is a singular value of the transfer matrix at `s` on the imaginary axis, `s` is an eigenvalue
of the Hamiltonian for `g`. -/
theorem ham_eigenvector (A : Matrix (Fin n) (Fin n) ℂ) (B : Matrix (Fin n) (Fin m) ℂ)
    (C : Matrix (Fin p) (Fin n) ℂ) (D : Matrix (Fin p) (Fin m) ℂ) (g : ℝ) (s : ℂ) (hg : g ≠ 0)
    (hs : star s = -s)
    (hR : (Dᴴ * D - ((g ^ 2 : ℝ) : ℂ) • (1 : Matrix (Fin m) (Fin m) ℂ)).det ≠ 0)
    (hS : (D * Dᴴ - ((g ^ 2 : ℝ) : ℂ) • (1 : Matrix (Fin p) (Fin p) ℂ)).det ≠ 0)
    (hA : (s • (1 : Matrix (Fin n) (Fin n) ℂ) - A).det ≠ 0)
    (u : Fin m → ℂ) (hu : u ≠ 0)
    (hG : (tfAt A B C D s)ᴴ *ᵥ (tfAt A B C D s *ᵥ u) = ((g ^ 2 : ℝ) : ℂ) • u) :
    ∃ (x y : Fin n → ℂ), (x ≠ 0 ∨ y ≠ 0) ∧
      (A - B * ((Dᴴ * D - ((g ^ 2 : ℝ) : ℂ) • (1 : Matrix (Fin m) (Fin m) ℂ))⁻¹ * Dᴴ) * C) *ᵥ x
        + ((-(g : ℂ)) • B * ((Dᴴ * D - ((g ^ 2 : ℝ) : ℂ) • (1 : Matrix (Fin m) (Fin m) ℂ))⁻¹ * Bᴴ)) *ᵥ y
          = s • x ∧
      ((g : ℂ) • Cᴴ * ((D * Dᴴ - ((g ^ 2 : ℝ) : ℂ) • (1 : Matrix (Fin p) (Fin p) ℂ))⁻¹ * C)) *ᵥ x
        + (-(A - B * ((Dᴴ * D - ((g ^ 2 : ℝ) : ℂ) • (1 : Matrix (Fin m) (Fin m) ℂ))⁻¹ * Dᴴ) * C)ᴴ) *ᵥ y
          = s • y := by
  set R := Dᴴ * D - ((g ^ 2 : ℝ) : ℂ) • (1 : Matrix (Fin m) (Fin m) ℂ) with hRd
  set S := D * Dᴴ - ((g ^ 2 : ℝ) : ℂ) • (1 : Matrix (Fin p) (Fin p) ℂ) with hSd
  set X := (s • (1 : Matrix (Fin n) (Fin n) ℂ) - A)⁻¹ with hX
  have hgc : (g : ℂ) ≠ 0 := Complex.ofReal_ne_zero.2 hg
  have hXl : X * (s • (1 : Matrix (Fin n) (Fin n) ℂ) - A) = 1 :=
    Matrix.nonsing_inv_mul _ (isUnit_iff_ne_zero.2 hA)
  have hXr : (s • (1 : Matrix (Fin n) (Fin n) ℂ) - A) * X = 1 :=
    Matrix.mul_nonsing_inv _ (isUnit_iff_ne_zero.2 hA)
  have hXr' : A * X = s • X - 1 := by
    rw [Matrix.sub_mul, Matrix.smul_mul, Matrix.one_mul] at hXr
    rw [← hXr]; abel
  have hXh : Aᴴ * Xᴴ = -(s • Xᴴ) - 1 := by
    have := congrArg conjTranspose hXl
    rw [conjTranspose_mul, conjTranspose_sub, conjTranspose_smul, conjTranspose_one, hs,
      Matrix.sub_mul, Matrix.smul_mul, Matrix.one_mul, neg_smul] at this
    rw [← this]; abel
  have hRR : R⁻¹ * R = 1 := Matrix.nonsing_inv_mul _ (isUnit_iff_ne_zero.2 hR)
  have hRR' : R * R⁻¹ = 1 := Matrix.mul_nonsing_inv _ (isUnit_iff_ne_zero.2 hR)
  have hSS : S⁻¹ * S = 1 := Matrix.nonsing_inv_mul _ (isUnit_iff_ne_zero.2 hS)
  have hDR : D * R = S * D := by
    rw [hRd, hSd, Matrix.mul_sub, Matrix.sub_mul, Matrix.mul_smul, Matrix.smul_mul, Matrix.mul_one,
      Matrix.one_mul, Matrix.mul_assoc]
  have hDR' : D * R⁻¹ = S⁻¹ * D := by
    calc D * R⁻¹ = S⁻¹ * S * (D * R⁻¹) := by rw [hSS, Matrix.one_mul]
      _ = S⁻¹ * (S * D) * R⁻¹ := by simp only [Matrix.mul_assoc]
      _ = S⁻¹ * D := by rw [← hDR, Matrix.mul_assoc, Matrix.mul_assoc, hRR', Matrix.mul_one]
  have hRh : Rᴴ = R := by
    rw [hRd, conjTranspose_sub, conjTranspose_mul, conjTranspose_conjTranspose, conjTranspose_smul,
      conjTranspose_one]
    congr 2
    simp
  have hRih : (R⁻¹)ᴴ = R⁻¹ := by rw [conjTranspose_nonsing_inv, hRh]
  set x := X *ᵥ (B *ᵥ u) with hx
  set v := (g : ℂ)⁻¹ • (tfAt A B C D s *ᵥ u) with hv
  set y := Xᴴ *ᵥ (Cᴴ *ᵥ v) with hy
  have h1 : s • x = A *ᵥ x + B *ᵥ u := by
    have e : A *ᵥ (X *ᵥ (B *ᵥ u)) = (A * X) *ᵥ (B *ᵥ u) := mulVec_mulVec _ _ _
    rw [hx, e, hXr', sub_mulVec, smul_mulVec, one_mulVec]; abel
  have h2 : s • y = -(Aᴴ *ᵥ y) - Cᴴ *ᵥ v := by
    have e : Aᴴ *ᵥ (Xᴴ *ᵥ (Cᴴ *ᵥ v)) = (Aᴴ * Xᴴ) *ᵥ (Cᴴ *ᵥ v) := mulVec_mulVec _ _ _
    rw [hy, e, hXh, sub_mulVec, neg_mulVec, smul_mulVec, one_mulVec]; abel
  have h3 : C *ᵥ x + D *ᵥ u = (g : ℂ) • v := by
    rw [hv, smul_smul, mul_inv_cancel₀ hgc, one_smul, tfAt, add_mulVec, ← mulVec_mulVec,
      ← mulVec_mulVec]
  have h4 : Bᴴ *ᵥ y + Dᴴ *ᵥ v = (g : ℂ) • u := by
    have : (tfAt A B C D s)ᴴ *ᵥ v = (g : ℂ) • u := by
      rw [hv, mulVec_smul, hG, smul_smul]
      congr 1
      rw [Complex.ofReal_pow, sq, ← mul_assoc, inv_mul_cancel₀ hgc, one_mul]
    rw [← this, tfAt, conjTranspose_add, conjTranspose_mul, conjTranspose_mul, add_mulVec,
      ← mulVec_mulVec, ← mulVec_mulVec]
  have hRu : R *ᵥ u = -(Dᴴ *ᵥ (C *ᵥ x) + (g : ℂ) • (Bᴴ *ᵥ y)) := by
    have e1 : D *ᵥ u = (g : ℂ) • v - C *ᵥ x := by rw [← h3]; abel
    rw [hRd, sub_mulVec, ← mulVec_mulVec, e1, smul_mulVec, one_mulVec, Complex.ofReal_pow, sq,
      mul_smul, ← h4, mulVec_sub, mulVec_smul, smul_add]
    abel
  have hSv : S *ᵥ v = -(D *ᵥ (Bᴴ *ᵥ y) + (g : ℂ) • (C *ᵥ x)) := by
    have e1 : Dᴴ *ᵥ v = (g : ℂ) • u - Bᴴ *ᵥ y := by rw [← h4]; abel
    rw [hSd, sub_mulVec, ← mulVec_mulVec, e1, smul_mulVec, one_mulVec, Complex.ofReal_pow, sq,
      mul_smul, ← h3, mulVec_sub, mulVec_smul, smul_add]
    abel
  have hu' : u = -(R⁻¹ *ᵥ (Dᴴ *ᵥ (C *ᵥ x)) + (g : ℂ) • (R⁻¹ *ᵥ (Bᴴ *ᵥ y))) := by
    rw [← mulVec_smul, ← mulVec_add, ← mulVec_neg, ← hRu, mulVec_mulVec, hRR, one_mulVec]
  have hv' : v = -(S⁻¹ *ᵥ (D *ᵥ (Bᴴ *ᵥ y)) + (g : ℂ) • (S⁻¹ *ᵥ (C *ᵥ x))) := by
    rw [← mulVec_smul, ← mulVec_add, ← mulVec_neg, ← hSv, mulVec_mulVec, hSS, one_mulVec]
  refine ⟨x, y, ?_, ?_, ?_⟩
  · by_contra hcon
    push Not at hcon
    apply hu
    rw [hu', hcon.1, hcon.2]
    simp
  · rw [h1]
    conv_rhs => rw [hu']
    simp only [sub_mulVec, ← mulVec_mulVec, smul_mulVec, mulVec_neg, mulVec_add, mulVec_smul,
      neg_smul, Matrix.neg_mulVec, Matrix.neg_mul]
    abel
  · rw [h2]
    have e : (B * (R⁻¹ * Dᴴ) * C)ᴴ = Cᴴ * (S⁻¹ * D) * Bᴴ := by
      rw [conjTranspose_mul, conjTranspose_mul, conjTranspose_mul, conjTranspose_conjTranspose,
        hRih, hDR']
      simp only [Matrix.mul_assoc]
    conv_rhs => rw [hv']
    rw [conjTranspose_sub, e]
    simp only [sub_mulVec, ← mulVec_mulVec, smul_mulVec, mulVec_neg, mulVec_add, mulVec_smul,
      neg_mulVec]
    abel

/-- An eigenvector of a block matrix, given in two parts. -/
theorem det_blk_eq_zero {K : Type} [Field K] {a b : ℕ} (P : Matrix (Fin a) (Fin a) K)
    (Q : Matrix (Fin a) (Fin b) K) (R : Matrix (Fin b) (Fin a) K) (S : Matrix (Fin b) (Fin b) K) (s : K)
    (x : Fin a → K) (y : Fin b → K) (h : x ≠ 0 ∨ y ≠ 0) (h1 : P *ᵥ x + Q *ᵥ y = s • x)
    (h2 : R *ᵥ x + S *ᵥ y = s • y) :
    (s • (1 : Matrix (Fin (a + b)) (Fin (a + b)) K) - blk P Q R S).det = 0 := by
  have e : s • (1 : Matrix (Fin (a + b)) (Fin (a + b)) K) - blk P Q R S =
      (s • (1 : Matrix (Fin a ⊕ Fin b) (Fin a ⊕ Fin b) K) - fromBlocks P Q R S).submatrix
        finSumFinEquiv.symm finSumFinEquiv.symm := by
    rw [Matrix.submatrix_sub, Matrix.submatrix_smul, Pi.sub_apply, Pi.smul_apply]
    simp [blk]
  rw [e, Matrix.det_submatrix_equiv_self, ← Matrix.exists_mulVec_eq_zero_iff]
  refine ⟨Sum.elim x y, ?_, ?_⟩
  · intro h0
    rcases h with h | h
    · exact h (funext fun i => congrFun h0 (Sum.inl i))
    · exact h (funext fun i => congrFun h0 (Sum.inr i))
  · rw [sub_mulVec, smul_mulVec, one_mulVec, fromBlocks_mulVec, sub_eq_zero]
    ext i
    rcases i with i | i
    · simpa using (congrFun h1 i).symm
    · simpa using (congrFun h2 i).symm

end Harold
