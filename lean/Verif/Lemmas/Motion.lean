import Verif.Spec.Motion
import Verif.Spec.Sim
import Verif.Lemmas.Decay
import Verif.Lemmas.HoldInverse

/-!
# Stable matrices: motions, sums of powers, hold equivalents
-/

namespace Harold

open Matrix Spec Filter Topology NormedSpace

variable {n m p : ℕ}

/-- `A^k x → 0` for real `x` gives it for complex `x`. -/
theorem tendsto_complexify {ι : Type} {l : Filter ι} {F : ι → Matrix (Fin n) (Fin n) ℝ} (h : ∀ x : Fin n → ℝ, Tendsto (fun i => F i *ᵥ x) l (𝓝 0)) (v : Fin n → ℂ) :
    Tendsto (fun i => (F i).map (algebraMap ℝ ℂ) *ᵥ v) l (𝓝 0) := by
  have e : ∀ i, (F i).map (algebraMap ℝ ℂ) *ᵥ v
      = fun r => (((F i *ᵥ fun j => (v j).re) r : ℝ) : ℂ) + ((F i *ᵥ fun j => (v j).im) r : ℝ) * Complex.I := by
    intro i
    funext r
    simp only [mulVec, dotProduct, Complex.ofReal_sum, Finset.sum_mul, ← Finset.sum_add_distrib]
    refine Finset.sum_congr rfl fun j _ => ?_
    rw [map_apply, Complex.coe_algebraMap]
    conv_lhs => rw [← Complex.re_add_im (v j)]
    push_cast
    ring
  simp only [e]
  rw [tendsto_pi_nhds]
  intro r
  have h1 := tendsto_pi_nhds.mp (h fun j => (v j).re) r
  have h2 := tendsto_pi_nhds.mp (h fun j => (v j).im) r
  have h3 := ((Complex.continuous_ofReal.tendsto _).comp h1).add (((Complex.continuous_ofReal.tendsto _).comp h2).mul_const Complex.I)
  simpa using h3

theorem mulVec_tendsto_zero {ι : Type} {l : Filter ι} {F : ι → Matrix (Fin n) (Fin n) ℝ} (h : ∀ i j, Tendsto (fun k => F k i j) l (𝓝 0)) (x : Fin n → ℝ) :
    Tendsto (fun k => F k *ᵥ x) l (𝓝 0) := by
  rw [tendsto_pi_nhds]
  intro i
  simp only [mulVec, dotProduct]
  have := tendsto_finsetSum (Finset.univ : Finset (Fin n)) fun j _ => (h i j).mul_const (x j)
  simpa using this

/-- All eigenvalues are in the open unit disc exactly if all sequences `x(k+1) = A x(k)` tend to zero. -/
theorem schur_iff_motions {A : Matrix (Fin n) (Fin n) ℝ} {h : ℝ} : Schur A ↔ MotionsVanish (some h) A := by
  have hsol : ∀ {x : ℕ → Fin n → ℝ}, (∀ k, x (k + 1) = A *ᵥ x k) → ∀ k, x k = A ^ k *ᵥ x 0 := by
    intro x hx k
    induction k with
    | zero => simp
    | succ k ih => rw [hx, ih, mulVec_mulVec, ← pow_succ']
  constructor
  · intro hA x hx
    have := mulVec_tendsto_zero (F := fun k => A ^ k) (fun i j => schur_pow_tendsto hA i j) (x 0)
    exact this.congr fun k => (hsol hx k).symm
  · intro hv z hz
    rw [isEig_iff_mem] at hz
    obtain ⟨v, hv0, he⟩ := exists_eigenvector hz
    have h1 := tendsto_complexify (F := fun k => A ^ k) (fun x => hv (fun k => A ^ k *ᵥ x) fun k => by rw [mulVec_mulVec, ← pow_succ']) v
    have h2 : ∀ k : ℕ, (A ^ k).map (algebraMap ℝ ℂ) *ᵥ v = z ^ k • v := by
      intro k
      rw [map_pow']
      induction k with
      | zero => simp
      | succ k ih => rw [pow_succ', ← mulVec_mulVec, ih, mulVec_smul, he, smul_smul, ← pow_succ]
    simp only [h2] at h1
    by_contra hc
    rw [not_lt] at hc
    have h3 := h1.norm
    simp only [norm_smul, norm_pow, norm_zero] at h3
    have h4 : ∀ k : ℕ, ‖v‖ ≤ ‖z‖ ^ k * ‖v‖ := fun k => le_mul_of_one_le_left (norm_nonneg v) (one_le_pow₀ hc)
    have := ge_of_tendsto' h3 h4
    exact hv0 (norm_le_zero_iff.mp this)

theorem hasDerivAt_exp_mulVec (A : Matrix (Fin n) (Fin n) ℝ) (x : Fin n → ℝ) (t : ℝ) :
    HasDerivAt (fun s : ℝ => exp (s • A) *ᵥ x) (A *ᵥ (exp (t • A) *ᵥ x)) t := by
  rw [hasDerivAt_pi]
  intro i
  have hc : A * exp (t • A) = exp (t • A) * A := ((Commute.refl A).smul_right t).exp_right.eq
  rw [mulVec_mulVec, hc]
  simp only [mulVec, dotProduct]
  exact HasDerivAt.fun_sum fun j _ => (hasDerivAt_exp_entry A t i j).mul_const (x j)

/-- All eigenvalues are in the open left half plane exactly if all solutions of `x' = A x` tend to zero. -/
theorem hurwitz_iff_motions {A : Matrix (Fin n) (Fin n) ℝ} : Hurwitz A ↔ MotionsVanish none A := by
  constructor
  · intro hA x hx
    have h1 := mulVec_tendsto_zero (F := fun t : ℝ => exp (t • A)) (fun i j => hurwitz_exp_tendsto hA i j) (x 0)
    refine h1.congr' ?_
    filter_upwards [eventually_ge_atTop 0] with t ht
    have := exp_mulVec_of_deriv (M := A) ht (fun s _ => (hx s).continuousAt.continuousWithinAt) fun s _ => (hx s).hasDerivWithinAt
    rw [this, sub_zero]
  · intro hv z hz
    rw [isEig_iff_mem] at hz
    obtain ⟨v, hv0, he⟩ := exists_eigenvector hz
    have h1 := tendsto_complexify (F := fun t : ℝ => exp (t • A)) (fun x => hv (fun t => exp (t • A) *ᵥ x) fun t => hasDerivAt_exp_mulVec A x t) v
    have h2 : ∀ t : ℝ, (exp (t • A)).map (algebraMap ℝ ℂ) *ᵥ v = Complex.exp (t * z) • v := by
      intro t
      rw [exp_map_complex]
      refine exp_mulVec_eigen ?_
      have : (t • A).map (algebraMap ℝ ℂ) = (t : ℂ) • A.map (algebraMap ℝ ℂ) := by ext; simp
      rw [this, smul_mulVec, he, smul_smul]
    simp only [h2] at h1
    by_contra hc
    rw [not_lt] at hc
    have h3 := h1.norm
    simp only [norm_smul, norm_zero] at h3
    have h4 : ∀ᶠ t : ℝ in atTop, ‖v‖ ≤ ‖Complex.exp (t * z)‖ * ‖v‖ := by
      filter_upwards [eventually_ge_atTop 0] with t ht
      refine le_mul_of_one_le_left (norm_nonneg v) ?_
      rw [Complex.norm_exp, Real.one_le_exp_iff]
      simpa using mul_nonneg ht hc
    have := ge_of_tendsto h3 h4
    exact hv0 (norm_le_zero_iff.mp this)

/-! ### Sums of powers -/

theorem schur_det {A : Matrix (Fin n) (Fin n) ℝ} (h : Schur A) : (1 - A).det ≠ 0 := by
  intro hd
  have := h 1 (by
    unfold IsEig
    rw [one_smul]
    have : (1 : Matrix (Fin n) (Fin n) ℂ) - A.map (algebraMap ℝ ℂ) = (1 - A).map (algebraMap ℝ ℂ) := by
      rw [Matrix.map_sub _ (fun a b => map_sub _ a b), Matrix.map_one _ (map_zero _) (map_one _)]
    rw [this, ← RingHom.mapMatrix_apply, ← RingHom.map_det, hd, map_zero])
  simp at this

theorem hurwitz_det {A : Matrix (Fin n) (Fin n) ℝ} (h : Hurwitz A) : A.det ≠ 0 := by
  intro hd
  have := h 0 (by
    unfold IsEig
    rw [zero_smul, zero_sub, ← RingHom.mapMatrix_apply, ← map_neg, ← RingHom.map_det, det_neg, hd, mul_zero, map_zero])
  simp at this

theorem hurwitz_smul {A : Matrix (Fin n) (Fin n) ℝ} (h : Hurwitz A) {t : ℝ} (ht : 0 < t) : Hurwitz (t • A) := by
  intro z hz
  have hz' : IsEig A (z / t) := by
    unfold IsEig at hz ⊢
    have ht' : (t : ℂ) ≠ 0 := by exact_mod_cast ht.ne'
    have e : z • (1 : Matrix (Fin n) (Fin n) ℂ) - (t • A).map (algebraMap ℝ ℂ)
        = (t : ℂ) • ((z / t) • (1 : Matrix (Fin n) (Fin n) ℂ) - A.map (algebraMap ℝ ℂ)) := by
      rw [smul_sub, smul_smul, mul_div_cancel₀ z ht']
      congr 1
      ext; simp
    rw [e, det_smul] at hz
    exact (mul_eq_zero.mp hz).resolve_left (pow_ne_zero _ ht')
  have := h _ hz'
  rw [Complex.div_ofReal_re, div_neg_iff] at this
  rcases this with h1 | h1
  · linarith [h1.2]
  · exact h1.1

theorem hold_schur {A : Matrix (Fin n) (Fin n) ℝ} (h : Hurwitz A) {t : ℝ} (ht : 0 < t) : Schur (exp (t • A)) :=
  hurwitz_exp_schur (hurwitz_smul h ht)

/-- The input matrix of the zero order hold equivalent. -/
theorem gam_hold (A : Matrix (Fin n) (Fin n) ℝ) (R : Matrix (Fin n) (Fin m) ℝ) : A * gam A R 0 = (exp A - 1) * R := by
  have h : blk A R 0 (0 : Matrix (Fin m) (Fin m) ℝ) * exp (blk A R 0 0) = exp (blk A R 0 0) * blk A R 0 0 := (Commute.refl _).exp_right.eq
  rw [exp_blk, blk_mul, blk_mul] at h
  simp only [exp_zero, Matrix.mul_zero, Matrix.zero_mul, Matrix.mul_one, add_zero] at h
  rw [Matrix.sub_mul, Matrix.one_mul, ← (blk_inj h).2.1, add_sub_cancel_right]

/-- The sums of the weights tend to the gain at `z = 1`. -/
theorem markov_sum_tendsto {A : Matrix (Fin n) (Fin n) ℝ} (h : Schur A) (B : Matrix (Fin n) (Fin m) ℝ) (C : Matrix (Fin p) (Fin n) ℝ) (D : Matrix (Fin p) (Fin m) ℝ)
    (l : Fin p) (j : Fin m) :
    Tendsto (fun i : ℕ => ∑ k ∈ Finset.range (i + 1), markov A B C D k l j) atTop (𝓝 ((C * (1 - A)⁻¹ * B + D) l j)) := by
  have hdet : IsUnit (1 - A).det := isUnit_iff_ne_zero.mpr (schur_det h)
  have e : ∀ i : ℕ, ∑ k ∈ Finset.range (i + 1), markov A B C D k l j = (C * ((1 - A)⁻¹ * (1 - A ^ i)) * B + D : Matrix (Fin p) (Fin m) ℝ) l j := by
    intro i
    have hs : (1 - A)⁻¹ * (1 - A ^ i) = ∑ k ∈ Finset.range i, A ^ k := by
      rw [← mul_neg_geom_sum A i, ← Matrix.mul_assoc, nonsing_inv_mul _ hdet, Matrix.one_mul]
    rw [Finset.sum_range_succ', hs, Matrix.mul_sum, Matrix.sum_mul, Matrix.add_apply, Matrix.sum_apply]
    rfl
  simp only [e]
  have h1 : ∀ x : Fin n, Tendsto (fun i : ℕ => ((1 - A ^ i) * B : Matrix (Fin n) (Fin m) ℝ) x j) atTop (𝓝 (B x j)) := by
    intro x
    have h2 := mulVec_tendsto_zero (F := fun k => A ^ k) (fun a b => schur_pow_tendsto h a b) (fun y => B y j)
    have h3 := (tendsto_pi_nhds.mp h2 x).const_sub (B x j)
    simp only [Pi.zero_apply, sub_zero] at h3
    refine h3.congr fun i => ?_
    rw [Matrix.sub_mul, Matrix.one_mul, Matrix.sub_apply]
    rfl
  have h4 : Tendsto (fun i : ℕ => ∑ x, (C * (1 - A)⁻¹ : Matrix (Fin p) (Fin n) ℝ) l x * ((1 - A ^ i) * B : Matrix (Fin n) (Fin m) ℝ) x j + D l j) atTop (𝓝 (∑ x, (C * (1 - A)⁻¹ : Matrix (Fin p) (Fin n) ℝ) l x * B x j + D l j)) :=
    (tendsto_finsetSum _ fun x _ => (h1 x).const_mul _).add_const _
  rw [Matrix.add_apply, Matrix.mul_apply]
  refine h4.congr fun i => ?_
  rw [Matrix.add_apply, ← Matrix.mul_assoc, Matrix.mul_assoc _ (1 - A ^ i) B, Matrix.mul_apply]

theorem markov_tendsto {A : Matrix (Fin n) (Fin n) ℝ} (h : Schur A) (B : Matrix (Fin n) (Fin m) ℝ) (C : Matrix (Fin p) (Fin n) ℝ) (D : Matrix (Fin p) (Fin m) ℝ)
    (l : Fin p) (j : Fin m) : Tendsto (fun k : ℕ => markov A B C D k l j) atTop (𝓝 0) := by
  have h1 := markov_sum_tendsto h B C D l j
  have h2 := ((tendsto_add_atTop_iff_nat 1).mpr h1).sub h1
  rw [sub_self] at h2
  rw [← tendsto_add_atTop_iff_nat 1]
  refine h2.congr fun k => ?_
  rw [Finset.sum_range_succ _ (k + 1), add_sub_cancel_left]

/-- The hold equivalent has the gain of the continuous model. -/
theorem hold_gain {A : Matrix (Fin n) (Fin n) ℝ} (hA : Hurwitz A) {t : ℝ} (ht : 0 < t) (B : Matrix (Fin n) (Fin m) ℝ) (C : Matrix (Fin p) (Fin n) ℝ) (D : Matrix (Fin p) (Fin m) ℝ) :
    C * (1 - exp (t • A))⁻¹ * gam (t • A) (t • B) 0 + D = C * (0 - A)⁻¹ * B + D := by
  have h1 := gam_hold (t • A) (t • B)
  have hd : IsUnit (1 - exp (t • A)).det := isUnit_iff_ne_zero.mpr (schur_det (hold_schur hA ht))
  have hdA : IsUnit (0 - A).det := by
    rw [zero_sub, det_neg]
    exact isUnit_iff_ne_zero.mpr (mul_ne_zero (pow_ne_zero _ (by norm_num)) (hurwitz_det hA))
  have h2 : (0 - A) * gam (t • A) (t • B) 0 = (1 - exp (t • A)) * B := by
    have h3 : t • (A * gam (t • A) (t • B) 0) = t • ((exp (t • A) - 1) * B) := by
      rw [← Matrix.smul_mul, h1, Matrix.mul_smul]
    have h4 := smul_right_injective _ ht.ne' h3
    rw [Matrix.sub_mul, Matrix.zero_mul, h4, zero_sub, ← Matrix.neg_mul, neg_sub]
  have hcomm : (0 - A) * (1 - exp (t • A)) = (1 - exp (t • A)) * (0 - A) := by
    have hc : A * exp (t • A) = exp (t • A) * A := ((Commute.refl A).smul_right t).exp_right.eq
    simp only [zero_sub, Matrix.mul_sub, Matrix.sub_mul, Matrix.mul_neg, Matrix.neg_mul, Matrix.mul_one, Matrix.one_mul, hc]
    abel
  have h5 : (1 - exp (t • A))⁻¹ * gam (t • A) (t • B) 0 = (0 - A)⁻¹ * B := by
    have : (1 - exp (t • A)) * ((0 - A) * ((1 - exp (t • A))⁻¹ * gam (t • A) (t • B) 0)) = (1 - exp (t • A)) * B := by
      rw [← Matrix.mul_assoc, ← hcomm, Matrix.mul_assoc, ← Matrix.mul_assoc _ _ (gam _ _ _), mul_nonsing_inv _ hd, Matrix.one_mul, h2]
    have h6 := congrArg (fun X => (1 - exp (t • A))⁻¹ * X) this
    simp only [← Matrix.mul_assoc, nonsing_inv_mul _ hd, Matrix.one_mul] at h6
    have h7 := congrArg (fun X => (0 - A)⁻¹ * X) h6
    simp only [← Matrix.mul_assoc, nonsing_inv_mul _ hdA, Matrix.one_mul] at h7
    exact h7
  rw [Matrix.mul_assoc, h5, Matrix.mul_assoc]

/-! ### Bounded outputs -/

theorem linear_pow_summable {B : Type} [NormedRing B] [NormedAlgebra ℂ B] [FiniteDimensional ℂ B] [Nontrivial B] {M : B} (h : ∀ z ∈ spectrum ℂ M, ‖z‖ < 1)
    (e : B →ₗ[ℂ] ℂ) : Summable (fun k : ℕ => ‖e (M ^ k)‖) := by
  haveI : CompleteSpace B := FiniteDimensional.complete ℂ _
  have hr : spectralRadius ℂ M < (1 : NNReal) := spectrum.spectralRadius_lt_of_forall_lt M fun z hz => by
    have := h z hz
    exact_mod_cast this
  have hg := spectrum.pow_nnnorm_pow_one_div_tendsto_nhds_spectralRadius M
  obtain ⟨s, hs1, hs2⟩ := ENNReal.lt_iff_exists_nnreal_btwn.1 hr
  have hs2' : s < 1 := by exact_mod_cast hs2
  have hev : ∀ᶠ k : ℕ in atTop, ‖M ^ k‖ ≤ (s : ℝ) ^ k := by
    filter_upwards [hg.eventually (gt_mem_nhds hs1), eventually_gt_atTop 0] with k hk hk0
    have hk' : ((‖M ^ k‖₊ : ENNReal) ^ (1 / k : ℝ)) ^ (k : ℝ) ≤ (s : ENNReal) ^ (k : ℝ) := ENNReal.rpow_le_rpow hk.le (by positivity)
    rw [← ENNReal.rpow_mul, one_div, inv_mul_cancel₀ (by exact_mod_cast hk0.ne'), ENNReal.rpow_one, ENNReal.rpow_natCast] at hk'
    exact_mod_cast hk'
  have hsum : Summable (fun k : ℕ => ‖M ^ k‖) := by
    refine Summable.of_norm_bounded_eventually_nat (g := fun k : ℕ => (s : ℝ) ^ k) (summable_geometric_of_lt_one s.2 (by exact_mod_cast hs2')) ?_
    filter_upwards [hev] with k hk
    rwa [norm_norm]
  refine Summable.of_nonneg_of_le (fun k => norm_nonneg _) (fun k => (LinearMap.toContinuousLinearMap e).le_opNorm (M ^ k)) (hsum.mul_left _)

theorem schur_pow_summable {A : Matrix (Fin n) (Fin n) ℝ} (h : Schur A) (i j : Fin n) : Summable (fun k : ℕ => |(A ^ k) i j|) := by
  haveI : Nonempty (Fin n) := ⟨i⟩
  have h1 := @linear_pow_summable (Matrix (Fin n) (Fin n) ℂ) Matrix.linftyOpNormedRing Matrix.linftyOpNormedAlgebra inferInstance inferInstance (A.map (algebraMap ℝ ℂ))
    (fun z hz => h z (isEig_iff_mem.mpr hz)) (entryL i j)
  refine h1.congr fun k => ?_
  have : entryL i j (A.map (algebraMap ℝ ℂ) ^ k) = (((A ^ k) i j : ℝ) : ℂ) := by rw [← map_pow']; rfl
  rw [this, Complex.norm_real, Real.norm_eq_abs]

theorem markov_summable {A : Matrix (Fin n) (Fin n) ℝ} (h : Schur A) (B : Matrix (Fin n) (Fin m) ℝ) (C : Matrix (Fin p) (Fin n) ℝ) (D : Matrix (Fin p) (Fin m) ℝ)
    (l : Fin p) (j : Fin m) : Summable (fun k : ℕ => |markov A B C D k l j|) := by
  rw [← summable_nat_add_iff 1]
  have hs : Summable (fun k : ℕ => ∑ y, ∑ x, |C l x| * |(A ^ k) x y| * |B y j|) :=
    summable_sum fun y _ => summable_sum fun x _ => ((schur_pow_summable h x y).mul_left _).mul_right _
  refine Summable.of_nonneg_of_le (fun k => abs_nonneg _) (fun k => ?_) hs
  show |(C * A ^ k * B) l j| ≤ _
  rw [Matrix.mul_apply]
  refine (Finset.abs_sum_le_sum_abs _ _).trans (Finset.sum_le_sum fun y _ => ?_)
  rw [abs_mul, ← Finset.sum_mul, Matrix.mul_apply]
  refine mul_le_mul_of_nonneg_right ((Finset.abs_sum_le_sum_abs _ _).trans (Finset.sum_le_sum fun x _ => ?_)) (abs_nonneg _)
  rw [abs_mul]

end Harold
