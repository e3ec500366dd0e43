import Verif.Spec.LqrLoop
import Verif.Props.SysNorm
import Verif.Lemmas.LogExists

/-!
# Lyapunov arguments for the closed loop of a linear quadratic regulator
-/

namespace Harold

open Matrix Spec

variable {n m : ℕ}

/-- The parts of a complex eigenvector. -/
theorem eig_parts {M : Matrix (Fin n) (Fin n) ℝ} {z : ℂ} {v : Fin n → ℂ} (h : M.map (algebraMap ℝ ℂ) *ᵥ v = z • v) :
    M *ᵥ (fun i => (v i).re) = z.re • (fun i => (v i).re) - z.im • (fun i => (v i).im) ∧
      M *ᵥ (fun i => (v i).im) = z.re • (fun i => (v i).im) + z.im • (fun i => (v i).re) := by
  constructor <;> funext i
  · have := congrArg Complex.re (congrFun h i)
    simp only [mulVec, dotProduct, Complex.re_sum, Matrix.map_apply, Complex.coe_algebraMap, Complex.re_ofReal_mul, Pi.smul_apply, smul_eq_mul, Complex.mul_re] at this
    simpa [mulVec, dotProduct] using this
  · have := congrArg Complex.im (congrFun h i)
    simp only [mulVec, dotProduct, Complex.im_sum, Matrix.map_apply, Complex.coe_algebraMap, Complex.im_ofReal_mul, Pi.smul_apply, smul_eq_mul, Complex.mul_im] at this
    simpa [mulVec, dotProduct, add_comm] using this

theorem map_mulVec_parts {a b : ℕ} (M : Matrix (Fin a) (Fin b) ℝ) (v : Fin b → ℂ) :
    (fun i => ((M.map (algebraMap ℝ ℂ) *ᵥ v) i).re) = M *ᵥ (fun i => (v i).re) ∧ (fun i => ((M.map (algebraMap ℝ ℂ) *ᵥ v) i).im) = M *ᵥ (fun i => (v i).im) := by
  constructor <;> funext i
  · simp [mulVec, dotProduct, Complex.re_sum]
  · simp [mulVec, dotProduct, Complex.im_sum]

theorem quad_comm {X : Matrix (Fin n) (Fin n) ℝ} (hX : Xᵀ = X) (x y : Fin n → ℝ) : y ⬝ᵥ X *ᵥ x = x ⬝ᵥ X *ᵥ y := by
  rw [← bil_transpose, hX]

/-- If `x' X x` is not negative and falls along the motions by a cost that sees every motion that does not decay, all motions decay. -/
theorem hurwitz_of_psd {M X : Matrix (Fin n) (Fin n) ℝ} {c : (Fin n → ℝ) → ℝ} (hX : Xᵀ = X) (hX0 : ∀ x, 0 ≤ x ⬝ᵥ X *ᵥ x)
    (hl : ∀ x, (M *ᵥ x) ⬝ᵥ X *ᵥ x + x ⬝ᵥ X *ᵥ (M *ᵥ x) = -c x) (hc : ∀ x, 0 ≤ c x)
    (hs : ∀ (z : ℂ) (v : Fin n → ℂ), 0 ≤ z.re → M.map (algebraMap ℝ ℂ) *ᵥ v = z • v → c (fun i => (v i).re) + c (fun i => (v i).im) = 0 → v = 0) : Hurwitz M := by
  intro z hz
  obtain ⟨v, hv, h⟩ := vec_of_isEig hz
  by_contra hneg
  push Not at hneg
  refine hv (hs z v hneg h ?_)
  obtain ⟨h1, h2⟩ := eig_parts h
  set x : Fin n → ℝ := fun i => (v i).re
  set y : Fin n → ℝ := fun i => (v i).im
  have e1 := hl x
  have e2 := hl y
  rw [h1] at e1
  rw [h2] at e2
  simp only [mulVec_add, mulVec_sub, mulVec_smul, dotProduct_add, dotProduct_sub, add_dotProduct, sub_dotProduct, dotProduct_smul, smul_dotProduct, smul_eq_mul, quad_comm hX x y] at e1 e2
  have hV : 0 ≤ z.re * (x ⬝ᵥ X *ᵥ x + y ⬝ᵥ X *ᵥ y) := mul_nonneg hneg (add_nonneg (hX0 x) (hX0 y))
  have := hc x
  have := hc y
  nlinarith

/-- The same in discrete time. -/
theorem schur_of_psd {M X : Matrix (Fin n) (Fin n) ℝ} {c : (Fin n → ℝ) → ℝ} (hX : Xᵀ = X) (hX0 : ∀ x, 0 ≤ x ⬝ᵥ X *ᵥ x)
    (hl : ∀ x, (M *ᵥ x) ⬝ᵥ X *ᵥ (M *ᵥ x) - x ⬝ᵥ X *ᵥ x = -c x) (hc : ∀ x, 0 ≤ c x)
    (hs : ∀ (z : ℂ) (v : Fin n → ℂ), 1 ≤ ‖z‖ → M.map (algebraMap ℝ ℂ) *ᵥ v = z • v → c (fun i => (v i).re) + c (fun i => (v i).im) = 0 → v = 0) : Schur M := by
  intro z hz
  obtain ⟨v, hv, h⟩ := vec_of_isEig hz
  by_contra hneg
  push Not at hneg
  refine hv (hs z v hneg h ?_)
  obtain ⟨h1, h2⟩ := eig_parts h
  set x : Fin n → ℝ := fun i => (v i).re
  set y : Fin n → ℝ := fun i => (v i).im
  have e1 := hl x
  have e2 := hl y
  rw [h1] at e1
  rw [h2] at e2
  simp only [mulVec_add, mulVec_sub, mulVec_smul, dotProduct_add, dotProduct_sub, add_dotProduct, sub_dotProduct, dotProduct_smul, smul_dotProduct, smul_eq_mul, quad_comm hX x y] at e1 e2
  have hn : 1 ≤ z.re * z.re + z.im * z.im := by
    have : ‖z‖ * ‖z‖ = z.re * z.re + z.im * z.im := by rw [← Complex.normSq_apply, ← Complex.sq_norm, sq]
    rw [← this]
    nlinarith
  have hV : 0 ≤ (z.re * z.re + z.im * z.im - 1) * (x ⬝ᵥ X *ᵥ x + y ⬝ᵥ X *ᵥ y) := mul_nonneg (by linarith) (add_nonneg (hX0 x) (hX0 y))
  have := hc x
  have := hc y
  nlinarith

/-- The motion of `x' = M x`. -/
theorem hasDerivAt_exp_mulVec (M : Matrix (Fin n) (Fin n) ℝ) (x₀ : Fin n → ℝ) (t : ℝ) :
    HasDerivAt (fun t : ℝ => NormedSpace.exp (t • M) *ᵥ x₀) (M *ᵥ (NormedSpace.exp (t • M) *ᵥ x₀)) t := by
  refine hasDerivAt_pi.mpr fun i => ?_
  have h1 : HasDerivAt (fun s : ℝ => ∑ j, (NormedSpace.exp (s • M)) i j * x₀ j) (∑ j, (NormedSpace.exp (t • M) * M) i j * x₀ j) t :=
    HasDerivAt.fun_sum fun j _ => (hasDerivAt_exp_entry M t i j).mul_const _
  have h2 : NormedSpace.exp (t • M) * M = M * NormedSpace.exp (t • M) := by
    have : Commute (t • M) M := (Commute.refl M).smul_left t
    exact (Commute.exp_left this).eq
  rw [mulVec_mulVec, ← h2]
  exact h1

theorem exp_mulVec_tendsto {M : Matrix (Fin n) (Fin n) ℝ} (h : Hurwitz M) (x₀ : Fin n → ℝ) :
    Filter.Tendsto (fun t : ℝ => NormedSpace.exp (t • M) *ᵥ x₀) Filter.atTop (nhds 0) := by
  refine tendsto_pi_nhds.mpr fun i => ?_
  have : Filter.Tendsto (fun t : ℝ => ∑ j, (NormedSpace.exp (t • M)) i j * x₀ j) Filter.atTop (nhds (∑ j, 0 * x₀ j)) :=
    tendsto_finset_sum _ fun j _ => (hurwitz_exp_tendsto h i j).mul_const _
  simp only [zero_mul, Finset.sum_const_zero] at this
  exact this

theorem pow_mulVec_tendsto {M : Matrix (Fin n) (Fin n) ℝ} (h : Schur M) (x₀ : Fin n → ℝ) : Filter.Tendsto (fun t : ℕ => M ^ t *ᵥ x₀) Filter.atTop (nhds 0) := by
  refine tendsto_pi_nhds.mpr fun i => ?_
  have : Filter.Tendsto (fun t : ℕ => ∑ j, (M ^ t) i j * x₀ j) Filter.atTop (nhds (∑ j, 0 * x₀ j)) :=
    tendsto_finset_sum _ fun j _ => (schur_pow_tendsto h i j).mul_const _
  simp only [zero_mul, Finset.sum_const_zero] at this
  exact this

/-- A bilinear form along motions that go to zero. -/
theorem bil_tendsto {ι : Type} {l : Filter ι} {x y : ι → Fin n → ℝ} (hx : Filter.Tendsto x l (nhds 0)) (hy : Filter.Tendsto y l (nhds 0)) (X : Matrix (Fin n) (Fin n) ℝ) :
    Filter.Tendsto (fun t => x t ⬝ᵥ X *ᵥ y t) l (nhds 0) := by
  have h1 : ∀ i, Filter.Tendsto (fun t => x t i) l (nhds 0) := fun i => by simpa using tendsto_pi_nhds.1 hx i
  have h2 : ∀ i, Filter.Tendsto (fun t => y t i) l (nhds 0) := fun i => by simpa using tendsto_pi_nhds.1 hy i
  simp only [mulVec, dotProduct]
  have h3 : ∀ i, Filter.Tendsto (fun t => x t i * ∑ j, X i j * y t j) l (nhds (0 * ∑ j, X i j * 0)) := fun i =>
    (h1 i).mul (tendsto_finset_sum _ fun j _ => (h2 j).const_mul _)
  simpa using tendsto_finset_sum Finset.univ fun i _ => h3 i

theorem hasDerivAt_bil {x y : ℝ → Fin n → ℝ} {v w : Fin n → ℝ} {t : ℝ} (X : Matrix (Fin n) (Fin n) ℝ) (hx : HasDerivAt x v t) (hy : HasDerivAt y w t) :
    HasDerivAt (fun t => x t ⬝ᵥ X *ᵥ y t) (v ⬝ᵥ X *ᵥ y t + x t ⬝ᵥ X *ᵥ w) t := by
  have h1 : ∀ i, HasDerivAt (fun t => x t i) (v i) t := hasDerivAt_pi.1 hx
  have h1' : ∀ i, HasDerivAt (fun t => y t i) (w i) t := hasDerivAt_pi.1 hy
  have h2 : ∀ i, HasDerivAt (fun t => (X *ᵥ y t) i) ((X *ᵥ w) i) t := by
    intro i
    simp only [mulVec, dotProduct]
    exact HasDerivAt.fun_sum fun j _ => (h1' j).const_mul _
  have h3 : HasDerivAt (fun t => ∑ i, x t i * (X *ᵥ y t) i) (∑ i, (v i * (X *ᵥ y t) i + x t i * (X *ᵥ w) i)) t :=
    HasDerivAt.fun_sum fun i _ => (h1 i).mul (h2 i)
  rw [Finset.sum_add_distrib] at h3
  exact h3

/-- If all motions decay, `x' X x` is a sum of costs. -/
theorem psd_of_hurwitz {M X : Matrix (Fin n) (Fin n) ℝ} {c : (Fin n → ℝ) → ℝ} (h : Hurwitz M)
    (hl : ∀ x, (M *ᵥ x) ⬝ᵥ X *ᵥ x + x ⬝ᵥ X *ᵥ (M *ᵥ x) = -c x) (hc : ∀ x, 0 ≤ c x) (x₀ : Fin n → ℝ) : 0 ≤ x₀ ⬝ᵥ X *ᵥ x₀ := by
  set z : ℝ → Fin n → ℝ := fun t => NormedSpace.exp (t • M) *ᵥ x₀ with hz
  have hd : ∀ t, HasDerivAt (fun t => z t ⬝ᵥ X *ᵥ z t) (-c (z t)) t := fun t => by
    rw [← hl]
    exact hasDerivAt_bil X (hasDerivAt_exp_mulVec M x₀ t) (hasDerivAt_exp_mulVec M x₀ t)
  have ha : Antitone (fun t => z t ⬝ᵥ X *ᵥ z t) := antitone_of_deriv_nonpos (fun t => (hd t).differentiableAt) fun t => by
    rw [(hd t).deriv]
    linarith [hc (z t)]
  have h0 := bil_tendsto (exp_mulVec_tendsto h x₀) (exp_mulVec_tendsto h x₀) X
  have := ha.le_of_tendsto h0 0
  simpa [hz] using this

theorem psd_of_schur {M X : Matrix (Fin n) (Fin n) ℝ} {c : (Fin n → ℝ) → ℝ} (h : Schur M)
    (hl : ∀ x, (M *ᵥ x) ⬝ᵥ X *ᵥ (M *ᵥ x) - x ⬝ᵥ X *ᵥ x = -c x) (hc : ∀ x, 0 ≤ c x) (x₀ : Fin n → ℝ) : 0 ≤ x₀ ⬝ᵥ X *ᵥ x₀ := by
  have ha : Antitone (fun t : ℕ => (M ^ t *ᵥ x₀) ⬝ᵥ X *ᵥ (M ^ t *ᵥ x₀)) := antitone_nat_of_succ_le fun t => by
    have h1 := hl (M ^ t *ᵥ x₀)
    rw [mulVec_mulVec, ← pow_succ'] at h1
    linarith [hc (M ^ t *ᵥ x₀)]
  have h0 := bil_tendsto (pow_mulVec_tendsto h x₀) (pow_mulVec_tendsto h x₀) X
  have := ha.le_of_tendsto h0 0
  simpa using this

/-- The homogeneous Sylvester equation of two stable matrices has the solution zero only. -/
theorem sylvester_zero {M N X : Matrix (Fin n) (Fin n) ℝ} (hM : Hurwitz M) (hN : Hurwitz N) (h : Mᵀ * X + X * N = 0) : X = 0 := by
  have key : ∀ v w : Fin n → ℝ, v ⬝ᵥ X *ᵥ w = 0 := by
    intro v w
    set f : ℝ → ℝ := fun t => (NormedSpace.exp (t • M) *ᵥ v) ⬝ᵥ X *ᵥ (NormedSpace.exp (t • N) *ᵥ w) with hf
    have hd : ∀ t, HasDerivAt f 0 t := fun t => by
      have h1 := hasDerivAt_bil X (hasDerivAt_exp_mulVec M v t) (hasDerivAt_exp_mulVec N w t)
      have h2 : ∀ a b : Fin n → ℝ, (M *ᵥ a) ⬝ᵥ X *ᵥ b + a ⬝ᵥ X *ᵥ (N *ᵥ b) = 0 := fun a b => by
        have h3 := congrArg (fun Y => a ⬝ᵥ Y *ᵥ b) h
        simp only [add_mulVec, dotProduct_add, zero_mulVec, dotProduct_zero, ← mulVec_mulVec] at h3
        rw [bil_left]
        exact h3
      rw [h2] at h1
      exact h1
    have hconst : ∀ t, f t = f 0 := fun t => is_const_of_deriv_eq_zero (fun t => (hd t).differentiableAt) (fun t => (hd t).deriv) t 0
    have h0 : Filter.Tendsto f Filter.atTop (nhds 0) := bil_tendsto (exp_mulVec_tendsto hM v) (exp_mulVec_tendsto hN w) X
    have h1 : f 0 = 0 := tendsto_nhds_unique (tendsto_const_nhds.congr fun t => (hconst t).symm) h0
    simpa [hf] using h1
  ext i j
  have := key (Pi.single i 1) (Pi.single j 1)
  simpa using this

/-- The same in discrete time. -/
theorem stein_zero {M N X : Matrix (Fin n) (Fin n) ℝ} (hM : Schur M) (hN : Schur N) (h : Mᵀ * X * N = X) : X = 0 := by
  have key : ∀ v w : Fin n → ℝ, v ⬝ᵥ X *ᵥ w = 0 := by
    intro v w
    have hstep : ∀ a b : Fin n → ℝ, (M *ᵥ a) ⬝ᵥ X *ᵥ (N *ᵥ b) = a ⬝ᵥ X *ᵥ b := fun a b => by
      have h3 := congrArg (fun Y => a ⬝ᵥ Y *ᵥ b) h
      simp only [← mulVec_mulVec] at h3
      rw [bil_left]
      exact h3
    have hconst : ∀ t : ℕ, (M ^ t *ᵥ v) ⬝ᵥ X *ᵥ (N ^ t *ᵥ w) = v ⬝ᵥ X *ᵥ w := by
      intro t
      induction t with
      | zero => simp
      | succ t ih => rw [pow_succ', pow_succ', ← mulVec_mulVec, ← mulVec_mulVec, hstep, ih]
    have h0 := bil_tendsto (pow_mulVec_tendsto hM v) (pow_mulVec_tendsto hN w) X
    exact tendsto_nhds_unique (tendsto_const_nhds.congr fun t => (hconst t).symm) h0
  ext i j
  have := key (Pi.single i 1) (Pi.single j 1)
  simpa using this

/-- Two stabilizing solutions of the continuous Riccati equation are equal. -/
theorem care_unique {A X₁ X₂ Q : Matrix (Fin n) (Fin n) ℝ} {B S : Matrix (Fin n) (Fin m) ℝ} {R : Matrix (Fin m) (Fin m) ℝ} (hX₁ : X₁ᵀ = X₁) (hX₂ : X₂ᵀ = X₂) (hR : Rᵀ = R)
    (hd : R.det ≠ 0) (h₁ : Aᵀ * X₁ + X₁ * A - (X₁ * B + S) * R⁻¹ * (Bᵀ * X₁ + Sᵀ) + Q = 0) (h₂ : Aᵀ * X₂ + X₂ * A - (X₂ * B + S) * R⁻¹ * (Bᵀ * X₂ + Sᵀ) + Q = 0)
    (hs₁ : Hurwitz (A - B * (R⁻¹ * (Bᵀ * X₁ + Sᵀ)))) (hs₂ : Hurwitz (A - B * (R⁻¹ * (Bᵀ * X₂ + Sᵀ)))) : X₁ = X₂ := by
  have hu : IsUnit R.det := isUnit_iff_ne_zero.2 hd
  refine sub_eq_zero.1 (sylvester_zero hs₁ hs₂ ?_)
  have hRi : R⁻¹ᵀ = R⁻¹ := by rw [transpose_nonsing_inv, hR]
  simp only [transpose_sub, transpose_mul, transpose_add, transpose_transpose, hX₁, hRi]
  linear_combination (norm := (simp only [Matrix.mul_add, Matrix.add_mul, Matrix.mul_sub, Matrix.sub_mul, Matrix.mul_assoc]; abel)) h₁ - h₂

/-- Two stabilizing solutions of the discrete Riccati equation are equal. -/
theorem dare_unique {A X₁ X₂ Q : Matrix (Fin n) (Fin n) ℝ} {B S : Matrix (Fin n) (Fin m) ℝ} {R : Matrix (Fin m) (Fin m) ℝ} {K₁ K₂ : Matrix (Fin m) (Fin n) ℝ} (hX₁ : X₁ᵀ = X₁) (hR : Rᵀ = R)
    (hk₁ : (R + Bᵀ * X₁ * B) * K₁ = Bᵀ * X₁ * A + Sᵀ) (hk₂ : (R + Bᵀ * X₂ * B) * K₂ = Bᵀ * X₂ * A + Sᵀ)
    (h₁ : Aᵀ * X₁ * A - X₁ - K₁ᵀ * (Bᵀ * X₁ * A + Sᵀ) + Q = 0) (h₂ : Aᵀ * X₂ * A - X₂ - (Aᵀ * X₂ * B + S) * K₂ + Q = 0)
    (hs₁ : Schur (A - B * K₁)) (hs₂ : Schur (A - B * K₂)) : X₁ = X₂ := by
  refine sub_eq_zero.1 (stein_zero hs₁ hs₂ ?_)
  have t₁ := congrArg (fun Y => Yᵀ * K₂) hk₁
  have t₂ := congrArg (fun Y => K₁ᵀ * Y) hk₂
  simp only [transpose_sub, transpose_mul, transpose_add, transpose_transpose, hX₁, hR] at t₁ t₂ ⊢
  linear_combination (norm := (simp only [Matrix.mul_add, Matrix.add_mul, Matrix.mul_sub, Matrix.sub_mul, Matrix.mul_assoc]; abel)) h₁ - h₂ + t₁ - t₂

end Harold
