import Verif.Lemmas.MaxMod

/-!
# The real part of the quadratic form of a transfer matrix outside the stability region
-/

namespace Harold

open Matrix Filter Topology Bornology
open scoped Matrix.Norms.L2Operator

variable {n m : ℕ}

/-- A function with values of positive real part on the imaginary axis has values of positive real part in the right half plane. -/
theorem re_half_plane {q : ℂ → ℂ} (hd : DiffContOnCl ℂ q {z | 0 < z.re}) {K r : ℝ} (hb : ∀ s : ℂ, 0 ≤ s.re → r ≤ ‖s‖ → ‖q s‖ ≤ K) (h : ∀ w : ℝ, 0 ≤ (q (Complex.I * w)).re) {s : ℂ} (hs : 0 ≤ s.re) :
    0 ≤ (q s).re ∧ ((∀ w : ℝ, 0 < (q (Complex.I * w)).re) → 0 < (q s).re) := by
  let f : ℂ → ℂ := fun z => Complex.exp (-q z)
  have hf : ∀ z, ‖f z‖ = Real.exp (-(q z).re) := fun z => by simp [f, Complex.norm_exp]
  have hfd : DiffContOnCl ℂ f {z | 0 < z.re} := Complex.differentiable_exp.comp_diffContOnCl hd.neg
  have hle : ∀ z : ℂ, 0 ≤ z.re → r ≤ ‖z‖ → ‖f z‖ ≤ Real.exp K := fun z h1 h2 => by
    rw [hf, Real.exp_le_exp]
    have := (Complex.abs_re_le_norm (q z)).trans (hb z h1 h2)
    linarith [neg_abs_le (q z).re]
  have key : ∀ z : ℂ, 0 ≤ z.re → ‖f z‖ ≤ 1 := fun z hz => by
    refine PhragmenLindelof.right_half_plane_of_bounded_on_real (f := f) hfd ⟨0, two_pos, 0, ?_⟩ ?_ (fun x => ?_) hz
    · refine Asymptotics.IsBigO.of_bound (Real.exp K) ?_
      rw [eventually_inf_principal]
      have : ∀ᶠ z : ℂ in cobounded ℂ, r ≤ ‖z‖ := tendsto_norm_cobounded_atTop.eventually_ge_atTop _
      filter_upwards [this] with z hz hre
      simpa using hle z (le_of_lt hre) hz
    · refine ⟨Real.exp K, ?_⟩
      rw [eventually_map]
      filter_upwards [eventually_ge_atTop (max r 0)] with x hx
      exact hle x (by simpa using (le_max_right r 0).trans hx) (by rw [Complex.norm_real, Real.norm_of_nonneg ((le_max_right r 0).trans hx)]; exact (le_max_left r 0).trans hx)
    · rw [hf, mul_comm, Real.exp_le_one_iff]
      linarith [h x]
  have h0 : ∀ z : ℂ, 0 ≤ z.re → 0 ≤ (q z).re := fun z hz => by
    have := key z hz
    rw [hf, Real.exp_le_one_iff] at this
    linarith
  refine ⟨h0 s hs, fun hst => lt_of_le_of_ne (h0 s hs) fun he => ?_⟩
  rcases hs.eq_or_lt with h1 | h1
  · have := hst s.im
    rw [show Complex.I * (s.im : ℂ) = s by apply Complex.ext <;> simp [← h1]] at this
    linarith
  · have hs1 : ‖f s‖ = 1 := by rw [hf, ← he]; simp
    have hmax : IsMaxOn (norm ∘ f) {z : ℂ | 0 < z.re} s := fun z hz => by
      show ‖f z‖ ≤ ‖f s‖
      rw [hs1]; exact key z (le_of_lt hz)
    have hcon : IsPreconnected {z : ℂ | 0 < z.re} := (convex_halfSpace_re_gt 0).isPreconnected
    have := Complex.norm_eqOn_closure_of_isPreconnected_of_isMaxOn hcon (isOpen_lt continuous_const Complex.continuous_re) hfd h1 hmax
    have h2 : (0 : ℂ) ∈ closure {z : ℂ | 0 < z.re} := by
      rw [show closure {z : ℂ | 0 < z.re} = {z : ℂ | 0 ≤ z.re} from Complex.closure_setOfPred_lt_re 0]
      exact le_refl (0 : ℝ)
    have h3 := this h2
    simp only [Function.comp, Function.const, hs1, hf, Real.exp_eq_one_iff] at h3
    have h4 := hst 0
    rw [Complex.ofReal_zero, mul_zero] at h4
    linarith

/-- A function with values of positive real part on the unit circle has values of positive real part inside. -/
theorem re_disc {q : ℂ → ℂ} (hd : DiffContOnCl ℂ q (Metric.ball 0 1)) (h : ∀ z : ℂ, ‖z‖ = 1 → 0 ≤ (q z).re) {s : ℂ} (hs : ‖s‖ ≤ 1) :
    0 ≤ (q s).re ∧ ((∀ z : ℂ, ‖z‖ = 1 → 0 < (q z).re) → 0 < (q s).re) := by
  let f : ℂ → ℂ := fun z => Complex.exp (-q z)
  have hf : ∀ z, ‖f z‖ = Real.exp (-(q z).re) := fun z => by simp [f, Complex.norm_exp]
  have hfd : DiffContOnCl ℂ f (Metric.ball 0 1) := Complex.differentiable_exp.comp_diffContOnCl hd.neg
  have mem : ∀ z : ℂ, z ∈ closure (Metric.ball (0 : ℂ) 1) ↔ ‖z‖ ≤ 1 := fun z => by rw [closure_ball _ one_ne_zero, Metric.mem_closedBall, dist_zero_right]
  have key : ∀ z : ℂ, ‖z‖ ≤ 1 → ‖f z‖ ≤ 1 := fun z hz => by
    refine Complex.norm_le_of_forall_mem_frontier_norm_le (f := f) Metric.isBounded_ball hfd (fun z hz => ?_) ((mem z).mpr hz)
    rw [frontier_ball _ one_ne_zero, mem_sphere_zero_iff_norm] at hz
    rw [hf, Real.exp_le_one_iff]
    linarith [h z hz]
  have h0 : ∀ z : ℂ, ‖z‖ ≤ 1 → 0 ≤ (q z).re := fun z hz => by
    have := key z hz
    rw [hf, Real.exp_le_one_iff] at this
    linarith
  refine ⟨h0 s hs, fun hst => lt_of_le_of_ne (h0 s hs) fun he => ?_⟩
  rcases hs.eq_or_lt with h1 | h1
  · linarith [hst s h1]
  · have hs1 : ‖f s‖ = 1 := by rw [hf, ← he]; simp
    have hmax : IsMaxOn (norm ∘ f) (Metric.ball 0 1) s := fun z hz => by
      show ‖f z‖ ≤ ‖f s‖
      rw [hs1]; exact key z (le_of_lt (mem_ball_zero_iff.mp hz))
    have := Complex.norm_eqOn_closure_of_isPreconnected_of_isMaxOn (convex_ball (0 : ℂ) 1).isPreconnected Metric.isOpen_ball hfd (by simpa using h1) hmax
    have h3 := this ((mem 1).mpr (by simp))
    simp only [Function.comp, Function.const, hs1, hf, Real.exp_eq_one_iff] at h3
    have h4 := hst 1 (by simp)
    linarith

/-- The quadratic form is a continuous linear function of the matrix. -/
noncomputable def formMap (v : Fin m → ℂ) : Matrix (Fin m) (Fin m) ℂ →L[ℂ] ℂ :=
  LinearMap.toContinuousLinearMap
    { toFun := fun X => star v ⬝ᵥ X *ᵥ v
      map_add' := fun X Y => by rw [add_mulVec, dotProduct_add]
      map_smul' := fun c X => by rw [smul_mulVec, dotProduct_smul, RingHom.id_apply] }

theorem formMap_apply (v : Fin m → ℂ) (X : Matrix (Fin m) (Fin m) ℂ) : formMap v X = star v ⬝ᵥ X *ᵥ v := rfl

theorem half_plane_form (A : Matrix (Fin n) (Fin n) ℂ) (B : Matrix (Fin n) (Fin m) ℂ) (C : Matrix (Fin m) (Fin n) ℂ) (D : Matrix (Fin m) (Fin m) ℂ)
    (h : ∀ s : ℂ, 0 ≤ s.re → (s • (1 : Matrix (Fin n) (Fin n) ℂ) - A).det ≠ 0) (v : Fin m → ℂ) (hv : ∀ w : ℝ, 0 ≤ (star v ⬝ᵥ tfAt A B C D (Complex.I * w) *ᵥ v).re) {s : ℂ} (hs : 0 ≤ s.re) :
    0 ≤ (star v ⬝ᵥ tfAt A B C D s *ᵥ v).re ∧ ((∀ w : ℝ, 0 < (star v ⬝ᵥ tfAt A B C D (Complex.I * w) *ᵥ v).re) → 0 < (star v ⬝ᵥ tfAt A B C D s *ᵥ v).re) := by
  refine re_half_plane (q := fun s => formMap v (tfAt A B C D s)) (K := ‖formMap v‖ * (‖C‖ * ‖(1 : Matrix (Fin n) (Fin n) ℂ)‖ * ‖B‖ + ‖D‖)) (r := ‖A‖ + 1) ?_ (fun z h1 h2 => ?_) hv hs
  · refine DifferentiableOn.diffContOnCl fun z hz => ((formMap v).differentiableAt.comp z (differentiable_tfAt A B C D (h z ?_))).differentiableWithinAt
    rw [show closure {z : ℂ | 0 < z.re} = {z : ℂ | 0 ≤ z.re} from Complex.closure_setOfPred_lt_re 0] at hz
    exact hz
  · exact ((formMap v).le_opNorm _).trans (mul_le_mul_of_nonneg_left (tfAt_bound A B C D (h z h1) h2) (norm_nonneg _))

theorem exterior_form (A : Matrix (Fin n) (Fin n) ℂ) (B : Matrix (Fin n) (Fin m) ℂ) (C : Matrix (Fin m) (Fin n) ℂ) (D : Matrix (Fin m) (Fin m) ℂ)
    (h : ∀ s : ℂ, 1 ≤ ‖s‖ → (s • (1 : Matrix (Fin n) (Fin n) ℂ) - A).det ≠ 0) (v : Fin m → ℂ) (hv : ∀ s : ℂ, ‖s‖ = 1 → 0 ≤ (star v ⬝ᵥ tfAt A B C D s *ᵥ v).re) {s : ℂ} (hs : 1 ≤ ‖s‖) :
    0 ≤ (star v ⬝ᵥ tfAt A B C D s *ᵥ v).re ∧ ((∀ s : ℂ, ‖s‖ = 1 → 0 < (star v ⬝ᵥ tfAt A B C D s *ᵥ v).re) → 0 < (star v ⬝ᵥ tfAt A B C D s *ᵥ v).re) := by
  have e0 : ∀ w : ℂ, w ≠ 0 → (1 : Matrix (Fin n) (Fin n) ℂ) - w • A = w • (w⁻¹ • (1 : Matrix (Fin n) (Fin n) ℂ) - A) := by
    intro w hw
    rw [smul_sub, smul_smul, mul_inv_cancel₀ hw, one_smul]
  have hdet : ∀ w : ℂ, ‖w‖ ≤ 1 → ((1 : Matrix (Fin n) (Fin n) ℂ) - w • A).det ≠ 0 := by
    intro w hw
    by_cases h0 : w = 0
    · simp [h0]
    · rw [e0 w h0, det_smul]
      refine mul_ne_zero (pow_ne_zero _ h0) (h _ ?_)
      rw [norm_inv]
      exact (one_le_inv₀ (norm_pos_iff.mpr h0)).mpr hw
  let f : ℂ → Matrix (Fin m) (Fin m) ℂ := fun w => C * (w • ((1 : Matrix (Fin n) (Fin n) ℂ) - w • A)⁻¹) * B + D
  have hf : ∀ w : ℂ, w ≠ 0 → ‖w‖ ≤ 1 → f w = tfAt A B C D w⁻¹ := by
    intro w hw hw1
    have : w • ((1 : Matrix (Fin n) (Fin n) ℂ) - w • A)⁻¹ = (w⁻¹ • (1 : Matrix (Fin n) (Fin n) ℂ) - A)⁻¹ := by
      symm
      apply Matrix.inv_eq_right_inv
      rw [Matrix.mul_smul, ← Matrix.smul_mul, ← e0 w hw, mul_nonsing_inv _ (isUnit_iff_ne_zero.mpr (hdet w hw1))]
    simp only [f, tfAt, this]
  have hs0 : s ≠ 0 := by rintro rfl; simp at hs; linarith
  have hs1 : ‖s⁻¹‖ ≤ 1 := by rw [norm_inv]; exact inv_le_one_of_one_le₀ hs
  have hc : ∀ z : ℂ, ‖z‖ = 1 → f z = tfAt A B C D z⁻¹ ∧ ‖z⁻¹‖ = 1 := fun z hz => ⟨hf z (by rintro rfl; simp at hz) hz.le, by rw [norm_inv, hz, inv_one]⟩
  have key := re_disc (q := fun z => formMap v (f z)) (s := s⁻¹) ?_ (fun z hz => ?_) hs1
  · simp only [hf _ (inv_ne_zero hs0) hs1, inv_inv, formMap_apply] at key
    refine ⟨key.1, fun h1 => key.2 fun z hz => ?_⟩
    rw [(hc z hz).1]
    exact h1 _ (hc z hz).2
  · refine DifferentiableOn.diffContOnCl fun z hz => DifferentiableAt.differentiableWithinAt ?_
    rw [closure_ball _ one_ne_zero, Metric.mem_closedBall, dist_zero_right] at hz
    exact (formMap v).differentiableAt.comp z (differentiable_sandwich (differentiable_shifted A (hdet z hz)) B C D)
  · rw [(hc z hz).1]
    exact hv _ (hc z hz).2

end Harold
