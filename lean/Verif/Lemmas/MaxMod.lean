import Verif.Lemmas.Hinf
import Mathlib.Analysis.Complex.PhragmenLindelof
import Mathlib.Analysis.Normed.Module.FiniteDimension

/-!
# The largest gain is attained on the boundary of the stability region
-/

namespace Harold

open Matrix Filter Topology Bornology
open scoped Matrix.Norms.L2Operator

variable {n m p : ℕ}

theorem resolvent_bound (A : Matrix (Fin n) (Fin n) ℂ) {s : ℂ} (h : (s • (1 : Matrix (Fin n) (Fin n) ℂ) - A).det ≠ 0) (hs : ‖A‖ + 1 ≤ ‖s‖) :
    ‖(s • (1 : Matrix (Fin n) (Fin n) ℂ) - A)⁻¹‖ ≤ ‖(1 : Matrix (Fin n) (Fin n) ℂ)‖ := by
  set X := (s • (1 : Matrix (Fin n) (Fin n) ℂ) - A)⁻¹ with hX
  have h1 : (s • (1 : Matrix (Fin n) (Fin n) ℂ) - A) * X = 1 := Matrix.mul_nonsing_inv _ (isUnit_iff_ne_zero.2 h)
  have h2 : s • X = 1 + A * X := by
    rw [Matrix.sub_mul, Matrix.smul_mul, Matrix.one_mul] at h1
    rw [← h1]; abel
  have h3 : ‖s‖ * ‖X‖ ≤ ‖(1 : Matrix (Fin n) (Fin n) ℂ)‖ + ‖A‖ * ‖X‖ := by
    rw [← norm_smul, h2]
    exact (norm_add_le _ _).trans (add_le_add le_rfl (norm_mul_le _ _))
  nlinarith [norm_nonneg X]

theorem tfAt_bound (A : Matrix (Fin n) (Fin n) ℂ) (B : Matrix (Fin n) (Fin m) ℂ) (C : Matrix (Fin p) (Fin n) ℂ) (D : Matrix (Fin p) (Fin m) ℂ) {s : ℂ}
    (h : (s • (1 : Matrix (Fin n) (Fin n) ℂ) - A).det ≠ 0) (hs : ‖A‖ + 1 ≤ ‖s‖) : ‖tfAt A B C D s‖ ≤ ‖C‖ * ‖(1 : Matrix (Fin n) (Fin n) ℂ)‖ * ‖B‖ + ‖D‖ := by
  refine (norm_add_le _ _).trans (add_le_add ?_ le_rfl)
  refine (l2_opNorm_mul _ _).trans (mul_le_mul_of_nonneg_right ?_ (norm_nonneg _))
  exact (l2_opNorm_mul _ _).trans (mul_le_mul_of_nonneg_left (resolvent_bound A h hs) (norm_nonneg _))

/-- Multiplication from both sides and a shift are differentiable. -/
theorem differentiable_sandwich {f : ℂ → Matrix (Fin n) (Fin n) ℂ} {z : ℂ} (hf : DifferentiableAt ℂ f z) (B : Matrix (Fin n) (Fin m) ℂ) (C : Matrix (Fin p) (Fin n) ℂ) (D : Matrix (Fin p) (Fin m) ℂ) :
    DifferentiableAt ℂ (fun s => C * f s * B + D) z := by
  let l : Matrix (Fin n) (Fin n) ℂ →ₗ[ℂ] Matrix (Fin p) (Fin m) ℂ :=
    { toFun := fun X => C * X * B
      map_add' := fun X Y => by rw [Matrix.mul_add, Matrix.add_mul]
      map_smul' := fun c X => by rw [Matrix.mul_smul, Matrix.smul_mul, RingHom.id_apply] }
  exact ((LinearMap.toContinuousLinearMap l).differentiableAt.comp z hf).add_const D

theorem differentiable_inv {f : ℂ → Matrix (Fin n) (Fin n) ℂ} {z : ℂ} (hf : DifferentiableAt ℂ f z) (h : (f z).det ≠ 0) : DifferentiableAt ℂ (fun s => (f s)⁻¹) z := by
  have hu : IsUnit (f z) := (Matrix.isUnit_iff_isUnit_det _).mpr (Ne.isUnit h)
  have e : (fun s => (f s)⁻¹) = Ring.inverse ∘ f := funext fun s => Matrix.nonsing_inv_eq_ringInverse _
  rw [e]
  exact (differentiableAt_inverse (𝕜 := ℂ) hu).comp z hf

theorem differentiable_shifted (A : Matrix (Fin n) (Fin n) ℂ) {z : ℂ} (h : ((1 : Matrix (Fin n) (Fin n) ℂ) - z • A).det ≠ 0) :
    DifferentiableAt ℂ (fun w => w • ((1 : Matrix (Fin n) (Fin n) ℂ) - w • A)⁻¹) z := by
  have h1 : DifferentiableAt ℂ (fun w : ℂ => (1 : Matrix (Fin n) (Fin n) ℂ) - w • A) z := (differentiableAt_id.smul_const A).const_sub 1
  have h2 := differentiable_inv h1 h
  exact differentiableAt_id.smul h2

theorem differentiable_tfAt (A : Matrix (Fin n) (Fin n) ℂ) (B : Matrix (Fin n) (Fin m) ℂ) (C : Matrix (Fin p) (Fin n) ℂ) (D : Matrix (Fin p) (Fin m) ℂ) {z : ℂ}
    (h : (z • (1 : Matrix (Fin n) (Fin n) ℂ) - A).det ≠ 0) : DifferentiableAt ℂ (tfAt A B C D) z :=
  differentiable_sandwich (differentiable_inv ((differentiableAt_id.smul_const _).sub_const _) h) B C D

/-- Continuous time: a bound on the imaginary axis is a bound on the right half plane. -/
theorem half_plane_bound (A : Matrix (Fin n) (Fin n) ℂ) (B : Matrix (Fin n) (Fin m) ℂ) (C : Matrix (Fin p) (Fin n) ℂ) (D : Matrix (Fin p) (Fin m) ℂ) {γ : ℝ}
    (h : ∀ s : ℂ, 0 ≤ s.re → (s • (1 : Matrix (Fin n) (Fin n) ℂ) - A).det ≠ 0) (hγ : ∀ w : ℝ, ‖tfAt A B C D (Complex.I * w)‖ ≤ γ) {s : ℂ} (hs : 0 ≤ s.re) : ‖tfAt A B C D s‖ ≤ γ := by
  set K := ‖C‖ * ‖(1 : Matrix (Fin n) (Fin n) ℂ)‖ * ‖B‖ + ‖D‖
  refine PhragmenLindelof.right_half_plane_of_bounded_on_real (f := tfAt A B C D) ?_ ⟨0, two_pos, 0, ?_⟩ ?_ (fun x => by rw [mul_comm]; exact hγ x) hs
  · refine DifferentiableOn.diffContOnCl fun z hz => (differentiable_tfAt A B C D (h z ?_)).differentiableWithinAt
    have : closure {z : ℂ | 0 < z.re} = {z : ℂ | 0 ≤ z.re} := Complex.closure_setOfPred_lt_re 0
    rw [this] at hz
    exact hz
  · refine Asymptotics.IsBigO.of_bound K ?_
    rw [eventually_inf_principal]
    have : ∀ᶠ z : ℂ in cobounded ℂ, ‖A‖ + 1 ≤ ‖z‖ := tendsto_norm_cobounded_atTop.eventually_ge_atTop _
    filter_upwards [this] with z hz hre
    simpa using tfAt_bound A B C D (h z (le_of_lt hre)) hz
  · refine ⟨K, ?_⟩
    rw [eventually_map]
    filter_upwards [eventually_ge_atTop (‖A‖ + 1)] with x hx
    have h0 : 0 ≤ x := by have := norm_nonneg A; linarith
    exact tfAt_bound A B C D (h x (by simpa using h0)) (by rwa [Complex.norm_real, Real.norm_of_nonneg h0])

/-- Discrete time: a bound on the unit circle is a bound outside. -/
theorem exterior_bound (A : Matrix (Fin n) (Fin n) ℂ) (B : Matrix (Fin n) (Fin m) ℂ) (C : Matrix (Fin p) (Fin n) ℂ) (D : Matrix (Fin p) (Fin m) ℂ) {γ : ℝ}
    (h : ∀ s : ℂ, 1 ≤ ‖s‖ → (s • (1 : Matrix (Fin n) (Fin n) ℂ) - A).det ≠ 0) (hγ : ∀ s : ℂ, ‖s‖ = 1 → ‖tfAt A B C D s‖ ≤ γ) {s : ℂ} (hs : 1 ≤ ‖s‖) : ‖tfAt A B C D s‖ ≤ γ := by
  have e0 : ∀ w : ℂ, w ≠ 0 → (1 : Matrix (Fin n) (Fin n) ℂ) - w • A = w • (w⁻¹ • (1 : Matrix (Fin n) (Fin n) ℂ) - A) := by
    intro w hw
    rw [smul_sub, smul_smul, mul_inv_cancel₀ hw, one_smul]
  have hdet : ∀ w : ℂ, ‖w‖ ≤ 1 → ((1 : Matrix (Fin n) (Fin n) ℂ) - w • A).det ≠ 0 := by
    intro w hw
    by_cases h0 : w = 0
    · simp [h0]
    · rw [e0 w h0, det_smul]
      refine mul_ne_zero (pow_ne_zero _ h0) (h _ ?_)
      rw [norm_inv]
      exact (one_le_inv₀ (norm_pos_iff.mpr h0)).mpr hw
  let f : ℂ → Matrix (Fin p) (Fin m) ℂ := fun w => C * (w • ((1 : Matrix (Fin n) (Fin n) ℂ) - w • A)⁻¹) * B + D
  have hf : ∀ w : ℂ, w ≠ 0 → f w = tfAt A B C D w⁻¹ := by
    intro w hw
    have : w • ((1 : Matrix (Fin n) (Fin n) ℂ) - w • A)⁻¹ = (w⁻¹ • (1 : Matrix (Fin n) (Fin n) ℂ) - A)⁻¹ := by
      by_cases hd : (w⁻¹ • (1 : Matrix (Fin n) (Fin n) ℂ) - A).det = 0
      · have hd' : ((1 : Matrix (Fin n) (Fin n) ℂ) - w • A).det = 0 := by rw [e0 w hw, det_smul, hd, mul_zero]
        rw [nonsing_inv_apply_not_isUnit _ (by simpa using hd'), nonsing_inv_apply_not_isUnit _ (by simpa using hd), smul_zero]
      · symm
        apply Matrix.inv_eq_right_inv
        rw [e0 w hw, Matrix.mul_smul, ← Matrix.smul_mul, mul_nonsing_inv]
        rw [det_smul]
        exact Ne.isUnit (mul_ne_zero (pow_ne_zero _ hw) hd)
    simp only [f, tfAt, this]
  have key := Complex.norm_le_of_forall_mem_frontier_norm_le (f := f) (U := Metric.ball (0 : ℂ) 1) (C := γ) (z := s⁻¹) Metric.isBounded_ball ?_ ?_ ?_
  · rwa [hf _ (inv_ne_zero (by rintro rfl; simp at hs; linarith)), inv_inv] at key
  · refine DifferentiableOn.diffContOnCl fun z hz => DifferentiableAt.differentiableWithinAt ?_
    rw [closure_ball _ one_ne_zero, Metric.mem_closedBall, dist_zero_right] at hz
    exact differentiable_sandwich (differentiable_shifted A (hdet z hz)) B C D
  · intro z hz
    rw [frontier_ball _ one_ne_zero, mem_sphere_zero_iff_norm] at hz
    rw [hf z (by rintro rfl; simp at hz)]
    exact hγ _ (by rw [norm_inv, hz, inv_one])
  · rw [closure_ball _ one_ne_zero, Metric.mem_closedBall, dist_zero_right, norm_inv]
    exact inv_le_one_of_one_le₀ hs

/-- A loop gain below one leaves the return difference invertible. -/
theorem det_one_sub_ne_zero {X : Matrix (Fin m) (Fin m) ℂ} (h : ‖X‖ < 1) : (1 - X).det ≠ 0 := by
  intro h0
  obtain ⟨v, hv, hv0⟩ := exists_mulVec_eq_zero_iff.mpr h0
  rw [Matrix.sub_mulVec, Matrix.one_mulVec, sub_eq_zero] at hv0
  have h1 := l2_opNorm_mulVec X (WithLp.toLp 2 v)
  simp only at h1
  rw [← hv0] at h1
  have h3 : ‖(EuclideanSpace.equiv (Fin m) ℂ).symm v‖ = ‖(WithLp.toLp 2 v : EuclideanSpace ℂ (Fin m))‖ := rfl
  rw [h3] at h1
  have h2 : 0 < ‖(WithLp.toLp 2 v : EuclideanSpace ℂ (Fin m))‖ := by
    rw [norm_pos_iff]
    intro h3
    apply hv
    have := congrArg WithLp.ofLp h3
    simpa using this
  nlinarith

end Harold
