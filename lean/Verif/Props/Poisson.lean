import Verif.Props.BodeIntegral
import Verif.Props.SineCont

/-!
# C139: the Poisson integral of the sensitivity of continuous loops
-/

namespace Harold

open Matrix Spec Filter Topology Real

variable {n m : ℕ} {R : StateM ℝ} {A : Matrix (Fin n) (Fin n) ℝ} {B : Matrix (Fin n) (Fin m) ℝ} {C : Matrix (Fin m) (Fin n) ℝ}

/-- The average of the logarithm of a quotient of polynomials over the unit circle. -/
theorem circleAverage_div {p q : Polynomial ℂ} (hp : p ≠ 0) (hq : q ≠ 0) : circleAverage (fun z => log ‖p.eval z / q.eval z‖) 0 1 = p.logMahlerMeasure - q.logMahlerMeasure := by
  have h1 : (fun z => log ‖p.eval z / q.eval z‖) =ᶠ[codiscreteWithin (Metric.sphere (0 : ℂ) |1|)] ((fun z => log ‖p.eval z‖) - fun z => log ‖q.eval z‖) := by
    have hfin : ({z | (p * q).eval z = 0} : Set ℂ).Finite := by
      refine (p * q).roots.toFinset.finite_toSet.subset fun z hz => ?_
      simpa [hp, hq] using hz
    refine codiscreteWithin_iff_locallyFiniteComplementWithin.2 fun z _ => ⟨Set.univ, Filter.univ_mem, hfin.subset ?_⟩
    rintro w ⟨-, -, hw⟩
    by_contra hne
    refine hw ?_
    rw [Set.mem_ofPred_eq, Polynomial.eval_mul, mul_eq_zero, not_or] at hne
    simp only [Set.mem_ofPred_eq, Pi.sub_apply]
    rw [norm_div, log_div (norm_ne_zero_iff.mpr hne.1) (norm_ne_zero_iff.mpr hne.2)]
  rw [circleAverage_congr_codiscreteWithin h1 one_ne_zero, circleAverage_sub (f₁ := fun z => log ‖p.eval z‖) (f₂ := fun z => log ‖q.eval z‖) ((circleIntegrable_def _ _ _).mpr p.intervalIntegrable_mahlerMeasure) ((circleIntegrable_def _ _ _).mpr q.intervalIntegrable_mahlerMeasure), ← Polynomial.logMahlerMeasure_def, ← Polynomial.logMahlerMeasure_def]

/-- The numerator of the product of `s - a` after the substitution `s = σ (z - 1) / (z + 1)`. -/
noncomputable def moebius (σ : ℝ) (r : Multiset ℂ) : Polynomial ℂ := (r.map fun a : ℂ => Polynomial.C ((σ : ℂ) - a) * Polynomial.X + Polynomial.C (-(σ + a))).prod

theorem moebius_ne {σ : ℝ} {r : Multiset ℂ} (hr : ∀ a ∈ r, (σ : ℂ) ≠ a) : moebius σ r ≠ 0 := by
  refine Multiset.prod_ne_zero fun h => ?_
  obtain ⟨a, ha, h⟩ := Multiset.mem_map.mp h
  have := congrArg (Polynomial.coeff · 1) h
  simp at this
  exact hr a ha (sub_eq_zero.mp this)

theorem moebius_measure {σ : ℝ} {r : Multiset ℂ} (hr : ∀ a ∈ r, (σ : ℂ) ≠ a) :
    (moebius σ r).logMahlerMeasure = log ‖(r.map fun a => (σ : ℂ) - a).prod‖ + (r.map fun a : ℂ => log⁺ ‖((σ : ℂ) + a) / (σ - a)‖).sum := by
  induction r using Multiset.induction_on with
  | empty => simp [moebius]
  | cons a r ih =>
    have ha : (σ : ℂ) - a ≠ 0 := sub_ne_zero.mpr (hr a (Multiset.mem_cons_self a r))
    have hr' : ∀ b ∈ r, (σ : ℂ) ≠ b := fun b hb => hr b (Multiset.mem_cons_of_mem hb)
    have hp : (r.map fun a => (σ : ℂ) - a).prod ≠ 0 := Multiset.prod_ne_zero fun h => by
      obtain ⟨b, hb, h⟩ := Multiset.mem_map.mp h
      exact hr' b hb (sub_eq_zero.mp h)
    have e : moebius σ (a ::ₘ r) = (Polynomial.C ((σ : ℂ) - a) * Polynomial.X + Polynomial.C (-(σ + a))) * moebius σ r := by
      rw [moebius, moebius, Multiset.map_cons, Multiset.prod_cons]
    have hne := moebius_ne hr
    rw [e] at hne ⊢
    rw [Polynomial.logMahlerMeasure_mul_eq_add_logMahlerMeasure hne, Polynomial.logMahlerMeasure_C_mul_X_add_C ha, ih hr', Multiset.map_cons, Multiset.prod_cons, Multiset.map_cons, Multiset.sum_cons,
      norm_mul ((σ : ℂ) - a) (r.map fun a => (σ : ℂ) - a).prod, log_mul (norm_ne_zero_iff.mpr ha) (norm_ne_zero_iff.mpr hp)]
    have e2 : ‖((σ : ℂ) - a)⁻¹ * -(σ + a)‖ = ‖(σ + a) / (σ - a)‖ := by rw [norm_mul, norm_neg, norm_inv, norm_div, div_eq_inv_mul]
    rw [e2]
    ring

theorem moebius_eval {σ : ℝ} {r : Multiset ℂ} {z : ℂ} (hz : z + 1 ≠ 0) : (r.map fun a : ℂ => (σ : ℂ) * (z - 1) / (z + 1) - a).prod = (moebius σ r).eval z / (z + 1) ^ r.card := by
  induction r using Multiset.induction_on with
  | empty => simp [moebius]
  | cons a r ih =>
    have e : moebius σ (a ::ₘ r) = (Polynomial.C ((σ : ℂ) - a) * Polynomial.X + Polynomial.C (-(σ + a))) * moebius σ r := by
      rw [moebius, moebius, Multiset.map_cons, Multiset.prod_cons]
    rw [e, Multiset.map_cons, Multiset.prod_cons, ih, Multiset.card_cons, Polynomial.eval_mul]
    simp only [Polynomial.eval_add, Polynomial.eval_mul, Polynomial.eval_C, Polynomial.eval_X]
    field_simp
    ring

/-- The frequency `σ tan (θ / 2)` belongs to the point `exp (i θ)` of the circle. -/
theorem tan_moebius {σ θ : ℝ} (h : cos (θ / 2) ≠ 0) : circleMap 0 1 θ + 1 ≠ 0 ∧ evalPoint none (σ * tan (θ / 2)) = σ * (circleMap 0 1 θ - 1) / (circleMap 0 1 θ + 1) := by
  have hc : Complex.cos ((θ : ℂ) / 2) ≠ 0 := by
    rw [show (θ : ℂ) / 2 = ((θ / 2 : ℝ) : ℂ) by push_cast; ring, ← Complex.ofReal_cos]
    exact_mod_cast h
  set w := Complex.exp ((θ : ℂ) / 2 * Complex.I) with hw
  have hw0 : w ≠ 0 := Complex.exp_ne_zero _
  have hcm : circleMap 0 1 θ = w * w := by
    rw [hw, ← Complex.exp_add, circleMap]
    simp only [zero_add, Complex.ofReal_one, one_mul]
    congr 1
    ring
  have hwi : Complex.exp (-((θ : ℂ) / 2) * Complex.I) = w⁻¹ := by rw [hw, ← Complex.exp_neg, neg_mul]
  have hcos : 2 * Complex.cos ((θ : ℂ) / 2) = w + w⁻¹ := by rw [Complex.two_cos, ← hw, hwi]
  have hsin : 2 * Complex.sin ((θ : ℂ) / 2) = (w⁻¹ - w) * Complex.I := by rw [Complex.two_sin, ← hw, hwi]
  have h1 : w * w + 1 = w * (w + w⁻¹) := by field_simp
  have h2 : w * w - 1 = w * (w - w⁻¹) := by field_simp
  have h3 : w + w⁻¹ ≠ 0 := by rw [← hcos]; exact mul_ne_zero two_ne_zero hc
  rw [hcm]
  refine ⟨by rw [h1]; exact mul_ne_zero hw0 h3, ?_⟩
  have h4 : ((tan (θ / 2) : ℝ) : ℂ) = (w⁻¹ - w) * Complex.I / (w + w⁻¹) := by
    rw [Complex.ofReal_tan, Complex.tan, ← hcos, ← hsin]
    push_cast
    rw [mul_div_mul_left _ _ two_ne_zero]
  have h5 : evalPoint none (σ * tan (θ / 2)) = Complex.I * ((σ : ℂ) * ((tan (θ / 2) : ℝ) : ℂ)) := by simp [evalPoint]
  rw [h5, h4, h1, h2]
  have h6 : Complex.I * ((σ : ℂ) * ((w⁻¹ - w) * Complex.I / (w + w⁻¹))) = (Complex.I * Complex.I) * (σ * (w⁻¹ - w) / (w + w⁻¹)) := by ring
  rw [h6, Complex.I_mul_I, mul_left_comm (σ : ℂ) w, mul_div_mul_left _ _ hw0]
  ring

/-- **C139**, the Poisson integral: for every stable continuous loop around a model without feedthrough and every `σ > 0` that is not a pole of the open loop, the average of the logarithm of the modulus of the determinant
of the sensitivity function `feedback(1, G)` over the frequencies `σ tan (θ / 2)` (all frequencies, weighted with the Poisson kernel of `σ`) is the logarithm at `σ` plus a nonnegative contribution of every unstable pole
of the open loop. At a zero `σ` of a single open loop the sensitivity is one, so the average is given by the unstable poles alone. -/
theorem C139_poisson (hR : feedback (.state (unity m none)) (.state (stateOf A B C 0 none)) true = .ok R) (hst : StableModel R) {σ : ℝ} (hσ : 0 < σ) {M : Matrix (Fin m) (Fin m) ℂ}
    (hM : HasTF (stateOf A B C (0 : Matrix (Fin m) (Fin m) ℝ) none) m m (σ : ℂ) M) :
    ∃ (N : ℝ → Matrix (Fin m) (Fin m) ℂ) (N₀ : Matrix (Fin m) (Fin m) ℂ), (∀ ω, HasTF R m m (evalPoint none ω) (N ω)) ∧ HasTF R m m (σ : ℂ) N₀ ∧
      1 / (2 * π) * ∫ θ in (0 : ℝ)..2 * π, log ‖(N (σ * tan (θ / 2))).det‖ = log ‖N₀.det‖ + ((A.map (algebraMap ℝ ℂ)).charpoly.roots.map fun a : ℂ => log⁺ ‖((σ : ℂ) + a) / (σ - a)‖).sum := by
  have hdt : DtOk (none : Option ℝ) := fun t ht => by cases ht
  have hmod := sensitivity_model hdt hR
  subst hmod
  have hS : Hurwitz (A - B * C) := hurwitz_of_stable hst
  have hc1 : ∀ (X : Matrix (Fin n) (Fin n) ℝ) (z : ℂ), (X.map (algebraMap ℝ ℂ)).charpoly.eval z = (z • (1 : Matrix (Fin n) (Fin n) ℂ) - X.map (algebraMap ℝ ℂ)).det := fun X z => by
    rw [eval_charpoly, Matrix.scalar_apply, ← Matrix.smul_one_eq_diagonal]
  have hm : (A - B * C).map (algebraMap ℝ ℂ) = A.map (algebraMap ℝ ℂ) - B.map (algebraMap ℝ ℂ) * C.map (algebraMap ℝ ℂ) := by rw [map_sub', map_mul']
  have hev : ∀ (X : Matrix (Fin n) (Fin n) ℝ) (z : ℂ), (z • (1 : Matrix (Fin n) (Fin n) ℂ) - X.map (algebraMap ℝ ℂ)).det = ((X.map (algebraMap ℝ ℂ)).charpoly.roots.map fun a => z - a).prod := fun X z => by
    rw [← hc1, (IsAlgClosed.splits _).eval_eq_prod_roots_of_monic (charpoly_monic _)]
  have hcard : ∀ X : Matrix (Fin n) (Fin n) ℝ, (X.map (algebraMap ℝ ℂ)).charpoly.roots.card = n := fun X => by
    rw [← (IsAlgClosed.splits _).natDegree_eq_card_roots, charpoly_natDegree_eq_dim, Fintype.card_fin]
  have hroot : ∀ (X : Matrix (Fin n) (Fin n) ℝ), ∀ a ∈ (X.map (algebraMap ℝ ℂ)).charpoly.roots, IsEig X a := fun X a ha => by
    have := (Polynomial.mem_roots'.mp ha).2
    rw [Polynomial.IsRoot, hc1] at this
    exact this
  have hne : ∀ s : ℂ, 0 ≤ s.re → (s • (1 : Matrix (Fin n) (Fin n) ℂ) - (A - B * C).map (algebraMap ℝ ℂ)).det ≠ 0 := fun s hs h0 => absurd (hS s h0) (not_lt.mpr hs)
  have hω : ∀ ω : ℝ, 0 ≤ (evalPoint none ω).re := fun ω => by simp [evalPoint]
  have hdet : ∀ s : ℂ, 0 ≤ s.re → ((-C).map (algebraMap ℝ ℂ) * (s • (1 : Matrix (Fin n) (Fin n) ℂ) - (A - B * C).map (algebraMap ℝ ℂ))⁻¹ * B.map (algebraMap ℝ ℂ) + (1 : Matrix (Fin m) (Fin m) ℝ).map (algebraMap ℝ ℂ)).det =
      ((A.map (algebraMap ℝ ℂ)).charpoly.roots.map fun a => s - a).prod / (((A - B * C).map (algebraMap ℝ ℂ)).charpoly.roots.map fun a => s - a).prod := fun s hs => by
    have h1 := hne s hs
    rw [← hev, ← hev]
    rw [hm] at h1 ⊢
    rw [← sensitivity_det h1, Matrix.map_one _ (map_zero _) (map_one _)]
    congr 4
    ext i j
    simp
  refine ⟨_, _, fun ω => hasTF_stateOf.mpr ⟨hne _ (hω ω), rfl⟩, hasTF_stateOf.mpr ⟨hne _ (by simpa using hσ.le), rfl⟩, ?_⟩
  set ra := (A.map (algebraMap ℝ ℂ)).charpoly.roots with hra
  set rf := ((A - B * C).map (algebraMap ℝ ℂ)).charpoly.roots with hrf
  have hna : ∀ a ∈ ra, (σ : ℂ) ≠ a := fun a ha h => (hasTF_stateOf.mp hM).1 (by rw [h]; exact hroot A a ha)
  have hnf : ∀ a ∈ rf, (σ : ℂ) ≠ a := fun a ha h => by
    have := hS a (hroot _ a ha)
    rw [← h, Complex.ofReal_re] at this
    linarith
  have hprod : ∀ r : Multiset ℂ, (∀ a ∈ r, (σ : ℂ) ≠ a) → (r.map fun a => (σ : ℂ) - a).prod ≠ 0 := fun r hr => Multiset.prod_ne_zero fun h => by
    obtain ⟨b, hb, h⟩ := Multiset.mem_map.mp h
    exact hr b hb (sub_eq_zero.mp h)
  have hint : (∫ θ in (0 : ℝ)..2 * π, log ‖((-C).map (algebraMap ℝ ℂ) * (evalPoint none (σ * tan (θ / 2)) • (1 : Matrix (Fin n) (Fin n) ℂ) - (A - B * C).map (algebraMap ℝ ℂ))⁻¹ * B.map (algebraMap ℝ ℂ) +
      (1 : Matrix (Fin m) (Fin m) ℝ).map (algebraMap ℝ ℂ)).det‖) = ∫ θ in (0 : ℝ)..2 * π, log ‖(moebius σ ra).eval (circleMap 0 1 θ) / (moebius σ rf).eval (circleMap 0 1 θ)‖ := by
    refine intervalIntegral.integral_congr_ae ?_
    have h0 : ∀ᵐ θ : ℝ, θ ≠ π := MeasureTheory.Measure.ae_ne _ _
    filter_upwards [h0] with θ h1 h2
    rw [Set.uIoc_of_le (by positivity)] at h2
    have hcos : cos (θ / 2) ≠ 0 := by
      rcases lt_or_gt_of_ne h1 with h3 | h3
      · exact (cos_pos_of_mem_Ioo ⟨by linarith [h2.1, pi_pos], by linarith⟩).ne'
      · exact (cos_neg_of_pi_div_two_lt_of_lt (by linarith) (by linarith [h2.2, pi_pos])).ne
    obtain ⟨h3, h4⟩ := tan_moebius (σ := σ) hcos
    rw [hdet _ (hω _), h4, moebius_eval h3, moebius_eval h3, hra, hrf, hcard, hcard, div_div_div_cancel_right₀ (pow_ne_zero _ h3)]
  have hav := circleAverage_div (moebius_ne hna) (moebius_ne hnf)
  rw [circleAverage_def, smul_eq_mul, moebius_measure hna, moebius_measure hnf] at hav
  have hz : (rf.map fun a : ℂ => log⁺ ‖((σ : ℂ) + a) / (σ - a)‖).sum = 0 := by
    refine Multiset.sum_eq_zero fun x hx => ?_
    obtain ⟨a, ha, rfl⟩ := Multiset.mem_map.mp hx
    rw [posLog_eq_zero_iff, abs_of_nonneg (norm_nonneg _), norm_div]
    refine div_le_one_of_le₀ ?_ (norm_nonneg _)
    have h1 := hS a (hroot _ a ha)
    rw [← sq_le_sq₀ (norm_nonneg _) (norm_nonneg _), ← Complex.normSq_eq_norm_sq, ← Complex.normSq_eq_norm_sq, Complex.normSq_apply, Complex.normSq_apply]
    simp
    nlinarith
  rw [hint, one_div, hav, hz, hdet _ (by simpa using hσ.le), norm_div, log_div (norm_ne_zero_iff.mpr (hprod ra hna)) (norm_ne_zero_iff.mpr (hprod rf hnf))]
  ring

/-- **C139**, the Poisson integral at a zero: if the open loop vanishes at `σ > 0`, the average over the frequencies `σ tan (θ / 2)` is the sum of `log |(σ + a) / (σ - a)|` over the unstable poles `a` of the open loop. -/
theorem C139_poisson_zero (hR : feedback (.state (unity m none)) (.state (stateOf A B C 0 none)) true = .ok R) (hst : StableModel R) {σ : ℝ} (hσ : 0 < σ)
    (hM : HasTF (stateOf A B C (0 : Matrix (Fin m) (Fin m) ℝ) none) m m (σ : ℂ) (0 : Matrix (Fin m) (Fin m) ℂ)) :
    ∃ N : ℝ → Matrix (Fin m) (Fin m) ℂ, (∀ ω, HasTF R m m (evalPoint none ω) (N ω)) ∧
      1 / (2 * π) * ∫ θ in (0 : ℝ)..2 * π, log ‖(N (σ * tan (θ / 2))).det‖ = ((A.map (algebraMap ℝ ℂ)).charpoly.roots.map fun a : ℂ => log⁺ ‖((σ : ℂ) + a) / (σ - a)‖).sum := by
  obtain ⟨N, N₀, h1, h2, h3⟩ := C139_poisson hR hst hσ hM
  refine ⟨N, h1, h3.trans ?_⟩
  have h4 : N₀ = 1 := by
    refine Matrix.mulVec_injective (funext fun v => ?_)
    obtain ⟨N', h5, h6⟩ := C139_sensitivity (G := stateOf A B C (0 : Matrix (Fin m) (Fin m) ℝ) none) rfl (fun t h => by cases h) hR hst (by simpa [StablePoint, stateOf] using hσ.le) hM (zero_mulVec v)
    rw [HasTF_unique h2 h5, h6, one_mulVec]
  rw [h4, det_one, norm_one, Real.log_one, zero_add]

/-- The loop of `-4 (s - 2) / ((s - 1) (s + 7))` with the zero `σ = 2` meets the hypotheses; the average is `log 3`, the contribution of the pole 1. -/
example : ∃ R, feedback (.state (unity 1 none)) (.state (stateOf !![-6, 7; 1, 0] !![1; 0] !![-4, 8] (0 : Matrix (Fin 1) (Fin 1) ℝ) none)) true = .ok R ∧
    ∃ N : ℝ → Matrix (Fin 1) (Fin 1) ℂ, (∀ ω, HasTF R 1 1 (evalPoint none ω) (N ω)) ∧ 1 / (2 * π) * ∫ θ in (0 : ℝ)..2 * π, log ‖(N (2 * tan (θ / 2))).det‖ = log 3 := by
  obtain ⟨R, hR⟩ := sensitivity_exists (A := !![-6, 7; 1, 0]) (B := !![1; 0]) (C := !![-4, 8]) (dt := none) (fun t h => by cases h) (m := 1) (by norm_num [spacing10])
  have hst : StableModel R := (sensitivity_stable (fun t h => by cases h) hR).mpr ((motions_iff (dt := none)).mpr fun z hz => by
    unfold IsEig at hz
    have hz' : (z + 1) ^ 2 = 0 := by
      rw [← hz]
      simp [det_fin_two, Matrix.mul_apply]
      ring
    have h1 : z = -1 := eq_neg_of_add_eq_zero_left (pow_eq_zero_iff two_ne_zero |>.mp hz')
    simp [StablePoint, h1])
  obtain ⟨N, h1, h2⟩ := C139_poisson_zero (σ := 2) hR hst two_pos (hasTF_stateOf.mpr (isTF_iff_sol.mpr ⟨by norm_num [det_fin_two], !![2 / 9; 1 / 9], by
      ext i j
      fin_cases i <;> fin_cases j <;> norm_num [Matrix.mul_apply, Fin.sum_univ_two, Matrix.one_apply], by
      ext i j
      fin_cases i; fin_cases j
      norm_num [Matrix.mul_apply, Fin.sum_univ_two]⟩))
  refine ⟨R, hR, N, h1, h2.trans ?_⟩
  have e : ((!![-6, 7; 1, 0] : Matrix (Fin 2) (Fin 2) ℝ).map (algebraMap ℝ ℂ)).charpoly = (Polynomial.X - Polynomial.C 1) * (Polynomial.X - Polynomial.C (-7)) := by
    rw [charpoly_fin_two, trace_fin_two, det_fin_two]
    have e1 : (Polynomial.C 7 : Polynomial ℂ) = 7 := rfl
    have e2 : (Polynomial.C 6 : Polynomial ℂ) = 6 := rfl
    simp [e1, e2]
    ring
  rw [e, Polynomial.roots_mul (mul_ne_zero (Polynomial.X_sub_C_ne_zero _) (Polynomial.X_sub_C_ne_zero _)), Polynomial.roots_X_sub_C, Polynomial.roots_X_sub_C, Multiset.map_add, Multiset.sum_add, Multiset.map_singleton,
    Multiset.sum_singleton, Multiset.map_singleton, Multiset.sum_singleton]
  norm_num
  rw [posLog_eq_log (by norm_num), posLog_eq_zero_iff _ |>.mpr (by norm_num), add_zero]

end Harold
