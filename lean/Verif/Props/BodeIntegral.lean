import Verif.Props.Limits
import Verif.Props.Energy
import Verif.Props.Delay
import Mathlib.Analysis.Polynomial.MahlerMeasure
import Mathlib.LinearAlgebra.Matrix.Charpoly.Basic
import Mathlib.LinearAlgebra.Matrix.Charpoly.Coeff
import Mathlib.LinearAlgebra.Matrix.SchurComplement

/-!
# C139: Bode's integral for sampled loops
-/

namespace Harold

open Matrix Spec Filter Topology Real

variable {n m : ℕ} {R : StateM ℝ} {h : ℝ} {A : Matrix (Fin n) (Fin n) ℝ} {B : Matrix (Fin n) (Fin m) ℝ} {C : Matrix (Fin m) (Fin n) ℝ}

/-- The matrices of `feedback(1, G)`. -/
theorem sensitivity_model {dt : Option ℝ} (hdt : DtOk dt) (hR : feedback (.state (unity m dt)) (.state (stateOf A B C 0 dt)) true = .ok R) : R = stateOf (A - B * C) B (-C) 1 dt := by
  have hG : Consistent (stateOf A B C (0 : Matrix (Fin m) (Fin m) ℝ) dt) m m := ⟨⟨rfl, rfl⟩, fun _ => ⟨rfl, rfl, rfl, rfl, rfl⟩⟩
  obtain ⟨-, -, h3⟩ := feedback_result (unity_consistent m dt) hG hdt hR
  obtain ⟨h4, h5⟩ := h3 1 0 rfl rfl
  unfold unity stateOf at h5
  rw [closeBody_sd hdt _ _ _ _ _ _ _ _ _ _ h4] at h5
  rw [← Except.ok.inj h5, show (fbSign true : ℝ) = -1 from rfl]
  simp only [sub_zero, inv_one, Matrix.one_mul, Matrix.mul_one, Matrix.mul_zero, neg_one_smul, Matrix.neg_mul, add_zero, ← sub_eq_add_neg, zero_sub]

/-- The determinant of the sensitivity is the quotient of the characteristic polynomials of the open and the closed loop. -/
theorem sensitivity_det {L : Type} [Field L] {A : Matrix (Fin n) (Fin n) L} {B : Matrix (Fin n) (Fin m) L} {C : Matrix (Fin m) (Fin n) L} {z : L} (hz : (z • (1 : Matrix (Fin n) (Fin n) L) - (A - B * C)).det ≠ 0) :
    (-C * (z • (1 : Matrix (Fin n) (Fin n) L) - (A - B * C))⁻¹ * B + 1).det = (z • (1 : Matrix (Fin n) (Fin n) L) - A).det / (z • (1 : Matrix (Fin n) (Fin n) L) - (A - B * C)).det := by
  rw [eq_div_iff hz]
  generalize hX : z • (1 : Matrix (Fin n) (Fin n) L) - (A - B * C) = X at hz ⊢
  have e1 : -C * X⁻¹ * B + 1 = 1 - C * (X⁻¹ * B) := by
    rw [Matrix.neg_mul, Matrix.neg_mul, Matrix.mul_assoc]
    abel
  have e2 : z • (1 : Matrix (Fin n) (Fin n) L) - A = X - B * C := by rw [← hX]; abel
  have e3 : X * (1 - X⁻¹ * B * C) = X - B * C := by
    rw [Matrix.mul_sub, Matrix.mul_one, Matrix.mul_assoc, ← Matrix.mul_assoc X, mul_nonsing_inv _ (Ne.isUnit hz), Matrix.one_mul]
  rw [e1, det_one_sub_mul_comm, e2, ← e3, det_mul, mul_comm]

/-- The average of the logarithm of a quotient of monic polynomials over the unit circle. -/
theorem circleAverage_quotient {p q : Polynomial ℂ} (hp : p.Monic) (hq : q.Monic) (hr : ∀ z ∈ q.roots, ‖z‖ < 1) :
    circleAverage (fun z => log ‖p.eval z / q.eval z‖) 0 1 = (p.roots.map fun a => log⁺ ‖a‖).sum := by
  have h1 : (fun z => log ‖p.eval z / q.eval z‖) =ᶠ[codiscreteWithin (Metric.sphere (0 : ℂ) |1|)] ((fun z => log ‖p.eval z‖) - fun z => log ‖q.eval z‖) := by
    have hfin : ({z | (p * q).eval z = 0} : Set ℂ).Finite := by
      refine (p * q).roots.toFinset.finite_toSet.subset fun z hz => ?_
      simpa [hp.ne_zero, hq.ne_zero] using hz
    refine codiscreteWithin_iff_locallyFiniteComplementWithin.2 fun z _ => ⟨Set.univ, Filter.univ_mem, hfin.subset ?_⟩
    rintro w ⟨-, -, hw⟩
    by_contra hne
    refine hw ?_
    rw [Set.mem_ofPred_eq, Polynomial.eval_mul, mul_eq_zero, not_or] at hne
    simp only [Set.mem_ofPred_eq, Pi.sub_apply]
    rw [norm_div, log_div (norm_ne_zero_iff.mpr hne.1) (norm_ne_zero_iff.mpr hne.2)]
  rw [circleAverage_congr_codiscreteWithin h1 one_ne_zero, circleAverage_sub (f₁ := fun z => log ‖p.eval z‖) (f₂ := fun z => log ‖q.eval z‖) ((circleIntegrable_def _ _ _).mpr p.intervalIntegrable_mahlerMeasure) ((circleIntegrable_def _ _ _).mpr q.intervalIntegrable_mahlerMeasure), ← Polynomial.logMahlerMeasure_def, ← Polynomial.logMahlerMeasure_def,
    Polynomial.logMahlerMeasure_eq_log_leadingCoeff_add_sum_log_roots, Polynomial.logMahlerMeasure_eq_log_leadingCoeff_add_sum_log_roots, hp.leadingCoeff, hq.leadingCoeff, norm_one, Real.log_one, zero_add, zero_add]
  have h2 : (q.roots.map fun a => log⁺ ‖a‖).sum = 0 := by
    refine Multiset.sum_eq_zero fun x hx => ?_
    obtain ⟨a, ha, rfl⟩ := Multiset.mem_map.mp hx
    rw [posLog_eq_zero_iff, abs_of_nonneg (norm_nonneg _)]
    exact (hr a ha).le
  rw [h2, sub_zero]

/-- **C139**, Bode's integral: for every stable sampled loop around a model without feedthrough, the average over all frequencies of the logarithm of the modulus of the determinant of the sensitivity function
`feedback(1, G)` (for a single loop: of the modulus of the sensitivity) is the sum of the logarithms of the moduli of the open loop poles outside the unit disc, counted with multiplicities. -/
theorem C139_integral (hh : 0 < h) (hR : feedback (.state (unity m (some h))) (.state (stateOf A B C 0 (some h))) true = .ok R) (hst : StableModel R) :
    ∃ N : ℝ → Matrix (Fin m) (Fin m) ℂ, (∀ ω, HasTF R m m (evalPoint (some h) ω) (N ω)) ∧
      h / (2 * π) * ∫ ω in (0 : ℝ)..2 * π / h, log ‖(N ω).det‖ = ((A.map (algebraMap ℝ ℂ)).charpoly.roots.map fun a => log⁺ ‖a‖).sum := by
  have hdt : DtOk (some h) := fun t ht => by cases ht; exact hh
  have hmod := sensitivity_model hdt hR
  subst hmod
  have hS : Schur (A - B * C) := schur_of_stable hst
  have hc1 : ∀ (X : Matrix (Fin n) (Fin n) ℝ) (z : ℂ), (X.map (algebraMap ℝ ℂ)).charpoly.eval z = (z • (1 : Matrix (Fin n) (Fin n) ℂ) - X.map (algebraMap ℝ ℂ)).det := fun X z => by
    rw [eval_charpoly, Matrix.scalar_apply, ← Matrix.smul_one_eq_diagonal]
  have hm : (A - B * C).map (algebraMap ℝ ℂ) = A.map (algebraMap ℝ ℂ) - B.map (algebraMap ℝ ℂ) * C.map (algebraMap ℝ ℂ) := by rw [map_sub', map_mul']
  have hr : ∀ z ∈ ((A - B * C).map (algebraMap ℝ ℂ)).charpoly.roots, ‖z‖ < 1 := fun z hz => hS z (by
    have := (Polynomial.mem_roots'.mp hz).2
    rw [Polynomial.IsRoot, hc1] at this
    exact this)
  have hne : ∀ ω : ℝ, (evalPoint (some h) ω • (1 : Matrix (Fin n) (Fin n) ℂ) - (A - B * C).map (algebraMap ℝ ℂ)).det ≠ 0 := fun ω h0 => by
    have := hS _ h0
    simp only [evalPoint, Option.elim] at this
    rw [show Complex.I * ((ω : ℂ) * (h : ℂ)) = ((ω * h : ℝ) : ℂ) * Complex.I by push_cast; ring, Complex.norm_exp_ofReal_mul_I] at this
    exact lt_irrefl _ this
  refine ⟨_, fun ω => hasTF_stateOf.mpr ⟨hne ω, rfl⟩, ?_⟩
  have hdet : ∀ ω : ℝ, ((-C).map (algebraMap ℝ ℂ) * (evalPoint (some h) ω • (1 : Matrix (Fin n) (Fin n) ℂ) - (A - B * C).map (algebraMap ℝ ℂ))⁻¹ * B.map (algebraMap ℝ ℂ) +
      (1 : Matrix (Fin m) (Fin m) ℝ).map (algebraMap ℝ ℂ)).det =
      (A.map (algebraMap ℝ ℂ)).charpoly.eval (circleMap 0 1 (ω * h)) / ((A - B * C).map (algebraMap ℝ ℂ)).charpoly.eval (circleMap 0 1 (ω * h)) := fun ω => by
    have ez : evalPoint (some h) ω = circleMap 0 1 (ω * h) := by
      simp only [evalPoint, Option.elim, circleMap]
      push_cast
      rw [zero_add, one_mul, mul_comm]
    have h1 := hne ω
    rw [hc1, hc1, ← ez]
    rw [hm] at h1 ⊢
    rw [← sensitivity_det h1, Matrix.map_one _ (map_zero _) (map_one _)]
    congr 4
    ext i j
    simp
  simp only [hdet]
  have h2 := circleAverage_quotient (charpoly_monic (A.map (algebraMap ℝ ℂ))) (charpoly_monic ((A - B * C).map (algebraMap ℝ ℂ))) hr
  rw [circleAverage_def, smul_eq_mul] at h2
  rw [← h2, intervalIntegral.integral_comp_mul_right (fun θ => log ‖(A.map (algebraMap ℝ ℂ)).charpoly.eval (circleMap 0 1 θ) / ((A - B * C).map (algebraMap ℝ ℂ)).charpoly.eval (circleMap 0 1 θ)‖) hh.ne', zero_mul,
    div_mul_cancel₀ _ hh.ne', smul_eq_mul, ← mul_assoc]
  congr 1
  field_simp

open scoped Matrix.Norms.L2Operator in
/-- **C139**, no sensitivity below one: whatever the loop is, if it is stable and its open loop has no feedthrough, the sensitivity has a gain of at least one somewhere (in the limit of high frequencies, if nowhere else). -/
theorem C139_waterbed {dt : Option ℝ} {γ : ℝ} (hm : 1 ≤ m) (hdt : DtOk dt) (hR : feedback (.state (unity m dt)) (.state (stateOf A B C 0 dt)) true = .ok R) (hst : StableModel R) (hγ : GainBound R m m γ) : 1 ≤ γ := by
  have hmod := sensitivity_model hdt hR
  subst hmod
  have hc : Consistent (stateOf (A - B * C) B (-C) (1 : Matrix (Fin m) (Fin m) ℝ) dt) m m := ⟨⟨rfl, rfl⟩, fun _ => ⟨rfl, rfl, rfl, rfl, rfl⟩⟩
  obtain ⟨f, hf, hlim⟩ := (hasDelay_stateOf (A := A - B * C) (B := B) (C := -C) (D := 1) (dt := dt) (d := 0) (L := 1)).mpr ⟨by simp, rfl⟩
  simp only [pow_zero, one_smul] at hlim
  have h1 : ∀ᶠ s : ℝ in atTop, ‖(f s).map (algebraMap ℝ ℂ)‖ ≤ γ := by
    filter_upwards [hf, eventually_ge_atTop 1] with s hs h1
    have h2 : ¬ StablePoint dt (s : ℂ) := by
      unfold StablePoint
      split_ifs
      · rw [Complex.norm_real, Real.norm_eq_abs, abs_of_nonneg (by linarith)]
        linarith
      · rw [Complex.ofReal_re]
        linarith
    obtain ⟨M, h3, h4⟩ := gain_outside hc hdt hst hγ h2
    have h5 : HasTF (stateOf (A - B * C) B (-C) (1 : Matrix (Fin m) (Fin m) ℝ) dt) m m (s : ℂ) ((f s).map (algebraMap ℝ ℂ)) := by
      obtain ⟨h6, X, h7, h8⟩ := isTF_iff_sol.mp (hasTF_dyn' hs)
      have e : ∀ {a b : ℕ} (X : Matrix (Fin a) (Fin b) ℝ), X.map (algebraMap ℝ ℝ) = X := fun X => by ext i j; simp
      rw [e] at h6
      rw [e, e] at h7
      rw [e, e] at h8
      have e2 : (s : ℂ) • (1 : Matrix (Fin n) (Fin n) ℂ) - (A - B * C).map (algebraMap ℝ ℂ) = (s • (1 : Matrix (Fin n) (Fin n) ℝ) - (A - B * C)).map (algebraMap ℝ ℂ) := by
        ext i j
        by_cases hij : i = j <;> simp [Matrix.one_apply, hij]
      refine hasTF_stateOf.mpr (isTF_iff_sol.mpr ⟨?_, X.map (algebraMap ℝ ℂ), ?_, ?_⟩)
      · rw [e2, ← RingHom.mapMatrix_apply, ← RingHom.map_det]
        exact (map_ne_zero _).mpr h6
      · rw [e2, ← map_mul', h7]
      · rw [h8, Matrix.map_add _ (map_add _), map_mul']
    rw [HasTF_unique h5 h3]
    exact h4
  have h2 : Tendsto (fun s => ‖(f s).map (algebraMap ℝ ℂ)‖) atTop (𝓝 ‖(1 : Matrix (Fin m) (Fin m) ℂ)‖) := by
    have hF : Continuous fun X : Matrix (Fin m) (Fin m) ℝ => X.map (algebraMap ℝ ℂ) := Continuous.matrix_map continuous_id (by exact Complex.continuous_ofReal)
    have := (hF.tendsto 1).comp hlim
    rw [Matrix.map_one _ (map_zero _) (map_one _)] at this
    exact this.norm
  have : Nonempty (Fin m) := ⟨⟨0, hm⟩⟩
  rw [norm_one] at h2
  exact le_of_tendsto h2 h1

/-- The loop of `2 / (z - 2)`: the average of the logarithm of the sensitivity is `log 2`. -/
example : ∃ R, feedback (.state (unity 1 (some 1))) (.state (stateOf !![2] !![1] !![2] (0 : Matrix (Fin 1) (Fin 1) ℝ) (some 1))) true = .ok R ∧
    ∃ N : ℝ → Matrix (Fin 1) (Fin 1) ℂ, (∀ ω, HasTF R 1 1 (evalPoint (some 1) ω) (N ω)) ∧ 1 / (2 * π) * ∫ ω in (0 : ℝ)..2 * π / 1, log ‖(N ω).det‖ = log 2 := by
  obtain ⟨R, hR⟩ := sensitivity_exists (A := !![2]) (B := !![1]) (C := !![2]) dtOk_one (m := 1) (by norm_num [spacing10])
  have hst : StableModel R := (sensitivity_stable dtOk_one hR).mpr ((motions_iff (dt := some 1)).mpr fun z hz => by
    unfold IsEig at hz
    rw [det_fin_one] at hz
    simp at hz
    simp [hz, StablePoint])
  obtain ⟨N, h1, h2⟩ := C139_integral one_pos hR hst
  refine ⟨R, hR, N, h1, h2.trans ?_⟩
  have e : ((!![2] : Matrix (Fin 1) (Fin 1) ℝ).map (algebraMap ℝ ℂ)).charpoly = Polynomial.X - Polynomial.C 2 := by
    rw [charpoly, det_fin_one, charmatrix_apply_eq]
    simp
  rw [e, Polynomial.roots_X_sub_C, Multiset.map_singleton, Multiset.sum_singleton, Complex.norm_ofNat, posLog_eq_log (by norm_num)]

open scoped Matrix.Norms.L2Operator in
/-- The same loop meets the hypotheses of `C139_waterbed` with the gain three: its sensitivity is `(z - 2) / z`. -/
example : ∃ R, feedback (.state (unity 1 (some 1))) (.state (stateOf !![2] !![1] !![2] (0 : Matrix (Fin 1) (Fin 1) ℝ) (some 1))) true = .ok R ∧ StableModel R ∧ GainBound R 1 1 3 := by
  obtain ⟨R, hR⟩ := sensitivity_exists (A := !![2]) (B := !![1]) (C := !![2]) dtOk_one (m := 1) (by norm_num [spacing10])
  have hst : StableModel R := (sensitivity_stable dtOk_one hR).mpr ((motions_iff (dt := some 1)).mpr fun z hz => by
    unfold IsEig at hz
    rw [det_fin_one] at hz
    simp at hz
    simp [hz, StablePoint])
  refine ⟨R, hR, hst, fun ω => ?_⟩
  have hmod := sensitivity_model dtOk_one hR
  subst hmod
  have hn : ‖evalPoint (some 1) ω‖ = 1 := by
    have : evalPoint (some 1) ω = Complex.exp (ω * Complex.I) := by simp [evalPoint, mul_comm]
    rw [this, Complex.norm_exp_ofReal_mul_I]
  have hz0 : evalPoint (some 1) ω ≠ 0 := fun h => by rw [h, norm_zero] at hn; norm_num at hn
  refine ⟨!![1 - 2 / evalPoint (some 1) ω], hasTF_stateOf.mpr (isTF_iff_sol.mpr ⟨?_, !![1 / evalPoint (some 1) ω], ?_, ?_⟩), ?_⟩
  · simpa [Matrix.det_fin_one, Matrix.mul_apply] using hz0
  · ext i j; fin_cases i; fin_cases j
    simp [Matrix.mul_apply, stateOf]
    field_simp
  · ext i j; fin_cases i; fin_cases j
    simp [Matrix.mul_apply]
    ring
  · rw [scalar_norm]
    refine (norm_sub_le _ _).trans ?_
    rw [norm_div, hn]
    norm_num

end Harold
