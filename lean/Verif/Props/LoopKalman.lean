import Verif.Props.LoopPoles
import Verif.Props.Minimality
import Verif.Props.KalmanArg
import Verif.Lemmas.Hautus
import Verif.Lemmas.SvdExists

/-!
# C112: static feedback keeps controllability and observability
-/

namespace Harold

open Matrix Spec

variable {n m p : ℕ}

theorem reachable_feedback (A : Matrix (Fin n) (Fin n) ℝ) (B : Matrix (Fin n) (Fin m) ℝ) (F : Matrix (Fin m) (Fin n) ℝ) (V : Matrix (Fin m) (Fin m) ℝ) (hV : V.det ≠ 0) :
    Reachable (A + B * F) (B * V) ↔ Reachable A B := by
  have hVc : (Vᵀ.map (algebraMap ℝ ℂ)).det ≠ 0 := by
    rw [show Vᵀ.map (algebraMap ℝ ℂ) = (algebraMap ℝ ℂ).mapMatrix Vᵀ from rfl, ← RingHom.map_det, det_transpose]
    simpa using hV
  have hB : ∀ v : Fin n → ℂ, (B * V)ᵀ.map (algebraMap ℝ ℂ) *ᵥ v = 0 ↔ Bᵀ.map (algebraMap ℝ ℂ) *ᵥ v = 0 := fun v => by
    rw [transpose_mul, Matrix.map_mul, ← mulVec_mulVec]
    exact ⟨fun h => eq_zero_of_mulVec_eq_zero hVc h, fun h => by rw [h, mulVec_zero]⟩
  have hA : ∀ v : Fin n → ℂ, Bᵀ.map (algebraMap ℝ ℂ) *ᵥ v = 0 → (A + B * F)ᵀ.map (algebraMap ℝ ℂ) *ᵥ v = Aᵀ.map (algebraMap ℝ ℂ) *ᵥ v := fun v h => by
    rw [transpose_add, transpose_mul, Matrix.map_add _ (by simp), Matrix.map_mul, add_mulVec, ← mulVec_mulVec, h, mulVec_zero, add_zero]
  rw [hautus_reach, hautus_reach]
  constructor
  · intro h z v h1 h2
    exact h z v (by rw [hA v h2, h1]) ((hB v).mpr h2)
  · intro h z v h1 h2
    have h3 := (hB v).mp h2
    exact h z v (by rw [← hA v h3, h1]) h3

theorem observable_feedback (A : Matrix (Fin n) (Fin n) ℝ) (C : Matrix (Fin p) (Fin n) ℝ) (E : Matrix (Fin n) (Fin p) ℝ) (W : Matrix (Fin p) (Fin p) ℝ) (hW : W.det ≠ 0) :
    Observable (A + E * C) (W * C) ↔ Observable A C := by
  have hWc : (W.map (algebraMap ℝ ℂ)).det ≠ 0 := by
    rw [show W.map (algebraMap ℝ ℂ) = (algebraMap ℝ ℂ).mapMatrix W from rfl, ← RingHom.map_det]
    simpa using hW
  have hC : ∀ v : Fin n → ℂ, (W * C).map (algebraMap ℝ ℂ) *ᵥ v = 0 ↔ C.map (algebraMap ℝ ℂ) *ᵥ v = 0 := fun v => by
    rw [Matrix.map_mul, ← mulVec_mulVec]
    exact ⟨fun h => eq_zero_of_mulVec_eq_zero hWc h, fun h => by rw [h, mulVec_zero]⟩
  have hA : ∀ v : Fin n → ℂ, C.map (algebraMap ℝ ℂ) *ᵥ v = 0 → (A + E * C).map (algebraMap ℝ ℂ) *ᵥ v = A.map (algebraMap ℝ ℂ) *ᵥ v := fun v h => by
    rw [Matrix.map_add _ (by simp), Matrix.map_mul, add_mulVec, ← mulVec_mulVec, h, mulVec_zero, add_zero]
  rw [hautus, hautus]
  constructor
  · intro h z v h1 h2
    exact h z v (by rw [hA v h2, h1]) ((hC v).mpr h2)
  · intro h z v h1 h2
    have h3 := (hC v).mp h2
    exact h z v (by rw [← hA v h3, h1]) h3

section
variable {A : Matrix (Fin n) (Fin n) ℝ} {B : Matrix (Fin n) (Fin m) ℝ} {C : Matrix (Fin p) (Fin n) ℝ} {D : Matrix (Fin p) (Fin m) ℝ} {N : Matrix (Fin m) (Fin p) ℝ}
  {a b c : Arr ℝ} {dt dt' : Option ℝ} {neg : Bool} {R : StateM ℝ}

/-- What `feedback` returns for a static second operand. -/
theorem feedback_static (hdt : DtOk dt) (h : feedback (.state ⟨Arr.of A, Arr.of B, Arr.of C, Arr.of D, dt, false⟩) (.state ⟨a, b, c, Arr.of N, dt', true⟩) neg = .ok R) :
    ∃ (F : Matrix (Fin m) (Fin p) ℝ) (V : Matrix (Fin m) (Fin m) ℝ) (W : Matrix (Fin p) (Fin p) ℝ) (D' : Matrix (Fin p) (Fin m) ℝ),
      R = ⟨Arr.of (A + B * F * C), Arr.of (B * V), Arr.of (W * C), Arr.of D', dt, false⟩ ∧ ((neg = true → (1 - (2 : ℝ) • (N * D)).det ≠ 0) ↔ V.det ≠ 0) ∧ W.det = V.det := by
  have hcG : Consistent (⟨Arr.of A, Arr.of B, Arr.of C, Arr.of D, dt, false⟩ : StateM ℝ) p m := ⟨⟨rfl, rfl⟩, fun _ => ⟨rfl, rfl, rfl, rfl, rfl⟩⟩
  have hcH : Consistent (⟨a, b, c, Arr.of N, dt', true⟩ : StateM ℝ) m p := ⟨⟨rfl, rfl⟩, fun h => by cases h⟩
  obtain ⟨-, -, h1⟩ := feedback_result hcG hcH hdt h
  obtain ⟨hΔ, h2⟩ := h1 D N rfl rfl
  rw [closeBody_ds hdt a b c A B C D N _ _ hΔ] at h2
  set Δ := 1 - N * D with hΔd
  have hinv : Δ⁻¹ * Δ = 1 := nonsing_inv_mul _ (Ne.isUnit hΔ)
  set σ : ℝ := fbSign neg with hσ
  refine ⟨σ • (Δ⁻¹ * N), 1 + σ • (Δ⁻¹ * (N * D)), 1 + σ • (D * (Δ⁻¹ * N)), D + σ • D * (Δ⁻¹ * (N * D)), ?_, ?_, ?_⟩
  · rw [← Except.ok.inj h2]
    congr 2
    · simp only [Matrix.smul_mul, Matrix.mul_smul, Matrix.mul_assoc]
    · simp only [Matrix.mul_add, Matrix.mul_one, Matrix.smul_mul, Matrix.mul_smul, Matrix.mul_assoc]
    · simp only [Matrix.add_mul, Matrix.one_mul, Matrix.smul_mul, Matrix.mul_assoc]
  · have e : Δ * (1 + σ • (Δ⁻¹ * (N * D))) = Δ + σ • (N * D) := by
      rw [Matrix.mul_add, Matrix.mul_one, Matrix.mul_smul, ← Matrix.mul_assoc, mul_nonsing_inv _ (Ne.isUnit hΔ), Matrix.one_mul]
    have e2 : (Δ + σ • (N * D)).det = Δ.det * (1 + σ • (Δ⁻¹ * (N * D))).det := by rw [← e, det_mul]
    have e3 : (Δ + σ • (N * D)).det ≠ 0 ↔ (1 + σ • (Δ⁻¹ * (N * D))).det ≠ 0 := by
      rw [e2]
      exact ⟨fun h => right_ne_zero_of_mul h, fun h => mul_ne_zero hΔ h⟩
    rw [← e3, hΔd, hσ, fbSign]
    cases neg with
    | false => simp
    | true =>
      have : (1 - N * D + (-1 : ℝ) • (N * D)) = 1 - (2 : ℝ) • (N * D) := by
        rw [two_smul, neg_smul, one_smul]; abel
      simp only [forall_const, if_true, this]
  · rw [show σ • (D * (Δ⁻¹ * N)) = D * (σ • (Δ⁻¹ * N)) from (Matrix.mul_smul _ _ _).symm, det_one_add_mul_comm]
    simp only [Matrix.smul_mul, Matrix.mul_assoc]

/-- **C112**: static feedback around a model with states keeps the number of states, the answers of `is_kalman_controllable` and
`is_kalman_observable`, and whether the model has the least number of states. Missing: negative feedback with `det(1 - 2 N D) = 0`,
see `C112_negative_violated`; static gains as first operand, models without states, inputs or outputs, and rounding. -/
theorem C112_kalman_partial {S : SvdNum ℝ} (he : 0 ≤ S.eps) (hS : ∀ (k l : ℕ) (M : Matrix (Fin k) (Fin l) ℝ), SvdExact S M) (hn : 0 < n) (hm : 0 < m) (hp : 0 < p)
    (hdt : DtOk dt) (hN : neg = true → (1 - (2 : ℝ) • (N * D)).det ≠ 0)
    (h : feedback (.state ⟨Arr.of A, Arr.of B, Arr.of C, Arr.of D, dt, false⟩) (.state ⟨a, b, c, Arr.of N, dt', true⟩) neg = .ok R) :
    order R = n ∧
    (∃ t, isKalmanControllableArg S (.state R) = .ok t ∧ isKalmanControllableArg S (.state ⟨Arr.of A, Arr.of B, Arr.of C, Arr.of D, dt, false⟩) = .ok t) ∧
    (∃ t, isKalmanObservableArg S (.state R) = .ok t ∧ isKalmanObservableArg S (.state ⟨Arr.of A, Arr.of B, Arr.of C, Arr.of D, dt, false⟩) = .ok t) ∧
    (LeastOrder R p m ↔ LeastOrder ⟨Arr.of A, Arr.of B, Arr.of C, Arr.of D, dt, false⟩ p m) := by
  obtain ⟨F, V, W, D', rfl, h1, h2⟩ := feedback_static hdt h
  have hV := h1.mp hN
  have hr : Reachable (A + B * F * C) (B * V) ↔ Reachable A B := by
    rw [Matrix.mul_assoc]; exact reachable_feedback A B (F * C) V hV
  have ho : Observable (A + B * F * C) (W * C) ↔ Observable A C := observable_feedback A C (B * F) W (h2 ▸ hV)
  obtain ⟨⟨t, ht, ht'⟩, u, hu, hu'⟩ := C77_tests (A := A) (B := B) (C := C) he hS hn hm hp (.state _ rfl rfl)
    (.state ⟨Arr.of A, Arr.of B, Arr.of C, Arr.of D, dt, false⟩ rfl rfl) (G := .state ⟨Arr.of A, Arr.of B, Arr.of C, Arr.of D, dt, false⟩)
  obtain ⟨⟨v, hv, hv'⟩, w, hw, hw'⟩ := C77_tests (A := A + B * F * C) (B := B * V) (C := W * C) he hS hn hm hp (.state _ rfl rfl)
    (.state ⟨Arr.of (A + B * F * C), Arr.of (B * V), Arr.of (W * C), Arr.of D', dt, false⟩ rfl rfl)
    (G := .state ⟨Arr.of (A + B * F * C), Arr.of (B * V), Arr.of (W * C), Arr.of D', dt, false⟩)
  refine ⟨rfl, ⟨v, hv, ?_⟩, ⟨w, hw, ?_⟩, ?_⟩
  · rw [ht, Bool.eq_iff_iff.mpr (ht'.trans (hr.symm.trans hv'.symm))]
  · rw [hu, Bool.eq_iff_iff.mpr (hu'.trans (ho.symm.trans hw'.symm))]
  · rw [rep_least_iff (rep_dyn _ _ _ D' dt), rep_least_iff (rep_dyn A B C D dt), hr, ho]

end

theorem not_reachable_zero (A B : Matrix (Fin 1) (Fin 1) ℝ) (hB : B 0 0 = 0) : ¬ Reachable A B := by
  intro hr
  rw [hautus_reach] at hr
  have := hr (A 0 0) (fun _ => 1) (by ext i; rw [Subsingleton.elim i 0]; simp [mulVec, dotProduct])
    (by ext i; rw [Subsingleton.elim i 0]; simp [mulVec, dotProduct, hB])
  exact one_ne_zero (congrFun this 0)

/-- `1/(s+1) + 1`. -/
noncomputable def biLag : StateM ℝ := ⟨Arr.of !![-1], Arr.of !![1], Arr.of !![1], Arr.of !![1], none, false⟩

/-- The static gain `k`. -/
noncomputable def loopGain (k : ℝ) : StateM ℝ := ⟨Arr.of (0 : Matrix (Fin 0) (Fin 0) ℝ), Arr.of (0 : Matrix (Fin 0) (Fin 1) ℝ), Arr.of (0 : Matrix (Fin 1) (Fin 0) ℝ), Arr.of !![k], none, true⟩

theorem biLag_loop (neg : Bool) {k : ℝ} (hk : k ≤ 1 / 2) : ∃ R, feedback (.state biLag) (.state (loopGain k)) neg = .ok R := by
  have hcG : Consistent biLag 1 1 := ⟨⟨rfl, rfl⟩, fun _ => ⟨rfl, rfl, rfl, rfl, rfl⟩⟩
  have hcH : Consistent (loopGain k) 1 1 := ⟨⟨rfl, rfl⟩, fun h => by cases h⟩
  have h1 := C31_accepts hcG hcH neg (fun _ h => by cases h) rfl (D := !![1]) (N := !![k]) rfl rfl (fun x hx => by
    have hx0 : x 0 ≠ 0 := fun h => hx (funext fun i => by rw [Subsingleton.elim i 0, h]; rfl)
    have hp : 0 < x 0 * x 0 := mul_self_pos.mpr hx0
    simp [dotProduct, mulVec, Matrix.mul_apply]
    have h4 : (1 / 4 : ℝ) ≤ (1 - k) * (1 - k) := by nlinarith
    have h5 := mul_le_mul_of_nonneg_right h4 hp.le
    have h6 : ((2 ^ 49 : ℝ) ^ 2)⁻¹ < 1 / 4 := by norm_num
    have h7 := mul_lt_mul_of_pos_right h6 hp
    nlinarith)
  rcases C31_returns_partial hcG hcH neg (fun _ h => by cases h) (fun h => by cases h) with ⟨R, h, -⟩ | h
  · exact ⟨R, h⟩
  · exact absurd h h1

/-- The hypotheses of `C112_kalman_partial` are met by `1/(s+1) + 1` with the gain `1/4` in negative feedback. -/
example : ∃ (S : SvdNum ℝ) (R : StateM ℝ), 0 ≤ S.eps ∧ (∀ (k l : ℕ) (M : Matrix (Fin k) (Fin l) ℝ), SvdExact S M) ∧
    (1 - (2 : ℝ) • ((!![1 / 4] : Matrix (Fin 1) (Fin 1) ℝ) * !![1])).det ≠ 0 ∧ feedback (.state biLag) (.state (loopGain (1 / 4))) true = .ok R := by
  obtain ⟨S, h0, hS⟩ := exists_svdNum
  obtain ⟨R, h⟩ := biLag_loop true (k := 1 / 4) (by norm_num)
  exact ⟨S, R, h0.ge, fun _ _ M => hS M, by simp [Matrix.mul_apply]; norm_num, h⟩

/-- **C112** is violated for negative feedback: `feedback` forms `1 - H D` also for `negative=True` (see C31), so closing the loop around
the controllable `1/(s+1) + 1` with the gain `1/2` returns a model that `is_kalman_controllable` reports as not controllable. -/
theorem C112_negative_violated : ∃ (S : SvdNum ℝ) (R : StateM ℝ), (∀ (k l : ℕ) (M : Matrix (Fin k) (Fin l) ℝ), SvdExact S M) ∧
    feedback (.state biLag) (.state (loopGain (1 / 2))) true = .ok R ∧
    isKalmanControllableArg S (.state biLag) = .ok true ∧ isKalmanControllableArg S (.state R) = .ok false := by
  obtain ⟨S, h0, hS⟩ := exists_svdNum
  obtain ⟨R, h⟩ := biLag_loop true (k := 1 / 2) le_rfl
  refine ⟨S, R, fun _ _ M => hS M, h, ?_, ?_⟩
  · obtain ⟨⟨t, ht, ht'⟩, -⟩ := C77_tests (A := !![-1]) (B := !![1]) (C := !![1]) h0.ge (fun _ _ M => hS M) one_pos one_pos one_pos
      (.state biLag rfl rfl) (.state biLag rfl rfl)
    rw [ht, ht'.mpr]
    rw [hautus_reach]
    intro z v _ h2
    have := congrFun h2 0
    ext i
    rw [Subsingleton.elim i 0]
    simpa [mulVec, dotProduct] using this
  · obtain ⟨F, V, W, D', hR, h1, -⟩ := feedback_static (fun _ h => by cases h) h
    have hV : V.det = 0 := by
      by_contra hV
      exact h1.mpr hV rfl (by simp)
    subst hR
    obtain ⟨⟨t, ht, ht'⟩, -⟩ := C77_tests (A := !![-1] + !![1] * F * !![1]) (B := !![1] * V) (C := W * !![1]) h0.ge (fun _ _ M => hS M) one_pos one_pos one_pos
      (.state ⟨Arr.of (!![-1] + !![1] * F * !![1]), Arr.of (!![1] * V), Arr.of (W * !![1]), Arr.of D', none, false⟩ rfl rfl)
      (.state ⟨Arr.of (!![-1] + !![1] * F * !![1]), Arr.of (!![1] * V), Arr.of (W * !![1]), Arr.of D', none, false⟩ rfl rfl)
    rw [ht, show t = false from Bool.eq_false_iff.mpr ?_]
    intro htt
    have hr := ht'.mp htt
    exact not_reachable_zero _ _ (by rw [det_fin_one] at hV; simp [Matrix.mul_apply, hV]) hr

end Harold
