import Verif.Props.BodeIntegral

/-!
# C139: unstable poles near zeros in the region of instability
-/

namespace Harold

open Matrix Spec
open scoped Matrix.Norms.L2Operator

variable {n m : ℕ} {R : StateM ℝ} {γ p : ℝ} {s : ℂ} {dt : Option ℝ} {A : Matrix (Fin n) (Fin n) ℝ} {B : Matrix (Fin n) (Fin m) ℝ} {C : Matrix (Fin m) (Fin n) ℝ}

/-- The sensitivity vanishes at an unstable mode of all channels. -/
theorem mode_zero (hK : HasMode (stateOf A B C (0 : Matrix (Fin m) (Fin m) ℝ) dt) m p) (hp : (p • (1 : Matrix (Fin n) (Fin n) ℝ) - (A - B * C)).det ≠ 0) :
    ∃ Y : Matrix (Fin n) (Fin m) ℝ, (p • (1 : Matrix (Fin n) (Fin n) ℝ) - (A - B * C)) * Y = B ∧ C * Y = 1 := by
  obtain ⟨n', A', B', W, -, e1, e2, h1, h2⟩ := hK
  obtain rfl : n = n' := congrArg Arr.r e1
  obtain rfl := Arr.of_inj.mp e1
  obtain rfl := Arr.of_inj.mp e2
  have e : ∀ {a b : ℕ} (X : Matrix (Fin a) (Fin b) ℝ), X.map (algebraMap ℝ ℝ) = X := fun X => by ext i j; simp
  rw [e] at h1 h2
  have h3 : (p • (1 : Matrix (Fin n) (Fin n) ℝ) - (A - B * C)) * ((p • (1 : Matrix (Fin n) (Fin n) ℝ) - (A - B * C))⁻¹ * B) = B := by
    rw [← Matrix.mul_assoc, mul_nonsing_inv _ (Ne.isUnit hp), Matrix.one_mul]
  refine ⟨_, h3, ?_⟩
  generalize (p • (1 : Matrix (Fin n) (Fin n) ℝ) - (A - B * C))⁻¹ * B = Y at h3
  have h4 : W * B * (C * Y) = W * B * 1 := by
    have h5 : W * (p • (1 : Matrix (Fin n) (Fin n) ℝ) - (A - B * C)) = W * B * C := by
      rw [Matrix.mul_sub, Matrix.mul_sub, Matrix.mul_smul, Matrix.mul_one, h1, sub_sub_cancel, Matrix.mul_assoc]
    rw [← Matrix.mul_assoc, ← h5, Matrix.mul_assoc, h3, Matrix.mul_one]
  rw [← nonsing_inv_mul_cancel_left (W * B) (C * Y) (Ne.isUnit h2), h4, nonsing_inv_mul_cancel_left _ _ (Ne.isUnit h2)]

/-- A transfer matrix that vanishes at a real point, multiplied with a factor that has its pole there, is the transfer matrix of a model with the same state matrix. -/
theorem zero_divided {F : Matrix (Fin n) (Fin n) ℝ} {Y : Matrix (Fin n) (Fin m) ℝ} {D : Matrix (Fin m) (Fin m) ℝ} (h1 : (p • (1 : Matrix (Fin n) (Fin n) ℝ) - F) * Y = B) (h2 : C * Y + D = 0) (α β : ℝ)
    (hs : s ≠ p) {N : Matrix (Fin m) (Fin m) ℂ} (hN : HasTF (stateOf F B C D dt) m m s N) :
    HasTF (stateOf F (α • B - β • Y) C (α • D) dt) m m s ((α + β / (s - p) : ℂ) • N) := by
  obtain ⟨h3, X, h4, h5⟩ := isTF_iff_sol.mp (hasTF_stateOf.mp hN)
  have hsp : s - p ≠ 0 := sub_ne_zero.mpr hs
  have e1 : ((p : ℂ) • (1 : Matrix (Fin n) (Fin n) ℂ) - F.map (algebraMap ℝ ℂ)) * Y.map (algebraMap ℝ ℂ) = B.map (algebraMap ℝ ℂ) := by
    rw [← h1, map_mul']
    congr 1
    ext i j
    by_cases hij : i = j <;> simp [hij]
  have e2 : D.map (algebraMap ℝ ℂ) = -(C.map (algebraMap ℝ ℂ) * Y.map (algebraMap ℝ ℂ)) := by
    rw [← map_mul', eq_neg_of_add_eq_zero_right h2]
    ext i j; simp
  have e3 : (α • B - β • Y).map (algebraMap ℝ ℂ) = (α : ℂ) • B.map (algebraMap ℝ ℂ) - (β : ℂ) • Y.map (algebraMap ℝ ℂ) := by
    ext i j; simp
  have e4 : (α • D).map (algebraMap ℝ ℂ) = (α : ℂ) • D.map (algebraMap ℝ ℂ) := by
    ext i j; simp
  refine hasTF_stateOf.mpr (isTF_iff_sol.mpr ⟨h3, (α : ℂ) • X - ((β : ℂ) / (s - p)) • (Y.map (algebraMap ℝ ℂ) - X), ?_, ?_⟩)
  · have h6 : (s • (1 : Matrix (Fin n) (Fin n) ℂ) - F.map (algebraMap ℝ ℂ)) * (Y.map (algebraMap ℝ ℂ) - X) = (s - p) • Y.map (algebraMap ℝ ℂ) := by
      rw [Matrix.mul_sub, h4, ← e1, ← Matrix.sub_mul, sub_sub_sub_cancel_right, ← sub_smul, smul_mul, Matrix.one_mul]
    rw [Matrix.mul_sub, Matrix.mul_smul, Matrix.mul_smul, h4, h6, smul_smul, div_mul_cancel₀ _ hsp, e3]
  · rw [e4, h5, e2, Matrix.mul_sub, Matrix.mul_smul, Matrix.mul_smul, Matrix.mul_sub, add_smul]
    module

/-- The bound of the sensitivity from a mode and a zero, for a factor of modulus one on the boundary of the region of stability. -/
theorem pole_zero (hdt : DtOk dt) (hR : feedback (.state (unity m dt)) (.state (stateOf A B C 0 dt)) true = .ok R) (hst : StableModel R) (hK : HasMode (stateOf A B C (0 : Matrix (Fin m) (Fin m) ℝ) dt) m p)
    (hp : ¬ StablePoint dt (p : ℂ)) {α β : ℝ} (hα : ∀ ω, evalPoint dt ω ≠ p ∧ ‖(α + β / (evalPoint dt ω - p) : ℂ)‖ = 1) (hs : ¬ StablePoint dt s) {M : Matrix (Fin m) (Fin m) ℂ}
    (hM : HasTF (stateOf A B C (0 : Matrix (Fin m) (Fin m) ℝ) dt) m m s M) {v : Fin m → ℂ} (hv : M *ᵥ v = 0) (hv0 : v ≠ 0) (hγ : GainBound R m m γ) : ‖(α + β / (s - p) : ℂ)‖ ≤ γ := by
  obtain ⟨N, h1, h2⟩ := C139_sensitivity (G := stateOf A B C (0 : Matrix (Fin m) (Fin m) ℝ) dt) rfl hdt hR hst hs hM hv
  have hF := (sensitivity_stable hdt hR).mp hst
  have hdet : (p • (1 : Matrix (Fin n) (Fin n) ℝ) - (A - B * C)).det ≠ 0 := fun h0 => hp ((motions_iff.mp hF) p (by
    have e2 : (p : ℂ) • (1 : Matrix (Fin n) (Fin n) ℂ) - (A - B * C).map (algebraMap ℝ ℂ) = (p • (1 : Matrix (Fin n) (Fin n) ℝ) - (A - B * C)).map (algebraMap ℝ ℂ) := by
      ext i j
      by_cases hij : i = j <;> simp [hij]
    unfold IsEig
    rw [e2, ← RingHom.mapMatrix_apply, ← RingHom.map_det, h0, map_zero]))
  obtain ⟨Y, h3, h4⟩ := mode_zero hK hdet
  have hsp : s ≠ p := by
    rintro rfl
    obtain ⟨n', A', B', W, -, e1, e2, h5, h6⟩ := hK
    obtain rfl : n = n' := congrArg Arr.r e1
    obtain rfl := Arr.of_inj.mp e1
    obtain rfl := Arr.of_inj.mp e2
    have e : ∀ {a b : ℕ} (X : Matrix (Fin a) (Fin b) ℝ), X.map (algebraMap ℝ ℝ) = X := fun X => by ext i j; simp
    rw [e] at h5 h6
    have h7 := (hasTF_stateOf.mp hM).1
    have e2 : (p : ℂ) • (1 : Matrix (Fin n) (Fin n) ℂ) - A.map (algebraMap ℝ ℂ) = (p • (1 : Matrix (Fin n) (Fin n) ℝ) - A).map (algebraMap ℝ ℂ) := by
      ext i j
      by_cases hij : i = j <;> simp [hij]
    rw [e2, ← RingHom.mapMatrix_apply, ← RingHom.map_det] at h7
    have h8 : (p • (1 : Matrix (Fin n) (Fin n) ℝ) - A).det ≠ 0 := fun h0 => h7 (by rw [h0, map_zero])
    have h9 : W * (p • (1 : Matrix (Fin n) (Fin n) ℝ) - A) = 0 := by rw [Matrix.mul_sub, Matrix.mul_smul, Matrix.mul_one, h5, sub_self]
    have h10 : W = 0 := by
      have := congrArg (· * (p • (1 : Matrix (Fin n) (Fin n) ℝ) - A)⁻¹) h9
      simpa only [Matrix.mul_assoc, mul_nonsing_inv _ (Ne.isUnit h8), Matrix.mul_one, Matrix.zero_mul] using this
    obtain ⟨i, -⟩ := Function.ne_iff.mp hv0
    have : Nonempty (Fin m) := ⟨i⟩
    exact h6 (by rw [h10, Matrix.zero_mul, det_zero])
  obtain rfl := sensitivity_model hdt hR
  have hγT : GainBound (stateOf (A - B * C) (α • B - β • Y) (-C) (α • (1 : Matrix (Fin m) (Fin m) ℝ)) dt) m m γ := fun ω => by
    obtain ⟨N', h5, h6⟩ := hγ ω
    refine ⟨_, zero_divided (D := 1) h3 (by rw [Matrix.neg_mul, h4, neg_add_cancel]) α β (hα ω).1 h5, ?_⟩
    refine (norm_smul_le _ _).trans ?_
    have h7 : ‖(α + β / (evalPoint dt ω - p) : ℂ)‖ = 1 := (hα ω).2
    rw [h7, one_mul]
    exact h6
  obtain ⟨T, h5, h6⟩ := gain_outside (G := stateOf (A - B * C) (α • B - β • Y) (-C) (α • (1 : Matrix (Fin m) (Fin m) ℝ)) dt) ⟨⟨rfl, rfl⟩, fun _ => ⟨rfl, rfl, rfl, rfl, rfl⟩⟩ hdt (Or.inr ⟨n, _, rfl, hF⟩) hγT hs
  obtain rfl := HasTF_unique (zero_divided (D := 1) h3 (by rw [Matrix.neg_mul, h4, neg_add_cancel]) α β hsp h1) h5
  have h7 := opNorm_fix (M := (α + β / (s - p) : ℂ) • N) (v := v)
  rw [smul_mulVec, h2, WithLp.toLp_smul, norm_smul] at h7
  have h8 : 0 < ‖(WithLp.toLp 2 v : EuclideanSpace ℂ (Fin m))‖ := norm_pos_iff.mpr (by simpa using hv0)
  exact (le_of_mul_le_mul_right h7 h8).trans h6

theorem factor_continuous {z : ℂ} (hz : z ≠ p) : ((1 : ℝ) + (2 * p : ℝ) / (z - p) : ℂ) = (z + p) / (z - p) := by
  have := sub_ne_zero.mpr hz
  push_cast
  field_simp
  ring

theorem factor_discrete {z : ℂ} (hz : z ≠ p) : ((-p : ℝ) + (1 - p ^ 2 : ℝ) / (z - p) : ℂ) = (1 - p * z) / (z - p) := by
  have := sub_ne_zero.mpr hz
  push_cast
  field_simp
  ring

theorem factor_boundary (hp : 0 < p) (ω : ℝ) : evalPoint none ω ≠ p ∧ ‖((1 : ℝ) + (2 * p : ℝ) / (evalPoint none ω - p) : ℂ)‖ = 1 := by
  have hne : evalPoint none ω ≠ p := fun h => by
    have := congrArg Complex.re h
    simp [evalPoint] at this
    exact hp.ne this
  refine ⟨hne, ?_⟩
  rw [factor_continuous hne, norm_div, div_eq_one_iff_eq (norm_ne_zero_iff.mpr (sub_ne_zero.mpr hne))]
  have h2 : evalPoint none ω = Complex.I * ω := rfl
  rw [h2, ← Complex.norm_conj, ← norm_neg (Complex.I * ω - p)]
  congr 1
  simp
  ring

theorem factor_circle {h : ℝ} (hp : 1 < |p|) (ω : ℝ) : evalPoint (some h) ω ≠ p ∧ ‖((-p : ℝ) + (1 - p ^ 2 : ℝ) / (evalPoint (some h) ω - p) : ℂ)‖ = 1 := by
  have h3 : ‖evalPoint (some h) ω‖ = 1 := by
    have : evalPoint (some h) ω = Complex.exp ((ω * h : ℝ) * Complex.I) := by simp [evalPoint, mul_comm]
    rw [this, Complex.norm_exp_ofReal_mul_I]
  have hne : evalPoint (some h) ω ≠ p := fun h0 => by
    rw [h0, Complex.norm_real, Real.norm_eq_abs] at h3
    linarith
  refine ⟨hne, ?_⟩
  rw [factor_discrete hne, norm_div, div_eq_one_iff_eq (norm_ne_zero_iff.mpr (sub_ne_zero.mpr hne))]
  generalize evalPoint (some h) ω = z at h3
  have h4 : z * (starRingEnd ℂ) z = 1 := by rw [Complex.mul_conj, Complex.normSq_eq_norm_sq, h3]; norm_num
  have h5 : (1 - p * z : ℂ) = z * (starRingEnd ℂ) (z - p) := by
    rw [map_sub, mul_sub, h4, Complex.conj_ofReal]
    ring
  rw [h5, norm_mul, h3, one_mul, Complex.norm_conj]

/-- **C139**, poles near zeros, continuous models: if all channels of the open loop have the unstable mode `p > 0` and the open loop has the zero `s` in the closed right half plane, the sensitivity function
`feedback(1, G)` of every stable loop has a gain of at least `|(s + p) / (s - p)|` at some frequency. -/
theorem C139_pole_zero (hR : feedback (.state (unity m none)) (.state (stateOf A B C 0 none)) true = .ok R) (hst : StableModel R) (hK : HasMode (stateOf A B C (0 : Matrix (Fin m) (Fin m) ℝ) none) m p)
    (hp : 0 < p) (hs : 0 ≤ s.re) {M : Matrix (Fin m) (Fin m) ℂ} (hM : HasTF (stateOf A B C (0 : Matrix (Fin m) (Fin m) ℝ) none) m m s M) {v : Fin m → ℂ} (hv : M *ᵥ v = 0) (hv0 : v ≠ 0)
    (hγ : GainBound R m m γ) : ‖(s + p) / (s - p)‖ ≤ γ := by
  have h1 := pole_zero (dt := none) (fun t h => by cases h) hR hst hK (by simp [StablePoint, hp.le]) (factor_boundary hp) (by simpa [StablePoint] using hs) hM hv hv0 hγ
  rcases eq_or_ne s p with rfl | h
  · rw [sub_self, div_zero, norm_zero]
    exact (norm_nonneg _).trans h1
  · rwa [factor_continuous h] at h1

/-- **C139**, poles near zeros, discrete models: if all channels of the open loop have the real mode `p` outside the unit disc and the open loop has the zero `s` with `|s| ≥ 1`, the sensitivity function of every stable
loop has a gain of at least `|(1 - p s) / (s - p)|` at some frequency. -/
theorem C139_pole_zero_discrete {h : ℝ} (hh : 0 < h) (hR : feedback (.state (unity m (some h))) (.state (stateOf A B C 0 (some h))) true = .ok R) (hst : StableModel R)
    (hK : HasMode (stateOf A B C (0 : Matrix (Fin m) (Fin m) ℝ) (some h)) m p) (hp : 1 < |p|) (hs : 1 ≤ ‖s‖) {M : Matrix (Fin m) (Fin m) ℂ}
    (hM : HasTF (stateOf A B C (0 : Matrix (Fin m) (Fin m) ℝ) (some h)) m m s M) {v : Fin m → ℂ} (hv : M *ᵥ v = 0) (hv0 : v ≠ 0) (hγ : GainBound R m m γ) : ‖(1 - p * s) / (s - p)‖ ≤ γ := by
  have h1 := pole_zero (dt := some h) (fun t ht => by cases ht; exact hh) hR hst hK (by simp [StablePoint, hp.le]) (factor_circle hp) (by simpa [StablePoint] using hs) hM hv hv0 hγ
  rcases eq_or_ne s p with rfl | h2
  · rw [sub_self, div_zero, norm_zero]
    exact (norm_nonneg _).trans h1
  · rwa [factor_discrete h2] at h1

/-- The matrices of `feedback(G, 1)`. -/
theorem complementary_model (hdt : DtOk dt) (hR : feedback (.state (stateOf A B C 0 dt)) (.state (unity m dt)) true = .ok R) : R = stateOf (A - B * C) B C 0 dt := by
  have hG : Consistent (stateOf A B C (0 : Matrix (Fin m) (Fin m) ℝ) dt) m m := ⟨⟨rfl, rfl⟩, fun _ => ⟨rfl, rfl, rfl, rfl, rfl⟩⟩
  obtain ⟨-, -, h3⟩ := feedback_result hG (unity_consistent m dt) hdt hR
  obtain ⟨h4, h5⟩ := h3 0 1 rfl rfl
  unfold unity stateOf at h5
  rw [closeBody_ds hdt _ _ _ _ _ _ _ _ _ _ h4] at h5
  rw [← Except.ok.inj h5, show (fbSign true : ℝ) = -1 from rfl]
  simp [stateOf, ← sub_eq_add_neg]

/-- The bound of the complementary sensitivity from a real zero of all channels and a mode, for a factor of modulus one on the boundary of the region of stability. -/
theorem zero_pole (hm : 1 ≤ m) (hdt : DtOk dt) (hR : feedback (.state (stateOf A B C 0 dt)) (.state (unity m dt)) true = .ok R) (hst : StableModel R)
    (hK : HasMode (stateOf A B C (0 : Matrix (Fin m) (Fin m) ℝ) dt) m s) (hs : ¬ StablePoint dt s) (hp : HasTF (stateOf A B C (0 : Matrix (Fin m) (Fin m) ℝ) dt) m m p (0 : Matrix (Fin m) (Fin m) ℝ))
    {α β : ℝ} (hα : ∀ ω, evalPoint dt ω ≠ p ∧ ‖(α + β / (evalPoint dt ω - p) : ℂ)‖ = 1) (hγ : GainBound R m m γ) (hsp : s ≠ p) : ‖(α + β / (s - p) : ℂ)‖ ≤ γ := by
  have hG : Consistent (stateOf A B C (0 : Matrix (Fin m) (Fin m) ℝ) dt) m m := ⟨⟨rfl, rfl⟩, fun _ => ⟨rfl, rfl, rfl, rfl, rfl⟩⟩
  have h1 := (C139_complementary_peak hm hG rfl hdt hK hs hR hst hγ).1
  have hF := (unity_loop_stable hdt hR).mp hst
  obtain rfl := complementary_model hdt hR
  obtain ⟨-, Y, h3, h4⟩ := isTF_iff_sol.mp (hasTF_dyn' hp)
  have e : ∀ {a b : ℕ} (X : Matrix (Fin a) (Fin b) ℝ), X.map (algebraMap ℝ ℝ) = X := fun X => by ext i j; simp
  rw [e, e] at h3
  rw [e, e, add_zero] at h4
  have h5 : (p • (1 : Matrix (Fin n) (Fin n) ℝ) - (A - B * C)) * Y = B := by
    rw [← sub_add, Matrix.add_mul, h3, Matrix.mul_assoc, ← h4, Matrix.mul_zero, add_zero]
  have h6 : C * Y + 0 = 0 := by rw [← h4, add_zero]
  have hγT : GainBound (stateOf (A - B * C) (α • B - β • Y) C (α • (0 : Matrix (Fin m) (Fin m) ℝ)) dt) m m γ := fun ω => by
    obtain ⟨N', h7, h8⟩ := hγ ω
    refine ⟨_, zero_divided h5 h6 α β (hα ω).1 h7, (norm_smul_le _ _).trans ?_⟩
    have h9 : ‖(α + β / (evalPoint dt ω - p) : ℂ)‖ = 1 := (hα ω).2
    rw [h9, one_mul]
    exact h8
  obtain ⟨T, h7, h8⟩ := gain_outside (G := stateOf (A - B * C) (α • B - β • Y) C (α • (0 : Matrix (Fin m) (Fin m) ℝ)) dt) ⟨⟨rfl, rfl⟩, fun _ => ⟨rfl, rfl, rfl, rfl, rfl⟩⟩ hdt (Or.inr ⟨n, _, rfl, hF⟩) hγT hs
  obtain rfl := HasTF_unique (zero_divided h5 h6 α β hsp h1) h7
  have : Nonempty (Fin m) := ⟨⟨0, hm⟩⟩
  rw [norm_smul, norm_one, mul_one] at h8
  exact h8

/-- **C139**, zeros near poles, continuous models: if the open loop vanishes at `p > 0` and all its channels have the mode `s` in the closed right half plane, the complementary sensitivity function `feedback(G, 1)` of
every stable loop has a gain of at least `|(s + p) / (s - p)|` at some frequency. -/
theorem C139_zero_pole (hm : 1 ≤ m) (hR : feedback (.state (stateOf A B C 0 none)) (.state (unity m none)) true = .ok R) (hst : StableModel R)
    (hK : HasMode (stateOf A B C (0 : Matrix (Fin m) (Fin m) ℝ) none) m s) (hs : 0 ≤ s.re) (hp0 : 0 < p)
    (hp : HasTF (stateOf A B C (0 : Matrix (Fin m) (Fin m) ℝ) none) m m p (0 : Matrix (Fin m) (Fin m) ℝ)) (hγ : GainBound R m m γ) : ‖(s + p) / (s - p)‖ ≤ γ := by
  rcases eq_or_ne s p with rfl | hsp
  · obtain ⟨N, -, h⟩ := hγ 0
    rw [sub_self, div_zero, norm_zero]
    exact (norm_nonneg N).trans h
  · rw [← factor_continuous hsp]
    exact zero_pole hm (fun t h => by cases h) hR hst hK (by simpa [StablePoint] using hs) hp (factor_boundary hp0) hγ hsp

/-- **C139**, zeros near poles, discrete models. -/
theorem C139_zero_pole_discrete {h : ℝ} (hm : 1 ≤ m) (hh : 0 < h) (hR : feedback (.state (stateOf A B C 0 (some h))) (.state (unity m (some h))) true = .ok R) (hst : StableModel R)
    (hK : HasMode (stateOf A B C (0 : Matrix (Fin m) (Fin m) ℝ) (some h)) m s) (hs : 1 ≤ ‖s‖) (hp1 : 1 < |p|)
    (hp : HasTF (stateOf A B C (0 : Matrix (Fin m) (Fin m) ℝ) (some h)) m m p (0 : Matrix (Fin m) (Fin m) ℝ)) (hγ : GainBound R m m γ) : ‖(1 - p * s) / (s - p)‖ ≤ γ := by
  rcases eq_or_ne s p with rfl | hsp
  · obtain ⟨N, -, h⟩ := hγ 0
    rw [sub_self, div_zero, norm_zero]
    exact (norm_nonneg N).trans h
  · rw [← factor_discrete hsp]
    exact zero_pole hm (fun t ht => by cases ht; exact hh) hR hst hK (by simpa [StablePoint] using hs) hp (factor_circle hp1) hγ hsp

/-- The open loop `-4 (s - 2) / ((s - 1) (s + 7))` has the pole 1 and the zero 2; its loop is stable, and its sensitivity has a gain of at least three at some frequency. -/
example : ∃ R, feedback (.state (unity 1 none)) (.state (stateOf !![-6, 7; 1, 0] !![1; 0] !![-4, 8] (0 : Matrix (Fin 1) (Fin 1) ℝ) none)) true = .ok R ∧ StableModel R ∧ ∀ γ, GainBound R 1 1 γ → 3 ≤ γ := by
  obtain ⟨R, hR⟩ := sensitivity_exists (A := !![-6, 7; 1, 0]) (B := !![1; 0]) (C := !![-4, 8]) (dt := none) (fun t h => by cases h) (m := 1) (by norm_num [spacing10])
  have hst : StableModel R := (sensitivity_stable (fun t h => by cases h) hR).mpr ((motions_iff (dt := none)).mpr fun z hz => by
    unfold IsEig at hz
    have hz' : (z + 1) ^ 2 = 0 := by
      rw [← hz]
      simp [det_fin_two, Matrix.mul_apply]
      ring
    have h1 : z = -1 := eq_neg_of_add_eq_zero_left (pow_eq_zero_iff two_ne_zero |>.mp hz')
    simp [StablePoint, h1])
  refine ⟨R, hR, hst, fun γ hγ => ?_⟩
  have := C139_pole_zero (p := 1) (s := 2) (M := 0) (v := fun _ => 1) hR hst ⟨2, !![-6, 7; 1, 0], !![1; 0], !![1, 7], rfl, rfl, rfl, ?_, ?_⟩ one_pos (by simp) ?_ (by simp) (fun h => one_ne_zero (congrFun h 0)) hγ
  · norm_num at this
    exact this
  · ext i j
    fin_cases i; fin_cases j <;> norm_num [Matrix.mul_apply, Fin.sum_univ_two]
  · simp [Matrix.mul_apply, Fin.sum_univ_two, det_fin_one]
  · refine hasTF_stateOf.mpr (isTF_iff_sol.mpr ⟨by norm_num [det_fin_two], !![2 / 9; 1 / 9], ?_, ?_⟩)
    · ext i j
      fin_cases i <;> fin_cases j <;> norm_num [Matrix.mul_apply, Fin.sum_univ_two, Matrix.one_apply]
    · ext i j
      fin_cases i; fin_cases j
      norm_num [Matrix.mul_apply, Fin.sum_univ_two]

/-- The open loop `-4 (z - 3) / ((z - 2) (z + 6))` has the pole 2 and the zero 3; its loop is stable, and its sensitivity has a gain of at least five at some frequency. -/
example : ∃ R, feedback (.state (unity 1 (some 1))) (.state (stateOf !![-4, 12; 1, 0] !![1; 0] !![-4, 12] (0 : Matrix (Fin 1) (Fin 1) ℝ) (some 1))) true = .ok R ∧ StableModel R ∧
    ∀ γ, GainBound R 1 1 γ → 5 ≤ γ := by
  obtain ⟨R, hR⟩ := sensitivity_exists (A := !![-4, 12; 1, 0]) (B := !![1; 0]) (C := !![-4, 12]) dtOk_one (m := 1) (by norm_num [spacing10])
  have hst : StableModel R := (sensitivity_stable dtOk_one hR).mpr ((motions_iff (dt := some 1)).mpr fun z hz => by
    unfold IsEig at hz
    have hz' : z ^ 2 = 0 := by
      rw [← hz]
      simp [det_fin_two, Matrix.mul_apply]
      ring
    have h1 : z = 0 := pow_eq_zero_iff two_ne_zero |>.mp hz'
    simp [StablePoint, h1])
  refine ⟨R, hR, hst, fun γ hγ => ?_⟩
  have := C139_pole_zero_discrete (p := 2) (s := 3) (M := 0) (v := fun _ => 1) one_pos hR hst ⟨2, !![-4, 12; 1, 0], !![1; 0], !![1, 6], rfl, rfl, rfl, ?_, ?_⟩ (by norm_num) (by simp) ?_ (by simp) (fun h => one_ne_zero (congrFun h 0)) hγ
  · norm_num at this
    exact this
  · ext i j
    fin_cases i; fin_cases j <;> norm_num [Matrix.mul_apply, Fin.sum_univ_two]
  · simp [Matrix.mul_apply, Fin.sum_univ_two, det_fin_one]
  · refine hasTF_stateOf.mpr (isTF_iff_sol.mpr ⟨by norm_num [det_fin_two], !![1 / 3; 1 / 9], ?_, ?_⟩)
    · ext i j
      fin_cases i <;> fin_cases j <;> norm_num [Matrix.mul_apply, Fin.sum_univ_two, Matrix.one_apply]
    · ext i j
      fin_cases i; fin_cases j
      norm_num [Matrix.mul_apply, Fin.sum_univ_two]

/-- The complementary sensitivity of the loop of `-4 (s - 2) / ((s - 1) (s + 7))` has a gain of at least three at some frequency. -/
example : ∃ R, feedback (.state (stateOf !![-6, 7; 1, 0] !![1; 0] !![-4, 8] (0 : Matrix (Fin 1) (Fin 1) ℝ) none)) (.state (unity 1 none)) true = .ok R ∧ StableModel R ∧ ∀ γ, GainBound R 1 1 γ → 3 ≤ γ := by
  have hG : Consistent (stateOf !![-6, 7; 1, 0] !![1; 0] !![-4, 8] (0 : Matrix (Fin 1) (Fin 1) ℝ) none) 1 1 := ⟨⟨rfl, rfl⟩, fun _ => ⟨rfl, rfl, rfl, rfl, rfl⟩⟩
  obtain ⟨R, hR⟩ := feedback_exists hG (unity_consistent 1 none) (fun t h => by cases h) rfl rfl rfl (E := 1) rfl (Matrix.mul_zero _) (by norm_num [spacing10]) true
  have hst : StableModel R := (unity_loop_stable (fun t h => by cases h) hR).mpr ((motions_iff (dt := none)).mpr fun z hz => by
    unfold IsEig at hz
    have hz' : (z + 1) ^ 2 = 0 := by
      rw [← hz]
      simp [det_fin_two, Matrix.mul_apply]
      ring
    have h1 : z = -1 := eq_neg_of_add_eq_zero_left (pow_eq_zero_iff two_ne_zero |>.mp hz')
    simp [StablePoint, h1])
  refine ⟨R, hR, hst, fun γ hγ => ?_⟩
  have := C139_zero_pole (p := 2) (s := 1) le_rfl hR hst ⟨2, !![-6, 7; 1, 0], !![1; 0], !![1, 7], rfl, rfl, rfl, ?_, ?_⟩ (by simp) (by norm_num) ?_ hγ
  · norm_num at this
    exact this
  · ext i j
    fin_cases i; fin_cases j <;> norm_num [Matrix.mul_apply, Fin.sum_univ_two]
  · rw [det_fin_one, Matrix.mul_apply, Fin.sum_univ_two]
    simp
  · refine Or.inr ⟨rfl, 2, _, _, _, _, rfl, rfl, rfl, rfl, isTF_iff_sol.mpr ⟨by norm_num [det_fin_two], !![2 / 9; 1 / 9], ?_, ?_⟩⟩
    · ext i j
      fin_cases i <;> fin_cases j <;> norm_num [Matrix.mul_apply, Fin.sum_univ_two, Matrix.one_apply]
    · ext i j
      fin_cases i; fin_cases j
      norm_num [Matrix.mul_apply, Fin.sum_univ_two]

/-- The complementary sensitivity of the loop of `-4 (z - 3) / ((z - 2) (z + 6))` has a gain of at least five at some frequency. -/
example : ∃ R, feedback (.state (stateOf !![-4, 12; 1, 0] !![1; 0] !![-4, 12] (0 : Matrix (Fin 1) (Fin 1) ℝ) (some 1))) (.state (unity 1 (some 1))) true = .ok R ∧ StableModel R ∧ ∀ γ, GainBound R 1 1 γ → 5 ≤ γ := by
  have hG : Consistent (stateOf !![-4, 12; 1, 0] !![1; 0] !![-4, 12] (0 : Matrix (Fin 1) (Fin 1) ℝ) (some 1)) 1 1 := ⟨⟨rfl, rfl⟩, fun _ => ⟨rfl, rfl, rfl, rfl, rfl⟩⟩
  obtain ⟨R, hR⟩ := feedback_exists hG (unity_consistent 1 (some 1)) dtOk_one rfl rfl rfl (E := 1) rfl (Matrix.mul_zero _) (by norm_num [spacing10]) true
  have hst : StableModel R := (unity_loop_stable dtOk_one hR).mpr ((motions_iff (dt := (some 1))).mpr fun z hz => by
    unfold IsEig at hz
    have hz' : z ^ 2 = 0 := by
      rw [← hz]
      simp [det_fin_two, Matrix.mul_apply]
      ring
    have h1 : z = 0 := pow_eq_zero_iff two_ne_zero |>.mp hz'
    simp [StablePoint, h1])
  refine ⟨R, hR, hst, fun γ hγ => ?_⟩
  have := C139_zero_pole_discrete (p := 3) (s := 2) le_rfl one_pos hR hst ⟨2, !![-4, 12; 1, 0], !![1; 0], !![1, 6], rfl, rfl, rfl, ?_, ?_⟩ (by simp) (by norm_num) ?_ hγ
  · norm_num at this
    exact this
  · ext i j
    fin_cases i; fin_cases j <;> norm_num [Matrix.mul_apply, Fin.sum_univ_two]
  · rw [det_fin_one, Matrix.mul_apply, Fin.sum_univ_two]
    simp
  · refine Or.inr ⟨rfl, 2, _, _, _, _, rfl, rfl, rfl, rfl, isTF_iff_sol.mpr ⟨by norm_num [det_fin_two], !![1 / 3; 1 / 9], ?_, ?_⟩⟩
    · ext i j
      fin_cases i <;> fin_cases j <;> norm_num [Matrix.mul_apply, Fin.sum_univ_two, Matrix.one_apply]
    · ext i j
      fin_cases i; fin_cases j
      norm_num [Matrix.mul_apply, Fin.sum_univ_two]

end Harold
