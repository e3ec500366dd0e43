import Verif.Props.SmallGain
import Verif.Props.Integral
import Verif.Props.ZTransform
import Verif.Props.GainOps

/-!
# C139: limits of feedback
-/

namespace Harold

open Matrix Spec Filter Topology
open scoped Matrix.Norms.L2Operator

variable {n m p q : ℕ} {G R W Q : StateM ℝ} {γ : ℝ} {s : ℂ}

/-- **C139**: the largest gain of a stable model over all frequencies bounds its gain at every point of the region of instability. -/
theorem C139_maximum (hc : Consistent G p m) (hdt : DtOk G.dt) (hst : StableModel G) (hγ : GainBound G p m γ) (hs : ¬ StablePoint G.dt s) :
    ∃ M : Matrix (Fin p) (Fin m) ℂ, HasTF G p m s M ∧ ‖M‖ ≤ γ := gain_outside hc hdt hst hγ hs

theorem unity_value (s : ℂ) (dt : Option ℝ) : HasTF (unity m dt) m m s (1 : Matrix (Fin m) (Fin m) ℂ) := Or.inl ⟨rfl, 1, rfl, by ext i j; simp [Matrix.one_apply, apply_ite]⟩

/-- A stable model has a value at every point of the region of instability. -/
theorem stable_value (hc : Consistent G p m) (hst : StableModel G) (hs : ¬ StablePoint G.dt s) : ∃ M : Matrix (Fin p) (Fin m) ℂ, HasTF G p m s M := by
  have hchar := (stable_iff_char hc).mp hst
  obtain ⟨a, b, c, D, dt, rfl⟩ | ⟨n, A, B, C, D, dt, rfl⟩ := consistent_cases hc
  · exact ⟨_, Or.inl ⟨rfl, D, rfl, rfl⟩⟩
  · refine ⟨_, hasTF_stateOf.mpr ⟨fun h0 => hs (hchar s (Or.inr ⟨rfl, n, A, rfl, h0.symm⟩)), rfl⟩⟩

/-- **C139**, zeros of the open loop: if `G(s) v = 0` at a point `s` of the region of instability, the sensitivity function `feedback(1, G)` of a stable loop satisfies `S(s) v = v`, whatever the controller in `G` is. -/
theorem C139_sensitivity (hGd : G.d = Arr.of (0 : Matrix (Fin m) (Fin m) ℝ)) (hdt : DtOk G.dt) (e : feedback (.state (unity m G.dt)) (.state G) true = .ok R) (hst : StableModel R)
    (hs : ¬ StablePoint G.dt s) {M : Matrix (Fin m) (Fin m) ℂ} (hM : HasTF G m m s M) {v : Fin m → ℂ} (hv : M *ᵥ v = 0) :
    ∃ N : Matrix (Fin m) (Fin m) ℂ, HasTF R m m s N ∧ N *ᵥ v = v := by
  have hu := unity_value (m := m) s G.dt
  have hdt' : DtOk (unity m G.dt).dt := hdt
  obtain ⟨hcR, hRdt, -⟩ := feedback_result (hasTF_consistent hu) (hasTF_consistent hM) hdt' e
  have hdet := (C99_response_partial hdt' e 1 0 rfl hGd (Or.inr (Matrix.zero_mul _)) hu hM).mp (stable_value hcR hst (by rw [hRdt]; exact hs))
  obtain ⟨h1, -⟩ := loop_value hu hM hdt' (fun _ X Y _ hY => by
    rw [hGd, Arr.of_inj] at hY
    rw [← hY, Matrix.zero_mul]) hdet e
  refine ⟨_, h1, ?_⟩
  rw [if_pos rfl, Matrix.mul_one, neg_one_smul, sub_neg_eq_add] at hdet ⊢
  rw [Matrix.one_mul]
  have e1 : (1 + M) *ᵥ v = v := by rw [add_mulVec, one_mulVec, hv, add_zero]
  conv_lhs => rw [← e1]
  rw [mulVec_mulVec, nonsing_inv_mul _ (Ne.isUnit hdet), one_mulVec]

theorem opNorm_fix {M : Matrix (Fin p) (Fin m) ℂ} {v : Fin m → ℂ} : ‖(WithLp.toLp 2 (M *ᵥ v) : EuclideanSpace ℂ (Fin p))‖ ≤ ‖M‖ * ‖(WithLp.toLp 2 v : EuclideanSpace ℂ (Fin m))‖ :=
  l2_opNorm_mulVec M (WithLp.toLp 2 v)

/-- **C139**, the peak of the sensitivity: if the open loop has a zero in the region of instability, no stable loop has a sensitivity function with a gain below one at all frequencies. -/
theorem C139_sensitivity_peak (hGd : G.d = Arr.of (0 : Matrix (Fin m) (Fin m) ℝ)) (hdt : DtOk G.dt) (e : feedback (.state (unity m G.dt)) (.state G) true = .ok R) (hst : StableModel R)
    (hs : ¬ StablePoint G.dt s) {M : Matrix (Fin m) (Fin m) ℂ} (hM : HasTF G m m s M) {v : Fin m → ℂ} (hv : M *ᵥ v = 0) (hv0 : v ≠ 0) (hγ : GainBound R m m γ) : 1 ≤ γ := by
  obtain ⟨N, h1, h2⟩ := C139_sensitivity hGd hdt e hst hs hM hv
  obtain ⟨hcR, hRdt, -⟩ := feedback_result (hasTF_consistent (unity_value (m := m) s G.dt)) (hasTF_consistent hM) hdt e
  have hRdt' : R.dt = G.dt := hRdt
  obtain ⟨N', h3, h4⟩ := gain_outside hcR (by rw [hRdt']; exact hdt) hst hγ (by rw [hRdt']; exact hs)
  obtain rfl := HasTF_unique h1 h3
  have h5 := opNorm_fix (M := N) (v := v)
  rw [h2] at h5
  have h6 : 0 < ‖(WithLp.toLp 2 v : EuclideanSpace ℂ (Fin m))‖ := norm_pos_iff.mpr (by simpa using hv0)
  exact ((le_mul_iff_one_le_left h6).mp h5).trans h4

/-- **C139**, weights: with a weight `W`, the gain of `W * S` is at least the gain of `W(s)` in the direction `v` of the zero. -/
theorem C139_weighted {fuel : ℕ} (hGd : G.d = Arr.of (0 : Matrix (Fin m) (Fin m) ℝ)) (hdt : DtOk G.dt) (e : feedback (.state (unity m G.dt)) (.state G) true = .ok R) (hst : StableModel R)
    (hs : ¬ StablePoint G.dt s) {M : Matrix (Fin m) (Fin m) ℂ} (hM : HasTF G m m s M) {v : Fin m → ℂ} (hv : M *ᵥ v = 0) (hW : W.dt = G.dt) {V : Matrix (Fin q) (Fin m) ℂ} (hV : HasTF W q m s V)
    (hQ : W.matmul (fuel + 1) R = .ok Q) (hsQ : StableModel Q) (hγ : GainBound Q q m γ) :
    ‖(WithLp.toLp 2 (V *ᵥ v) : EuclideanSpace ℂ (Fin q))‖ ≤ γ * ‖(WithLp.toLp 2 v : EuclideanSpace ℂ (Fin m))‖ := by
  obtain ⟨N, h1, h2⟩ := C139_sensitivity hGd hdt e hst hs hM hv
  obtain ⟨hcR, hRdt, -⟩ := feedback_result (hasTF_consistent (unity_value (m := m) s G.dt)) (hasTF_consistent hM) hdt e
  have hRdt' : R.dt = G.dt := hRdt
  obtain ⟨Q', h3, h4, h5⟩ := C17_matmul hV h1 (by rw [hW]; exact hdt) (hW.trans hRdt'.symm) fuel
  rw [hQ] at h3
  cases h3
  have hQdt : Q.dt = G.dt := h5.1.trans hW
  obtain ⟨N', h6, h7⟩ := gain_outside (hasTF_consistent h4) (by rw [hQdt]; exact hdt) hsQ hγ (by rw [hQdt]; exact hs)
  obtain rfl := HasTF_unique h4 h6
  have h8 := opNorm_fix (M := V * N) (v := v)
  rw [← mulVec_mulVec, h2] at h8
  exact h8.trans (mul_le_mul_of_nonneg_right h7 (norm_nonneg _))

/-- **C139**, poles of the open loop: if every channel of the open loop has a mode in the region of instability, the complementary sensitivity function `feedback(G, 1)` of a stable loop has a gain of at least one at
some frequency. -/
theorem C139_complementary_peak (hm : 1 ≤ m) (hG : Consistent G m m) (hGd : G.d = Arr.of (0 : Matrix (Fin m) (Fin m) ℝ)) (hdt : DtOk G.dt) (hK : HasMode G m s) (hs : ¬ StablePoint G.dt s)
    (e : feedback (.state G) (.state (unity m G.dt)) true = .ok R) (hst : StableModel R) (hγ : GainBound R m m γ) : HasTF R m m s (1 : Matrix (Fin m) (Fin m) ℂ) ∧ 1 ≤ γ := by
  obtain ⟨hcR, hRdt, -⟩ := feedback_result hG (unity_consistent m G.dt) hdt e
  obtain ⟨N, h1, h2⟩ := gain_outside hcR (by rw [hRdt]; exact hdt) hst hγ (by rw [hRdt]; exact hs)
  obtain rfl := C121_follows hG hGd hdt hK e h1
  refine ⟨h1, ?_⟩
  have : Nonempty (Fin m) := ⟨⟨0, hm⟩⟩
  rwa [norm_one] at h2

variable {P : Type} {Nm : Numerics ℝ P} {E : DNum} {S : StateObj ℝ P} {h : ℝ} {A : Matrix (Fin n) (Fin n) ℝ} {B : Matrix (Fin n) (Fin m) ℝ} {C : Matrix (Fin m) (Fin n) ℝ} {D : Matrix (Fin m) (Fin m) ℝ}

/-- The response of a channel of a stable discrete model to a constant input takes values on both sides of the value of the transfer matrix at any real number larger than one, or is equal to it. -/
theorem response_crosses (hm : 1 ≤ m) (hG : S.g = stateOf A B C D (some h)) (hst : StableModel S.g) {z₀ : ℝ} (hz : 1 < z₀) {M : Matrix (Fin m) (Fin m) ℂ} (hM : HasTF S.g m m (z₀ : ℂ) M) {v : Fin m → ℝ} :
    ∃ y, SimulatesTo Nm E S h none (fun _ => v) y ∧ ∀ i (c : ℝ), (M *ᵥ (fun j => (v j : ℂ))) i = c → (∀ k, y k i = c) ∨ ((∃ k, y k i < c) ∧ ∃ k, c < y k i) := by
  have hA : Schur A := schur_of_stable (B := B) (C := C) (D := D) (h := h) (by rw [hG] at hst; exact hst)
  obtain ⟨y, h1, h2⟩ := C133_transform (Nm := Nm) (E := E) hm hG (r := 1) (b := ‖v‖) one_pos hA (u := fun _ => v) (fun k => by simp)
  refine ⟨y, h1, fun i c hv => ?_⟩
  have hz0 : 0 < z₀ := by linarith
  obtain ⟨M', W, h3, h4, h5⟩ := h2 (z₀ : ℂ) (by rw [Complex.norm_real, Real.norm_eq_abs, abs_of_pos hz0]; exact hz)
  obtain rfl := HasTF_unique hM h3
  have hg : HasSum (fun k : ℕ => (z₀⁻¹) ^ k) (1 - z₀⁻¹)⁻¹ := hasSum_geometric_of_lt_one (by positivity) (inv_lt_one_of_one_lt₀ hz)
  have hW : W = ((1 - z₀⁻¹)⁻¹ : ℝ) • fun j => (v j : ℂ) := by
    funext j
    have h6 : HasSum (fun k : ℕ => (z₀ : ℂ)⁻¹ ^ k * (v j : ℂ)) ((((1 - z₀⁻¹)⁻¹ : ℝ) : ℂ) * v j) := by
      have := (Complex.hasSum_ofReal.mpr hg).mul_right (v j : ℂ)
      simpa using this
    rw [(h4 j).unique h6]
    simp
  have h7 := h5 i
  have h8 : (M *ᵥ W) i = (((1 - z₀⁻¹)⁻¹ * c : ℝ) : ℂ) := by
    rw [hW, mulVec_smul, Pi.smul_apply, hv]
    simp
  rw [h8] at h7
  have h9 : HasSum (fun k : ℕ => z₀⁻¹ ^ k * y k i) ((1 - z₀⁻¹)⁻¹ * c) := by
    rw [← Complex.hasSum_ofReal]
    simpa using h7
  have h10 : HasSum (fun k : ℕ => z₀⁻¹ ^ k * (y k i - c)) 0 := by
    have := h9.sub (hg.mul_right (c))
    simpa [mul_sub] using this
  have hpos : ∀ k : ℕ, 0 < z₀⁻¹ ^ k := fun k => by positivity
  by_contra hcon
  rw [not_or, not_and_or] at hcon
  obtain ⟨hne, hs | hs⟩ := hcon
  · refine hne fun k => ?_
    have h11 := (hasSum_zero_iff_of_nonneg fun k => mul_nonneg (hpos k).le (sub_nonneg.mpr (not_lt.mp fun hlt => hs ⟨k, hlt⟩))).mp h10
    have := congrFun h11 k
    simp only [Pi.zero_apply, mul_eq_zero, (hpos k).ne', false_or] at this
    linarith
  · refine hne fun k => ?_
    have h12 : HasSum (fun k : ℕ => z₀⁻¹ ^ k * (c - y k i)) 0 := by
      have := h10.neg
      simpa [← mul_neg] using this
    have h11 := (hasSum_zero_iff_of_nonneg fun k => mul_nonneg (hpos k).le (sub_nonneg.mpr (not_lt.mp fun hlt => hs ⟨k, hlt⟩))).mp h12
    have := congrFun h11 k
    simp only [Pi.zero_apply, mul_eq_zero, (hpos k).ne', false_or] at this
    linarith

/-- **C139**, overshoot: if a stable discrete loop passes a direction `v` unchanged at a real number `z₀ > 1` (for a unity feedback loop: an unstable real pole of the open loop), then the error of the response to the
constant reference `v` takes both signs in every channel in which it does not vanish. -/
theorem C139_overshoot (hm : 1 ≤ m) (hG : S.g = stateOf A B C D (some h)) (hst : StableModel S.g) {z₀ : ℝ} (hz : 1 < z₀) {M : Matrix (Fin m) (Fin m) ℂ} (hM : HasTF S.g m m (z₀ : ℂ) M) {v : Fin m → ℝ}
    (hv : M *ᵥ (fun j => (v j : ℂ)) = fun j => (v j : ℂ)) :
    ∃ y, SimulatesTo Nm E S h none (fun _ => v) y ∧ ∀ i, (∀ k, y k i = v i) ∨ ((∃ k, y k i < v i) ∧ ∃ k, v i < y k i) := by
  obtain ⟨y, h1, h2⟩ := response_crosses (Nm := Nm) (E := E) hm hG hst hz hM (v := v)
  exact ⟨y, h1, fun i => h2 i (v i) (by rw [hv])⟩

/-- **C139**, undershoot: if a channel of a stable discrete model does not pass the direction `v` at a real number `z₀ > 1` (a zero outside the unit disc), its response to the constant input `v` vanishes or takes both
signs. -/
theorem C139_undershoot (hm : 1 ≤ m) (hG : S.g = stateOf A B C D (some h)) (hst : StableModel S.g) {z₀ : ℝ} (hz : 1 < z₀) {M : Matrix (Fin m) (Fin m) ℂ} (hM : HasTF S.g m m (z₀ : ℂ) M) {v : Fin m → ℝ} :
    ∃ y, SimulatesTo Nm E S h none (fun _ => v) y ∧ ∀ i, (M *ᵥ (fun j => (v j : ℂ))) i = 0 → (∀ k, y k i = 0) ∨ ((∃ k, y k i < 0) ∧ ∃ k, 0 < y k i) := by
  obtain ⟨y, h1, h2⟩ := response_crosses (Nm := Nm) (E := E) hm hG hst hz hM (v := v)
  exact ⟨y, h1, fun i hi => h2 i 0 (by rw [hi, Complex.ofReal_zero])⟩

/-- The sensitivity model is stable exactly if the motions of `A - B C` die out. -/
theorem sensitivity_stable {dt : Option ℝ} (hdt : DtOk dt) (hR : feedback (.state (unity m dt)) (.state (stateOf A B C 0 dt)) true = .ok R) : StableModel R ↔ MotionsVanish dt (A - B * C) := by
  have hG : Consistent (stateOf A B C (0 : Matrix (Fin m) (Fin m) ℝ) dt) m m := ⟨⟨rfl, rfl⟩, fun _ => ⟨rfl, rfl, rfl, rfl, rfl⟩⟩
  obtain ⟨-, -, h3⟩ := feedback_result (unity_consistent m dt) hG hdt hR
  obtain ⟨h4, h5⟩ := h3 1 0 rfl rfl
  unfold unity stateOf at h5
  rw [closeBody_sd hdt _ _ _ _ _ _ _ _ _ _ h4] at h5
  obtain rfl := Except.ok.inj h5
  have c1 : A + (fbSign true : ℝ) • (B * (1 : Matrix (Fin m) (Fin m) ℝ)) * ((1 - (0 : Matrix (Fin m) (Fin m) ℝ) * 1)⁻¹ * C) = A - B * C := by
    rw [Matrix.zero_mul, sub_zero, inv_one, Matrix.one_mul, Matrix.mul_one, show (fbSign true : ℝ) = -1 from rfl, neg_one_smul, Matrix.neg_mul, sub_eq_add_neg]
  rw [c1]
  constructor
  · rintro (h | ⟨n', A', e, h⟩)
    · cases h
    · obtain rfl : n = n' := congrArg Arr.r e
      obtain rfl := Arr.of_inj.mp e
      exact h
  · exact fun h => Or.inr ⟨n, _, rfl, h⟩

/-- `feedback(1, G)` returns a model. -/
theorem sensitivity_exists {dt : Option ℝ} (hdt : DtOk dt) (hm : (m * spacing10 : ℝ) < 1) : ∃ R, feedback (.state (unity m dt)) (.state (stateOf A B C 0 dt)) true = .ok R := by
  have hsv : ¬ HasSVAtMost (m * spacing10 : ℝ) (1 - (0 : Matrix (Fin m) (Fin m) ℝ) * 1) := by
    rw [Matrix.zero_mul, sub_zero]
    exact not_sv_one (by unfold spacing10; positivity) hm
  have e1 : feedback (.state (unity m dt)) (.state (stateOf A B C (0 : Matrix (Fin m) (Fin m) ℝ) dt)) true = closeLoop (unity m dt) (stateOf A B C (0 : Matrix (Fin m) (Fin m) ℝ) dt) true := by
    simp [feedback, checkFeedbackIc, StateM.p, StateM.m, unity, stateOf, Bind.bind, Except.bind]
  exact ⟨_, e1.trans ((closeLoop_of _ _ 1 0 rfl rfl hsv true).trans (closeBody_sd hdt _ _ _ _ _ _ _ _ _ _ (det_ne_zero_of_not_sv hsv) _))⟩

/-- The open loop `(z - 2) / (4 z^2)` has a zero at 2; its loop is stable, so its sensitivity has a gain of at least one at some frequency. -/
example : ∃ R, feedback (.state (unity 1 (some 1))) (.state (stateOf !![0, 0; 1, 0] !![1; 0] !![1 / 4, -1 / 2] (0 : Matrix (Fin 1) (Fin 1) ℝ) (some 1))) true = .ok R ∧ StableModel R ∧
    ∀ γ, GainBound R 1 1 γ → 1 ≤ γ := by
  obtain ⟨R, hR⟩ := sensitivity_exists (A := !![0, 0; 1, 0]) (B := !![1; 0]) (C := !![1 / 4, -1 / 2]) dtOk_one (m := 1) (by norm_num [spacing10])
  have hst : StableModel R := (sensitivity_stable dtOk_one hR).mpr ((motions_iff (dt := some 1)).mpr fun z hz => by
    unfold IsEig at hz
    have hz' : z * z = 1 / 2 - z / 4 := by
      rw [← sub_eq_zero, ← hz]
      simp [det_fin_two, Matrix.mul_apply]
      ring
    have h1 : ‖z‖ * ‖z‖ ≤ 1 / 2 + ‖z‖ / 4 := by
      rw [← norm_mul, hz']
      refine (norm_sub_le _ _).trans ?_
      simp
    simp only [StablePoint, Option.isSome_some, if_true]
    by_contra hcon
    nlinarith [not_lt.mp hcon])
  refine ⟨R, hR, hst, fun γ hγ => ?_⟩
  refine C139_sensitivity_peak (G := stateOf !![0, 0; 1, 0] !![1; 0] !![1 / 4, -1 / 2] (0 : Matrix (Fin 1) (Fin 1) ℝ) (some 1)) (s := 2) (M := 0) (v := fun _ => 1) rfl dtOk_one hR hst ?_ ?_ (by simp) (fun h => one_ne_zero (congrFun h 0)) hγ
  · simp [StablePoint, stateOf]
  · refine hasTF_stateOf.mpr (isTF_iff_sol.mpr ⟨by simp [det_fin_two], !![1 / 2; 1 / 4], ?_, ?_⟩)
    · ext i j
      fin_cases i <;> fin_cases j <;> norm_num [Matrix.mul_apply, Fin.sum_univ_two, Matrix.one_apply]
    · ext i j
      fin_cases i; fin_cases j
      norm_num [Matrix.mul_apply, Fin.sum_univ_two]

/-- The open loop `2 / (z - 2)` has the pole 2; its loop is stable, so its complementary sensitivity has a gain of at least one at some frequency. -/
example : ∃ R, feedback (.state (stateOf !![2] !![1] !![2] (0 : Matrix (Fin 1) (Fin 1) ℝ) (some 1))) (.state (unity 1 (some 1))) true = .ok R ∧ StableModel R ∧
    ∀ γ, GainBound R 1 1 γ → HasTF R 1 1 (2 : ℂ) (1 : Matrix (Fin 1) (Fin 1) ℂ) ∧ 1 ≤ γ := by
  have hG : Consistent (stateOf !![2] !![1] !![2] (0 : Matrix (Fin 1) (Fin 1) ℝ) (some 1)) 1 1 := ⟨⟨rfl, rfl⟩, fun _ => ⟨rfl, rfl, rfl, rfl, rfl⟩⟩
  obtain ⟨R, hR⟩ := feedback_exists hG (unity_consistent 1 (some 1)) dtOk_one rfl rfl rfl (E := 1) rfl (Matrix.mul_zero _) (by norm_num [spacing10]) true
  have hst : StableModel R := (unity_loop_stable dtOk_one hR).mpr ((motions_iff (dt := some 1)).mpr fun z hz => by
    unfold IsEig at hz
    rw [det_fin_one] at hz
    simp at hz
    simp [hz, StablePoint])
  refine ⟨R, hR, hst, fun γ hγ => C139_complementary_peak le_rfl hG rfl dtOk_one ⟨1, !![2], !![1], 1, rfl, rfl, rfl, ?_, by simp⟩ (by simp [StablePoint, stateOf]) hR hst hγ⟩
  ext i j
  fin_cases i; fin_cases j
  simp

/-- The loop `2 / z` meets the hypotheses of the theorem about overshoot with `z₀ = 2`. -/
example {P : Type} (S : StateObj ℝ P) (hS : S.g = stateOf !![0] !![1] !![2] (0 : Matrix (Fin 1) (Fin 1) ℝ) (some 1)) : StableModel S.g ∧ HasTF S.g 1 1 (((2 : ℝ) : ℂ)) (1 : Matrix (Fin 1) (Fin 1) ℂ) := by
  rw [hS]
  refine ⟨Or.inr ⟨1, !![0], rfl, (motions_iff (dt := some 1)).mpr fun z hz => ?_⟩, hasTF_stateOf.mpr (isTF_iff_sol.mpr ⟨by simp, !![1 / 2], ?_, ?_⟩)⟩
  · unfold IsEig at hz
    rw [det_fin_one] at hz
    simp at hz
    simp [hz, StablePoint]
  · ext i j
    fin_cases i; fin_cases j
    norm_num [Matrix.mul_apply]
  · ext i j
    fin_cases i; fin_cases j
    norm_num [Matrix.mul_apply]

/-- The model `(z - 2) / z` meets the hypotheses of the theorem about undershoot with `z₀ = 2`. -/
example {P : Type} (S : StateObj ℝ P) (hS : S.g = stateOf !![0] !![1] !![-2] (1 : Matrix (Fin 1) (Fin 1) ℝ) (some 1)) : StableModel S.g ∧ HasTF S.g 1 1 (((2 : ℝ) : ℂ)) (0 : Matrix (Fin 1) (Fin 1) ℂ) := by
  rw [hS]
  refine ⟨Or.inr ⟨1, !![0], rfl, (motions_iff (dt := some 1)).mpr fun z hz => ?_⟩, hasTF_stateOf.mpr (isTF_iff_sol.mpr ⟨by simp, !![1 / 2], ?_, ?_⟩)⟩
  · unfold IsEig at hz
    rw [det_fin_one] at hz
    simp at hz
    simp [hz, StablePoint]
  · ext i j
    fin_cases i; fin_cases j
    norm_num [Matrix.mul_apply]
  · ext i j
    fin_cases i; fin_cases j
    norm_num [Matrix.mul_apply]

end Harold
