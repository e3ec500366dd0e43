import Verif.Props.Limits
import Verif.Props.RampCont
import Mathlib.Analysis.Calculus.Deriv.MeanValue

/-!
# C139: overshoot and undershoot of continuous models
-/

namespace Harold

open Matrix Spec Filter Topology NormedSpace

variable {P : Type} {Nm : Numerics ℝ P} {E : DNum} {S : StateObj ℝ P} {n m p : ℕ} {h : ℝ}
  {A : Matrix (Fin n) (Fin n) ℝ} {B : Matrix (Fin n) (Fin m) ℝ} {C : Matrix (Fin p) (Fin n) ℝ} {D : Matrix (Fin p) (Fin m) ℝ}

open scoped Matrix.Norms.L2Operator in
theorem exp_motion (A : Matrix (Fin n) (Fin n) ℝ) (e : Fin n → ℝ) (t : ℝ) : HasDerivAt (fun t : ℝ => exp (t • A) *ᵥ e) (A *ᵥ (exp (t • A) *ᵥ e)) t := by
  have h1 := hasDerivAt_exp_smul_const' (𝕂 := ℝ) A t
  have h2 : IsBoundedLinearMap ℝ fun X : Matrix (Fin n) (Fin n) ℝ => X *ᵥ e := by
    refine (LinearMap.toContinuousLinearMap (⟨⟨fun X : Matrix (Fin n) (Fin n) ℝ => X *ᵥ e, fun X Y => add_mulVec X Y e⟩, fun r X => smul_mulVec r X e⟩ : Matrix (Fin n) (Fin n) ℝ →ₗ[ℝ] Fin n → ℝ)).isBoundedLinearMap
  have h3 := h2.hasFDerivAt.comp_hasDerivAt t h1
  rw [mulVec_mulVec]
  exact h3

/-- A function with the limit zero that starts at zero and whose derivative has a sign is constant. -/
theorem flat_of_sign {φ ψ : ℝ → ℝ} (hφ : ∀ t, HasDerivAt φ (ψ t) t) (h0 : φ 0 = 0) (hl : Tendsto φ atTop (𝓝 0)) (hs : ∀ t, 0 ≤ t → 0 ≤ ψ t) {t : ℝ} (ht : 0 ≤ t) (hc : Continuous ψ) : ψ t = 0 := by
  have hm : MonotoneOn φ (Set.Ici 0) := monotoneOn_of_deriv_nonneg (convex_Ici 0) (fun x _ => (hφ x).continuousAt.continuousWithinAt) (fun x _ => (hφ x).differentiableAt.differentiableWithinAt) fun x hx => by
    rw [interior_Ici] at hx
    rw [(hφ x).deriv]
    exact hs x (le_of_lt hx)
  have hz : ∀ x, 0 ≤ x → φ x = 0 := fun x hx => by
    refine le_antisymm (ge_of_tendsto hl ?_) ?_
    · filter_upwards [eventually_ge_atTop x] with z hz
      exact hm hx (hx.trans hz) hz
    · rw [← h0]
      exact hm Set.self_mem_Ici hx hx
  have hp : ∀ x, 0 < x → ψ x = 0 := fun x hx => by
    have h1 : φ =ᶠ[𝓝 x] fun _ => (0 : ℝ) := by
      filter_upwards [lt_mem_nhds hx] with z hz' using hz z hz'.le
    exact (hφ x).unique ((hasDerivAt_const x (0 : ℝ)).congr_of_eventuallyEq h1)
  rcases ht.eq_or_lt with rfl | ht
  · have h1 : Tendsto ψ (𝓝[>] 0) (𝓝 (ψ 0)) := (hc.tendsto 0).mono_left nhdsWithin_le_nhds
    have h2 : Tendsto ψ (𝓝[>] 0) (𝓝 0) := tendsto_const_nhds.congr' (by
      filter_upwards [self_mem_nhdsWithin] with x hx using (hp x hx).symm)
    exact tendsto_nhds_unique h1 h2
  · exact hp t ht

/-- Fine grids have a point in every interval to the right of a time. -/
theorem grid_hits {q : ℝ → Prop} {t : ℝ} (ht : 0 ≤ t) (hq : ∀ᶠ z in 𝓝 t, q z) : ∃ h₀ > 0, ∀ h, 0 < h → h < h₀ → ∃ k : ℕ, q (k * h) := by
  obtain ⟨δ, hδ, h1⟩ := Metric.eventually_nhds_iff.mp hq
  refine ⟨δ, hδ, fun h hh hlt => ⟨⌈t / h⌉₊, h1 ?_⟩⟩
  have h2 := Nat.le_ceil (t / h)
  have h3 := Nat.ceil_lt_add_one (div_nonneg ht hh.le)
  rw [div_le_iff₀ hh] at h2
  have h4 : (⌈t / h⌉₊ : ℝ) * h < t + h := by
    have := mul_lt_mul_of_pos_right h3 hh
    rwa [add_mul, div_mul_cancel₀ _ hh.ne', one_mul] at this
  rw [Real.dist_eq, abs_lt]
  constructor <;> linarith

/-- **C139**, continuous models: the response of a channel of a stable model to a constant input `v`, simulated on equally spaced grids, is constantly equal to the value `G(s₀) v` of the channel, or takes values on both
sides of it on all fine grids, for every real `s₀ > 0`. With `G(s₀) v = v` this is the overshoot, with `G(s₀) v = 0` the undershoot. -/
theorem C139_crossing (hE : BalanceOk E) (hm : 1 ≤ m) (hG : S.g = stateOf A B C D none) (hst : StableModel S.g) {s₀ : ℝ} (hs : 0 < s₀) {M : Matrix (Fin p) (Fin m) ℝ} (hM : HasTF S.g p m s₀ M) (v : Fin m → ℝ) :
    ∃ y : ℝ → ℕ → Fin p → ℝ, (∀ h, 0 < h → ∀ t0 N, 2 ≤ N → simulate Nm E S (firstRows (fun _ => v) N) (some (eqGrid N t0 h)) none false = .ok (.flat (firstRows (y h) N), eqGrid N t0 h)) ∧
      ∀ i, (∀ h, 0 < h → ∀ k, y h k i = (M *ᵥ v) i) ∨ ∃ h₀ > 0, ∀ h, 0 < h → h < h₀ → (∃ k, y h k i < (M *ᵥ v) i) ∧ ∃ k, (M *ᵥ v) i < y h k i := by
  have hA : Hurwitz A := hurwitz_of_stable (B := B) (C := C) (D := D) (by rw [hG] at hst; exact hst)
  have hdet := hurwitz_det hA
  have hF : MotionsVanish none A := motions_iff.mpr fun z hz => by simpa [StablePoint] using hA z hz
  set e := A⁻¹ *ᵥ (B *ᵥ v) with he
  have hAe : A *ᵥ e = B *ᵥ v := by rw [he, mulVec_mulVec, mul_nonsing_inv _ (Ne.isUnit hdet), one_mulVec]
  set x : ℝ → Fin n → ℝ := fun t => exp (t • A) *ᵥ e - e with hx
  have hx' : ∀ t, HasDerivAt x (A *ᵥ x t + B *ᵥ v) t := fun t => by
    have h1 := (exp_motion A e t).sub_const e
    rw [hx, mulVec_sub, hAe, sub_add_cancel]
    exact h1
  have hx0 : x 0 = 0 := by simp [hx]
  have hxl : Tendsto x atTop (𝓝 (0 - e)) := (hF _ fun t => exp_motion A e t).sub_const e
  have hxc : Continuous x := continuous_iff_continuousAt.mpr fun t => (hx' t).continuousAt
  have hrun : ∀ h : ℝ, 0 < h → ∀ k : ℕ, runStates (exp (h • A)) (gam (h • A) (h • B) 0) (fun _ => v) 0 k = x (k * h) := fun h hh k => by
    have hcomm : A * exp (h • A) = exp (h • A) * A := ((Commute.refl A).smul_right h).exp_right
    have hAB : A * gam (h • A) (h • B) 0 = (exp (h • A) - 1) * B := by
      have := gam_hold (h • A) (h • B)
      rw [Matrix.smul_mul, Matrix.mul_smul] at this
      exact smul_right_injective _ hh.ne' this
    have hB : gam (h • A) (h • B) 0 *ᵥ v = exp (h • A) *ᵥ e - e := by
      have h1 : A *ᵥ (gam (h • A) (h • B) 0 *ᵥ v) = A *ᵥ (exp (h • A) *ᵥ e - e) := by
        rw [mulVec_mulVec, hAB, mulVec_sub, mulVec_mulVec (M := A) (N := exp (h • A)), hcomm, ← mulVec_mulVec (M := exp (h • A)), hAe, ← mulVec_mulVec, sub_mulVec, one_mulVec]
      have hinj : ∀ w : Fin n → ℝ, A⁻¹ *ᵥ (A *ᵥ w) = w := fun w => by rw [mulVec_mulVec, nonsing_inv_mul _ (Ne.isUnit hdet), one_mulVec]
      rw [← hinj (gam (h • A) (h • B) 0 *ᵥ v), h1, hinj]
    induction k with
    | zero => simp [runStates, hx0]
    | succ k ih =>
      rw [runStates, ih, hB, hx]
      have h2 : exp (((k + 1 : ℕ) * h) • A) = exp (h • A) * exp ((k * h) • A) := by
        rw [← Matrix.exp_add_of_commute _ _ (((Commute.refl A).smul_left h).smul_right (k * h)), ← add_smul]
        congr 2
        push_cast
        ring
      simp only [h2, mulVec_sub, mulVec_mulVec]
      abel
  have hM' : HasTF (stateOf A B C D none) p m s₀ M := by rw [← hG]; exact hM
  obtain ⟨h1, X, h2, h3⟩ := isTF_iff_sol.mp (hasTF_dyn' hM')
  have eid : ∀ {a b : ℕ} (X : Matrix (Fin a) (Fin b) ℝ), X.map (algebraMap ℝ ℝ) = X := fun X => by ext i j; simp
  rw [eid] at h1
  rw [eid, eid] at h2
  rw [eid, eid] at h3
  set Q := s₀ • (1 : Matrix (Fin n) (Fin n) ℝ) - A with hQ
  have hX : X = Q⁻¹ * B := by rw [← h2, ← Matrix.mul_assoc, nonsing_inv_mul _ (Ne.isUnit h1), Matrix.one_mul]
  refine ⟨fun h k => C *ᵥ x (k * h) + D *ᵥ v, fun h hh t0 N hN => ?_, fun i => ?_⟩
  · have := simulate_held (U := Matrix.of fun _ : Fin N => v) (Nm := Nm) (t0 := t0) hE hN hm hG hh (xarg := none) (x0 := 0) (Or.inl ⟨rfl, rfl⟩) (fun _ => v) fun i => rfl
    simp only [hrun h hh] at this
    exact this
  · set c := (M *ᵥ v) i with hc
    set y : ℝ → ℝ := fun t => (C *ᵥ x t + D *ᵥ v) i with hy
    have hyc : Continuous y := by
      have : Continuous fun t => C *ᵥ x t + D *ᵥ v := (Continuous.matrix_mulVec continuous_const hxc).add continuous_const
      exact (continuous_apply i).comp this
    set L : (Fin n → ℝ) → ℝ := fun w => (C *ᵥ (Q⁻¹ *ᵥ w)) i with hL
    have hLd : ∀ t, HasDerivAt (fun t => L (x t)) (L (A *ᵥ x t + B *ᵥ v)) t := fun t => by
      have h4 : IsBoundedLinearMap ℝ L :=
        (LinearMap.toContinuousLinearMap ((LinearMap.proj i).comp ((mulVecLin C).comp (mulVecLin Q⁻¹)) : (Fin n → ℝ) →ₗ[ℝ] ℝ)).isBoundedLinearMap
      exact h4.hasFDerivAt.comp_hasDerivAt t (hx' t)
    have hLy : ∀ t, L (A *ᵥ x t + B *ᵥ v) - s₀ * L (x t) = c - y t := fun t => by
      have h4 : A *ᵥ x t = s₀ • x t - Q *ᵥ x t := by rw [hQ, sub_mulVec, smul_mulVec, one_mulVec]; abel
      have h5 : Q⁻¹ *ᵥ (Q *ᵥ x t) = x t := by rw [mulVec_mulVec, nonsing_inv_mul _ (Ne.isUnit h1), one_mulVec]
      simp only [hL, hy, hc, h3, hX, h4, mulVec_add, mulVec_sub, h5, mulVec_smul, add_mulVec, ← mulVec_mulVec, Pi.add_apply, Pi.sub_apply, Pi.smul_apply, smul_eq_mul]
      ring
    set φ : ℝ → ℝ := fun t => Real.exp (-(s₀ * t)) * L (x t) with hφ
    have hφd : ∀ t, HasDerivAt φ (Real.exp (-(s₀ * t)) * (c - y t)) t := fun t => by
      have h4 : HasDerivAt (fun t => Real.exp (-(s₀ * t))) (Real.exp (-(s₀ * t)) * -(s₀ * 1)) t := (((hasDerivAt_id t).const_mul s₀).neg).exp
      have h5 := h4.mul (hLd t)
      refine h5.congr_deriv ?_
      rw [← hLy]
      ring
    have hφ0 : φ 0 = 0 := by simp [hφ, hL, hx0]
    have hφl : Tendsto φ atTop (𝓝 0) := by
      have h4 : Tendsto (fun t => Real.exp (-(s₀ * t))) atTop (𝓝 0) := Real.tendsto_exp_neg_atTop_nhds_zero.comp (tendsto_id.const_mul_atTop hs)
      have h5 : Continuous L := (continuous_apply i).comp (Continuous.matrix_mulVec continuous_const (Continuous.matrix_mulVec continuous_const continuous_id))
      have h6 := h4.mul ((h5.tendsto _).comp hxl)
      rw [zero_mul] at h6
      exact h6
    have hψc : Continuous fun t => Real.exp (-(s₀ * t)) * (c - y t) := by fun_prop
    have hdone : (∀ t, 0 ≤ t → y t = c) → ∀ h, 0 < h → ∀ k : ℕ, (C *ᵥ x (k * h) + D *ᵥ v) i = c := fun h4 h hh k => h4 (k * h) (by positivity)
    by_cases hlo : ∃ t, 0 ≤ t ∧ y t < c
    · by_cases hhi : ∃ t, 0 ≤ t ∧ c < y t
      · obtain ⟨t, ht, h4⟩ := hlo
        obtain ⟨t', ht', h5⟩ := hhi
        obtain ⟨a, ha, h6⟩ := grid_hits (q := fun z => y z < c) ht (hyc.continuousAt.eventually_lt continuousAt_const h4)
        obtain ⟨b, hb, h7⟩ := grid_hits (q := fun z => c < y z) ht' (continuousAt_const.eventually_lt hyc.continuousAt h5)
        exact Or.inr ⟨min a b, lt_min ha hb, fun h hh hlt => ⟨h6 h hh (hlt.trans_le (min_le_left _ _)), h7 h hh (hlt.trans_le (min_le_right _ _))⟩⟩
      · refine Or.inl (hdone fun t ht => ?_)
        have h4 := flat_of_sign hφd hφ0 hφl (fun t ht => mul_nonneg (Real.exp_pos _).le (sub_nonneg.mpr (not_lt.mp fun hcon => hhi ⟨t, ht, hcon⟩))) ht hψc
        have h5 := (mul_eq_zero.mp h4).resolve_left (Real.exp_pos _).ne'
        linarith
    · refine Or.inl (hdone fun t ht => ?_)
      have h4 := flat_of_sign (φ := fun t => -φ t) (ψ := fun t => -(Real.exp (-(s₀ * t)) * (c - y t))) (fun t => (hφd t).neg) (by simp [hφ0]) (by simpa using hφl.neg)
        (fun t ht => by
          have h5 : 0 ≤ y t - c := sub_nonneg.mpr (not_lt.mp fun hcon => hlo ⟨t, ht, hcon⟩)
          have := mul_nonneg (Real.exp_pos (-(s₀ * t))).le h5
          linarith) ht hψc.neg
      have h5 := (mul_eq_zero.mp (neg_eq_zero.mp h4)).resolve_left (Real.exp_pos _).ne'
      linarith

/-- The model `(1 - s) / (1 + s)` has the zero 1 and meets the hypotheses. -/
example {P : Type} (S : StateObj ℝ P) (hS : S.g = stateOf !![-1] !![1] !![2] (!![-1] : Matrix (Fin 1) (Fin 1) ℝ) none) : StableModel S.g ∧ HasTF S.g 1 1 (1 : ℝ) (0 : Matrix (Fin 1) (Fin 1) ℝ) := by
  rw [hS]
  refine ⟨Or.inr ⟨1, !![-1], rfl, (motions_iff (dt := none)).mpr fun z hz => ?_⟩, ?_⟩
  · unfold IsEig at hz
    rw [det_fin_one] at hz
    simp at hz
    have : z = -1 := eq_neg_of_add_eq_zero_left hz
    simp [this, StablePoint]
  · refine Or.inr ⟨rfl, 1, _, _, _, _, rfl, rfl, rfl, rfl, isTF_iff_sol.mpr ⟨by norm_num, !![1 / 2], ?_, ?_⟩⟩
    · ext i j
      fin_cases i; fin_cases j
      norm_num [Matrix.mul_apply]
    · ext i j
      fin_cases i; fin_cases j
      norm_num [Matrix.mul_apply]

end Harold
