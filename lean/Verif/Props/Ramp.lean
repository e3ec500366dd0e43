import Verif.Spec.Ramp
import Verif.Props.ZTransform
import Verif.Props.Integral
import Verif.Props.SysNorm
import Mathlib.Analysis.Calculus.Deriv.Slope
import Mathlib.Topology.Instances.Matrix

/-!
# C138: ramp responses
-/

namespace Harold

open Matrix Spec Filter Topology

variable {P : Type} {Nm : Numerics ℝ P} {E : DNum} {S : StateObj ℝ P} {n m p : ℕ} {h : ℝ}
  {A : Matrix (Fin n) (Fin n) ℝ} {B : Matrix (Fin n) (Fin m) ℝ} {C : Matrix (Fin p) (Fin n) ℝ} {D : Matrix (Fin p) (Fin m) ℝ}

theorem SlopeAt_unique {G : StateM ℝ} {s : ℝ} {M M' N N' : Matrix (Fin p) (Fin m) ℝ} (h : SlopeAt G p m s M M') (h' : SlopeAt G p m s N N') : M = N ∧ M' = N' := by
  obtain ⟨f, f1, rfl, f3⟩ := h
  obtain ⟨g, g1, rfl, g3⟩ := h'
  have he : f =ᶠ[𝓝 s] g := by
    filter_upwards [f1, g1] with z h1 h2
    exact HasTF_unique h1 h2
  refine ⟨he.self_of_nhds, ?_⟩
  ext i j
  have e2 : (fun z => f z i j) =ᶠ[𝓝 s] fun z => g z i j := he.mono fun z hz => congrFun (congrFun hz i) j
  exact (f3 i j).unique ((g3 i j).congr_of_eventuallyEq e2)

theorem hasTF_at_real {dt : Option ℝ} {s : ℝ} (hs : (s • (1 : Matrix (Fin n) (Fin n) ℝ) - A).det ≠ 0) :
    HasTF (stateOf A B C D dt) p m s (C * (s • (1 : Matrix (Fin n) (Fin n) ℝ) - A)⁻¹ * B + D) := by
  refine Or.inr ⟨rfl, n, A, B, C, D, rfl, rfl, rfl, rfl, ?_⟩
  have e : ∀ {a b : ℕ} (X : Matrix (Fin a) (Fin b) ℝ), X.map (algebraMap ℝ ℝ) = X := fun X => by ext i j; simp
  rw [e, e, e, e]
  refine isTF_iff_sol.mpr ⟨hs, (s • (1 : Matrix (Fin n) (Fin n) ℝ) - A)⁻¹ * B, ?_, ?_⟩
  · rw [← Matrix.mul_assoc, mul_nonsing_inv _ (Ne.isUnit hs), Matrix.one_mul]
  · rw [Matrix.mul_assoc]

theorem det_near {s : ℝ} (hs : (s • (1 : Matrix (Fin n) (Fin n) ℝ) - A).det ≠ 0) : ∀ᶠ z : ℝ in 𝓝 s, (z • (1 : Matrix (Fin n) (Fin n) ℝ) - A).det ≠ 0 := by
  have hc : Continuous fun z : ℝ => (z • (1 : Matrix (Fin n) (Fin n) ℝ) - A).det := by fun_prop
  exact hc.continuousAt.eventually_ne hs

/-- The transfer matrix has the derivative `-C (s - A)⁻² B`. -/
theorem slope_stateOf {dt : Option ℝ} {s : ℝ} (hs : (s • (1 : Matrix (Fin n) (Fin n) ℝ) - A).det ≠ 0) :
    SlopeAt (stateOf A B C D dt) p m s (C * (s • (1 : Matrix (Fin n) (Fin n) ℝ) - A)⁻¹ * B + D)
      (-(C * ((s • (1 : Matrix (Fin n) (Fin n) ℝ) - A)⁻¹ * (s • (1 : Matrix (Fin n) (Fin n) ℝ) - A)⁻¹) * B)) := by
  refine ⟨fun z => C * (z • (1 : Matrix (Fin n) (Fin n) ℝ) - A)⁻¹ * B + D, (det_near hs).mono fun z hz => hasTF_at_real hz, rfl, fun i j => ?_⟩
  have hcont : ContinuousAt (fun z : ℝ => (z • (1 : Matrix (Fin n) (Fin n) ℝ) - A)⁻¹) s := by
    have h1 : Continuous fun z : ℝ => (z • (1 : Matrix (Fin n) (Fin n) ℝ) - A) := by fun_prop
    have h2 : (fun z : ℝ => (z • (1 : Matrix (Fin n) (Fin n) ℝ) - A)⁻¹) = fun z => ((z • (1 : Matrix (Fin n) (Fin n) ℝ) - A).det)⁻¹ • (z • (1 : Matrix (Fin n) (Fin n) ℝ) - A).adjugate := by
      funext z
      rw [Matrix.inv_def, Ring.inverse_eq_inv']
    rw [h2]
    exact (h1.matrix_det.continuousAt.inv₀ hs).smul h1.matrix_adjugate.continuousAt
  rw [hasDerivAt_iff_tendsto_slope]
  have hlim : Tendsto (fun z : ℝ => (-(C * ((z • (1 : Matrix (Fin n) (Fin n) ℝ) - A)⁻¹ * (s • (1 : Matrix (Fin n) (Fin n) ℝ) - A)⁻¹) * B)) i j) (𝓝[≠] s)
      (𝓝 ((-(C * ((s • (1 : Matrix (Fin n) (Fin n) ℝ) - A)⁻¹ * (s • (1 : Matrix (Fin n) (Fin n) ℝ) - A)⁻¹) * B)) i j)) := by
    have hF : Continuous fun X : Matrix (Fin n) (Fin n) ℝ => (-(C * (X * (s • (1 : Matrix (Fin n) (Fin n) ℝ) - A)⁻¹) * B)) i j := by fun_prop
    exact (hF.continuousAt.tendsto.comp hcont.tendsto).mono_left nhdsWithin_le_nhds
  refine hlim.congr' ?_
  filter_upwards [(det_near hs).filter_mono nhdsWithin_le_nhds, self_mem_nhdsWithin] with z hz hne
  have hne' : z - s ≠ 0 := sub_ne_zero.mpr hne
  rw [slope_def_field, eq_div_iff hne']
  have e : (z • (1 : Matrix (Fin n) (Fin n) ℝ) - A)⁻¹ - (s • (1 : Matrix (Fin n) (Fin n) ℝ) - A)⁻¹ =
      -((z - s) • ((z • (1 : Matrix (Fin n) (Fin n) ℝ) - A)⁻¹ * (s • (1 : Matrix (Fin n) (Fin n) ℝ) - A)⁻¹)) := by
    generalize hX : z • (1 : Matrix (Fin n) (Fin n) ℝ) - A = X at hz ⊢
    generalize hY : s • (1 : Matrix (Fin n) (Fin n) ℝ) - A = Y at hs ⊢
    have hd : Y - X = -((z - s) • (1 : Matrix (Fin n) (Fin n) ℝ)) := by rw [← hX, ← hY, sub_smul]; abel
    have h1 : X⁻¹ - Y⁻¹ = X⁻¹ * (Y - X) * Y⁻¹ := by
      rw [Matrix.mul_sub, Matrix.sub_mul, nonsing_inv_mul _ (Ne.isUnit hz), Matrix.one_mul, Matrix.mul_assoc, mul_nonsing_inv _ (Ne.isUnit hs), Matrix.mul_one]
    rw [h1, hd, Matrix.mul_neg, Matrix.neg_mul, Matrix.mul_smul, Matrix.smul_mul, Matrix.mul_one]
  have e2 : (C * (z • (1 : Matrix (Fin n) (Fin n) ℝ) - A)⁻¹ * B + D) - (C * (s • (1 : Matrix (Fin n) (Fin n) ℝ) - A)⁻¹ * B + D) =
      (z - s) • -(C * ((z • (1 : Matrix (Fin n) (Fin n) ℝ) - A)⁻¹ * (s • (1 : Matrix (Fin n) (Fin n) ℝ) - A)⁻¹) * B) := by
    rw [add_sub_add_right_eq_sub, ← Matrix.sub_mul, ← Matrix.mul_sub, e, Matrix.mul_neg, Matrix.neg_mul, Matrix.mul_smul, Matrix.smul_mul, smul_neg]
  have := congrFun (congrFun e2 i) j
  rw [Matrix.sub_apply, Matrix.smul_apply, smul_eq_mul] at this
  rw [this, mul_comm]

/-- States under a ramp. -/
theorem ramp_states {x : ℕ → Fin n → ℝ} {a b u : Fin n → ℝ} (ha : a = A *ᵥ a + u) (hb : a + b = A *ᵥ b) (hx : ∀ k : ℕ, x (k + 1) = A *ᵥ x k + (k : ℝ) • u) (k : ℕ) :
    x k = (k : ℝ) • a + b + A ^ k *ᵥ (x 0 - b) := by
  induction k with
  | zero => simp
  | succ k ih =>
    rw [hx, ih, pow_succ', ← mulVec_mulVec, mulVec_add, mulVec_add, mulVec_smul]
    have h1 : A *ᵥ a = a - u := eq_sub_of_add_eq ha.symm
    rw [h1, ← hb, smul_sub]
    push_cast
    rw [add_smul, one_smul]
    abel

theorem one_sub_det (hA : Schur A) : ((1 : ℝ) • (1 : Matrix (Fin n) (Fin n) ℝ) - A).det ≠ 0 := by
  rw [one_smul]
  exact schur_det hA

/-- **C138**: from every initial state the response of a stable discrete model to the ramp with the samples `0, v, 2 v, ...` approaches the line `k ↦ k G(1) v + G'(1) v`. -/
theorem C138_ramp (hm : 1 ≤ m) (hG : S.g = stateOf A B C D (some h)) (hst : StableModel S.g) :
    ∃ M M' : Matrix (Fin p) (Fin m) ℝ, SlopeAt S.g p m 1 M M' ∧ ∀ (xarg : Option (List ℝ)) (x0 : Fin n → ℝ), InitArg xarg x0 → ∀ v : Fin m → ℝ,
      ∃ y, SimulatesTo Nm E S h xarg (fun k => (k : ℝ) • v) y ∧ Tendsto (fun k : ℕ => y k - ((k : ℝ) • (M *ᵥ v) + M' *ᵥ v)) atTop (𝓝 0) := by
  have hA : Schur A := schur_of_stable (B := B) (C := C) (D := D) (h := h) (by rw [hG] at hst; exact hst)
  have hs := one_sub_det hA
  refine ⟨_, _, by rw [hG]; exact slope_stateOf hs, fun xarg x0 hx v => ?_⟩
  obtain ⟨x, h1, h2, h3⟩ := simulatesTo_of (Nm := Nm) (E := E) hm hG hx fun k => (k : ℝ) • v
  refine ⟨_, h3, ?_⟩
  generalize hX : ((1 : ℝ) • (1 : Matrix (Fin n) (Fin n) ℝ) - A)⁻¹ = X at *
  have hXe : X - A * X = 1 := by
    have := mul_nonsing_inv _ (Ne.isUnit hs)
    rwa [hX, one_smul, Matrix.sub_mul, Matrix.one_mul] at this
  have hXv : ∀ w, X *ᵥ w = A *ᵥ (X *ᵥ w) + w := fun w => by
    have := congrArg (· *ᵥ w) hXe
    simp only [sub_mulVec, one_mulVec, ← mulVec_mulVec] at this
    exact sub_eq_iff_eq_add'.mp this
  have h4 := ramp_states (x := x) (a := X *ᵥ (B *ᵥ v)) (b := -(X *ᵥ (X *ᵥ (B *ᵥ v)))) (u := B *ᵥ v) (hXv _) (by
    have := hXv (X *ᵥ (B *ᵥ v))
    rw [mulVec_neg]
    conv_lhs => rw [this]
    abel) (fun k => by rw [h2, mulVec_smul])
  have h5 : (fun k : ℕ => (C *ᵥ x k + D *ᵥ ((k : ℝ) • v)) - ((k : ℝ) • ((C * X * B + D) *ᵥ v) + (-(C * (X * X) * B)) *ᵥ v)) =
      fun k => C *ᵥ (A ^ k *ᵥ (x 0 - -(X *ᵥ (X *ᵥ (B *ᵥ v))))) := by
    funext k
    rw [h4 k]
    simp only [mulVec_add, mulVec_smul, add_mulVec, neg_mulVec, ← mulVec_mulVec, mulVec_neg, smul_add]
    abel
  rw [h5]
  have h6 := (Continuous.matrix_mulVec (continuous_const (y := C)) continuous_id).tendsto' (0 : Fin n → ℝ) 0 (by simp)
  exact h6.comp (pow_mulVec_tendsto hA _)

/-- The slope of a unity feedback loop around a path with a velocity constant. -/
theorem loop_slope {s₀ : ℝ} {G R : StateM ℝ} {K M M' : Matrix (Fin m) (Fin m) ℝ} (hGd : G.d = Arr.of (0 : Matrix (Fin m) (Fin m) ℝ)) (hdt : DtOk G.dt) (hK : VelocityConst G m m s₀ K) (hdet : K.det ≠ 0)
    (e : feedback (.state G) (.state (unity m G.dt)) true = .ok R) (hR : SlopeAt R m m s₀ M M') : M = 1 ∧ M' = -K⁻¹ := by
  obtain ⟨g, g1, g2⟩ := hK
  obtain ⟨f, f1, rfl, f3⟩ := hR
  have hz0 : Tendsto (fun z : ℝ => (z - s₀)) (𝓝[≠] s₀) (𝓝 0) := (Continuous.tendsto' (by fun_prop) s₀ 0 (by simp)).mono_left nhdsWithin_le_nhds
  have hQ : Tendsto (fun z : ℝ => (z - s₀) • (1 + g z)) (𝓝[≠] s₀) (𝓝 K) := by
    have := (hz0.smul_const (1 : Matrix (Fin m) (Fin m) ℝ)).add g2
    simpa only [zero_smul, zero_add, ← smul_add] using this
  have hQd : Tendsto (fun z : ℝ => ((z - s₀) • (1 + g z)).det) (𝓝[≠] s₀) (𝓝 K.det) := (Continuous.matrix_det continuous_id).continuousAt.tendsto.comp hQ
  have hQi : Tendsto (fun z : ℝ => ((z - s₀) • (1 + g z))⁻¹) (𝓝[≠] s₀) (𝓝 K⁻¹) := by
    have h2 : ∀ X : Matrix (Fin m) (Fin m) ℝ, X⁻¹ = X.det⁻¹ • X.adjugate := fun X => by rw [Matrix.inv_def, Ring.inverse_eq_inv']
    simp only [h2]
    exact (hQd.inv₀ hdet).smul ((Continuous.matrix_adjugate continuous_id).continuousAt.tendsto.comp hQ)
  have hf : ∀ᶠ z : ℝ in 𝓝[≠] s₀, f z = 1 - (z - s₀) • ((z - s₀) • (1 + g z))⁻¹ := by
    filter_upwards [g1, f1.filter_mono nhdsWithin_le_nhds, hQd.eventually_ne hdet, self_mem_nhdsWithin] with z h1 h2 h3 hne
    have hne' : z - s₀ ≠ 0 := sub_ne_zero.mpr hne
    have hd : (1 + g z).det ≠ 0 := fun h0 => h3 (by rw [det_smul, h0, mul_zero])
    have hu : HasTF (unity m G.dt) m m z (1 : Matrix (Fin m) (Fin m) ℝ) := Or.inl ⟨rfl, 1, rfl, by ext i j; simp⟩
    have e1 : (1 : Matrix (Fin m) (Fin m) ℝ) - (if true then -1 else 1 : ℝ) • (1 * g z) = 1 + g z := by
      rw [if_pos rfl, Matrix.one_mul, neg_one_smul, sub_neg_eq_add]
    obtain ⟨h4, -⟩ := loop_value h1 hu hdt (fun _ X Y hX _ => by
      rw [hGd, Arr.of_inj] at hX
      rw [← hX, Matrix.mul_zero]) (by rw [e1]; exact hd) e
    rw [e1] at h4
    rw [HasTF_unique h2 h4]
    have e2 : (z - s₀) • ((z - s₀) • (1 + g z))⁻¹ = (1 + g z)⁻¹ := by
      have : ((z - s₀) • (1 + g z))⁻¹ = (z - s₀)⁻¹ • (1 + g z)⁻¹ := by
        refine inv_eq_left_inv ?_
        rw [Matrix.smul_mul, Matrix.mul_smul, smul_smul, nonsing_inv_mul _ (Ne.isUnit hd), inv_mul_cancel₀ hne', one_smul]
      rw [this, smul_smul, mul_inv_cancel₀ hne', one_smul]
    rw [e2]
    have e3 : (1 + g z) * (1 + g z)⁻¹ = 1 := mul_nonsing_inv _ (Ne.isUnit hd)
    rw [Matrix.add_mul, Matrix.one_mul] at e3
    rw [eq_sub_iff_add_eq, add_comm, e3]
  have hM : f s₀ = 1 := by
    ext i j
    have l1 : Tendsto (fun z => f z i j) (𝓝[≠] s₀) (𝓝 (f s₀ i j)) := (f3 i j).continuousAt.tendsto.mono_left nhdsWithin_le_nhds
    have l2 : Tendsto f (𝓝[≠] s₀) (𝓝 1) := by
      have := tendsto_const_nhds (x := (1 : Matrix (Fin m) (Fin m) ℝ)) |>.sub (hz0.smul hQi)
      rw [zero_smul, sub_zero] at this
      exact this.congr' (hf.mono fun z hz => hz.symm)
    exact tendsto_nhds_unique l1 (tendsto_pi_nhds.mp (tendsto_pi_nhds.mp l2 i) j)
  refine ⟨hM, ?_⟩
  ext i j
  have l1 := hasDerivAt_iff_tendsto_slope.mp (f3 i j)
  have l2 : Tendsto (fun z : ℝ => -(((z - s₀) • (1 + g z))⁻¹ i j)) (𝓝[≠] s₀) (𝓝 (-(K⁻¹ i j))) := (tendsto_pi_nhds.mp (tendsto_pi_nhds.mp hQi i) j).neg
  refine tendsto_nhds_unique l1 (l2.congr' ?_)
  filter_upwards [hf, self_mem_nhdsWithin] with z hz hne
  have hne' : z - s₀ ≠ 0 := sub_ne_zero.mpr hne
  rw [slope_def_field, eq_div_iff hne', hM, hz, Matrix.sub_apply, Matrix.smul_apply, smul_eq_mul]
  ring

/-- A unity feedback loop around a dynamic model is a dynamic model. -/
theorem unity_dyn {G R : StateM ℝ} (hc : Consistent G m m) (hg : G.isgain = false) (hGd : G.d = Arr.of (0 : Matrix (Fin m) (Fin m) ℝ)) (hok : DtOk G.dt)
    (e : feedback (.state G) (.state (unity m G.dt)) true = .ok R) :
    ∃ (n : ℕ) (A : Matrix (Fin n) (Fin n) ℝ) (B : Matrix (Fin n) (Fin m) ℝ) (C : Matrix (Fin m) (Fin n) ℝ) (D : Matrix (Fin m) (Fin m) ℝ), R = stateOf A B C D G.dt := by
  obtain ⟨-, -, h3⟩ := feedback_result hc (unity_consistent m G.dt) hok e
  obtain ⟨h4, h5⟩ := h3 0 1 hGd rfl
  obtain ⟨a', b', c', D', dt, rfl⟩ | ⟨n', A', B', C, D', dt, rfl⟩ := consistent_cases hc
  · cases hg
  simp only [Arr.of_inj] at hGd
  subst hGd
  unfold unity at h5
  rw [closeBody_ds hok _ _ _ _ _ _ _ _ _ _ h4] at h5
  exact ⟨_, _, _, _, _, (Except.ok.inj h5).symm⟩

/-- **C138**, velocity errors: if `(z - 1) G(z)` tends to an invertible matrix `K` for `z → 1` and the unity feedback loop is stable, the loop follows the ramp `0, v, 2 v, ...` with an error that tends to `K⁻¹ v`. -/
theorem C138_velocity {G R : StateM ℝ} {T : StateObj ℝ P} {K : Matrix (Fin m) (Fin m) ℝ} (hm : 1 ≤ m) (hc : Consistent G m m) (hg : G.isgain = false)
    (hGd : G.d = Arr.of (0 : Matrix (Fin m) (Fin m) ℝ)) (hh : 0 < h) (hdt : G.dt = some h) (hK : VelocityConst G m m 1 K) (hdet : K.det ≠ 0)
    (e : feedback (.state G) (.state (unity m G.dt)) true = .ok R) (hT : T.g = R) (hst : StableModel R) (v : Fin m → ℝ) :
    ∃ y, SimulatesTo Nm E T h none (fun k => (k : ℝ) • v) y ∧ Tendsto (fun k : ℕ => (k : ℝ) • v - y k) atTop (𝓝 (K⁻¹ *ᵥ v)) := by
  have hok : DtOk G.dt := fun t ht => by rw [hdt] at ht; cases ht; exact hh
  obtain ⟨n, A, B, C, D, hR⟩ := unity_dyn hc hg hGd hok e
  rw [hdt] at hR
  subst hT
  obtain ⟨M, M', h1, h2⟩ := C138_ramp (Nm := Nm) (E := E) hm hR hst
  obtain ⟨rfl, rfl⟩ := loop_slope hGd hok hK hdet e h1
  obtain ⟨y, h3, h4⟩ := h2 none 0 (Or.inl ⟨rfl, rfl⟩) v
  refine ⟨y, h3, ?_⟩
  have h5 := h4.const_sub (K⁻¹ *ᵥ v)
  rw [sub_zero] at h5
  refine h5.congr fun k => ?_
  rw [one_mulVec, neg_mulVec]
  abel

end Harold
