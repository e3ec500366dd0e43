import Verif.Props.Integral
import Verif.Props.LoopPoles

/-!
# C125: steady-state errors, and what exact following and rejection need
-/

namespace Harold

open Matrix Spec Filter Topology

variable {n m p q : ℕ} {G H R : StateM ℝ} {dt : Option ℝ}

section
variable {L : Type} [Field L] [Algebra ℝ L] {s : L}

local notation "φ" => algebraMap ℝ L

/-- **C125**: the value at `s` of a unity feedback loop without direct feedthrough is the identity exactly if the forward path has the mode `s` in every channel. -/
theorem C125_follows_iff (hG : Consistent G m m) (hg : G.isgain = false) (hGd : G.d = Arr.of (0 : Matrix (Fin m) (Fin m) ℝ)) (hdt : DtOk G.dt)
    (h : feedback (.state G) (.state (unity m G.dt)) true = .ok R) {M : Matrix (Fin m) (Fin m) L} (hM : HasTF R m m s M) : M = 1 ↔ HasMode G m s := by
  refine ⟨fun h1 => ?_, fun hK => C121_follows hG hGd hdt hK h hM⟩
  have hH := unity_consistent m G.dt
  obtain ⟨-, -, h3⟩ := feedback_result hG hH hdt h
  obtain ⟨h4, h5⟩ := h3 0 1 hGd rfl
  obtain ⟨a', b', c', D', dt, rfl⟩ | ⟨n, A, B, C, D', dt, rfl⟩ := consistent_cases hG
  · cases hg
  simp only [Arr.of_inj] at hGd
  subst hGd
  unfold unity at h5
  rw [closeBody_ds hdt _ _ _ _ _ _ _ _ _ _ h4] at h5
  obtain rfl := Except.ok.inj h5
  have c1 : A + (fbSign true : ℝ) • B * ((1 - (1 : Matrix (Fin m) (Fin m) ℝ) * 0)⁻¹ * ((1 : Matrix (Fin m) (Fin m) ℝ) * C)) = A - B * C := by
    rw [Matrix.mul_zero, sub_zero, inv_one, Matrix.one_mul, Matrix.one_mul, show (fbSign true : ℝ) = -1 from rfl, neg_one_smul, Matrix.neg_mul, sub_eq_add_neg]
  have hT := hasTF_dyn' hM
  rw [c1] at hT
  simp only [Matrix.mul_zero, Matrix.zero_mul, smul_zero, add_zero] at hT
  obtain ⟨h6, h7⟩ := hT
  rw [Matrix.map_zero _ (map_zero _), add_zero, h1] at h7
  have h8 : C.map φ * (s • 1 - (A - B * C).map φ)⁻¹ * (s • 1 - (A - B * C).map φ) = C.map φ := by
    rw [Matrix.mul_assoc, nonsing_inv_mul _ (Ne.isUnit h6), Matrix.mul_one]
  generalize C.map φ * (s • 1 - (A - B * C).map φ)⁻¹ = W at h7 h8
  refine ⟨n, A, B, W, rfl, rfl, rfl, ?_, by rw [← h7]; simp⟩
  rw [map_sub', map_mul', show s • (1 : Matrix (Fin n) (Fin n) L) - (A.map φ - B.map φ * C.map φ) = s • 1 - A.map φ + B.map φ * C.map φ by abel, Matrix.mul_add, ← Matrix.mul_assoc, ← h7, Matrix.one_mul,
    add_eq_right, Matrix.mul_sub, Matrix.mul_smul, Matrix.mul_one, sub_eq_zero] at h8
  exact h8.symm

/-- **C125**: if the plant has a value with independent rows at `s` (no zero and no pole there), the value of the loop at `s` is zero exactly if the feedback element has the mode `s` in every channel. -/
theorem C125_rejects_iff (hG : Consistent G p m) (hH : Consistent H m p) (hp : 1 ≤ p) (hdt : DtOk G.dt) (hGd : G.d = Arr.of (0 : Matrix (Fin p) (Fin m) ℝ)) {Gs : Matrix (Fin p) (Fin m) L} (hGs : HasTF G p m s Gs)
    {Y : Matrix (Fin m) (Fin p) L} (hY : Gs * Y = 1) {neg : Bool} (h : feedback (.state G) (.state H) neg = .ok R) {M : Matrix (Fin p) (Fin m) L} (hM : HasTF R p m s M) : M = 0 ↔ HasMode H p s := by
  obtain ⟨-, -, h3⟩ := feedback_result hG hH hdt h
  have hne : (1 : Matrix (Fin p) (Fin p) L) ≠ 0 := fun h => by
    have := congrFun (congrFun h ⟨0, hp⟩) ⟨0, hp⟩
    simp at this
  constructor
  swap
  · intro hK
    obtain ⟨a', b', c', E, dt', rfl⟩ | ⟨k, Ka, Lb, Mc, E, dt', rfl⟩ := consistent_cases hH
    · obtain ⟨-, -, -, -, hg, -⟩ := hK; cases hg
    · exact C121_rejects hG hH hdt hGd rfl (Matrix.mul_zero _) hK h hM
  intro hM0
  obtain ⟨a', b', c', D', dt, rfl⟩ | ⟨n, A, B, C, D', dt, rfl⟩ := consistent_cases hG
  · exfalso
    simp only [Arr.of_inj] at hGd
    subst hGd
    rcases hGs with ⟨-, D, e, rfl⟩ | ⟨hg, -⟩
    · rw [Arr.of_inj] at e
      rw [← e, Matrix.map_zero _ (map_zero _), Matrix.zero_mul] at hY
      exact hne hY.symm
    · cases hg
  simp only [Arr.of_inj] at hGd
  subst hGd
  have hT := hasTF_dyn' hGs
  obtain ⟨h6, h7⟩ := hT
  rw [Matrix.map_zero _ (map_zero _), add_zero] at h7
  have key : ∀ {W : Matrix (Fin p) (Fin n) L} {V : Matrix (Fin p) (Fin p) L}, W * B.map φ = 0 → W * (s • 1 - A.map φ) = V * C.map φ → V = 0 := by
    intro W V e1 e2
    have e3 : W = V * C.map φ * (s • 1 - A.map φ)⁻¹ := by
      rw [← e2, Matrix.mul_assoc, mul_nonsing_inv _ (Ne.isUnit h6), Matrix.mul_one]
    rw [e3, Matrix.mul_assoc, Matrix.mul_assoc, ← Matrix.mul_assoc (C.map φ), ← h7] at e1
    have := congrArg (· * Y) e1
    simpa [Matrix.mul_assoc, hY] using this
  obtain ⟨a', b', c', E, dt', rfl⟩ | ⟨k, Ka, Lb, Mc, E, dt', rfl⟩ := consistent_cases hH
  · exfalso
    obtain ⟨h4, h5⟩ := h3 0 E rfl rfl
    rw [closeBody_ds hdt _ _ _ _ _ _ _ _ _ _ h4] at h5
    obtain rfl := Except.ok.inj h5
    obtain ⟨h8, h9⟩ := hasTF_dyn' hM
    simp only [Matrix.mul_zero, sub_zero, inv_one, Matrix.one_mul, Matrix.zero_mul, smul_zero, add_zero] at h8 h9
    rw [hM0, Matrix.map_zero _ (map_zero _), add_zero] at h9
    have h10 : C.map φ * (s • 1 - (A + (fbSign neg : ℝ) • B * (E * C)).map φ)⁻¹ * (s • 1 - (A + (fbSign neg : ℝ) • B * (E * C)).map φ) = C.map φ := by
      rw [Matrix.mul_assoc, nonsing_inv_mul _ (Ne.isUnit h8), Matrix.mul_one]
    generalize C.map φ * (s • 1 - (A + (fbSign neg : ℝ) • B * (E * C)).map φ)⁻¹ = W at h9 h10
    refine hne (key h9.symm ?_)
    have h11 : (A + (fbSign neg : ℝ) • B * (E * C)).map φ = A.map φ + (φ (fbSign neg : ℝ)) • (B.map φ * (E * C).map φ) := by
      rw [Matrix.map_add _ (map_add _), Matrix.smul_mul, map_smul', map_mul']
    rw [h11, show s • (1 : Matrix (Fin n) (Fin n) L) - (A.map φ + (φ (fbSign neg : ℝ)) • (B.map φ * (E * C).map φ)) = (s • 1 - A.map φ) - (φ (fbSign neg : ℝ)) • (B.map φ * (E * C).map φ) by abel,
      Matrix.mul_sub W, Matrix.mul_smul, ← Matrix.mul_assoc W, ← h9, Matrix.zero_mul, smul_zero, sub_zero] at h10
    rw [h10, Matrix.one_mul]
  · obtain ⟨h4, h5⟩ := h3 0 E rfl rfl
    rw [closeBody_dd hdt _ _ _ _ _ _ _ _ _ _ h4] at h5
    obtain rfl := Except.ok.inj h5
    obtain ⟨h8, h9⟩ := hasTF_dyn' hM
    simp only [Matrix.mul_zero, sub_zero, inv_one, Matrix.one_mul, Matrix.zero_mul, smul_zero, add_zero] at h8 h9
    rw [hM0, Matrix.map_zero _ (map_zero _), add_zero] at h9
    have h10 : (hcat C 0).map φ * (s • 1 - (blk A 0 (Lb * C) Ka + (fbSign neg : ℝ) • vcat B (0 : Matrix (Fin k) (Fin m) ℝ) * hcat (E * C) Mc).map φ)⁻¹ *
        (s • 1 - (blk A 0 (Lb * C) Ka + (fbSign neg : ℝ) • vcat B (0 : Matrix (Fin k) (Fin m) ℝ) * hcat (E * C) Mc).map φ) = (hcat C 0).map φ := by
      rw [Matrix.mul_assoc, nonsing_inv_mul _ (Ne.isUnit h8), Matrix.mul_one]
    generalize (hcat C 0).map φ * (s • 1 - (blk A 0 (Lb * C) Ka + (fbSign neg : ℝ) • vcat B (0 : Matrix (Fin k) (Fin m) ℝ) * hcat (E * C) Mc).map φ)⁻¹ = W at h9 h10
    rw [Matrix.map_add _ (map_add _), Matrix.smul_mul, map_smul', map_mul', show ∀ X Y Z : Matrix (Fin (n + k)) (Fin (n + k)) L, X - (Y + Z) = X - Y - Z from fun X Y Z => by abel, Matrix.mul_sub W, Matrix.mul_smul, ← Matrix.mul_assoc W, ← h9, Matrix.zero_mul,
      smul_zero, sub_zero, blk_map, Matrix.map_zero _ (map_zero _), smul_one_sub_blk, hcat_map, Matrix.map_zero _ (map_zero _)] at h10
    obtain ⟨W₁, W₂, rfl⟩ := exists_hcat' W
    rw [hcat_mul_blk] at h10
    obtain ⟨h12, h13⟩ := hcat_inj h10
    rw [vcat_map, hcat_mul_vcat', Matrix.map_zero _ (map_zero _), Matrix.mul_zero, add_zero] at h9
    rw [neg_zero, Matrix.mul_zero, zero_add, Matrix.mul_sub, Matrix.mul_smul, Matrix.mul_one, sub_eq_zero] at h13
    have h14 := key (V := 1 + W₂ * Lb.map φ) h9.symm (by
      rw [Matrix.add_mul, Matrix.one_mul]
      rwa [map_mul', Matrix.mul_neg, ← Matrix.mul_assoc, ← sub_eq_add_neg, sub_eq_iff_eq_add] at h12)
    refine ⟨k, Ka, Lb, W₂, rfl, rfl, rfl, h13.symm, ?_⟩
    rw [eq_neg_of_add_eq_zero_right h14, det_neg, det_one, mul_one]
    exact pow_ne_zero _ (neg_ne_zero.mpr one_ne_zero)

end

variable {P : Type} {Nm : Numerics ℝ P} {Bn : DNum} {h : ℝ}

theorem settles_unique {resp : List ℝ → Res (SimOut × List ℝ)} {M M' : Matrix (Fin p) (Fin m) ℝ} (h1 : Settles resp h M) (h2 : Settles resp h M') : M = M' := by
  obtain ⟨Y, e1, e2⟩ := h1
  obtain ⟨Y', f1, f2⟩ := h2
  have hY : Y = Y' := by
    funext i
    ext l k
    obtain ⟨y, g1, g2⟩ := e1 (i + 2) 0 (by omega)
    obtain ⟨y', k1, k2⟩ := f1 (i + 2) 0 (by omega)
    rw [g1] at k1
    obtain ⟨rfl, -⟩ := Prod.mk.inj (Except.ok.inj k1)
    rw [g2, List.ofFn_inj] at k2
    have := congrFun k2 k
    rw [Arr.of_inj] at this
    exact congrFun (congrFun this ⟨i, by omega⟩) l
  subst hY
  ext l k
  exact tendsto_nhds_unique (e2 l k) (f2 l k)

/-- **C125**, constant references: the step responses of a stable unity feedback loop settle at the reference exactly if the forward path has an integrator in every channel. -/
theorem C125_step_follows_iff (hE : BalanceOk Bn) (hG : Consistent G m m) (hg : G.isgain = false) (hGd : G.d = Arr.of (0 : Matrix (Fin m) (Fin m) ℝ)) (hdt : DtOk G.dt) (hm : 1 ≤ m) (hh : 0 < h)
    (hd : G.dt = none ∨ G.dt = some h) (auto : ℝ × ℝ) (hR : feedback (.state G) (.state (unity m G.dt)) true = .ok R) {T : StateObj ℝ P} (hT : T.g = R) (hst : StableModel R) :
    Settles (fun t => stepResponse Nm Bn T auto (some t)) h (1 : Matrix (Fin m) (Fin m) ℝ) ↔ HasMode G m (zeroFreq G.dt : ℝ) := by
  obtain ⟨h1, h2, -⟩ := feedback_result hG (unity_consistent m G.dt) hdt hR
  subst hT
  obtain ⟨⟨M, h3, h4⟩, -⟩ := stable_responses (Nm := Nm) hE h1 hm hh (by rwa [h2]) hst auto
  rw [h2] at h3
  rw [← C125_follows_iff hG hg hGd hdt hR h3]
  exact ⟨fun h5 => settles_unique h4 h5, fun h5 => h5 ▸ h4⟩

/-- **C125**, constant disturbances: the responses of a stable loop to steps at the input of a plant without pole or zero at frequency zero settle at zero exactly if the feedback element has an integrator in
every channel. -/
theorem C125_step_rejects_iff (hE : BalanceOk Bn) (hG : Consistent G p m) (hH : Consistent H m p) (hp : 1 ≤ p) (hm : 1 ≤ m) (hdt : DtOk G.dt) (hGd : G.d = Arr.of (0 : Matrix (Fin p) (Fin m) ℝ))
    {Gs : Matrix (Fin p) (Fin m) ℝ} (hGs : HasTF G p m (zeroFreq G.dt : ℝ) Gs) {Y : Matrix (Fin m) (Fin p) ℝ} (hY : Gs * Y = 1) (hh : 0 < h) (hd : G.dt = none ∨ G.dt = some h) (auto : ℝ × ℝ) {neg : Bool}
    (hR : feedback (.state G) (.state H) neg = .ok R) {T : StateObj ℝ P} (hT : T.g = R) (hst : StableModel R) :
    Settles (fun t => stepResponse Nm Bn T auto (some t)) h (0 : Matrix (Fin p) (Fin m) ℝ) ↔ HasMode H p (zeroFreq G.dt : ℝ) := by
  obtain ⟨h1, h2, -⟩ := feedback_result hG hH hdt hR
  subst hT
  obtain ⟨⟨M, h3, h4⟩, -⟩ := stable_responses (Nm := Nm) hE h1 hm hh (by rwa [h2]) hst auto
  rw [h2] at h3
  rw [← C125_rejects_iff hG hH hp hdt hGd hGs hY hR h3]
  exact ⟨fun h5 => settles_unique h4 h5, fun h5 => h5 ▸ h4⟩

/-- **C125**, finite gain: if the forward path has the value `K` at frequency zero, the step responses of a stable unity feedback loop settle at `K (1 + K)⁻¹`, so that the error settles at `(1 + K)⁻¹`
and vanishes for no reference. -/
theorem C125_step_error (hE : BalanceOk Bn) {K : Matrix (Fin m) (Fin m) ℝ} (hG : HasTF G m m (zeroFreq G.dt : ℝ) K) (hg : G.isgain = false) (hGd : G.d = Arr.of (0 : Matrix (Fin m) (Fin m) ℝ))
    (hdt : DtOk G.dt) (hm : 1 ≤ m) (hm' : (m * spacing10 : ℝ) < 1) (hh : 0 < h) (hd : G.dt = none ∨ G.dt = some h) (auto : ℝ × ℝ) :
    ∃ R, feedback (.state G) (.state (unity m G.dt)) true = .ok R ∧ R.dt = G.dt ∧ ∀ T : StateObj ℝ P, T.g = R → StableModel R →
      ∃ M, Settles (fun t => stepResponse Nm Bn T auto (some t)) h M ∧ M = K * (1 + K)⁻¹ ∧ 1 - M = (1 + K)⁻¹ ∧ ∀ r, (1 - M) *ᵥ r = 0 → r = 0 := by
  have hc := hasTF_consistent hG
  obtain ⟨R, hR⟩ := feedback_exists hc (unity_consistent m G.dt) hdt rfl hg hGd (E := 1) rfl (Matrix.mul_zero _) hm' true
  obtain ⟨h1, h2, h0⟩ := feedback_result hc (unity_consistent m G.dt) hdt hR
  refine ⟨R, hR, h2, fun T hT hst => ?_⟩
  subst hT
  obtain ⟨⟨M, h3, h4⟩, -⟩ := stable_responses (Nm := Nm) hE h1 hm hh (by rwa [h2]) hst auto
  rw [h2] at h3
  have hU : HasTF (unity m G.dt) m m (zeroFreq G.dt : ℝ) (1 : Matrix (Fin m) (Fin m) ℝ) := .inl ⟨rfl, 1, rfl, by simp⟩
  have h5 := (C99_response_partial hdt hR 0 1 hGd rfl (.inr (Matrix.mul_zero _)) hG hU).mp ⟨M, h3⟩
  obtain ⟨R', h6, h7, -⟩ := C30_feedback_partial hG hU hdt rfl true 0 1 hGd rfl (.inr (Matrix.mul_zero _)) (by simp [hg])
    (by rw [Matrix.mul_zero, sub_zero]; exact not_sv_one (by unfold spacing10; positivity) hm') h5
  rw [hR] at h6
  obtain rfl := Except.ok.inj h6
  have h8 := HasTF_unique h3 h7
  simp only [if_true, Matrix.one_mul, neg_smul, one_smul, sub_neg_eq_add] at h5 h8
  have h9 : (1 + K) * (1 + K)⁻¹ = 1 := mul_nonsing_inv _ (Ne.isUnit h5)
  have h10 : 1 - M = (1 + K)⁻¹ := by
    rw [h8]
    nth_rewrite 1 [← h9]
    rw [Matrix.add_mul, Matrix.one_mul, add_sub_cancel_right]
  refine ⟨M, h4, h8, h10, fun r hr => ?_⟩
  rw [h10] at hr
  have := congrArg ((1 + K) *ᵥ ·) hr
  simpa [Matrix.mulVec_mulVec, h9] using this

theorem steady_unique {sim : Arr ℝ → Option (List ℝ) → Res (SimOut × List ℝ)} {ω : ℝ} {M M' : Matrix (Fin p) (Fin m) ℂ} (h1 : SteadyState sim p m h ω M) (h2 : SteadyState sim p m h ω M') : M = M' := by
  have key : ∀ (a : Fin m → ℂ) (i : Fin p), Tendsto (fun k : ℕ => (((M - M') *ᵥ a) i * Complex.exp (Complex.I * (ω * h * k))).re) atTop (𝓝 0) := by
    intro a i
    obtain ⟨d, e1, e2⟩ := h1 a
    obtain ⟨d', f1, f2⟩ := h2 a
    have e3 : ∀ k : ℕ, sineAt ω h (M *ᵥ a) k i + d k i = sineAt ω h (M' *ᵥ a) k i + d' k i := fun k => by
      have g1 := e2 (k + 2) none _ (by omega) (.inl ⟨rfl, rfl⟩)
      have g2 := f2 (k + 2) none _ (by omega) (.inl ⟨rfl, rfl⟩)
      rw [g1] at g2
      have g3 := Arr.of_inj.mp (SimOut.flat.inj (Prod.mk.inj (Except.ok.inj g2)).1)
      exact congrFun (congrFun g3 ⟨k, by omega⟩) i
    have e4 : (fun k : ℕ => (((M - M') *ᵥ a) i * Complex.exp (Complex.I * (ω * h * k))).re) = fun k => d' k i - d k i := by
      funext k
      have := e3 k
      unfold sineAt at this
      rw [Matrix.sub_mulVec, Pi.sub_apply, sub_mul, Complex.sub_re]
      linarith
    rw [e4]
    simpa using ((tendsto_pi_nhds.mp f1 i).sub (tendsto_pi_nhds.mp e1 i))
  rw [← sub_eq_zero]
  ext i j
  have k1 := key (Pi.single j 1) i
  have k2 := key (Pi.single j Complex.I) i
  simp only [mulVec_single, Pi.smul_apply, MulOpposite.smul_eq_mul_unop, MulOpposite.unop_op, col_apply, mul_one] at k1 k2
  generalize (M - M') i j = v at k1 k2 ⊢
  have k3 : Tendsto (fun _ : ℕ => ‖v‖ ^ 2) atTop (𝓝 0) := by
    have := (k1.pow 2).add (k2.pow 2)
    rw [zero_pow two_ne_zero, add_zero] at this
    refine this.congr fun k => ?_
    have e : ‖v‖ ^ 2 = ‖v * Complex.exp (Complex.I * (ω * h * k))‖ ^ 2 := by
      rw [norm_mul, show Complex.I * ((ω : ℂ) * h * k) = ((ω * h * k : ℝ) : ℂ) * Complex.I by push_cast; ring, Complex.norm_exp_ofReal_mul_I, mul_one]
    rw [e, ← Complex.normSq_eq_norm_sq, Complex.normSq_apply, mul_right_comm v Complex.I, Complex.mul_I_re]
    ring
  have k4 := tendsto_nhds_unique k3 tendsto_const_nhds
  simpa using k4.symm

/-- **C125**, sinusoidal references of sampled loops: a stable unity feedback loop follows the sinusoids at `ω` rad/s exactly if the forward path has the mode `exp (i ω h)` in every channel. -/
theorem C125_sine_follows_iff (hE : BalanceOk Bn) (hG : Consistent G m m) (hg : G.isgain = false) (hGd : G.d = Arr.of (0 : Matrix (Fin m) (Fin m) ℝ)) (hh : 0 < h) (hd : G.dt = some h) (hm : 1 ≤ m) (ω : ℝ)
    (hR : feedback (.state G) (.state (unity m G.dt)) true = .ok R) {T : StateObj ℝ P} (hT : T.g = R) (hst : StableModel R) :
    SteadyState (fun u t => simulate Nm Bn T u t none false) m m h ω 1 ↔ HasMode G m (Complex.exp (Complex.I * (ω * h))) := by
  have hdt : DtOk G.dt := fun t ht => by rw [hd] at ht; cases ht; exact hh
  obtain ⟨h1, h2, -⟩ := feedback_result hG (unity_consistent m G.dt) hdt hR
  subst hT
  obtain ⟨M, h3, h4⟩ := sine_model (Nm := Nm) hE h1 hm hh (h2.trans hd) hst ω
  rw [show evalPoint T.g.dt ω = Complex.exp (Complex.I * (ω * h)) by rw [h2, hd]; rfl] at h3
  rw [← C125_follows_iff hG hg hGd hdt hR h3]
  exact ⟨fun h5 => steady_unique h4 h5, fun h5 => h5 ▸ h4⟩

/-- `1 / (s + 1)` in a unity feedback loop: the step response settles at a half. -/
example {P : Type} (N : Numerics ℝ P) (auto : ℝ × ℝ) : ∃ R, feedback (.state (stateOf !![-1] !![1] !![1] (0 : Matrix (Fin 1) (Fin 1) ℝ) none)) (.state (unity 1 none)) true = .ok R ∧
    ∀ T : StateObj ℝ P, T.g = R → Settles (fun t => stepResponse N plainDNum T auto (some t)) (1 / 10) (!![1 / 2] : Matrix (Fin 1) (Fin 1) ℝ) := by
  have hG : HasTF (stateOf !![-1] !![1] !![1] (0 : Matrix (Fin 1) (Fin 1) ℝ) none) 1 1 (zeroFreq none : ℝ) (!![1] : Matrix (Fin 1) (Fin 1) ℝ) := by
    refine .inr ⟨rfl, 1, _, _, _, _, rfl, rfl, rfl, rfl, isTF_iff_sol.mpr ⟨by simp [zeroFreq], !![1], ?_, ?_⟩⟩
    · ext i j; fin_cases i; fin_cases j; simp [zeroFreq, Matrix.mul_apply]
    · ext i j; fin_cases i; fin_cases j; simp
  obtain ⟨R, h1, -, h2⟩ := C125_step_error (Nm := N) (h := 1 / 10) plainDNum_ok hG rfl rfl dtOk_none le_rfl (by norm_num [spacing10]) (by norm_num) (Or.inl rfl) auto
  refine ⟨R, h1, fun T hT => ?_⟩
  have hst : MotionsVanish none (!![-1] - !![1] * !![1] : Matrix (Fin 1) (Fin 1) ℝ) := hurwitz_iff_motions.mp fun z hz => by
    unfold IsEig at hz
    have hz' : z + 2 = 0 := by
      rw [← hz]
      simp [Matrix.mul_apply]
      ring
    rw [eq_neg_of_add_eq_zero_left hz']
    norm_num
  obtain ⟨M, h3, h4, -⟩ := h2 T hT ((unity_loop_stable dtOk_none h1).mpr hst)
  convert h3 using 1
  rw [h4]
  have e : (1 + !![1] : Matrix (Fin 1) (Fin 1) ℝ)⁻¹ = !![1 / 2] := by
    refine inv_eq_right_inv ?_
    ext i j; fin_cases i; fin_cases j; norm_num [Matrix.mul_apply]
  rw [e]
  ext i j; fin_cases i; fin_cases j; simp [Matrix.mul_apply]

end Harold
