import Verif.Lemmas.DiscLimit
import Verif.Props.Passive
import Verif.Props.TimeUnits
import Verif.Props.PoleMap

/-!
# C132: discretized models approach the continuous model as the sampling period goes to zero
-/

namespace Harold

open Matrix Spec NormedSpace Filter Topology

variable {P : Type} {Nm : Numerics ℝ P} {E : DNum} {G : StateObj ℝ P} {n m p : ℕ} {pw : ℝ} {q : Option (Arr ℝ)} {method : String}
  {A : Matrix (Fin n) (Fin n) ℝ} {B : Matrix (Fin n) (Fin m) ℝ} {C : Matrix (Fin p) (Fin n) ℝ} {D : Matrix (Fin p) (Fin m) ℝ}

/-- The methods of the claim: everything `discretize` offers except a matrix given by the caller. -/
def ApproxMethod (method : String) : Prop :=
  (method = "tustin" ∨ method = "bilinear") ∨ method ∈ forwardNames ∨ method ∈ backwardNames ∨ method = "zoh" ∨ method = "foh"

/-- The discretized models as functions of the period. -/
theorem disc_family (hE : BalanceOk E) (hm : ApproxMethod method) (hpw : 0 ≤ pw) (hG : G.g = stateOf A B C D none) :
    ∃ (Ah : ℝ → Matrix (Fin n) (Fin n) ℝ) (Bh : ℝ → Matrix (Fin n) (Fin m) ℝ) (Ch : ℝ → Matrix (Fin p) (Fin n) ℝ) (Dh : ℝ → Matrix (Fin p) (Fin m) ℝ) (β : ℝ → ℝ),
      LimitOf A B C D Ah Bh Ch Dh β ∧ ∀ᶠ h in 𝓝[>] 0, ∃ S, discretize Nm E G h method pw q = .ok S ∧ S.g = stateOf (Ah h) (Bh h) (Ch h) (Dh h) (some h) := by
  have hpos : ∀ᶠ h : ℝ in 𝓝[>] 0, 0 < h := self_mem_nhdsWithin
  have hid : Tendsto (fun h : ℝ => h) (𝓝[>] 0) (𝓝 0) := tendsto_id.mono_left nhdsWithin_le_nhds
  rcases hm with hm | hm | hm | rfl | rfl
  · have hy0 : ∀ᶠ h in 𝓝[>] 0, √(warpPeriod pw h) ≠ 0 := warpPeriod_pos.mono fun h hh => (Real.sqrt_pos.mpr hh).ne'
    have hy : Tendsto (fun h => h⁻¹ * (√(warpPeriod pw h) * √(warpPeriod pw h))) (𝓝[>] 0) (𝓝 1) := by
      refine (warpPeriod_slope (pw := pw)).congr' ?_
      filter_upwards [warpPeriod_pos (pw := pw)] with h hh
      rw [Real.mul_self_sqrt hh.le]
    have hw : Tendsto (fun h => warpPeriod pw h / 2) (𝓝[>] 0) (𝓝 0) := by
      have := (warpPeriod_zero (pw := pw)).div_const 2
      rwa [zero_div] at this
    obtain ⟨h1, h2⟩ := limit_lft hy0 hy hw A B C D
    refine ⟨_, _, _, _, _, h2, ?_⟩
    have hny : ∀ᶠ h : ℝ in 𝓝[>] 0, pw * (2 * h) < 1 := by
      have h3 : Tendsto (fun h : ℝ => pw * (2 * h)) (𝓝[>] 0) (𝓝 (pw * (2 * 0))) := (hid.const_mul 2).const_mul pw
      rw [mul_zero, mul_zero] at h3
      exact h3.eventually (gt_mem_nhds one_pos)
    filter_upwards [hpos, h1, hny] with h hh hd hn
    have hn' : pw < 1 / (2 * h) := by rw [lt_div_iff₀ (by positivity)]; exact hn
    obtain ⟨y, hy0, hy1, hy2⟩ := tustin_args_all (E := E) (qq := q) hm hh hpw hn'
    have ey : y = √(warpPeriod pw h) := by rw [warpPeriod, ← hy2, Real.sqrt_sq hy0.le]
    have ew : y ^ 2 / 2 = warpPeriod pw h / 2 := by rw [hy2, warpPeriod]
    rw [ew, ey] at hy1
    obtain ⟨S, h3, h4, -⟩ := (discretize_lft_ok (N := Nm) (hy1 G.g) (fun _ _ => hn'.le) hG (by rcases hm with rfl | rfl <;> simp [knownMethods])).2 hd hh
    exact ⟨S, h3, h4⟩
  · obtain ⟨h1, h2⟩ := limit_lft (w := fun _ => 0) sqrt_slope.1 sqrt_slope.2 tendsto_const_nhds A B C D
    refine ⟨_, _, _, _, _, h2, ?_⟩
    filter_upwards [hpos, h1] with h hh hd
    have ha : discretizeArgs E G.g h method pw q = simpleLft (q2 1 (√h) (√h) 0) G.g.a G.g.b G.g.c G.g.d := by
      simp only [forwardNames, List.mem_cons, List.not_mem_nil, or_false] at hm
      rcases hm with rfl | rfl | rfl | rfl <;> simp [discretizeArgs, tustinNames, forwardNames, Bind.bind, Except.bind]
    obtain ⟨S, h3, h4, -⟩ := (discretize_lft_ok (N := Nm) ha (by
      simp only [forwardNames, List.mem_cons, List.not_mem_nil, or_false] at hm
      rcases hm with rfl | rfl | rfl | rfl <;> simp [tustinNames]) hG (by
      simp only [forwardNames, List.mem_cons, List.not_mem_nil, or_false] at hm
      rcases hm with rfl | rfl | rfl | rfl <;> simp [knownMethods])).2 hd hh
    exact ⟨S, h3, h4⟩
  · obtain ⟨h1, h2⟩ := limit_lft (w := fun h => h) sqrt_slope.1 sqrt_slope.2 hid A B C D
    refine ⟨_, _, _, _, _, h2, ?_⟩
    filter_upwards [hpos, h1] with h hh hd
    have ha : discretizeArgs E G.g h method pw q = simpleLft (q2 1 (√h) (√h) h) G.g.a G.g.b G.g.c G.g.d := by
      simp only [backwardNames, List.mem_cons, List.not_mem_nil, or_false] at hm
      rcases hm with rfl | rfl | rfl | rfl <;> simp [discretizeArgs, tustinNames, forwardNames, backwardNames, Bind.bind, Except.bind]
    obtain ⟨S, h3, h4, -⟩ := (discretize_lft_ok (N := Nm) ha (by
      simp only [backwardNames, List.mem_cons, List.not_mem_nil, or_false] at hm
      rcases hm with rfl | rfl | rfl | rfl <;> simp [tustinNames]) hG (by
      simp only [backwardNames, List.mem_cons, List.not_mem_nil, or_false] at hm
      rcases hm with rfl | rfl | rfl | rfl <;> simp [knownMethods])).2 hd hh
    exact ⟨S, h3, h4⟩
  · refine ⟨_, _, _, _, _, limit_zoh A B C D, ?_⟩
    filter_upwards [hpos] with h hh
    obtain ⟨S, h3, h4, -⟩ := discretize_zoh_gam (N := Nm) (pw := pw) (q := q) hE hh hG
    exact ⟨S, h3, h4⟩
  · refine ⟨_, _, _, _, _, limit_foh A B C D, ?_⟩
    filter_upwards [hpos] with h hh
    obtain ⟨S, h3, h4, -⟩ := discretize_foh_gam (N := Nm) (pw := pw) (q := q) hE hh hG (gam_phi2 (h • A) (h • B))
    exact ⟨S, h3, h4⟩

/-- **C132**, frequency responses: at every frequency where the continuous model has a response, all sufficiently small periods give a discretized model, and its response there is as close as desired to
that of the continuous model. -/
theorem C132_frequency (hE : BalanceOk E) (hm : ApproxMethod method) (hpw : 0 ≤ pw) (hG : G.g = stateOf A B C D none) {ω : ℝ} {M : Matrix (Fin p) (Fin m) ℂ}
    (hM : HasTF G.g p m (evalPoint none ω) M) {δ : ℝ} (hδ : 0 < δ) :
    ∃ h₀ > 0, ∀ h, 0 < h → h < h₀ → ∃ S F, discretize Nm E G h method pw q = .ok S ∧ HasTF S.g p m (evalPoint (some h) ω) F ∧ ∀ i j, ‖F i j - M i j‖ < δ := by
  obtain ⟨Ah, Bh, Ch, Dh, β, hl, hd⟩ := disc_family (Nm := Nm) (q := q) hE hm hpw hG
  rw [hG, hasTF_stateOf] at hM
  obtain ⟨F, h1, h2⟩ := tf_limit hl hM
  have h3 : ∀ᶠ h in 𝓝[>] 0, ∀ i j, ‖F h i j - M i j‖ < δ := by
    refine eventually_all.mpr fun i => eventually_all.mpr fun j => ?_
    have h4 := tendsto_pi_nhds.mp (tendsto_pi_nhds.mp h2 i) j
    filter_upwards [h4.eventually (Metric.ball_mem_nhds _ hδ)] with h hh
    rw [← dist_eq_norm]
    exact hh
  obtain ⟨h₀, h01, h02⟩ := mem_nhdsGT_iff_exists_Ioo_subset.mp (hd.and (h1.and h3))
  refine ⟨h₀, h01, fun h ha hb => ?_⟩
  obtain ⟨⟨S, e1, e2⟩, e3, e4⟩ := h02 ⟨ha, hb⟩
  exact ⟨S, F h, e1, by rw [e2, hasTF_stateOf]; exact e3, e4⟩

/-- **C132**, time responses: for a continuous input applied to the model at rest, the simulation of the discretized model driven by the samples of the input returns, for all sufficiently small periods,
samples as close as desired to the true output, uniformly on the whole interval `[0, T]`. -/
theorem C132_simulation (hE : BalanceOk E) (hm : ApproxMethod method) (hpw : 0 ≤ pw) (hm1 : 1 ≤ m) (hG : G.g = stateOf A B C D none) {T : ℝ} {u : ℝ → Fin m → ℝ} (hu : ContinuousOn u (Set.Icc 0 T))
    {x : ℝ → Fin n → ℝ} (hx : IsSolution A B u x 0 T) (hx0 : x 0 = 0) {δ : ℝ} (hδ : 0 < δ) :
    ∃ h₀ > 0, ∀ h, 0 < h → h < h₀ → ∃ S, discretize Nm E G h method pw q = .ok S ∧ ∀ N : ℕ, 2 ≤ N → (N - 1) * h ≤ T →
      ∃ Y : Matrix (Fin N) (Fin p) ℝ, simulate Nm E S (Arr.of (Matrix.of fun i : Fin N => u (i * h))) none none false = .ok (.flat (Arr.of Y), (List.range N).map fun k : ℕ => (k : ℝ) * h) ∧
        ∀ i k, |Y i k - (C *ᵥ x (i * h) + D *ᵥ u (i * h)) k| ≤ δ := by
  obtain ⟨Ah, Bh, Ch, Dh, β, hl, hd⟩ := disc_family (Nm := Nm) (q := q) hE hm hpw hG
  obtain ⟨h₀, h01, h02⟩ := mem_nhdsGT_iff_exists_Ioo_subset.mp (hd.and (lax hl hu hx hx0 hδ))
  refine ⟨h₀, h01, fun h ha hb => ?_⟩
  obtain ⟨⟨S, e1, e2⟩, e3⟩ := h02 ⟨ha, hb⟩
  refine ⟨S, e1, fun N hN hNT => ⟨_, C39_output_partial hN hm1 e2 (Or.inl ⟨rfl, rfl⟩), fun i k => ?_⟩⟩
  obtain ⟨z, z1, z2, z3⟩ := output_states (A := Ah h) (B := Bh h) (C := Ch h) (D := Dh h) (N := N) (U := Matrix.of fun i : Fin N => u (i * h)) (fun k => u (k * h)) (fun i => rfl)
  have hi : (i : ℝ) * h ≤ T := by
    have : ((i + 1 : ℕ) : ℝ) ≤ N := by exact_mod_cast i.isLt
    push_cast at this
    nlinarith
  rw [Matrix.of_apply, z3 i]
  exact (norm_le_pi_norm _ k).trans (e3 z z1 z2 i hi)

/-- **C132**, static gains: they keep their response exactly under every method and for every period. -/
theorem C132_gain (hm : method ∈ knownMethods) {a b c : Arr ℝ} (hG : G.g = ⟨a, b, c, Arr.of D, none, true⟩) {h : ℝ} (hh : 0 < h) :
    ∃ S, discretize Nm E G h method pw q = .ok S ∧ ∀ ω, HasTF S.g p m (evalPoint (some h) ω) (D.map (algebraMap ℝ ℂ)) := by
  have hdt' : DtOk (some h) := by intro t ht; cases ht; exact hh
  have e := mkGain_of hdt' (Arr.of D)
  unfold mkGain at e
  have h1 : ∃ S, discretize Nm E G h method pw q = .ok S ∧ S.g.isgain = true ∧ S.g.d = Arr.of D := by
    simp only [discretize, hm, hG, not_true_eq_false, if_false, if_true, Option.isSome_none, Bool.false_eq_true, StateObj.init, e, Bind.bind, Except.bind, StateObj.set, StateObj.assign,
      not_le.mpr hh, StateObj.recalc]
    exact ⟨_, rfl, rfl, rfl⟩
  obtain ⟨S, h1, h2, h3⟩ := h1
  exact ⟨S, h1, fun ω => Or.inl ⟨h2, D, h3, rfl⟩⟩

theorem forward_small {s : ℂ} (hs : s.re < 0) : ∀ᶠ h : ℝ in 𝓝[>] 0, ‖1 + s * h‖ < 1 := by
  have hpos : ∀ᶠ h : ℝ in 𝓝[>] 0, 0 < h := self_mem_nhdsWithin
  have h1 : Tendsto (fun h : ℝ => h * Complex.normSq s) (𝓝[>] 0) (𝓝 (0 * Complex.normSq s)) := (tendsto_id.mono_left nhdsWithin_le_nhds).mul_const _
  rw [zero_mul] at h1
  filter_upwards [hpos, h1.eventually (gt_mem_nhds (show 0 < -2 * s.re by linarith))] with h hh h2
  rw [← sq_lt_sq₀ (norm_nonneg _) zero_le_one, ← Complex.normSq_eq_norm_sq, Complex.normSq_apply]
  rw [Complex.normSq_apply] at h2
  simp
  nlinarith [mul_lt_mul_of_pos_left h2 hh]

theorem backward_small {s : ℂ} (hs : 0 < s.re) : ∀ᶠ h : ℝ in 𝓝[>] 0, ‖1 - s * h‖ < 1 := by
  filter_upwards [forward_small (s := -s) (by simpa using hs)] with h hh
  rwa [neg_mul, ← sub_eq_add_neg] at hh

/-- **C132**, stability: for all sufficiently small periods, every method turns a model reported stable into one reported stable, and a model with a pole in the open right half plane into one
reported unstable. -/
theorem C132_stability {Nm : Numerics ℝ ℂ} {a b c d : Option (Arr ℝ)} {dt₀ : Option ℝ} {G₀ : StateObj ℝ ℂ} (hN : EigExact Nm) (hR : RegionExact Nm) (hE : BalanceOk E) (hi : StateObj.init Nm a b c d dt₀ = .ok G₀)
    (hist : List (Assign ℝ)) (hk : ∀ x ∈ hist, x.keepsDomain G₀) (hc : Consistent (G₀.run Nm hist).g p m) (hdt : (G₀.run Nm hist).g.dt = none) (hm : ApproxMethod method) (hpw : 0 ≤ pw) :
    ∃ h₀ > 0, ∀ h, 0 < h → h < h₀ → ∃ S, discretize Nm E (G₀.run Nm hist) h method pw q = .ok S ∧ ((G₀.run Nm hist).isstable = true → S.isstable = true) ∧
      ((∃ s ∈ (G₀.run Nm hist).poles, 0 < s.re) → S.isstable = false) := by
  classical
  have hpos : ∀ᶠ h : ℝ in 𝓝[>] 0, 0 < h := self_mem_nhdsWithin
  have hfl : ∀ h S, discretize Nm E (G₀.run Nm hist) h method pw q = .ok S → _ := fun h S => C97_flag (p := p) (m := m) (dt := h) (S := S) (method := method) (pw := pw) (q := q) hN hR hE hi hist hk hc
  have hbk : ∀ h S, method ∈ backwardNames → discretize Nm E (G₀.run Nm hist) h method pw q = .ok S → _ := fun h S hb => C97_backward (p := p) (m := m) (dt := h) (S := S) (pw := pw) (q := q) hN hi hist hc hb
  have hF := C14_flag_partial Nm hi hist hk
  generalize G₀.run Nm hist = G at *
  have e1 := flag_cont hR hF hdt
  have hsucc : ∀ᶠ h in 𝓝[>] 0, ∃ S, discretize Nm E G h method pw q = .ok S := by
    rcases consistent_cases hc with ⟨a, b, c, D, dt, hG⟩ | ⟨n, A, B, C, D, dt, hG⟩
    · rw [hG] at hdt
      simp only at hdt
      subst hdt
      filter_upwards [hpos] with h hh
      have hkn : method ∈ knownMethods := by
        rcases hm with (rfl | rfl) | hm | hm | rfl | rfl
        · simp [knownMethods]
        · simp [knownMethods]
        · simp only [forwardNames, List.mem_cons, List.not_mem_nil, or_false] at hm
          rcases hm with rfl | rfl | rfl | rfl <;> simp [knownMethods]
        · simp only [backwardNames, List.mem_cons, List.not_mem_nil, or_false] at hm
          rcases hm with rfl | rfl | rfl | rfl <;> simp [knownMethods]
        · simp [knownMethods]
        · simp [knownMethods]
      obtain ⟨S, h1, -⟩ := C132_gain (Nm := Nm) (E := E) (pw := pw) (q := q) hkn hG hh
      exact ⟨S, h1⟩
    · rw [hG] at hdt
      simp only at hdt
      subst hdt
      obtain ⟨_, _, _, _, _, -, h1⟩ := disc_family (Nm := Nm) (q := q) hE hm hpw hG
      exact h1.mono fun h ⟨S, h2, _⟩ => ⟨S, h2⟩
  have hfw : ∀ᶠ h : ℝ in 𝓝[>] 0, ∀ s ∈ G.poles.toFinset, s.re < 0 → ‖1 + s * h‖ < 1 := by
    refine (eventually_all_finset _).mpr fun s _ => ?_
    by_cases hs : s.re < 0
    · exact (forward_small hs).mono fun h hh _ => hh
    · exact Eventually.of_forall fun h hh => absurd hh hs
  have hbw : ∀ᶠ h : ℝ in 𝓝[>] 0, ∀ s ∈ G.poles.toFinset, 0 < s.re → ‖1 - s * h‖ < 1 := by
    refine (eventually_all_finset _).mpr fun s _ => ?_
    by_cases hs : 0 < s.re
    · exact (backward_small hs).mono fun h hh _ => hh
    · exact Eventually.of_forall fun h hh => absurd hh hs
  have hny : ∀ᶠ h : ℝ in 𝓝[>] 0, pw * (2 * h) < 1 := by
    have h3 : Tendsto (fun h : ℝ => pw * (2 * h)) (𝓝[>] 0) (𝓝 (pw * (2 * 0))) := ((tendsto_id.mono_left nhdsWithin_le_nhds).const_mul 2).const_mul pw
    rw [mul_zero, mul_zero] at h3
    exact h3.eventually (gt_mem_nhds one_pos)
  obtain ⟨h₀, h01, h02⟩ := mem_nhdsGT_iff_exists_Ioo_subset.mp (hsucc.and (hfw.and (hbw.and hny)))
  refine ⟨h₀, h01, fun h ha hb => ?_⟩
  obtain ⟨⟨S, k1⟩, k2, k3, k4⟩ := h02 ⟨ha, hb⟩
  simp only [List.mem_toFinset] at k2 k3
  obtain ⟨f1, f2, f3, f4⟩ := hfl h S k1
  have hun : (∃ s ∈ G.poles, 0 < s.re) → G.isstable = false := fun ⟨s, hs, h0⟩ => by
    rw [← Bool.not_eq_true, e1]
    intro h5
    linarith [h5 s hs]
  refine ⟨S, k1, ?_⟩
  rcases hm with hm | hm | hm | hm
  · rw [f2 hm hpw (by rw [lt_div_iff₀ (by positivity)]; exact k4)]
    exact ⟨id, hun⟩
  · refine ⟨fun hs => (f4 hm).mpr fun s h5 => k2 s h5 (e1.mp hs s h5), fun ⟨s, h5, h6⟩ => ?_⟩
    rw [← Bool.not_eq_true, f4 hm]
    intro h7
    have h8 := (Complex.re_le_norm _).trans_lt (h7 s h5)
    simp at h8
    nlinarith [mul_pos h6 ha]
  · refine ⟨f3 hm, fun ⟨s, h5, h6⟩ => ?_⟩
    obtain ⟨hp, h0⟩ := hbk h S hm k1
    obtain ⟨-, hF', hS⟩ := discretize_current k1
    rw [← Bool.not_eq_true, flag_disc hR hF' hS]
    intro h7
    have h8 := h7 _ (hp.mem_iff.mpr (List.mem_map_of_mem h5))
    have h9 : 0 < ‖1 - s * h‖ := norm_pos_iff.mpr (by have := h0 s h5; rwa [mul_comm] at this)
    rw [norm_div, norm_one, div_lt_one h9] at h8
    linarith [k3 s h5 h6]
  · rw [f1 hm]
    exact ⟨id, hun⟩

/-- The hypotheses of `C132_frequency` and of `C132_simulation` are met by an integrator: at the frequency 1, and with a ramp as the input. -/
example : ApproxMethod "foh" ∧ (integObj P).g = stateOf (!![0] : Matrix (Fin 1) (Fin 1) ℝ) (!![1] : Matrix (Fin 1) (Fin 1) ℝ) (!![1] : Matrix (Fin 1) (Fin 1) ℝ) (!![0] : Matrix (Fin 1) (Fin 1) ℝ) none ∧
    (∃ M, HasTF (integObj P).g 1 1 (evalPoint none 1) M) ∧
    IsSolution (!![0] : Matrix (Fin 1) (Fin 1) ℝ) (!![1] : Matrix (Fin 1) (Fin 1) ℝ) (fun t _ => t) (fun t _ => t ^ 2 / 2) 0 3 ∧ ((fun (t : ℝ) (_ : Fin 1) => t ^ 2 / 2) 0) = 0 := by
  refine ⟨by simp [ApproxMethod], rfl, ⟨_, hasTF_stateOf.mpr ⟨?_, rfl⟩⟩, ⟨continuousOn_pi.mpr fun i => by fun_prop, fun t _ => ?_⟩, by funext i; simp⟩
  · simp [evalPoint]
  · refine hasDerivWithinAt_pi.mpr fun i => ?_
    have h1 : HasDerivAt (fun t : ℝ => t ^ 2 / 2) t t := by
      have h2 := (hasDerivAt_pow 2 t).div_const 2
      have h3 : ((2 : ℕ) : ℝ) * t ^ (2 - 1) / 2 = t := by norm_num
      rwa [h3] at h2
    convert h1.hasDerivWithinAt using 1
    fin_cases i
    simp [dotProduct]

/-- The hypotheses of `C132_stability` are met by a stable lag and forward differences (which do not keep the stability of `1/(s + 3)` for the period 1, see the last example of `Props/PoleMap.lean`). -/
example : ∃ N, EigExact N ∧ RegionExact N ∧ BalanceOk exactDNum ∧ StateObj.init N (some (Arr.of !![-3])) (some (Arr.of !![1])) (some (Arr.of !![1])) (some (Arr.of !![0])) none = .ok (lagS N (-3) none) ∧
    Consistent (lagS N (-3) none).g 1 1 ∧ (lagS N (-3) none).g.dt = none ∧ ApproxMethod ">>" ∧ (lagS N (-3) none).isstable = true := by
  obtain ⟨N, -, hN, hR, -⟩ := exists_pole_numerics
  exact ⟨N, hN, hR, exactDNum_ok.1, lagS_init N (-3) dtOk_none, ⟨⟨rfl, rfl⟩, fun _ => ⟨rfl, rfl, rfl, rfl, rfl⟩⟩, rfl, by simp [ApproxMethod, forwardNames],
    (C92_constructed hN hR (lagS_init N (-3) dtOk_none) rfl).mpr (motions_iff.mpr fun z hz => one_state_hurwitz (by norm_num) z hz)⟩

end Harold
