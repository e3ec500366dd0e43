import Verif.Props.Near
import Verif.Props.Feedback
import Verif.Props.SmallGain

/-!
# C135: small changes of the plant and of the controller in a feedback loop
-/

namespace Harold

open Matrix Spec Filter Topology

variable {n₁ n₂ m p : ℕ} {dt : Option ℝ} {neg : Bool} {R : StateM ℝ}
  {A : Matrix (Fin n₁) (Fin n₁) ℝ} {B : Matrix (Fin n₁) (Fin m) ℝ} {C : Matrix (Fin p) (Fin n₁) ℝ} {D : Matrix (Fin p) (Fin m) ℝ}
  {F : Matrix (Fin n₂) (Fin n₂) ℝ} {L : Matrix (Fin n₂) (Fin p) ℝ} {M : Matrix (Fin m) (Fin n₂) ℝ} {Q : Matrix (Fin m) (Fin p) ℝ}

/-- The four matrices of a model. -/
abbrev QuadR (n m p : ℕ) : Type := Matrix (Fin n) (Fin n) ℝ × Matrix (Fin n) (Fin m) ℝ × Matrix (Fin p) (Fin n) ℝ × Matrix (Fin p) (Fin m) ℝ

/-- The test for algebraic loops is passed by nearby matrices. -/
theorem sv_open {τ : ℝ} {X : Matrix (Fin m) (Fin m) ℝ} (h : ¬ HasSVAtMost τ X) : ∀ᶠ Y in 𝓝 X, ¬ HasSVAtMost τ Y := by
  have hK : IsCompact (Metric.sphere (0 : Fin m → ℝ) 1) := isCompact_sphere _ _
  have c1 : Continuous fun q : Matrix (Fin m) (Fin m) ℝ × (Fin m → ℝ) => (q.1 *ᵥ q.2) ⬝ᵥ (q.1 *ᵥ q.2) :=
    (continuous_fst.matrix_mulVec continuous_snd).dotProduct (continuous_fst.matrix_mulVec continuous_snd)
  have c2 : Continuous fun q : Matrix (Fin m) (Fin m) ℝ × (Fin m → ℝ) => τ ^ 2 * (q.2 ⬝ᵥ q.2) := (continuous_snd.dotProduct continuous_snd).const_mul _
  have h1 := hK.eventually_forall_of_forall_eventually (x₀ := X) (P := fun Y x => τ ^ 2 * (x ⬝ᵥ x) < (Y *ᵥ x) ⬝ᵥ (Y *ᵥ x)) fun x hx =>
    (isOpen_lt c2 c1).mem_nhds (show τ ^ 2 * (x ⬝ᵥ x) < (X *ᵥ x) ⬝ᵥ (X *ᵥ x) by
      by_contra h0
      exact h ⟨x, fun h2 => by simp [h2] at hx, not_lt.mp h0⟩)
  filter_upwards [h1] with Y hY ⟨x, hx, h2⟩
  have hn : ‖x‖ ≠ 0 := norm_ne_zero_iff.mpr hx
  have h3 := hY (‖x‖⁻¹ • x) (by rw [mem_sphere_zero_iff_norm, norm_smul, norm_inv, norm_norm, inv_mul_cancel₀ hn])
  rw [mulVec_smul, smul_dotProduct, dotProduct_smul, smul_dotProduct, dotProduct_smul] at h3
  simp only [smul_eq_mul] at h3
  have h4 : 0 < ‖x‖⁻¹ * ‖x‖⁻¹ := by positivity
  nlinarith [mul_le_mul_of_nonneg_left h2 h4.le]

theorem cat_tendsto {ι : Type} {l : Filter ι} {r c₁ c₂ : ℕ} {f : ι → Matrix (Fin r) (Fin c₁) ℝ} {g : ι → Matrix (Fin r) (Fin c₂) ℝ} {X : Matrix (Fin r) (Fin c₁) ℝ} {Y : Matrix (Fin r) (Fin c₂) ℝ}
    (hf : Tendsto f l (𝓝 X)) (hg : Tendsto g l (𝓝 Y)) : Tendsto (fun i => hcat (f i) (g i)) l (𝓝 (hcat X Y)) := by
  refine tendsto_pi_nhds.mpr fun i => tendsto_pi_nhds.mpr fun j => ?_
  refine Fin.addCases (fun j => ?_) (fun j => ?_) j
  · simpa [hcat] using tendsto_pi_nhds.mp (tendsto_pi_nhds.mp hf i) j
  · simpa [hcat] using tendsto_pi_nhds.mp (tendsto_pi_nhds.mp hg i) j

theorem vcat_tendsto {ι : Type} {l : Filter ι} {r₁ r₂ c : ℕ} {f : ι → Matrix (Fin r₁) (Fin c) ℝ} {g : ι → Matrix (Fin r₂) (Fin c) ℝ} {X : Matrix (Fin r₁) (Fin c) ℝ} {Y : Matrix (Fin r₂) (Fin c) ℝ}
    (hf : Tendsto f l (𝓝 X)) (hg : Tendsto g l (𝓝 Y)) : Tendsto (fun i => vcat (f i) (g i)) l (𝓝 (vcat X Y)) := by
  refine tendsto_pi_nhds.mpr fun i => tendsto_pi_nhds.mpr fun j => ?_
  refine Fin.addCases (fun i => ?_) (fun i => ?_) i
  · simpa [vcat] using tendsto_pi_nhds.mp (tendsto_pi_nhds.mp hf i) j
  · simpa [vcat] using tendsto_pi_nhds.mp (tendsto_pi_nhds.mp hg i) j

theorem blk_tendsto {ι : Type} {l : Filter ι} {r₁ r₂ c₁ c₂ : ℕ} {f : ι → Matrix (Fin r₁) (Fin c₁) ℝ} {g : ι → Matrix (Fin r₁) (Fin c₂) ℝ} {f' : ι → Matrix (Fin r₂) (Fin c₁) ℝ} {g' : ι → Matrix (Fin r₂) (Fin c₂) ℝ}
    {X : Matrix (Fin r₁) (Fin c₁) ℝ} {Y : Matrix (Fin r₁) (Fin c₂) ℝ} {Z : Matrix (Fin r₂) (Fin c₁) ℝ} {W : Matrix (Fin r₂) (Fin c₂) ℝ}
    (hf : Tendsto f l (𝓝 X)) (hg : Tendsto g l (𝓝 Y)) (hf' : Tendsto f' l (𝓝 Z)) (hg' : Tendsto g' l (𝓝 W)) : Tendsto (fun i => blk (f i) (g i) (f' i) (g' i)) l (𝓝 (blk X Y Z W)) := by
  have e : ∀ {r₁ r₂ c₁ c₂ : ℕ} (X : Matrix (Fin r₁) (Fin c₁) ℝ) (Y : Matrix (Fin r₁) (Fin c₂) ℝ) (Z : Matrix (Fin r₂) (Fin c₁) ℝ) (W : Matrix (Fin r₂) (Fin c₂) ℝ), blk X Y Z W = vcat (hcat X Y) (hcat Z W) :=
    fun X Y Z W => (vcat_hcat X Y Z W).symm
  simp only [e]
  exact vcat_tendsto (cat_tendsto hf hg) (cat_tendsto hf' hg')

/-- The state matrix and the other matrices of the closed loop. -/
noncomputable def loopQuad (σ : ℝ) (g : QuadR n₁ m p) (k : QuadR n₂ p m) : QuadR (n₁ + n₂) m p :=
  (blk g.1 0 (k.2.1 * g.2.2.1) k.1 + σ • vcat g.2.1 (k.2.1 * g.2.2.2) * ((1 - k.2.2.2 * g.2.2.2)⁻¹ * hcat (k.2.2.2 * g.2.2.1) k.2.2.1),
    vcat g.2.1 (k.2.1 * g.2.2.2) + σ • vcat g.2.1 (k.2.1 * g.2.2.2) * ((1 - k.2.2.2 * g.2.2.2)⁻¹ * (k.2.2.2 * g.2.2.2)),
    hcat g.2.2.1 0 + σ • g.2.2.2 * ((1 - k.2.2.2 * g.2.2.2)⁻¹ * hcat (k.2.2.2 * g.2.2.1) k.2.2.1),
    g.2.2.2 + σ • g.2.2.2 * ((1 - k.2.2.2 * g.2.2.2)⁻¹ * (k.2.2.2 * g.2.2.2)))

theorem loop_eq (hdt : DtOk dt) (neg : Bool) (g : QuadR n₁ m p) (k : QuadR n₂ p m) :
    (∀ {R}, feedback (.state (stateOf g.1 g.2.1 g.2.2.1 g.2.2.2 dt)) (.state (stateOf k.1 k.2.1 k.2.2.1 k.2.2.2 dt)) neg = .ok R → ¬ HasSVAtMost (m * spacing10 : ℝ) (1 - k.2.2.2 * g.2.2.2)) ∧
      (¬ HasSVAtMost (m * spacing10 : ℝ) (1 - k.2.2.2 * g.2.2.2) →
        feedback (.state (stateOf g.1 g.2.1 g.2.2.1 g.2.2.2 dt)) (.state (stateOf k.1 k.2.1 k.2.2.1 k.2.2.2 dt)) neg =
          .ok (stateOf (loopQuad (fbSign neg) g k).1 (loopQuad (fbSign neg) g k).2.1 (loopQuad (fbSign neg) g k).2.2.1 (loopQuad (fbSign neg) g k).2.2.2 dt)) := by
  constructor
  · intro R h hs
    have h1 := feedback_closeLoop h
    rw [closeLoop_ill _ _ g.2.2.2 k.2.2.2 rfl rfl hs neg] at h1
    cases h1
  · intro hs
    have h1 := closeLoop_of (stateOf g.1 g.2.1 g.2.2.1 g.2.2.2 dt) (stateOf k.1 k.2.1 k.2.2.1 k.2.2.2 dt) g.2.2.2 k.2.2.2 rfl rfl hs neg
    have h2 := closeBody_dd hdt (dt' := dt) g.1 g.2.1 g.2.2.1 g.2.2.2 k.1 k.2.1 k.2.2.1 k.2.2.2 (k.2.2.2 * g.2.2.2) (1 - k.2.2.2 * g.2.2.2) (det_ne_zero_of_not_sv hs) (fbSign neg)
    have h3 := h1.trans h2
    have : checkFeedbackIc (.state (stateOf g.1 g.2.1 g.2.2.1 g.2.2.2 dt)) (.state (stateOf k.1 k.2.1 k.2.2.1 k.2.2.2 dt)) = .ok (stateOf g.1 g.2.1 g.2.2.1 g.2.2.2 dt, stateOf k.1 k.2.1 k.2.2.1 k.2.2.2 dt) := by
      simp [checkFeedbackIc, StateM.p, StateM.m, stateOf, Bind.bind, Except.bind]
    simp only [feedback, this, Bind.bind, Except.bind, h3]
    rfl

theorem loop_tendsto {σ : ℝ} {g : QuadR n₁ m p} {k : QuadR n₂ p m} (hd : (1 - k.2.2.2 * g.2.2.2).det ≠ 0) :
    Tendsto (fun q : QuadR n₁ m p × QuadR n₂ p m => loopQuad σ q.1 q.2) (𝓝 (g, k)) (𝓝 (loopQuad σ g k)) := by
  have hg : Tendsto (fun q : QuadR n₁ m p × QuadR n₂ p m => q.1) (𝓝 (g, k)) (𝓝 g) := continuous_fst.tendsto _
  have hk : Tendsto (fun q : QuadR n₁ m p × QuadR n₂ p m => q.2) (𝓝 (g, k)) (𝓝 k) := continuous_snd.tendsto _
  have a1 := hg.fst_nhds
  have a2 := hg.snd_nhds.fst_nhds
  have a3 := hg.snd_nhds.snd_nhds.fst_nhds
  have a4 := hg.snd_nhds.snd_nhds.snd_nhds
  have b1 := hk.fst_nhds
  have b2 := hk.snd_nhds.fst_nhds
  have b3 := hk.snd_nhds.snd_nhds.fst_nhds
  have b4 := hk.snd_nhds.snd_nhds.snd_nhds
  have hi := inv_tendsto ((tendsto_const_nhds (x := (1 : Matrix (Fin m) (Fin m) ℝ))).sub (mul_tendsto b4 a4)) hd
  have hv := vcat_tendsto a2 (mul_tendsto b2 a4)
  have hh := mul_tendsto hi (cat_tendsto (mul_tendsto b4 a3) b3)
  have hp := mul_tendsto hi (mul_tendsto b4 a4)
  refine Tendsto.prodMk_nhds ?_ (Tendsto.prodMk_nhds ?_ (Tendsto.prodMk_nhds ?_ ?_))
  · exact (blk_tendsto a1 tendsto_const_nhds (mul_tendsto b2 a3) b1).add (mul_tendsto (hv.const_smul σ) hh)
  · exact hv.add (mul_tendsto (hv.const_smul σ) hp)
  · exact (cat_tendsto a3 tendsto_const_nhds).add (mul_tendsto (a4.const_smul σ) hh)
  · exact a4.add (mul_tendsto (a4.const_smul σ) hp)

theorem entries_near {r c : ℕ} {ι : Type} {l : Filter ι} {f : ι → Matrix (Fin r) (Fin c) ℝ} {X : Matrix (Fin r) (Fin c) ℝ} (h : Tendsto f l (𝓝 X)) {δ : ℝ} (hδ : 0 < δ) : ∀ᶠ i in l, Near δ (f i) X :=
  eventually_all.mpr fun i => eventually_all.mpr fun j => ((tendsto_pi_nhds.mp (tendsto_pi_nhds.mp h i) j).eventually (Metric.ball_mem_nhds _ hδ)).mono fun _ hx => (Real.dist_eq _ _).symm.trans_lt hx

/-- **C135**, feedback loops: if `feedback` accepts a plant and a controller with dynamics, it accepts all plants and controllers close to them, and the matrices of the closed loop are as close as desired; if the closed
loop is stable, the changed closed loops are stable. -/
theorem C135_feedback (hdt : DtOk dt) (h : feedback (.state (stateOf A B C D dt)) (.state (stateOf F L M Q dt)) neg = .ok R) {δ : ℝ} (hδ : 0 < δ) :
    ∃ (Ac : Matrix (Fin (n₁ + n₂)) (Fin (n₁ + n₂)) ℝ) (Bc : Matrix (Fin (n₁ + n₂)) (Fin m) ℝ) (Cc : Matrix (Fin p) (Fin (n₁ + n₂)) ℝ) (Dc : Matrix (Fin p) (Fin m) ℝ), R = stateOf Ac Bc Cc Dc dt ∧
      ∃ ε > 0, ∀ A' B' C' D' F' L' M' Q', Near4 ε A A' B B' C C' D D' → Near4 ε F F' L L' M M' Q Q' →
        ∃ Ac' Bc' Cc' Dc', feedback (.state (stateOf A' B' C' D' dt)) (.state (stateOf F' L' M' Q' dt)) neg = .ok (stateOf Ac' Bc' Cc' Dc' dt) ∧ Near4 δ Ac Ac' Bc Bc' Cc Cc' Dc Dc' ∧
          (StableModel R → StableModel (stateOf Ac' Bc' Cc' Dc' dt)) := by
  have hs := (loop_eq hdt neg (A, B, C, D) (F, L, M, Q)).1 h
  have he := (loop_eq hdt neg (A, B, C, D) (F, L, M, Q)).2 hs
  rw [h] at he
  have hR := Except.ok.inj he
  refine ⟨_, _, _, _, hR, ?_⟩
  have ht := loop_tendsto (σ := fbSign neg) (g := (A, B, C, D)) (k := (F, L, M, Q)) (det_ne_zero_of_not_sv hs)
  have e1 := entries_near ht.fst_nhds hδ
  have e2 := entries_near ht.snd_nhds.fst_nhds hδ
  have e3 := entries_near ht.snd_nhds.snd_nhds.fst_nhds hδ
  have e4 := entries_near ht.snd_nhds.snd_nhds.snd_nhds hδ
  have e5 : ∀ᶠ q : QuadR n₁ m p × QuadR n₂ p m in 𝓝 ((A, B, C, D), (F, L, M, Q)), ¬ HasSVAtMost (m * spacing10 : ℝ) (1 - q.2.2.2.2 * q.1.2.2.2) := by
    have hg : Tendsto (fun q : QuadR n₁ m p × QuadR n₂ p m => q.1) (𝓝 ((A, B, C, D), (F, L, M, Q))) (𝓝 (A, B, C, D)) := continuous_fst.tendsto _
    have hk : Tendsto (fun q : QuadR n₁ m p × QuadR n₂ p m => q.2) (𝓝 ((A, B, C, D), (F, L, M, Q))) (𝓝 (F, L, M, Q)) := continuous_snd.tendsto _
    have h1 := (tendsto_const_nhds (x := (1 : Matrix (Fin m) (Fin m) ℝ))).sub (mul_tendsto hk.snd_nhds.snd_nhds.snd_nhds hg.snd_nhds.snd_nhds.snd_nhds)
    exact h1.eventually (sv_open hs)
  have e6 : ∀ᶠ q : QuadR n₁ m p × QuadR n₂ p m in 𝓝 ((A, B, C, D), (F, L, M, Q)), StableModel R → ∀ z, IsEig (loopQuad (fbSign neg) q.1 q.2).1 z → StablePoint dt z := by
    by_cases hst : StableModel R
    · rw [hR] at hst
      have hz : ∀ z, IsEig (loopQuad (fbSign neg) (A, B, C, D) (F, L, M, Q)).1 z → z ∈ {z | StablePoint dt z} := by
        rcases hst with h' | ⟨n', A', k1, k2⟩
        · cases h'
        · obtain rfl : n₁ + n₂ = n' := congrArg Arr.r k1
          have := Arr.of_inj.mp k1
          rw [this]
          exact motions_iff.mp k2
      have ho : IsOpen {z : ℂ | StablePoint dt z} := by
        cases dt with
        | none => exact isOpen_lt Complex.continuous_re continuous_const
        | some t => exact isOpen_lt continuous_norm continuous_const
      exact (ht.fst_nhds.eventually (eig_upper ho hz)).mono fun q hq _ => hq
    · exact Eventually.of_forall fun q hq => absurd hq hst
  obtain ⟨s, s1, t, t1, st⟩ := mem_nhds_prod_iff.mp (e1.and (e2.and (e3.and (e4.and (e5.and e6)))))
  obtain ⟨a, a0, ha⟩ := near4_of s1
  obtain ⟨b, b0, hb⟩ := near4_of t1
  refine ⟨min a b, lt_min a0 b0, fun A' B' C' D' F' L' M' Q' hn hk => ?_⟩
  obtain ⟨f1, f2, f3, f4, f5, f6⟩ := st (Set.mk_mem_prod
    (ha A' B' C' D' ⟨near_mono hn.1 (min_le_left _ _), near_mono hn.2.1 (min_le_left _ _), near_mono hn.2.2.1 (min_le_left _ _), near_mono hn.2.2.2 (min_le_left _ _)⟩)
    (hb F' L' M' Q' ⟨near_mono hk.1 (min_le_right _ _), near_mono hk.2.1 (min_le_right _ _), near_mono hk.2.2.1 (min_le_right _ _), near_mono hk.2.2.2 (min_le_right _ _)⟩))
  exact ⟨_, _, _, _, (loop_eq hdt neg (A', B', C', D') (F', L', M', Q')).2 f5, ⟨f1, f2, f3, f4⟩, fun hst => Or.inr ⟨_, _, rfl, motions_iff.mpr (f6 hst)⟩⟩

/-- The hypotheses are met by two lags. -/
example : DtOk (none : Option ℝ) ∧ ∃ R, feedback (.state (stateOf !![(-1 : ℝ)] !![(1 : ℝ)] !![(1 : ℝ)] !![(0 : ℝ)] none)) (.state (stateOf !![(-1 : ℝ)] !![(1 : ℝ)] !![(1 : ℝ)] !![(0 : ℝ)] none)) true = .ok R := by
  refine ⟨dtOk_none, _, (loop_eq dtOk_none true (!![(-1 : ℝ)], !![(1 : ℝ)], !![(1 : ℝ)], !![(0 : ℝ)]) (!![(-1 : ℝ)], !![(1 : ℝ)], !![(1 : ℝ)], !![(0 : ℝ)])).2 ?_⟩
  rintro ⟨x, hx, h⟩
  have h0 : x 0 ≠ 0 := fun h0 => hx (by ext i; fin_cases i; exact h0)
  have h1 : 0 < x 0 ^ 2 := by positivity
  simp [spacing10, dotProduct, Matrix.mulVec] at h
  nlinarith

end Harold
