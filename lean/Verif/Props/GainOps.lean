import Verif.Props.SmallGain
import Verif.Props.Energy
import Verif.Props.Discrete
import Verif.Props.Feedback

/-!
# C106: bounds of the gain of connected and of discretized models
-/

namespace Harold

open Matrix Harold.Spec
open scoped Matrix.Norms.L2Operator

variable {n m p q : ℕ} {G H R : StateM ℝ} {γ δ : ℝ}

/-- **C106**, products: the largest gain of `G @ H` is at most the product of the largest gains. -/
theorem C106_product {fuel : ℕ} (hdt : DtOk G.dt) (hγ : GainBound G p q γ) (hδ : GainBound H q m δ) (h : G.matmul (fuel + 1) H = .ok R) : GainBound R p m (γ * δ) := by
  obtain ⟨e1, e2⟩ := (C16_mul_keeps_dt (g := .scalar 0)).1 h
  intro ω
  obtain ⟨M, h1, h2⟩ := hγ ω
  obtain ⟨N, h3, h4⟩ := hδ ω
  have he : G.dt = H.dt := e1.symm.trans e2
  obtain ⟨R', h5, h6, -⟩ := C17_matmul h1 (he ▸ h3) hdt he fuel
  rw [h] at h5
  cases h5
  refine ⟨M * N, e1 ▸ h6, (l2_opNorm_mul _ _).trans (mul_le_mul h2 h4 (norm_nonneg _) ((norm_nonneg _).trans h2))⟩

/-- **C106**, sums of continuous models: the largest gain of `G + H` is at most the sum of the largest gains. Missing from the full claim: sampled models, whose sums lose the sampling period
(`C16_sum_drops_dt_violated`), and a static plus a dynamic model with one input and one output, which raises (`C15_static_siso_violated`). -/
theorem C106_sum_partial {fuel : ℕ} (hdt : G.dt = none) (hdt' : H.dt = none) (hs : G.isgain = H.isgain ∨ ¬ (p = 1 ∧ m = 1)) (hγ : GainBound G p m γ) (hδ : GainBound H p m δ) :
    ∃ R, G.add (fuel + 2) H = .ok R ∧ GainBound R p m (γ + δ) := by
  obtain ⟨M, h1, -⟩ := hγ 0
  obtain ⟨N, h2, -⟩ := hδ 0
  have he : G.dt = H.dt := hdt.trans hdt'.symm
  have hok : DtOk G.dt := hdt ▸ dtOk_none
  obtain ⟨R, h3, -, h4⟩ := add_hasTF h1 (he ▸ h2) hok he hs fuel
  refine ⟨R, h3, fun ω => ?_⟩
  obtain ⟨M, h5, h6⟩ := hγ ω
  obtain ⟨N, h7, h8⟩ := hδ ω
  obtain ⟨R', h9, h10, -⟩ := add_hasTF h5 (he ▸ h7) hok he hs fuel
  rw [h3] at h9
  cases h9
  have hR : R.dt = G.dt := by rw [h4, hdt]; simp
  exact ⟨M + N, hR ▸ h10, (norm_add_le _ _).trans (add_le_add h6 h8)⟩

/-- **C106**, changes of sign and scaling. -/
theorem C106_scale (hdt : DtOk G.dt) (hγ : GainBound G p m γ) (x : ℝ) :
    (∃ R, G.neg = .ok R ∧ GainBound R p m γ) ∧ ∃ R, StateM.rmatmulGain (.scalar x) G = .ok R ∧ GainBound R p m (|x| * γ) := by
  obtain ⟨M, h1, -⟩ := hγ 0
  constructor
  · obtain ⟨R, h3, -, h4⟩ := C15_neg h1 hdt
    refine ⟨R, h3, fun ω => ?_⟩
    obtain ⟨M, h5, h6⟩ := hγ ω
    obtain ⟨R', h9, h10, -⟩ := C15_neg h5 hdt
    rw [h3] at h9
    cases h9
    exact ⟨-M, h4 ▸ h10, by rwa [norm_neg]⟩
  · obtain ⟨R, h3, -, h4⟩ := C18_scalar_left h1 hdt x
    refine ⟨R, h3, fun ω => ?_⟩
    obtain ⟨M, h5, h6⟩ := hγ ω
    obtain ⟨R', h9, h10, -⟩ := C18_scalar_left h5 hdt x
    rw [h3] at h9
    cases h9
    refine ⟨_, h4 ▸ h10, ?_⟩
    rw [norm_smul]
    simpa using mul_le_mul_of_nonneg_left h6 (abs_nonneg x)

theorem l2_norm_one_le : ‖(1 : Matrix (Fin m) (Fin m) ℂ)‖ ≤ 1 := by
  refine opNorm_le_of_sq zero_le_one fun v => ?_
  rw [one_mulVec]
  simp

/-- **C106**, feedback: if the product of the largest gains of `G` and `H` is below one, the loop `G/(1 ∓ G H)` exists and its largest gain is at most `γ/(1 - γδ)`. Missing: as in `C30_feedback_partial`. -/
theorem C106_feedback_partial (hγ : GainBound G p m γ) (hδ : GainBound H m p δ) (hlt : γ * δ < 1) (hdt : DtOk G.dt) (hdt' : G.dt = H.dt) (neg : Bool) (D : Matrix (Fin p) (Fin m) ℝ)
    (N : Matrix (Fin m) (Fin p) ℝ) (hGd : G.d = Arr.of D) (hHd : H.d = Arr.of N) (hσ : neg = false ∨ N * D = 0) (hz : G.isgain = true → H.isgain = true → D ≠ 0 ∧ N ≠ 0)
    (hwp : ¬ HasSVAtMost (m * spacing10 : ℝ) (1 - N * D)) :
    ∃ R, feedback (.state G) (.state H) neg = .ok R ∧ GainBound R p m (γ / (1 - γ * δ)) := by
  have hval : ∀ ω, ∃ (R : StateM ℝ) (Gs : Matrix (Fin p) (Fin m) ℂ) (Hs : Matrix (Fin m) (Fin p) ℂ), feedback (.state G) (.state H) neg = .ok R ∧ HasTF G p m (evalPoint G.dt ω) Gs ∧ ‖Gs‖ ≤ γ ∧ ‖(if neg then -1 else 1 : ℂ) • (Hs * Gs)‖ ≤ γ * δ ∧
      HasTF R p m (evalPoint G.dt ω) (Gs * (1 - (if neg then -1 else 1 : ℂ) • (Hs * Gs))⁻¹) ∧ R.dt = G.dt := by
    intro ω
    obtain ⟨Gs, h1, h2⟩ := hγ ω
    obtain ⟨Hs, h3, h4⟩ := hδ ω
    have h5 : ‖(if neg then -1 else 1 : ℂ) • (Hs * Gs)‖ ≤ γ * δ := by
      rw [norm_smul, show ‖(if neg then -1 else 1 : ℂ)‖ = 1 by cases neg <;> simp, one_mul, mul_comm γ]
      exact (l2_opNorm_mul _ _).trans (mul_le_mul h4 h2 (norm_nonneg _) ((norm_nonneg _).trans h4))
    obtain ⟨R, h6, h7, h8⟩ := C30_feedback_partial h1 (hdt' ▸ h3) hdt hdt' neg D N hGd hHd hσ hz hwp (det_one_sub_ne_zero (h5.trans_lt hlt))
    exact ⟨R, Gs, Hs, h6, h1, h2, h5, h7, h8⟩
  obtain ⟨R, -, -, hR, -⟩ := hval 0
  refine ⟨R, hR, fun ω => ?_⟩
  obtain ⟨R', Gs, Hs, h1, -, h2, h3, h4, h5⟩ := hval ω
  rw [hR] at h1
  cases h1
  refine ⟨_, h5 ▸ h4, ?_⟩
  set X := (if neg then -1 else 1 : ℂ) • (Hs * Gs) with hX
  have hdet := det_one_sub_ne_zero (h3.trans_lt hlt)
  have e1 : (1 - X)⁻¹ = 1 + X * (1 - X)⁻¹ := by
    have := mul_nonsing_inv (1 - X) (isUnit_iff_ne_zero.mpr hdet)
    rw [sub_mul, one_mul] at this
    exact sub_eq_iff_eq_add.mp this
  have e2 : ‖(1 - X)⁻¹‖ ≤ 1 + γ * δ * ‖(1 - X)⁻¹‖ := by
    nth_rw 1 [e1]
    refine (norm_add_le _ _).trans (add_le_add l2_norm_one_le ((l2_opNorm_mul _ _).trans ?_))
    exact mul_le_mul_of_nonneg_right h3 (norm_nonneg _)
  have h0 : 0 < 1 - γ * δ := by linarith
  have e3 : ‖(1 - X)⁻¹‖ ≤ 1 / (1 - γ * δ) := by
    rw [le_div_iff₀ h0]
    linarith
  calc ‖Gs * (1 - X)⁻¹‖ ≤ ‖Gs‖ * ‖(1 - X)⁻¹‖ := l2_opNorm_mul _ _
    _ ≤ γ * (1 / (1 - γ * δ)) := mul_le_mul h2 e3 (norm_nonneg _) ((norm_nonneg _).trans h2)
    _ = γ / (1 - γ * δ) := by ring

section tustin

variable {P : Type} {Nm : Numerics ℝ P} {E : DNum} {g S : StateObj ℝ P} {dt pw : ℝ} {method : String} {qq : Option (Arr ℝ)}

/-- **C106**, the bilinear transformation (with or without prewarping below the Nyquist frequency) keeps the largest gain of stable models: the bounds of the gains of the model and of the discretized model are the
same numbers. -/
theorem C106_tustin (hm : method = "tustin" ∨ method = "bilinear") (hc : Consistent g.g p m) (hst : StableModel g.g) (hpw : 0 ≤ pw) (hny : pw < 1 / (2 * dt))
    (h : discretize Nm E g dt method pw qq = .ok S) : GainBound g.g p m γ ↔ GainBound S.g p m γ := by
  obtain ⟨hk, hdt0, hdt⟩ := discretize_pre h
  obtain ⟨y, hy, hargs, -⟩ := tustin_args (G := g) (E := E) (q := qq) hm hdt hpw hny
  have hsub : ∀ (s ζ : ℂ) (M : Matrix (Fin p) (Fin m) ℂ), HasTF g.g p m s M → ζ + 1 ≠ 0 → s * ((y : ℂ) ^ 2 / 2 * (ζ + 1)) = ζ - 1 → HasTF S.g p m ζ M ∧ S.g.dt = some dt := by
    intro s ζ M hM hζ hs
    have hβ : algebraMap ℝ ℂ (y ^ 2 / 2) * (ζ - algebraMap ℝ ℂ 1) + algebraMap ℝ ℂ y * algebraMap ℝ ℂ y = (y : ℂ) ^ 2 / 2 * (ζ + 1) := by
      simp
      ring
    refine discretize_lft_hasTF hargs (fun _ _ => hny.le) h hM ?_ ?_
    · rw [hβ]
      have : (y : ℂ) ≠ 0 := by exact_mod_cast hy.ne'
      exact mul_ne_zero (div_ne_zero (pow_ne_zero 2 this) two_ne_zero) hζ
    · rw [hβ, hs, map_one]
  have hy0 : (y : ℂ) ≠ 0 := by exact_mod_cast hy.ne'
  obtain ⟨a, b, c, D, dt', hG⟩ | ⟨n, A, B, C, D, dt', hG⟩ := consistent_cases hc
  · -- static gains
    have hval : ∀ s : ℂ, HasTF g.g p m s (D.map (algebraMap ℝ ℂ)) := fun s => Or.inl ⟨by rw [hG], D, by rw [hG], rfl⟩
    have hS : ∀ s : ℂ, HasTF S.g p m s (D.map (algebraMap ℝ ℂ)) := by
      obtain ⟨S', h1, h2, h3, -⟩ := C37_discretize (N := Nm) (E := E) (pw := pw) (q := qq) (G := g) (by rw [hG]) hdt0 hk hdt
      rw [h] at h1
      cases h1
      exact fun s => Or.inl ⟨h2, D, by rw [h3, hG], rfl⟩
    constructor
    · intro h1 ω
      obtain ⟨M, h2, h3⟩ := h1 ω
      exact ⟨M, by rw [HasTF_unique h2 (hval _)]; exact hS _, h3⟩
    · intro h1 ω
      obtain ⟨M, h2, h3⟩ := h1 ω
      exact ⟨M, by rw [HasTF_unique h2 (hS _)]; exact hval _, h3⟩
  · obtain rfl : dt' = none := by rw [hG] at hdt0; exact hdt0
    have hA : Hurwitz A := by
      rw [hG] at hst
      rcases hst with h0 | ⟨n', A', hA, hM⟩
      · cases h0
      · obtain rfl : n = n' := congrArg Arr.r hA
        obtain rfl := Arr.of_inj.mp hA
        exact fun z hz => by simpa [StablePoint] using motions_iff.mp hM z hz
    obtain ⟨h1, h2⟩ := discretize_lft_ok (N := Nm) hargs (fun _ _ => hny.le) hG hk
    obtain ⟨S', h3, h4, -⟩ := h2 (Hurwitz.det_ne_zero hA (by positivity)) hdt
    rw [h] at h3
    cases h3
    have hA' : Schur (((1 : ℝ) • 1 + (y * y) • (A * (1 - (y ^ 2 / 2) • A)⁻¹)) : Matrix (Fin n) (Fin n) ℝ) := by
      have := (hurwitz_iff_schur (h := y ^ 2) (by positivity) (Hurwitz.det_ne_zero hA (by positivity))).mp hA
      simpa [sq] using this
    have hax := hurwitz_axis hA
    have hval : ∀ ω : ℝ, HasTF g.g p m (evalPoint none ω) (tfAt (A.map (algebraMap ℝ ℂ)) (B.map (algebraMap ℝ ℂ)) (C.map (algebraMap ℝ ℂ)) (D.map (algebraMap ℝ ℂ)) (evalPoint none ω)) := by
      intro ω
      rw [hG]
      exact HasTF.of_dyn ⟨hax ω, rfl⟩
    have hw : (y : ℂ) ^ 2 / 2 ≠ 0 := div_ne_zero (pow_ne_zero 2 hy0) two_ne_zero
    have hdt' : S.g.dt = some dt := by rw [h4]
    have huniq : ∀ {ζ : ℂ} {M : Matrix (Fin p) (Fin m) ℂ}, HasTF S.g p m ζ M → ‖ζ‖ = 1 → M = tfAt _ _ _ _ ζ := fun {ζ M} hM hζ => HasTF_unique hM (by
      rw [h4]
      exact HasTF.of_dyn ⟨schur_circle_det hA' ζ hζ, rfl⟩)
    constructor
    · intro hγ
      have key : ∀ (ω : ℝ) (ζ : ℂ), ‖ζ‖ = 1 → ζ + 1 ≠ 0 → (Complex.I * ω) * ((y : ℂ) ^ 2 / 2 * (ζ + 1)) = ζ - 1 → ‖tfAt (((1 : ℝ) • 1 + (y * y) • (A * (1 - (y ^ 2 / 2) • A)⁻¹)).map (algebraMap ℝ ℂ)) ((y • ((1 - (y ^ 2 / 2) • A)⁻¹ * B)).map (algebraMap ℝ ℂ))
          ((y • (C * (1 - (y ^ 2 / 2) • A)⁻¹)).map (algebraMap ℝ ℂ)) ((D + (y ^ 2 / 2) • (C * (1 - (y ^ 2 / 2) • A)⁻¹ * B)).map (algebraMap ℝ ℂ)) ζ‖ ≤ γ := by
        intro ω ζ hζ h5 h6
        obtain ⟨M, h7, h8⟩ := hγ ω
        rw [hdt0] at h7
        have h9 := (hsub _ ζ M h7 h5 h6).1
        rw [huniq h9 hζ] at h8
        exact h8
      rw [h4]
      refine (gainBound_disc hdt hA').mpr fun ζ hζ => ?_
      by_cases h5 : ζ + 1 = 0
      · obtain rfl : ζ = -1 := eq_neg_of_add_eq_zero_left h5
        have hcont : ContinuousAt (fun t : ℝ => ((t : ℂ) + Complex.I) / (t - Complex.I)) 0 := by
          refine ContinuousAt.div (by fun_prop) (by fun_prop) ?_
          simp
        have h0 : (((0 : ℝ) : ℂ) + Complex.I) / (((0 : ℝ) : ℂ) - Complex.I) = -1 := by
          simp [Complex.I_ne_zero]
        have hc2 := (differentiable_tfAt _ ((y • ((1 - (y ^ 2 / 2) • A)⁻¹ * B)).map (algebraMap ℝ ℂ))
          ((y • (C * (1 - (y ^ 2 / 2) • A)⁻¹)).map (algebraMap ℝ ℂ)) ((D + (y ^ 2 / 2) • (C * (1 - (y ^ 2 / 2) • A)⁻¹ * B)).map (algebraMap ℝ ℂ)) (schur_circle_det hA' (-1) hζ)).continuousAt
        rw [← h0] at hc2
        have hlim := (ContinuousAt.comp (f := fun t : ℝ => ((t : ℂ) + Complex.I) / (t - Complex.I)) hc2 hcont).norm.tendsto.mono_left (nhdsWithin_le_nhds (s := {0}ᶜ))
        rw [← h0]
        refine le_of_tendsto hlim ?_
        filter_upwards [self_mem_nhdsWithin] with t ht
        have ht0 : (t : ℂ) ≠ 0 := by exact_mod_cast (show t ≠ 0 from ht)
        have hI : (t : ℂ) - Complex.I ≠ 0 := fun h => by
          have := congrArg Complex.im h
          simp at this
        refine key (1 / (t * (y ^ 2 / 2))) _ ?_ ?_ ?_
        · rw [norm_div, div_eq_one_iff_eq (norm_ne_zero_iff.mpr hI)]
          rw [show (t : ℂ) - Complex.I = (starRingEnd ℂ) (t + Complex.I) by simp [sub_eq_add_neg], RCLike.norm_conj]
        · rw [div_add_one hI]
          refine div_ne_zero ?_ hI
          ring_nf
          exact mul_ne_zero ht0 two_ne_zero
        · push_cast
          field_simp
          ring
      · have hζ2 : ζ * (starRingEnd ℂ) ζ = 1 := by rw [Complex.mul_conj', hζ]; norm_num
        set v := (ζ - 1) / (ζ + 1) with hv
        have h6 : (starRingEnd ℂ) v = -v := by
          have h7 : (starRingEnd ℂ) ζ + 1 ≠ 0 := fun h => h5 (by
            have := congrArg (starRingEnd ℂ) h
            simpa using this)
          rw [hv, map_div₀, map_sub, map_add, map_one, ← neg_div, div_eq_div_iff h7 h5]
          linear_combination 2 * hζ2
        have h7 : v = Complex.I * v.im := by
          apply Complex.ext
          · have := congrArg Complex.re h6
            simp at this ⊢
            linarith
          · simp
        refine key (v.im / (y ^ 2 / 2)) ζ hζ h5 ?_
        have h8 : v * (ζ + 1) = ζ - 1 := div_mul_cancel₀ _ h5
        rw [← h8]
        nth_rw 2 [h7]
        push_cast
        field_simp
    · intro hγ ω
      rw [h4, gainBound_disc hdt hA'] at hγ
      rw [hdt0]
      refine ⟨_, hval ω, ?_⟩
      set a := Complex.I * ω * ((y : ℂ) ^ 2 / 2) with ha
      have hconj : (starRingEnd ℂ) a = -a := by
        rw [ha, map_mul, map_mul, Complex.conj_I, Complex.conj_ofReal, map_div₀, map_pow, Complex.conj_ofReal, map_ofNat]
        ring
      have hI : 1 - a ≠ 0 := fun h => by
        have h5 : a = 1 := (sub_eq_zero.mp h).symm
        rw [h5, map_one] at hconj
        norm_num at hconj
      have hn : ‖(1 + a) / (1 - a)‖ = 1 := by
        rw [norm_div, div_eq_one_iff_eq (norm_ne_zero_iff.mpr hI), ← RCLike.norm_conj (1 - a), map_sub, map_one, hconj, sub_neg_eq_add]
      have h5 : (1 + a) / (1 - a) + 1 ≠ 0 := by
        rw [div_add_one hI]
        refine div_ne_zero ?_ hI
        ring_nf
        exact two_ne_zero
      have h6 := (hsub _ ((1 + a) / (1 - a)) _ (hval ω) h5 (by
        have : evalPoint none ω * ((y : ℂ) ^ 2 / 2 * ((1 + a) / (1 - a) + 1)) = a * ((1 + a) / (1 - a) + 1) := by
          rw [ha]
          simp only [evalPoint, Option.elim]
          ring
        rw [this]
        field_simp
        ring)).1
      rw [huniq h6 hn]
      exact hγ _ hn

theorem lag_gain (P : Type) : GainBound (lagObj P).g 1 1 1 := by
  intro ω
  have hz : evalPoint none ω + 1 ≠ 0 := fun h => by
    have := congrArg Complex.re h
    simp [evalPoint] at this
  rw [show (lagObj P).g.dt = none from rfl]
  refine ⟨!![1 / (evalPoint none ω + 1)], HasTF.of_dyn (isTF_iff_sol.mpr ⟨?_, !![1 / (evalPoint none ω + 1)], ?_, ?_⟩), ?_⟩
  · simpa [Matrix.det_fin_one] using hz
  · ext i j; fin_cases i; fin_cases j
    simp [Matrix.mul_apply]
    field_simp
  · ext i j; fin_cases i; fin_cases j; simp [Matrix.mul_apply]
  · rw [scalar_norm, norm_div, norm_one]
    refine (div_le_one (norm_pos_iff.mpr hz)).mpr ?_
    have := Complex.abs_re_le_norm (evalPoint none ω + 1)
    simpa [evalPoint] using this

/-- The hypotheses of `C106_tustin` are met by the lag `1/(s+1)`, with the bound `1`. -/
example (hdt : 0 < dt) : ∃ S, discretize Nm E (lagObj P) dt "tustin" 0 qq = .ok S ∧ GainBound S.g 1 1 1 := by
  have hc : Consistent (lagObj P).g 1 1 := ⟨⟨rfl, rfl⟩, fun _ => ⟨rfl, rfl, rfl, rfl, rfl⟩⟩
  have hst : StableModel (lagObj P).g := stable_of_hurwitz (A := !![-1]) (B := !![1]) (C := !![1]) (D := !![0]) lagObj_hurwitz
  have hny : (0 : ℝ) < 1 / (2 * dt) := by positivity
  obtain ⟨S, hS⟩ := (C38_tustin (N := Nm) (E := E) (q := qq) (A := !![-1]) (Or.inl rfl) hc rfl rfl rfl hdt le_rfl hny).1 lagObj_hurwitz
  exact ⟨S, hS, (C106_tustin (Or.inl rfl) hc hst le_rfl hny hS).mp (lag_gain P)⟩

/-- The hypotheses of the other theorems are met: `1/(2z)` twice in a row and in a loop with itself. -/
example : (∃ R, (delayHalf P).g.matmul 1 (delayHalf P).g = .ok R ∧ GainBound R 1 1 (1 / 2 * (1 / 2))) ∧
    (∃ R, feedback (.state (delayHalf P).g) (.state (delayHalf P).g) true = .ok R ∧ GainBound R 1 1 (1 / 2 / (1 - 1 / 2 * (1 / 2)))) ∧
    ∃ R, (lagObj P).g.add 2 (lagObj P).g = .ok R ∧ GainBound R 1 1 (1 + 1) := by
  have hdt : DtOk (delayHalf P).g.dt := fun h e => by cases e; norm_num
  obtain ⟨M, h1, -⟩ := delayHalf_gain P 0
  obtain ⟨R, h2, -⟩ := C17_matmul h1 h1 hdt rfl 0
  refine ⟨⟨R, h2, C106_product hdt (delayHalf_gain P) (delayHalf_gain P) h2⟩, ?_, C106_sum_partial rfl rfl (Or.inl rfl) (lag_gain P) (lag_gain P)⟩
  have h0 : (!![0] * !![0] : Matrix (Fin 1) (Fin 1) ℝ) = 0 := by ext i j; fin_cases i; fin_cases j; simp
  refine C106_feedback_partial (delayHalf_gain P) (delayHalf_gain P) (by norm_num) hdt rfl true !![0] !![0] rfl rfl (Or.inr h0) (fun h => by cases h) ?_
  rw [h0, sub_zero]
  exact not_sv_one (by norm_num [spacing10]) (by norm_num [spacing10])

end tustin

end Harold
