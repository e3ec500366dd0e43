import Verif.Model.PoleProps
import Verif.Spec.PoleProps
import Verif.Lemmas.StateTF

/-!
# C75: natural frequencies and damping ratios
-/

namespace Harold

open Spec

/-- A complex number other than zero belongs to exactly one pair of natural frequency and damping
ratio. -/
theorem oscillator_iff {s : ℂ} (hs : s ≠ 0) (ω ζ : ℝ) :
    Oscillator s ω ζ ↔ ω = ‖s‖ ∧ ζ = -s.re / ‖s‖ := by
  have hn : 0 < ‖s‖ := norm_pos_iff.mpr hs
  have hsq : ‖s‖ ^ 2 = s.re ^ 2 + s.im ^ 2 := by
    rw [Complex.sq_norm, Complex.normSq_apply]; ring
  constructor
  · rintro ⟨hω, hζ, h⟩
    have h1 := congrArg Complex.re h
    have h2 := congrArg Complex.im h
    simp [pow_two] at h1 h2
    have hre : s.re = -(ζ * ω) ∧ s.im ^ 2 = (1 - ζ ^ 2) * ω ^ 2 := by
      by_cases him : s.im = 0
      · rw [him] at h1
        have hζ2 : ζ ^ 2 ≤ 1 := (sq_le_one_iff_abs_le_one ζ).mpr hζ
        have h3 : (s.re + ζ * ω) ^ 2 + (1 - ζ ^ 2) * ω ^ 2 = 0 := by nlinarith
        have h4 : 0 ≤ (1 - ζ ^ 2) * ω ^ 2 := mul_nonneg (by linarith) (sq_nonneg _)
        have h5 : (s.re + ζ * ω) ^ 2 = 0 := le_antisymm (by linarith) (sq_nonneg _)
        have h6 := pow_eq_zero_iff (two_ne_zero) |>.mp h5
        exact ⟨by linarith, by rw [him]; nlinarith⟩
      · have h3 : s.im * (s.re + ζ * ω) = 0 := by linarith
        have h4 : s.re + ζ * ω = 0 := (mul_eq_zero.mp h3).resolve_left him
        have h5 : s.re = -(ζ * ω) := by linarith
        refine ⟨h5, ?_⟩
        rw [h5] at h1
        nlinarith
    have hω2 : ‖s‖ ^ 2 = ω ^ 2 := by rw [hsq, hre.1, hre.2]; ring
    have hω' : ω = ‖s‖ := by
      have := abs_eq_abs.mpr (sq_eq_sq_iff_eq_or_eq_neg.mp hω2)
      rw [abs_of_pos hn, abs_of_pos hω] at this
      exact this.symm
    refine ⟨hω', ?_⟩
    rw [hre.1, ← hω']
    field_simp
  · rintro ⟨rfl, rfl⟩
    refine ⟨hn, ?_, ?_⟩
    · rw [abs_div, abs_neg, abs_of_pos hn, div_le_one hn]
      exact Complex.abs_re_le_norm s
    · have hn' : (‖s‖ : ℂ) ≠ 0 := by exact_mod_cast hn.ne'
      have hc : ((‖s‖ : ℝ) : ℂ) ^ 2 = (s.re : ℂ) ^ 2 + (s.im : ℂ) ^ 2 := by exact_mod_cast hsq
      rw [hc]
      push_cast
      have : 2 * (-(s.re : ℂ) / (‖s‖ : ℂ)) * (‖s‖ : ℂ) = -2 * s.re := by field_simp
      rw [this]
      have hs' : s = (s.re : ℂ) + s.im * Complex.I := (Complex.re_add_im s).symm
      generalize s.re = x at *
      generalize s.im = y at *
      rw [hs']
      ring_nf
      rw [Complex.I_sq]
      ring

theorem oscillator_poleNums {s : ℂ} (hs : s ≠ 0) : ∃ ω ζ, poleNums s = (some ω, some ζ) ∧ Oscillator s ω ζ :=
  ⟨_, _, rfl, (oscillator_iff hs _ _).mpr ⟨rfl, rfl⟩⟩

theorem oscillator_norm {s : ℂ} {ω ζ : ℝ} (h : Oscillator s ω ζ) (t : ℝ) :
    ‖Complex.exp (s * t)‖ = Real.exp (-(ζ * ω) * t) := by
  have hs : s ≠ 0 := by
    rintro rfl
    have := h.2.2
    simp at this
    exact h.1.ne' this
  obtain ⟨rfl, rfl⟩ := (oscillator_iff hs _ _).mp h
  have : ‖s‖ ≠ 0 := norm_ne_zero_iff.mpr hs
  rw [Complex.norm_exp]
  congr 1
  simp
  field_simp

theorem oscillator_neg_iff {s : ℂ} {ω ζ : ℝ} (h : Oscillator s ω ζ) : 0 < ζ ↔ s.re < 0 := by
  have hs : s ≠ 0 := by
    rintro rfl
    have := h.2.2
    simp at this
    exact h.1.ne' this
  obtain ⟨rfl, rfl⟩ := (oscillator_iff hs _ _).mp h
  have : 0 < ‖s‖ := norm_pos_iff.mpr hs
  rw [lt_div_iff₀ this]
  constructor <;> intro h <;> linarith

/-- The pair of natural frequency and damping ratio of a mode is determined by the mode. -/
theorem C75_unique {s : ℂ} {ω ζ ω' ζ' : ℝ} (h : Oscillator s ω ζ) (h' : Oscillator s ω' ζ') : ω = ω' ∧ ζ = ζ' := by
  have hs : s ≠ 0 := by
    rintro rfl
    have := h.2.2
    simp at this
    exact h.1.ne' this
  obtain ⟨rfl, rfl⟩ := (oscillator_iff hs _ _).mp h
  obtain ⟨rfl, rfl⟩ := (oscillator_iff hs _ _).mp h'
  exact ⟨rfl, rfl⟩

/-- The table of a model with poles has one row per pole, in the order of the poles, whose first
entry is the pole; `None` is returned exactly for models without poles. -/
theorem C75_rows (poles : List ℂ) (dt : Option ℝ) :
    (poleProperties poles dt = none ↔ poles = []) ∧
      ∀ rows, poleProperties poles dt = some rows → rows.map Prod.fst = poles := by
  unfold poleProperties
  by_cases h : poles = []
  · simp [h]
  · simp only [h, if_false, iff_false]
    cases dt with
    | none =>
      refine ⟨by simp, ?_⟩
      rintro rows ⟨⟩
      rw [List.map_map]
      conv_rhs => rw [← List.map_id poles]
      refine List.map_congr_left fun p _ => ?_
      simp only [Function.comp, poleRowCont]
      split <;> rfl
    | some d =>
      refine ⟨by simp, ?_⟩
      rintro rows ⟨⟩
      rw [List.map_map]
      conv_rhs => rw [← List.map_id poles]
      refine List.map_congr_left fun p _ => ?_
      simp only [Function.comp, poleRowDisc]
      split_ifs <;> rfl

/-- Continuous models: each row other than that of an integrator holds the natural frequency and the
damping ratio of its pole; integrators have frequency zero and no damping ratio. -/
theorem C75_continuous {poles : List ℂ} {rows : List (ℂ × Option ℝ × Option ℝ)} (h : poleProperties poles none = some rows)
    {p : ℂ} {w z : Option ℝ} (hr : (p, w, z) ∈ rows) :
    (p = 0 ∧ w = some 0 ∧ z = none) ∨ ∃ ω ζ, w = some ω ∧ z = some ζ ∧ Oscillator p ω ζ := by
  unfold poleProperties at h
  split_ifs at h
  obtain rfl := Option.some.inj h
  obtain ⟨q, _, hq⟩ := List.mem_map.mp hr
  unfold poleRowCont at hq
  split_ifs at hq with h0
  · simp only [Prod.mk.injEq] at hq
    obtain ⟨rfl, rfl, rfl⟩ := hq
    exact .inl ⟨h0, rfl, rfl⟩
  · obtain ⟨ω, ζ, e, ho⟩ := oscillator_poleNums h0
    rw [e] at hq
    simp only [Prod.mk.injEq] at hq
    obtain ⟨rfl, rfl, rfl⟩ := hq
    exact .inr ⟨ω, ζ, rfl, rfl, ho⟩

/-- Discrete models: each row other than that of an integrator or a pole at `z = 0` holds the natural
frequency and the damping ratio of the continuous-time mode whose samples are the powers of the pole.
Missing: poles at `z = 0`, see `C75_deadbeat_violated`. -/
theorem C75_discrete_partial {d : ℝ} (hd : 0 < d) {poles : List ℂ} {rows : List (ℂ × Option ℝ × Option ℝ)}
    (h : poleProperties poles (some d) = some rows) {p : ℂ} {w z : Option ℝ} (hr : (p, w, z) ∈ rows) (hp : p ≠ 0) :
    (p = 1 ∧ w = some 0 ∧ z = none) ∨ ∃ s ω ζ, w = some ω ∧ z = some ζ ∧ Sampled d p s ∧ Oscillator s ω ζ := by
  unfold poleProperties at h
  split_ifs at h
  obtain rfl := Option.some.inj h
  obtain ⟨q, _, hq⟩ := List.mem_map.mp hr
  unfold poleRowDisc at hq
  split_ifs at hq with h1 h0
  · simp only [Prod.mk.injEq] at hq
    obtain ⟨rfl, rfl, rfl⟩ := hq
    exact .inl ⟨h1, rfl, rfl⟩
  · simp only [Prod.mk.injEq] at hq
    obtain ⟨rfl, rfl, rfl⟩ := hq
    exact absurd h0 hp
  · have hd' : (d : ℂ) ≠ 0 := by exact_mod_cast hd.ne'
    have hs : Complex.log q / d ≠ 0 := by
      refine div_ne_zero ?_ hd'
      intro hl
      have := Complex.exp_log h0
      rw [hl, Complex.exp_zero] at this
      exact h1 this.symm
    obtain ⟨ω, ζ, e, ho⟩ := oscillator_poleNums hs
    rw [e] at hq
    simp only [Prod.mk.injEq] at hq
    obtain ⟨rfl, rfl, rfl⟩ := hq
    refine .inr ⟨Complex.log q / d, ω, ζ, rfl, rfl, ⟨?_, ?_⟩, ho⟩
    · rw [mul_div_cancel₀ _ hd', Complex.exp_log h0]
    · have : d * (Complex.log q / d).im = (Complex.log q).im := by
        rw [Complex.div_ofReal_im, mul_div_cancel₀ _ hd.ne']
      rw [this, abs_le]
      exact ⟨(Complex.neg_pi_lt_log_im q).le, Complex.log_im_le_pi q⟩

/-- What the two numbers say about the response of a continuous-time mode: the envelope decays with
the rate `ζω`. -/
theorem C75_envelope {poles : List ℂ} {rows : List (ℂ × Option ℝ × Option ℝ)} (h : poleProperties poles none = some rows)
    {p : ℂ} {ω ζ : ℝ} (hr : (p, some ω, some ζ) ∈ rows) (t : ℝ) :
    ‖Complex.exp (p * t)‖ = Real.exp (-(ζ * ω) * t) := by
  obtain ⟨_, _, h'⟩ | ⟨_, _, e1, e2, ho⟩ := C75_continuous h hr
  · exact absurd h' (by simp)
  · obtain rfl := Option.some.inj e1
    obtain rfl := Option.some.inj e2
    exact oscillator_norm ho t

/-- What the two numbers say about the response of a discrete-time mode: the powers of the pole decay
with the rate `ζω` per unit of time. -/
theorem C75_envelope_discrete {d : ℝ} (hd : 0 < d) {poles : List ℂ} {rows : List (ℂ × Option ℝ × Option ℝ)}
    (h : poleProperties poles (some d) = some rows) {p : ℂ} {ω ζ : ℝ} (hr : (p, some ω, some ζ) ∈ rows) (k : ℕ) :
    ‖p ^ k‖ = Real.exp (-(ζ * ω) * (k * d)) := by
  have hp : p ≠ 0 := by
    rintro rfl
    unfold poleProperties at h
    split_ifs at h
    obtain rfl := Option.some.inj h
    obtain ⟨q, _, hq⟩ := List.mem_map.mp hr
    unfold poleRowDisc at hq
    split_ifs at hq with h1 h0
    · simp at hq
    · simp at hq
    · simp only [Prod.mk.injEq] at hq
      exact h0 hq.1
  obtain ⟨_, _, h'⟩ | ⟨s, _, _, e1, e2, hs, ho⟩ := C75_discrete_partial hd h hr hp
  · exact absurd h' (by simp)
  · obtain rfl := Option.some.inj e1
    obtain rfl := Option.some.inj e2
    rw [← oscillator_norm ho, ← hs.1, ← Complex.exp_nat_mul]
    congr 2
    push_cast
    ring

/-- A complex pole and its conjugate get the same numbers. -/
theorem C75_conj {poles : List ℂ} {dt : Option ℝ} (hd : ∀ d, dt = some d → 0 < d)
    {rows : List (ℂ × Option ℝ × Option ℝ)} (h : poleProperties poles dt = some rows)
    {p : ℂ} {w z w' z' : Option ℝ} (hr : (p, w, z) ∈ rows) (hr' : ((starRingEnd ℂ) p, w', z') ∈ rows) :
    w = w' ∧ z = z' := by
  have hconj : ∀ {s : ℂ} {ω ζ : ℝ}, Oscillator s ω ζ → Oscillator ((starRingEnd ℂ) s) ω ζ := by
    rintro s ω ζ ⟨h1, h2, h3⟩
    refine ⟨h1, h2, ?_⟩
    have := congrArg (starRingEnd ℂ) h3
    simpa [Complex.conj_ofNat] using this
  cases dt with
  | none =>
    obtain ⟨rfl, rfl, rfl⟩ | ⟨ω, ζ, rfl, rfl, ho⟩ := C75_continuous h hr
    · obtain ⟨_, rfl, rfl⟩ | ⟨ω, ζ, rfl, rfl, ho⟩ := C75_continuous h hr'
      · exact ⟨rfl, rfl⟩
      · have := ho.2.2
        simp at this
        exact absurd this ho.1.ne'
    · obtain ⟨h0, rfl, rfl⟩ | ⟨ω', ζ', rfl, rfl, ho'⟩ := C75_continuous h hr'
      · have := (hconj ho).2.2
        rw [h0] at this
        simp at this
        exact absurd this ho.1.ne'
      · obtain ⟨rfl, rfl⟩ := C75_unique (hconj ho) ho'
        exact ⟨rfl, rfl⟩
  | some d =>
    unfold poleProperties at h
    split_ifs at h
    obtain rfl := Option.some.inj h
    obtain ⟨q, _, hq⟩ := List.mem_map.mp hr
    obtain ⟨q', _, hq'⟩ := List.mem_map.mp hr'
    have e1 : q = p := by
      have := congrArg Prod.fst hq
      unfold poleRowDisc at this
      split_ifs at this <;> exact this
    have e2 : q' = (starRingEnd ℂ) p := by
      have := congrArg Prod.fst hq'
      unfold poleRowDisc at this
      split_ifs at this <;> exact this
    subst e1 e2
    unfold poleRowDisc at hq hq'
    by_cases h1 : q = 1
    · subst h1
      simp at hq hq'
      exact ⟨hq.1.symm.trans hq'.1, hq.2.symm.trans hq'.2⟩
    · have h1' : (starRingEnd ℂ) q ≠ 1 := fun h => h1 (by simpa using congrArg (starRingEnd ℂ) h)
      by_cases h0 : q = 0
      · subst h0
        simp at hq hq'
        exact ⟨hq.1.symm.trans hq'.1, hq.2.symm.trans hq'.2⟩
      · have h0' : (starRingEnd ℂ) q ≠ 0 := by simpa using h0
        rw [if_neg h1, if_neg h0] at hq
        rw [if_neg h1', if_neg h0'] at hq'
        have hn : ‖Complex.log ((starRingEnd ℂ) q) / d‖ = ‖Complex.log q / d‖ ∧
            (Complex.log ((starRingEnd ℂ) q) / d).re = (Complex.log q / d).re := by
          have hre : (Complex.log ((starRingEnd ℂ) q)).re = (Complex.log q).re := by
            rw [Complex.log_re, Complex.log_re, Complex.norm_conj]
          have him : (Complex.log ((starRingEnd ℂ) q)).im ^ 2 = (Complex.log q).im ^ 2 := by
            rw [Complex.log_im, Complex.log_im, Complex.arg_conj]
            split_ifs with ha
            · rw [ha]
            · ring
          refine ⟨?_, by rw [Complex.div_ofReal_re, Complex.div_ofReal_re, hre]⟩
          rw [norm_div, norm_div]
          congr 1
          rw [Complex.norm_eq_sqrt_sq_add_sq, Complex.norm_eq_sqrt_sq_add_sq, hre, him]
        unfold poleNums at hq hq'
        rw [hn.1, hn.2] at hq'
        simp only [Prod.mk.injEq] at hq hq'
        exact ⟨hq.2.1.symm.trans hq'.2.1, hq.2.2.symm.trans hq'.2.2⟩

/-- The damping ratios decide stability: a continuous `State` with poles is reported stable exactly
when every row has a positive damping ratio. -/
theorem C75_stable (N : Numerics ℝ ℂ) (hN : ∀ z, N.inLeft z = true ↔ z.re < 0) (S : StateObj ℝ ℂ) (hdt : S.g.dt = none)
    {rows : List (ℂ × Option ℝ × Option ℝ)} (h : (StateObj.recalc N S).poleProperties = some rows) :
    (StateObj.recalc N S).isstable = true ↔ ∀ r ∈ rows, ∃ ζ, r.2.2 = some ζ ∧ 0 < ζ := by
  have hdt' : (StateObj.recalc N S).g.dt = none := hdt
  unfold StateObj.poleProperties at h
  rw [hdt'] at h
  have hst : (StateObj.recalc N S).isstable = true ↔ ∀ p ∈ (StateObj.recalc N S).poles, p.re < 0 := by
    simp only [StateObj.recalc, hdt]
    simp [List.all_eq_true, hN]
  rw [hst]
  have hf := (C75_rows _ _).2 _ h
  constructor
  · rintro hs ⟨p, w, z⟩ hr
    have hp : p ∈ (StateObj.recalc N S).poles := by rw [← hf]; exact List.mem_map.mpr ⟨_, hr, rfl⟩
    obtain ⟨rfl, _⟩ | ⟨ω, ζ, rfl, rfl, ho⟩ := C75_continuous h hr
    · exact absurd (hs _ hp) (by simp)
    · exact ⟨ζ, rfl, (oscillator_neg_iff ho).mpr (hs _ hp)⟩
  · intro hs p hp
    rw [← hf] at hp
    obtain ⟨⟨p, w, z⟩, hr, rfl⟩ := List.mem_map.mp hp
    obtain ⟨ζ, e, hζ⟩ := hs _ hr
    simp only at e
    obtain ⟨_, _, h'⟩ | ⟨_, _, _, e2, ho⟩ := C75_continuous h hr
    · rw [h'] at e; simp at e
    · rw [e] at e2
      obtain rfl := Option.some.inj e2
      exact (oscillator_neg_iff ho).mp hζ

/-- The same for a discrete `State` without poles at zero.
Missing: poles at `z = 0`, see `C75_deadbeat_violated`. -/
theorem C75_stable_discrete_partial (N : Numerics ℝ ℂ) (hN : ∀ z, N.inDisc z = true ↔ ‖z‖ < 1) (S : StateObj ℝ ℂ) {d : ℝ}
    (hd : 0 < d) (hdt : S.g.dt = some d) {rows : List (ℂ × Option ℝ × Option ℝ)}
    (h : (StateObj.recalc N S).poleProperties = some rows) (h0 : ∀ p ∈ (StateObj.recalc N S).poles, p ≠ 0) :
    (StateObj.recalc N S).isstable = true ↔ ∀ r ∈ rows, ∃ ζ, r.2.2 = some ζ ∧ 0 < ζ := by
  have hdt' : (StateObj.recalc N S).g.dt = some d := hdt
  unfold StateObj.poleProperties at h
  rw [hdt'] at h
  have hst : (StateObj.recalc N S).isstable = true ↔ ∀ p ∈ (StateObj.recalc N S).poles, ‖p‖ < 1 := by
    simp only [StateObj.recalc, hdt]
    simp [List.all_eq_true, hN]
  rw [hst]
  have hf := (C75_rows _ _).2 _ h
  have key : ∀ {p : ℂ} {ω ζ : ℝ}, (p, some ω, some ζ) ∈ rows → 0 < ω → (0 < ζ ↔ ‖p‖ < 1) := by
    intro p ω ζ hr hω
    have := C75_envelope_discrete hd h hr 1
    rw [pow_one] at this
    rw [this, Real.exp_lt_one_iff]
    push_cast
    rw [one_mul, neg_mul, neg_lt_zero, mul_pos_iff_of_pos_right hd, mul_pos_iff_of_pos_right hω]
  constructor
  · rintro hs ⟨p, w, z⟩ hr
    have hp : p ∈ (StateObj.recalc N S).poles := by rw [← hf]; exact List.mem_map.mpr ⟨_, hr, rfl⟩
    obtain ⟨rfl, _⟩ | ⟨s, ω, ζ, rfl, rfl, _, ho⟩ := C75_discrete_partial hd h hr (h0 _ hp)
    · exact absurd (hs _ hp) (by simp)
    · exact ⟨ζ, rfl, (key hr ho.1).mpr (hs _ hp)⟩
  · intro hs p hp
    have hp0 := h0 p hp
    rw [← hf] at hp
    obtain ⟨⟨p, w, z⟩, hr, rfl⟩ := List.mem_map.mp hp
    obtain ⟨ζ, e, hζ⟩ := hs _ hr
    simp only at e
    obtain ⟨_, _, h'⟩ | ⟨s, ω, _, rfl, rfl, _, ho⟩ := C75_discrete_partial hd h hr hp0
    · rw [h'] at e; simp at e
    · obtain rfl := Option.some.inj e
      exact (key hr ho.1).mp hζ

/-- `G.pole_properties()` of a discrete model with a pole at `z = 0` (a delay, the fastest possible
decay) has no damping ratio for it (`nan`), although the model is stable. -/
theorem C75_deadbeat_violated (N : Numerics ℝ ℂ) (hN : ∀ z, N.inDisc z = true ↔ ‖z‖ < 1) (hE : N.eig (Arr.of !![0]) = [0]) :
    ∃ S, StateObj.init N (some (Arr.of !![0])) (some (Arr.of !![1])) (some (Arr.of !![1])) (some (Arr.of !![0])) (some 1) = .ok S ∧
      S.isstable = true ∧ S.poleProperties = some [(0, none, none)] := by
  unfold StateObj.init
  rw [mkState_of (fun t ht => by obtain rfl := Option.some.inj ht; norm_num)]
  simp only [bind, Except.bind, Except.ok.injEq, exists_eq_left']
  constructor
  · simp [StateObj.recalc, hE, hN]
  · simp [StateObj.recalc, StateObj.poleProperties, poleProperties, hE, poleRowDisc]

/-- The hypotheses are met: an oscillating pair, an integrator and an unstable pole. -/
example : poleProperties [⟨-3, 4⟩, ⟨-3, -4⟩, 0, 2] none =
    some [(⟨-3, 4⟩, some 5, some (3 / 5)), (⟨-3, -4⟩, some 5, some (3 / 5)), (0, some 0, none), (2, some 2, some (-1))] := by
  have h1 : ‖(⟨-3, 4⟩ : ℂ)‖ = 5 := by
    rw [Complex.norm_eq_sqrt_sq_add_sq]
    rw [show ((-3 : ℝ) ^ 2 + 4 ^ 2) = 5 ^ 2 by norm_num]
    exact Real.sqrt_sq (by norm_num)
  have h2 : ‖(⟨-3, -4⟩ : ℂ)‖ = 5 := by
    rw [Complex.norm_eq_sqrt_sq_add_sq]
    rw [show ((-3 : ℝ) ^ 2 + (-4) ^ 2) = 5 ^ 2 by norm_num]
    exact Real.sqrt_sq (by norm_num)
  have h3 : (⟨-3, 4⟩ : ℂ) ≠ 0 := fun h => by simpa using congrArg Complex.re h
  have h4 : (⟨-3, -4⟩ : ℂ) ≠ 0 := fun h => by simpa using congrArg Complex.re h
  simp [poleProperties, poleRowCont, poleNums, h1, h2, h3, h4]

/-- A discrete pole at `1/2`, sampled with period 1: frequency `log 2`, damping ratio 1. -/
example : poleProperties [1 / 2] (some 1) = some [(1 / 2, some (Real.log 2), some 1)] := by
  have h : Complex.log (1 / 2) = ((-Real.log 2 : ℝ) : ℂ) := by
    rw [show (1 / 2 : ℂ) = ((1 / 2 : ℝ) : ℂ) by push_cast; rfl, ← Complex.ofReal_log (by norm_num)]
    simp
  have hl : 0 < Real.log 2 := Real.log_pos (by norm_num)
  have h1 : (1 / 2 : ℂ) ≠ 1 := by norm_num
  have h2 : (1 / 2 : ℂ) ≠ 0 := by norm_num
  have h3 : ‖((-Real.log 2 : ℝ) : ℂ) / ((1 : ℝ) : ℂ)‖ = Real.log 2 := by
    rw [← Complex.ofReal_div, Complex.norm_real, Real.norm_eq_abs, div_one, abs_neg, abs_of_pos hl]
  have h4 : (((-Real.log 2 : ℝ) : ℂ) / ((1 : ℝ) : ℂ)).re = -Real.log 2 := by
    rw [← Complex.ofReal_div, Complex.ofReal_re, div_one]
  simp only [poleProperties, poleRowDisc, poleNums, List.map_cons, List.map_nil, h, if_neg h1, if_neg h2, h3, h4]
  simp [hl.ne']

end Harold
