import Verif.Lemmas.FreqAuto
import Mathlib.Analysis.Complex.ExponentialBounds

/-!
# C74: the automatic frequency grid
-/

namespace Harold

open Classical Spec

variable {N : GridNum} {dt : Option ℝ} {samples : Option ℕ} {poles : List ℂ} {zeros : List (Option ℂ)} {w : List ℝ}

theorem mem_grid (h : autoFreqGrid N dt samples poles zeros = .ok (some w)) {x : ℝ} (hx : x ∈ w) : x ∈ rawGrid N dt samples (poles ++ zeros.filterMap id) := by
  obtain ⟨-, h1⟩ := autoFreqGrid_ok h
  rw [modesGrid_ok h1] at hx
  exact List.mem_mergeSort.mp (gridCut_sublist.subset (gridDrop_sublist.subset hx))

/-- **C74**: the frequencies are positive and in ascending order. -/
theorem C74_order (h : autoFreqGrid N dt samples poles zeros = .ok (some w)) : (∀ x ∈ w, 0 < x) ∧ w.Pairwise (· ≤ ·) := by
  refine ⟨fun x hx => rawGrid_pos (mem_grid h hx), ?_⟩
  obtain ⟨-, h1⟩ := autoFreqGrid_ok h
  rw [modesGrid_ok h1]
  exact (sorted_sort _).sublist (gridDrop_sublist.trans gridCut_sublist)

/-- **C74**: for discrete models all frequencies are below the Nyquist frequency. -/
theorem C74_nyquist {d : ℝ} (hd : 0 < d) (h : autoFreqGrid N (some d) samples poles zeros = .ok (some w)) : ∀ x ∈ w, x < Real.pi / d := by
  intro x hx
  obtain ⟨-, h1⟩ := autoFreqGrid_ok h
  rw [modesGrid_ok h1] at hx
  have h2 := gridCut_le (sorted_sort _) (gridDrop_sublist.subset hx)
  have h3 : 0 < Real.pi / d := div_pos Real.pi_pos hd
  linarith

/-- **C74**: no frequency of the grid belongs to a pole or a zero of a channel. -/
theorem C74_no_pole (hN : SpacingOk N) (hdt : DtOk dt) (h : autoFreqGrid N dt samples poles zeros = .ok (some w)) :
    ∀ x ∈ w, evalPoint dt x ∉ poles ∧ some (evalPoint dt x) ∉ zeros := by
  intro x hx
  have hpos := (C74_order h).1 x hx
  have heps : 0 < N.eps := by rw [hN.one]; positivity
  have key : evalPoint dt x ∈ poles ++ zeros.filterMap id → False := by
    intro hp
    have hmode : (Complex.I * x : ℂ) ∈ gridModes N dt (poles ++ zeros.filterMap id) := by
      rw [mem_gridModes]
      cases dt with
      | none =>
        refine mem_pzDummy_of (mem_pzKeep.mpr ⟨hp, ?_, ?_⟩)
        · simpa using hpos.ne'
        · simpa using hpos.le
      | some d =>
        have hd := hdt d rfl
        have hny := C74_nyquist hd h x hx
        have hxd : x * d < Real.pi := (lt_div_iff₀ hd).mp hny
        have hxd0 : 0 < x * d := mul_pos hpos hd
        have e1 : evalPoint (some d) x = Complex.exp (((x * d : ℝ) : ℂ) * Complex.I) := by
          simp only [evalPoint, Option.elim_some]
          congr 1
          push_cast
          ring
        have him : (evalPoint (some d) x).im = Real.sin (x * d) := by rw [e1, Complex.exp_ofReal_mul_I_im]
        have hsin := Real.sin_pos_of_pos_of_lt_pi hxd0 hxd
        refine List.mem_map.mpr ⟨evalPoint (some d) x, mem_pzDummy_of (mem_pzKeep.mpr ⟨hp, fun h0 => ?_, ?_⟩), ?_⟩
        · simp only [Option.isSome_some, if_true] at h0
          rw [h0, Complex.one_im] at him
          linarith
        · rw [him]; exact hsin.le
        · have hn : ‖evalPoint (some d) x‖ = 1 := by rw [e1, Complex.norm_exp_ofReal_mul_I]
          rw [if_pos (by rw [hn, hN.thousand]; norm_num), e1, Complex.log_exp]
          · have : (d : ℂ) ≠ 0 := by exact_mod_cast hd.ne'
            field_simp
            push_cast
            ring
          · simp only [Complex.mul_im, Complex.ofReal_re, Complex.I_im, mul_one, Complex.ofReal_im, Complex.I_re, mul_zero, add_zero]
            linarith [Real.pi_pos]
          · simp only [Complex.mul_im, Complex.ofReal_re, Complex.I_im, mul_one, Complex.ofReal_im, Complex.I_re, mul_zero, add_zero]
            linarith
    obtain ⟨-, h1⟩ := autoFreqGrid_ok h
    rw [modesGrid_ok h1] at hx
    refine (mem_gridDrop.mp hx).2 _ hmode ?_ ?_
    · have : dampFact (Complex.I * x) = 0 := by simp [dampFact]
      rw [this]
      exact Real.sqrt_pos.mpr heps
    · have : ‖(Complex.I * x : ℂ)‖ = x := by simp [abs_of_pos hpos]
      rw [this, sub_self, abs_zero]
      linarith
  refine ⟨fun hp => key (List.mem_append_left _ hp), fun hz => key (List.mem_append_right _ ?_)⟩
  exact List.mem_filterMap.mpr ⟨_, hz, rfl⟩

/-- **C74** for `State` models: the frequency response has a value at each frequency of the grid. -/
theorem C74_state {p m n : ℕ} {A : Matrix (Fin n) (Fin n) ℝ} {B : Matrix (Fin n) (Fin m) ℝ} {C : Matrix (Fin p) (Fin n) ℝ} {D : Matrix (Fin p) (Fin m) ℝ} {T : TzNum} {P : Numerics ℝ ℂ}
    (hN : SpacingOk N) (hP : EigExact P) (hdt : DtOk dt)
    (h : stateFreqGrid N T P ⟨Arr.of A, Arr.of B, Arr.of C, Arr.of D, dt, false⟩ samples = .ok (some w)) :
    ∀ x ∈ w, ∃ M, HasTF (⟨Arr.of A, Arr.of B, Arr.of C, Arr.of D, dt, false⟩ : StateM ℝ) p m (evalPoint dt x) M := by
  intro x hx
  unfold stateFreqGrid at h
  cases hz : channelZeros T ⟨Arr.of A, Arr.of B, Arr.of C, Arr.of D, dt, false⟩ with
  | error e => rw [hz] at h; cases h
  | ok z =>
    rw [hz] at h
    have h1 := (C74_no_pole hN hdt h x hx).1
    refine ⟨_, Or.inr ⟨rfl, n, A, B, C, D, rfl, rfl, rfl, rfl, ?_, rfl⟩⟩
    intro h0
    have h2 : Polynomial.aeval (evalPoint dt x) A.charpoly = 0 := by rw [aeval_charpoly]; exact h0
    have h3 : (A.charpoly.map (algebraMap ℝ ℂ)).eval (evalPoint dt x) = 0 := by rw [Polynomial.eval_map_algebraMap]; exact h2
    rw [hP A, eval_prod_sub] at h3
    obtain ⟨y, hy, hy2⟩ := List.mem_map.mp (List.prod_eq_zero_iff.mp h3)
    exact h1 (by rw [sub_eq_zero.mp hy2]; exact hy)

/-! ## Range -/

theorem logspace_start (a b : ℝ) {n : ℕ} (hn : 0 < n) : (10 : ℝ) ^ a ∈ logspace a b n :=
  List.mem_map.mpr ⟨0, List.mem_range.mpr hn, by simp⟩

theorem logspace_stop (a b : ℝ) {n : ℕ} (hn : 1 < n) : (10 : ℝ) ^ b ∈ logspace a b n := by
  refine List.mem_map.mpr ⟨n - 1, List.mem_range.mpr (by omega), ?_⟩
  have : ((n - 1 : ℕ) : ℝ) ≠ 0 := by
    have : n - 1 ≠ 0 := by omega
    exact_mod_cast this
  congr 1
  field_simp
  ring

theorem mode_of_mem (hc : ConjPairs (poles ++ zeros.filterMap id)) {z : ℂ} (hz : z ∈ poles ++ zeros.filterMap id) (h0 : z ≠ (if dt.isSome then 1 else 0)) :
    ∃ y ∈ pzDummy dt (pzKeep dt (poles ++ zeros.filterMap id)), ‖y‖ = ‖z‖ ∧ y.re = z.re ∧ (y = z ∨ z.im < 0 ∧ y = (starRingEnd ℂ) z) := by
  by_cases him : 0 ≤ z.im
  · exact ⟨z, mem_pzDummy_of (mem_pzKeep.mpr ⟨hz, h0, him⟩), rfl, rfl, .inl rfl⟩
  · refine ⟨_, mem_pzDummy_of (mem_pzKeep.mpr ⟨hc z hz, fun h => h0 ?_, ?_⟩), Complex.norm_conj z, Complex.conj_re z, .inr ⟨not_le.mp him, rfl⟩⟩
    · have := congrArg (starRingEnd ℂ) h
      rw [Complex.conj_conj] at this
      rw [this]
      split_ifs <;> simp
    · rw [Complex.conj_im]
      linarith [not_le.mp him]

theorem mem_pzDummy {z : ℂ} {l : List ℂ} (hz : z ∈ pzDummy dt (pzKeep dt l)) :
    (z ∈ l ∧ z ≠ (if dt.isSome then 1 else 0)) ∨ ((dt.isSome ∧ (z = 0.01 ∨ z = -0.8)) ∨ (dt = none ∧ (z = 0.001 ∨ z = 100))) := by
  unfold pzDummy at hz
  split_ifs at hz with h1 h2
  · right; left
    exact ⟨h2, by simpa using hz⟩
  · right; right
    refine ⟨by simpa using h2, by simpa using hz⟩
  · left
    have := mem_pzKeep.mp hz
    exact ⟨this.1, this.2.1⟩

theorem rpow_floor_sub {x : ℝ} (hx : 0 < x) : (10 : ℝ) ^ ((⌊Real.logb 10 x⌋ : ℝ) - 1) ≤ x / 10 := by
  rw [Real.rpow_sub (by norm_num), Real.rpow_one]
  refine div_le_div_of_nonneg_right ?_ (by norm_num)
  calc (10 : ℝ) ^ (⌊Real.logb 10 x⌋ : ℝ) ≤ 10 ^ Real.logb 10 x := Real.rpow_le_rpow_of_exponent_le (by norm_num) (Int.floor_le _)
    _ = x := Real.rpow_logb (by norm_num) (by norm_num) hx

theorem le_rpow_ceil_add {x : ℝ} (hx : 0 < x) : 10 * x ≤ (10 : ℝ) ^ ((⌈Real.logb 10 x⌉ : ℝ) + 1) := by
  rw [Real.rpow_add (by norm_num), Real.rpow_one, mul_comm]
  refine mul_le_mul_of_nonneg_right ?_ (by norm_num)
  calc x = 10 ^ Real.logb 10 x := (Real.rpow_logb (by norm_num) (by norm_num) hx).symm
    _ ≤ (10 : ℝ) ^ (⌈Real.logb 10 x⌉ : ℝ) := Real.rpow_le_rpow_of_exponent_le (by norm_num) (Int.le_ceil _)

/-- The frequencies of the modes of a continuous model, dummies included. -/
theorem cont_mode_bounds (hN : SpacingOk N) {l : List ℂ} (hr : ∀ z ∈ l, z ≠ 0 → (10 : ℝ)⁻¹ ^ 13 ≤ ‖z‖ ∧ ‖z‖ ≤ 10 ^ 16) {y : ℂ} (hy : y ∈ gridModes N none l) :
    (10 : ℝ)⁻¹ ^ 13 ≤ ‖y‖ ∧ ‖y‖ ≤ 10 ^ 16 := by
  rw [mem_gridModes] at hy
  rcases mem_pzDummy hy with ⟨h1, h2⟩ | ⟨h1, -⟩ | ⟨-, rfl | rfl⟩
  · exact hr y h1 h2
  · cases h1
  · norm_num
  · norm_num

theorem cont_bounds (hN : SpacingOk N) {l : List ℂ} (hr : ∀ z ∈ l, z ≠ 0 → (10 : ℝ)⁻¹ ^ 13 ≤ ‖z‖ ∧ ‖z‖ ≤ 10 ^ 16) :
    gridBounds N none ‖(gridModes N none l).headD 0‖ ‖(gridModes N none l).getLastD 0‖ =
      ((⌈Real.logb 10 ‖(gridModes N none l).getLastD 0‖⌉ : ℝ) + 1, (⌊Real.logb 10 ‖(gridModes N none l).headD 0‖⌋ : ℝ) - 1) := by
  have h1 := (cont_mode_bounds hN hr headD_mem).1
  have h2 := (cont_mode_bounds hN hr getLastD_mem).2
  unfold gridBounds
  simp only
  rw [min_eq_left h2, max_eq_left]
  rw [hN.hundred]
  refine le_trans ?_ h1
  norm_num

theorem cont_samples (hN : SpacingOk N) {l : List ℂ} (hr : ∀ z ∈ l, z ≠ 0 → (10 : ℝ)⁻¹ ^ 13 ≤ ‖z‖ ∧ ‖z‖ ≤ 10 ^ 16) (hs : ∀ k, samples = some k → 2 ≤ k) :
    2 ≤ gridSamples samples ((⌈Real.logb 10 ‖(gridModes N none l).getLastD 0‖⌉ : ℝ) + 1) ((⌊Real.logb 10 ‖(gridModes N none l).headD 0‖⌋ : ℝ) - 1) := by
  unfold gridSamples
  cases samples with
  | some k => simpa using hs k rfl
  | none =>
    simp only
    have h1 : ‖(gridModes N none l).headD 0‖ ≤ ‖(gridModes N none l).getLastD 0‖ := headD_le getLastD_mem
    have h0 : 0 < ‖(gridModes N none l).headD 0‖ := lt_of_lt_of_le (by positivity) (cont_mode_bounds hN hr headD_mem).1
    have h2 : Real.logb 10 ‖(gridModes N none l).headD 0‖ ≤ Real.logb 10 ‖(gridModes N none l).getLastD 0‖ := Real.logb_le_logb_of_le (by norm_num) h0 h1
    have h3 := Int.floor_le (Real.logb 10 ‖(gridModes N none l).headD 0‖)
    have h4 := Int.le_ceil (Real.logb 10 ‖(gridModes N none l).getLastD 0‖)
    have h5 : (1 : ℝ) < ((⌈Real.logb 10 ‖(gridModes N none l).getLastD 0‖⌉ : ℝ) + 1) - ((⌊Real.logb 10 ‖(gridModes N none l).headD 0‖⌋ : ℝ) - 1) := by linarith
    have h6 : (1 : ℤ) < ⌈((⌈Real.logb 10 ‖(gridModes N none l).getLastD 0‖⌉ : ℝ) + 1) - ((⌊Real.logb 10 ‖(gridModes N none l).headD 0‖⌋ : ℝ) - 1)⌉ := by
      rw [Int.lt_ceil]
      exact_mod_cast h5
    linarith

theorem autoFreqGrid_eq (hz : none ∉ zeros) (h : modesGrid N dt samples (poles ++ zeros.filterMap id) = .ok w) :
    autoFreqGrid N dt samples poles zeros = .ok (some w) := by
  unfold autoFreqGrid
  rw [if_neg hz, h]
  rfl

/-- **C74**, range of the grid for continuous models without zeros at infinity: if the frequencies of the poles and zeros (apart from zero) are between `10⁻¹³` and `10¹⁶` and two samples or more
are requested, the grid is computed and reaches one decade beyond each pole and each zero. (Outside of these bounds the code may fail, see below.) Missing: frequencies outside of these bounds (`C74_fast_violated`, `C74_slow_violated`). -/
theorem C74_span_partial (hN : SpacingOk N) (hz : none ∉ zeros) (hc : ConjPairs (poles ++ zeros.filterMap id))
    (hr : ∀ z ∈ poles ++ zeros.filterMap id, z ≠ 0 → (10 : ℝ)⁻¹ ^ 13 ≤ ‖z‖ ∧ ‖z‖ ≤ 10 ^ 16) (hs : ∀ k, samples = some k → 2 ≤ k) :
    ∃ w, autoFreqGrid N none samples poles zeros = .ok (some w) ∧ ∀ z ∈ poles ++ zeros.filterMap id, z ≠ 0 → Spans w ‖z‖ := by
  have hb := cont_bounds hN hr
  have hn := cont_samples hN hr hs
  refine ⟨_, autoFreqGrid_eq hz (w := gridDrop N (gridModes N none (poles ++ zeros.filterMap id))
    (gridCut none ((rawGrid N none samples (poles ++ zeros.filterMap id)).mergeSort fun x y => decide (x ≤ y)))) ?_, fun z hz0 hzn => ?_⟩
  · unfold modesGrid
    simp only
    rw [hb, if_neg (not_lt.mpr (le_trans (by norm_num) hn))]
    unfold rawGrid
    simp only
    rw [hb]
  · obtain ⟨y, hy, hy1, -, -⟩ := mode_of_mem (dt := none) hc hz0 (by simpa using hzn)
    have hym : y ∈ gridModes N none (poles ++ zeros.filterMap id) := mem_gridModes.mpr hy
    rw [← hy1]
    have hraw : ∀ x, x ∈ logspace ((⌊Real.logb 10 ‖(gridModes N none (poles ++ zeros.filterMap id)).headD 0‖⌋ : ℝ) - 1)
        ((⌈Real.logb 10 ‖(gridModes N none (poles ++ zeros.filterMap id)).getLastD 0‖⌉ : ℝ) + 1)
        (gridSamples samples ((⌈Real.logb 10 ‖(gridModes N none (poles ++ zeros.filterMap id)).getLastD 0‖⌉ : ℝ) + 1) ((⌊Real.logb 10 ‖(gridModes N none (poles ++ zeros.filterMap id)).headD 0‖⌋ : ℝ) - 1)).toNat →
        x ∈ gridCut none ((rawGrid N none samples (poles ++ zeros.filterMap id)).mergeSort fun x y => decide (x ≤ y)) := by
      intro x hx
      refine List.mem_mergeSort.mpr ?_
      unfold rawGrid
      simp only
      rw [hb]
      exact List.mem_append_left _ hx
    have heps : 100 * N.eps ≤ 0.9 * (10 : ℝ)⁻¹ ^ 13 := by rw [hN.one]; norm_num
    have hlo : 0 < ‖(gridModes N none (poles ++ zeros.filterMap id)).headD 0‖ := lt_of_lt_of_le (by positivity) (cont_mode_bounds hN hr headD_mem).1
    have hhi : 0 < ‖(gridModes N none (poles ++ zeros.filterMap id)).getLastD 0‖ := lt_of_lt_of_le (by positivity) (cont_mode_bounds hN hr getLastD_mem).1
    constructor
    · have h1 : ∀ y ∈ gridModes N none (poles ++ zeros.filterMap id), (10 : ℝ) ^ ((⌊Real.logb 10 ‖(gridModes N none (poles ++ zeros.filterMap id)).headD 0‖⌋ : ℝ) - 1) ≤ ‖y‖ / 10 :=
        fun y hy => (rpow_floor_sub hlo).trans (div_le_div_of_nonneg_right (headD_le hy) (by norm_num))
      refine ⟨_, mem_gridDrop.mpr ⟨hraw _ (logspace_start _ _ (by omega)), fun u hu _ habs => ?_⟩, h1 y hym⟩
      have h2 := h1 u hu
      have h3 := (cont_mode_bounds hN hr hu).1
      rw [abs_lt] at habs
      linarith [habs.1]
    · have h1 : ∀ y ∈ gridModes N none (poles ++ zeros.filterMap id), 10 * ‖y‖ ≤ (10 : ℝ) ^ ((⌈Real.logb 10 ‖(gridModes N none (poles ++ zeros.filterMap id)).getLastD 0‖⌉ : ℝ) + 1) :=
        fun y hy => (mul_le_mul_of_nonneg_left (le_getLastD hy) (by norm_num)).trans (le_rpow_ceil_add hhi)
      refine ⟨_, mem_gridDrop.mpr ⟨hraw _ (logspace_stop _ _ (by omega)), fun u hu _ habs => ?_⟩, h1 y hym⟩
      have h2 := h1 u hu
      have h3 := (cont_mode_bounds hN hr hu).1
      rw [abs_lt] at habs
      linarith [habs.2]

/-! ## Resonances -/

theorem dampFact_lt {z : ℂ} (hz : 0 < ‖z‖) {c : ℝ} : dampFact z < c ↔ |z.re| < c * ‖z‖ := by
  unfold dampFact
  rw [div_lt_iff₀ hz]

theorem peakFreq_eq {z : ℂ} (hz : 0 < ‖z‖) : peakFreq z = peak z := by
  unfold peakFreq peak
  have h : dampFact z < 1 / 2 ↔ 2 * |z.re| < ‖z‖ := by
    rw [dampFact_lt hz]
    constructor <;> intro h <;> linarith
  by_cases h1 : 2 * |z.re| < ‖z‖
  · rw [if_pos h1, if_pos (h.mpr h1)]
    have : ‖z‖ ^ 2 - 2 * z.re ^ 2 = ‖z‖ ^ 2 * (1 - 2 * dampFact z ^ 2) := by
      unfold dampFact
      rw [div_pow, sq_abs]
      field_simp
    rw [this, Real.sqrt_mul (sq_nonneg _), Real.sqrt_sq hz.le]
  · rw [if_neg h1, if_neg (fun h2 => h1 (h.mp h2))]

theorem peak_pos {z : ℂ} (hz : 0 < ‖z‖) : 0 < peak z := by
  unfold peak
  split_ifs with h
  · refine Real.sqrt_pos.mpr ?_
    have h1 : (2 * |z.re|) ^ 2 < ‖z‖ ^ 2 := by
      refine pow_lt_pow_left₀ h ?_ (by norm_num)
      positivity
    rw [mul_pow, sq_abs] at h1
    nlinarith [sq_nonneg z.re]
  · exact hz

/-- The undamped modes of a continuous model are among its poles and zeros. -/
theorem undamped_mem (hN : SpacingOk N) {l : List ℂ} {y : ℂ} (hy : y ∈ gridModes N none l) (h : dampFact y < √N.eps) : y ∈ l ∧ Undamped N.eps y := by
  have hpos : 0 < ‖y‖ := gridModes_pos (fun t h => by cases h) (by rw [hN.thousand]; positivity) hy
  have hu : Undamped N.eps y := (dampFact_lt hpos).mp h
  refine ⟨?_, hu⟩
  have hs : √N.eps ≤ 1 := by
    rw [hN.one]
    exact Real.sqrt_le_one.mpr (by norm_num)
  have hreal : ∀ x : ℝ, ¬ Undamped N.eps (x : ℂ) := by
    intro x hx
    unfold Undamped at hx
    rw [Complex.norm_real, Complex.ofReal_re, Real.norm_eq_abs] at hx
    nlinarith [abs_nonneg x]
  rw [mem_gridModes] at hy
  rcases mem_pzDummy hy with ⟨h1, -⟩ | ⟨h1, -⟩ | ⟨-, rfl | rfl⟩
  · exact h1
  · cases h1
  · exact absurd hu (by have := hreal 0.001; push_cast at this; exact this)
  · exact absurd hu (by have := hreal 100; push_cast at this; exact this)

/-- **C74**, continuous models: for every pole and zero that is damped the frequency of the resonance peak is on the grid, unless it is within `100 eps` of the frequency of an undamped pole or zero. -/
theorem C74_peak (hN : SpacingOk N) (hc : ConjPairs (poles ++ zeros.filterMap id)) (h : autoFreqGrid N none samples poles zeros = .ok (some w))
    {z : ℂ} (hz : z ∈ poles ++ zeros.filterMap id) (h0 : z ≠ 0) (hd : ¬ Undamped N.eps z) :
    peak z ∈ w ∨ ∃ y ∈ poles ++ zeros.filterMap id, Undamped N.eps y ∧ |peak z - ‖y‖| < 100 * N.eps := by
  obtain ⟨-, h1⟩ := autoFreqGrid_ok h
  obtain ⟨y, hy, hy1, hy2, -⟩ := mode_of_mem (dt := none) hc hz (by simpa using h0)
  have hym : y ∈ gridModes N none (poles ++ zeros.filterMap id) := mem_gridModes.mpr hy
  have hpos : 0 < ‖y‖ := by rw [hy1]; exact norm_pos_iff.mpr h0
  have hpk : peak y = peak z := by unfold peak; rw [hy1, hy2]
  have hcen : gridCentre N y = peak z := by
    unfold gridCentre
    rw [if_neg, peakFreq_eq hpos, hpk]
    rintro ⟨-, h2⟩
    rw [dampFact_lt hpos, hy1, hy2] at h2
    exact hd h2
  by_contra hcon
  push Not at hcon
  refine hcon.1 ?_
  rw [modesGrid_ok h1]
  refine mem_gridDrop.mpr ⟨?_, fun u hu hd habs => ?_⟩
  · refine List.mem_mergeSort.mpr ?_
    unfold rawGrid
    refine List.mem_append_right _ (List.mem_append_left _ ?_)
    rw [← hcen]
    refine centre_mem hym ?_
    rw [hcen, ← hpk]
    exact peak_pos hpos
  · obtain ⟨h2, h3⟩ := undamped_mem hN hu hd
    exact not_lt.mpr (hcon.2 u h2 h3) habs

/-- **C74**, continuous models without undamped poles and zeros: the grid has at least the requested number of frequencies. Missing: models with undamped poles or zeros, discrete models
(see `C74_count_violated`). -/
theorem C74_count_partial {k : ℕ} (hN : SpacingOk N) (hu : ∀ y ∈ poles ++ zeros.filterMap id, ¬ Undamped N.eps y) (h : autoFreqGrid N none (some k) poles zeros = .ok (some w)) :
    k ≤ w.length := by
  obtain ⟨-, h1⟩ := autoFreqGrid_ok h
  rw [modesGrid_ok h1]
  have h2 : (gridModes N none (poles ++ zeros.filterMap id)).filter (fun z => decide (dampFact z < √N.eps)) = [] := by
    rw [List.filter_eq_nil_iff]
    intro y hy hd
    obtain ⟨h3, h4⟩ := undamped_mem hN hy (by simpa using hd)
    exact hu y h3 h4
  unfold gridDrop
  rw [h2]
  simp only [List.foldl_nil, gridCut, List.length_mergeSort]
  unfold rawGrid
  simp [logspace, gridSamples]

/-! ## Discrete models -/

theorem disc_bounds {d lo hi : ℝ} (hd : 0 < d) :
    (gridBounds N (some d) lo hi).1 ≤ Real.logb 10 (Real.pi / d) ∧ (gridBounds N (some d) lo hi).2 + 1 ≤ (gridBounds N (some d) lo hi).1 ∧
      (gridBounds N (some d) lo hi).2 ≤ (⌊Real.logb 10 (max lo (N.spacing 100))⌋ : ℝ) - 1 := by
  unfold gridBounds
  simp only
  split_ifs with h
  · refine ⟨min_le_right _ _, ?_, ?_⟩
    · linarith [Int.floor_le (min ((⌈Real.logb 10 (min hi (10 ^ 16))⌉ : ℝ) + 1) (Real.logb 10 (Real.pi / d)) - 2)]
    · linarith [Int.floor_le (min ((⌈Real.logb 10 (min hi (10 ^ 16))⌉ : ℝ) + 1) (Real.logb 10 (Real.pi / d)) - 2)]
  · exact ⟨min_le_right _ _, by linarith, le_refl _⟩

/-- **C74**: for discrete models without zeros at infinity the grid is always computed. -/
theorem C74_discrete {d : ℝ} (hd : 0 < d) (hz : none ∉ zeros) : ∃ w, autoFreqGrid N (some d) samples poles zeros = .ok (some w) := by
  refine ⟨gridDrop N (gridModes N (some d) (poles ++ zeros.filterMap id))
    (gridCut (some d) ((rawGrid N (some d) samples (poles ++ zeros.filterMap id)).mergeSort fun x y => decide (x ≤ y))), autoFreqGrid_eq hz ?_⟩
  unfold modesGrid
  simp only
  rw [if_neg]
  · rfl
  · unfold gridSamples
    obtain ⟨-, h2, -⟩ := disc_bounds (N := N) (lo := ‖(gridModes N (some d) (poles ++ zeros.filterMap id)).headD 0‖) (hi := ‖(gridModes N (some d) (poles ++ zeros.filterMap id)).getLastD 0‖) hd
    cases samples with
    | some k => simp
    | none =>
      simp only
      generalize gridBounds N (some d) ‖(gridModes N (some d) (poles ++ zeros.filterMap id)).headD 0‖ ‖(gridModes N (some d) (poles ++ zeros.filterMap id)).getLastD 0‖ = b at h2
      have h3 : (0 : ℤ) ≤ ⌈b.1 - b.2⌉ := Int.ceil_nonneg (by linarith)
      omega

/-- **C74**, lower end of the grid of discrete models without zeros at infinity: it reaches one decade below the frequency of each pole and zero (apart from `1` and from numbers next to zero), if
these frequencies are at least `10⁻¹³` and a sample or more is requested. Missing: slower poles and zeros (`C74_slow_violated`). -/
theorem C74_discrete_span_partial (hN : SpacingOk N) {d : ℝ} (hd : 0 < d) (hd1 : d ≤ 10 ^ 13) (hc : ConjPairs (poles ++ zeros.filterMap id))
    (hr : ∀ z ∈ poles ++ zeros.filterMap id, z ≠ 1 → (10 : ℝ)⁻¹ ^ 13 ≤ ‖Complex.log z‖ / d) (hs : ∀ k, samples = some k → 1 ≤ k)
    (h : autoFreqGrid N (some d) samples poles zeros = .ok (some w)) {z : ℂ} (hz : z ∈ poles ++ zeros.filterMap id) (h1 : z ≠ 1) (h2 : 2⁻¹ ^ 43 < ‖z‖) :
    ∃ x ∈ w, x ≤ ‖Complex.log z‖ / d / 10 := by
  obtain ⟨-, h3⟩ := autoFreqGrid_ok h
  obtain ⟨y, hy, hy1, -, hy3⟩ := mode_of_mem (dt := some d) hc hz (by simpa using h1)
  have hnd : ‖(d : ℂ)‖ = d := by rw [Complex.norm_real, Real.norm_eq_abs, abs_of_pos hd]
  have hlog : ‖Complex.log y / d‖ = ‖Complex.log z‖ / d := by
    rw [norm_div, hnd]
    rcases hy3 with rfl | ⟨him, rfl⟩
    · rfl
    · rw [Complex.log_conj _ (fun h => by rw [Complex.arg_eq_pi_iff] at h; linarith [h.2]), Complex.norm_conj]
  have hym : Complex.log y / d ∈ gridModes N (some d) (poles ++ zeros.filterMap id) := by
    refine mem_gridModes.mpr (List.mem_map.mpr ⟨y, hy, ?_⟩)
    rw [if_pos (by rw [hN.thousand, hy1]; exact h2)]
  have hkeep : pzKeep (some d) (poles ++ zeros.filterMap id) ≠ [] := by
    intro hnil
    rcases hy3 with rfl | ⟨him, rfl⟩
    · by_cases hi : 0 ≤ y.im
      · have : y ∈ pzKeep (some d) (poles ++ zeros.filterMap id) := mem_pzKeep.mpr ⟨hz, by simpa using h1, hi⟩
        rw [hnil] at this; cases this
      · have : (starRingEnd ℂ) y ∈ pzKeep (some d) (poles ++ zeros.filterMap id) := mem_pzKeep.mpr ⟨hc y hz, fun h => h1 (by
          have := congrArg (starRingEnd ℂ) h
          rw [Complex.conj_conj] at this
          simpa using this), by rw [Complex.conj_im]; linarith [not_le.mp hi]⟩
        rw [hnil] at this; cases this
    · have : (starRingEnd ℂ) z ∈ pzKeep (some d) (poles ++ zeros.filterMap id) := mem_pzKeep.mpr ⟨hc z hz, fun h => h1 (by
          have := congrArg (starRingEnd ℂ) h
          rw [Complex.conj_conj] at this
          simpa using this), by rw [Complex.conj_im]; linarith⟩
      rw [hnil] at this; cases this
  have hfreq : ∀ u ∈ gridModes N (some d) (poles ++ zeros.filterMap id), (10 : ℝ)⁻¹ ^ 13 ≤ ‖u‖ := by
    intro u hu
    obtain ⟨v, hv, rfl⟩ := List.mem_map.mp (mem_gridModes.mp hu)
    unfold pzDummy at hv
    rw [if_neg hkeep] at hv
    have hv := mem_pzKeep.mp hv
    split_ifs
    · rw [norm_div, hnd]
      exact hr v hv.1 (by simpa using hv.2.1)
    · rw [Complex.norm_real, Real.norm_eq_abs, abs_of_pos (div_pos Real.pi_pos hd), le_div_iff₀ hd]
      have := Real.two_le_pi
      calc (10 : ℝ)⁻¹ ^ 13 * d ≤ (10 : ℝ)⁻¹ ^ 13 * 10 ^ 13 := mul_le_mul_of_nonneg_left hd1 (by positivity)
        _ ≤ Real.pi := by norm_num; linarith
  have hlo : (10 : ℝ)⁻¹ ^ 13 ≤ ‖(gridModes N (some d) (poles ++ zeros.filterMap id)).headD 0‖ := hfreq _ headD_mem
  obtain ⟨hb1, hb2, hb3⟩ := disc_bounds (N := N) (lo := ‖(gridModes N (some d) (poles ++ zeros.filterMap id)).headD 0‖) (hi := ‖(gridModes N (some d) (poles ++ zeros.filterMap id)).getLastD 0‖) hd
  rw [max_eq_left (by rw [hN.hundred]; refine le_trans ?_ hlo; norm_num)] at hb3
  rw [modesGrid_ok h3]
  have hraw : rawGrid N (some d) samples (poles ++ zeros.filterMap id) =
      logspace (gridBounds N (some d) ‖(gridModes N (some d) (poles ++ zeros.filterMap id)).headD 0‖ ‖(gridModes N (some d) (poles ++ zeros.filterMap id)).getLastD 0‖).2
        (gridBounds N (some d) ‖(gridModes N (some d) (poles ++ zeros.filterMap id)).headD 0‖ ‖(gridModes N (some d) (poles ++ zeros.filterMap id)).getLastD 0‖).1
        (gridSamples samples (gridBounds N (some d) ‖(gridModes N (some d) (poles ++ zeros.filterMap id)).headD 0‖ ‖(gridModes N (some d) (poles ++ zeros.filterMap id)).getLastD 0‖).1
          (gridBounds N (some d) ‖(gridModes N (some d) (poles ++ zeros.filterMap id)).headD 0‖ ‖(gridModes N (some d) (poles ++ zeros.filterMap id)).getLastD 0‖).2).toNat ++
        (gridExtra N (gridModes N (some d) (poles ++ zeros.filterMap id)) ++ gridNyquist (some d)
          (gridBounds N (some d) ‖(gridModes N (some d) (poles ++ zeros.filterMap id)).headD 0‖ ‖(gridModes N (some d) (poles ++ zeros.filterMap id)).getLastD 0‖).1) := rfl
  generalize gridBounds N (some d) ‖(gridModes N (some d) (poles ++ zeros.filterMap id)).headD 0‖ ‖(gridModes N (some d) (poles ++ zeros.filterMap id)).getLastD 0‖ = b at hb1 hb2 hb3 hraw
  have hn : 0 < (gridSamples samples b.1 b.2).toNat := by
    unfold gridSamples
    cases samples with
    | some k => simpa using Nat.pos_of_ne_zero (by have := hs k rfl; omega)
    | none =>
      simp only
      have : (0 : ℤ) < ⌈b.1 - b.2⌉ := Int.ceil_pos.mpr (by linarith)
      omega
  have hle : ∀ u ∈ gridModes N (some d) (poles ++ zeros.filterMap id), (10 : ℝ) ^ b.2 ≤ ‖u‖ / 10 := fun u hu =>
    (Real.rpow_le_rpow_of_exponent_le (by norm_num) hb3).trans ((rpow_floor_sub (lt_of_lt_of_le (by positivity) hlo)).trans (div_le_div_of_nonneg_right (headD_le hu) (by norm_num)))
  refine ⟨(10 : ℝ) ^ b.2, mem_gridDrop.mpr ⟨?_, fun u hu _ habs => ?_⟩, by rw [← hlog]; exact hle _ hym⟩
  · have hmem : (10 : ℝ) ^ b.2 ∈ (rawGrid N (some d) samples (poles ++ zeros.filterMap id)).mergeSort fun x y => decide (x ≤ y) := by
      rw [List.mem_mergeSort, hraw]
      exact List.mem_append_left _ (logspace_start _ _ hn)
    unfold gridCut
    simp only
    split_ifs
    · refine List.mem_filter.mpr ⟨hmem, ?_⟩
      have hp : 0 < Real.pi / d := div_pos Real.pi_pos hd
      have : (10 : ℝ) ^ b.2 ≤ Real.pi / d / 10 := by
        calc (10 : ℝ) ^ b.2 ≤ 10 ^ (Real.logb 10 (Real.pi / d) - 1) := Real.rpow_le_rpow_of_exponent_le (by norm_num) (by linarith)
          _ = Real.pi / d / 10 := by rw [Real.rpow_sub (by norm_num), Real.rpow_one, Real.rpow_logb (by norm_num) (by norm_num) hp]
      rw [decide_eq_true_eq]
      linarith
    · exact hmem
  · have h4 := hle u hu
    have h5 := hfreq u hu
    have heps : 100 * N.eps ≤ 0.9 * (10 : ℝ)⁻¹ ^ 13 := by rw [hN.one]; norm_num
    rw [abs_lt] at habs
    linarith [habs.1]

/-! ## Violations -/

theorem getLastD_one (z : ℂ) : [z].getLastD 0 = z := rfl

theorem gridModes_single (z : ℂ) (h0 : z ≠ 0) (him : 0 ≤ z.im) : gridModes N none [z] = [z] := by
  have : pzKeep none [z] = [z] := by simp [pzKeep, h0, him]
  unfold gridModes
  rw [this]
  simp [pzDummy, pzMap]

/-- The code violates **C74** for fast models: for a model with the only pole `-10²⁰` and no zeros `ValueError` is raised. -/
theorem C74_fast_violated (N : GridNum) (hN : SpacingOk N) : autoFreqGrid N none none [-(10 ^ 20)] [] = .error .value := by
  unfold autoFreqGrid modesGrid
  simp only [List.filterMap_nil, List.append_nil, List.not_mem_nil, if_false]
  rw [gridModes_single _ (by norm_num) (by simp [← Complex.ofReal_ofNat, ← Complex.ofReal_pow])]
  have e : ‖(-(10 ^ 20) : ℂ)‖ = 10 ^ 20 := by rw [norm_neg, norm_pow]; norm_num
  have hud : Real.logb 10 (10 ^ 16) = 16 := by rw [Real.logb_pow, Real.logb_self_eq_one (by norm_num)]; norm_num
  have hld : Real.logb 10 (10 ^ 20) = 20 := by rw [Real.logb_pow, Real.logb_self_eq_one (by norm_num)]; norm_num
  have hb : gridBounds N none (10 ^ 20) (10 ^ 20) = (17, 19) := by
    unfold gridBounds
    simp only
    rw [min_eq_right (by norm_num), max_eq_left (by rw [hN.hundred]; norm_num), hud, hld]
    have h1 : ⌈(16 : ℝ)⌉ = 16 := by exact_mod_cast Int.ceil_intCast (R := ℝ) 16
    have h2 : ⌊(20 : ℝ)⌋ = 20 := by exact_mod_cast Int.floor_intCast (R := ℝ) 20
    rw [h1, h2]
    norm_num
  simp only [List.headD_cons, getLastD_one, e, hb, gridSamples]
  have h3 : ⌈(17 : ℝ) - 19⌉ = -2 := by
    have : ((17 : ℝ) - 19) = ((-2 : ℤ) : ℝ) := by norm_num
    rw [this, Int.ceil_intCast]
  rw [h3]
  rfl

/-- The code violates **C74** for slow models: for a model with the only pole `-10⁻²⁰` and no zeros `ValueError` is raised. -/
theorem C74_slow_violated (N : GridNum) (hN : SpacingOk N) : autoFreqGrid N none none [-((10 : ℂ) ^ 20)⁻¹] [] = .error .value := by
  unfold autoFreqGrid modesGrid
  simp only [List.filterMap_nil, List.append_nil, List.not_mem_nil, if_false]
  rw [gridModes_single _ (by norm_num) (by simp [← Complex.ofReal_ofNat, ← Complex.ofReal_pow, ← Complex.ofReal_inv])]
  have e : ‖(-((10 : ℂ) ^ 20)⁻¹ : ℂ)‖ = (10 ^ 20)⁻¹ := by rw [norm_neg, norm_inv, norm_pow]; norm_num
  have hud : Real.logb 10 ((10 ^ 20)⁻¹) = -20 := by rw [Real.logb_inv, Real.logb_pow, Real.logb_self_eq_one (by norm_num)]; norm_num
  have hld : ⌊Real.logb 10 (2⁻¹ ^ 46)⌋ = -14 := by
    rw [Int.floor_eq_iff]
    constructor
    · rw [Real.le_logb_iff_rpow_le (by norm_num) (by positivity)]
      have : (10 : ℝ) ^ ((-14 : ℤ) : ℝ) = (10 ^ 14)⁻¹ := by rw [Real.rpow_intCast]; norm_num
      rw [this]
      norm_num
    · rw [Real.logb_lt_iff_lt_rpow (by norm_num) (by positivity)]
      have : (10 : ℝ) ^ (((-14 : ℤ) : ℝ) + 1) = (10 ^ 13)⁻¹ := by
        have : (((-14 : ℤ) : ℝ) + 1) = ((-13 : ℤ) : ℝ) := by norm_num
        rw [this, Real.rpow_intCast]; norm_num
      rw [this]
      norm_num
  have hb : gridBounds N none ((10 ^ 20)⁻¹) ((10 ^ 20)⁻¹) = (-19, -15) := by
    unfold gridBounds
    simp only
    rw [min_eq_left (by norm_num), max_eq_right (by rw [hN.hundred]; norm_num), hN.hundred, hud, hld]
    have h1 : ⌈(-20 : ℝ)⌉ = -20 := by exact_mod_cast Int.ceil_intCast (R := ℝ) (-20)
    rw [h1]
    norm_num
  simp only [List.headD_cons, getLastD_one, e, hb, gridSamples]
  have h3 : ⌈(-19 : ℝ) - -15⌉ = -4 := by
    have : ((-19 : ℝ) - -15) = ((-4 : ℤ) : ℝ) := by norm_num
    rw [this, Int.ceil_intCast]
  rw [h3]
  rfl

theorem logspace_filter (n m : ℕ) (h : ∀ j < m, (0.995 : ℝ) < 10 ^ (-1 + ((n + j : ℕ) : ℝ) * ((0 - -1) / ((n + m - 1 : ℕ) : ℝ)))) :
    ((logspace (-1) 0 (n + m)).filter fun x => decide (x ≤ 0.995)).length ≤ n := by
  unfold logspace
  rw [List.range_add, List.map_append, List.filter_append, List.length_append]
  have h7 : (List.map (fun k : ℕ => (10 : ℝ) ^ (-1 + (k : ℝ) * ((0 - -1) / ((n + m - 1 : ℕ) : ℝ)))) (List.map (fun x => n + x) (List.range m))).filter (fun x => decide (x ≤ 0.995)) = [] := by
    rw [List.filter_eq_nil_iff]
    intro x hx
    obtain ⟨k, hk, rfl⟩ := List.mem_map.mp hx
    obtain ⟨j, hj, rfl⟩ := List.mem_map.mp hk
    rw [decide_eq_true_eq, not_le]
    exact h j (List.mem_range.mp hj)
  rw [h7, List.length_nil, add_zero]
  exact (List.length_filter_le _ _).trans (by rw [List.length_map, List.length_range])

theorem disc_modes (hN : SpacingOk N) : gridModes N (some Real.pi) [Complex.exp (-Real.pi)] = [-1] := by
  have hre : Complex.exp (-Real.pi) = ((Real.exp (-Real.pi) : ℝ) : ℂ) := by push_cast; rfl
  have h1 : Complex.exp (-Real.pi) ≠ 1 := by
    rw [hre]
    intro h
    have h2 : Real.exp (-Real.pi) = 1 := by exact_mod_cast h
    rw [Real.exp_eq_one_iff] at h2
    linarith [Real.pi_pos]
  have h2 : ¬ (Complex.exp (-Real.pi)).im < 0 := by rw [hre, Complex.ofReal_im]; exact lt_irrefl _
  have : pzKeep (some Real.pi) [Complex.exp (-Real.pi)] = [Complex.exp (-Real.pi)] := by simp [pzKeep, h1, not_lt.mp h2]
  unfold gridModes
  rw [this]
  have h3 : N.spacing 1000 < ‖Complex.exp (-Real.pi)‖ := by
    rw [hN.thousand, hre, Complex.norm_real, Real.norm_eq_abs, abs_of_pos (Real.exp_pos _)]
    have h4 : Real.exp (-4) ≤ Real.exp (-Real.pi) := Real.exp_le_exp.mpr (by linarith [Real.pi_le_four])
    have h5 : Real.exp (-4) = (Real.exp 1)⁻¹ ^ 4 := by
      rw [← Real.exp_neg, ← Real.exp_nat_mul]
      norm_num
    have h6 : (3 : ℝ)⁻¹ ≤ (Real.exp 1)⁻¹ := inv_anti₀ (Real.exp_pos _) (by linarith [Real.exp_one_lt_d9])
    have h7 : (3 : ℝ)⁻¹ ^ 4 ≤ (Real.exp 1)⁻¹ ^ 4 := pow_le_pow_left₀ (by positivity) h6 4
    rw [← h5] at h7
    refine lt_of_lt_of_le ?_ (h7.trans h4)
    norm_num
  have h4 : Complex.log (Complex.exp (-Real.pi)) / Real.pi = -1 := by
    rw [Complex.log_exp]
    · have : (Real.pi : ℂ) ≠ 0 := by exact_mod_cast Real.pi_ne_zero
      field_simp
    · simp [Real.pi_pos]
    · simp [Real.pi_pos.le]
  simp [pzDummy, pzMap, h3, h4]

/-- The code violates **C74** for discrete models: for a model with sampling period `π` and the only pole `e^{-π}` (that of `1/(s+1)`) less than the 20000 samples
requested are returned. -/
theorem C74_count_violated (N : GridNum) (hN : SpacingOk N) : ∃ w, autoFreqGrid N (some Real.pi) (some 20000) [Complex.exp (-Real.pi)] [] = .ok (some w) ∧ w.length < 20000 := by
  obtain ⟨w, hw⟩ := C74_discrete (N := N) (samples := some 20000) (poles := [Complex.exp (-Real.pi)]) (zeros := []) Real.pi_pos (by simp)
  refine ⟨w, hw, ?_⟩
  obtain ⟨-, h1⟩ := autoFreqGrid_ok hw
  simp only [List.filterMap_nil, List.append_nil] at h1
  have hpp : Real.pi / Real.pi = 1 := div_self Real.pi_ne_zero
  have hle : ∀ x ∈ w, x ≤ 0.995 := by
    intro x hx
    rw [modesGrid_ok h1] at hx
    have := gridCut_le (sorted_sort _) (gridDrop_sublist.subset hx)
    rw [hpp] at this
    linarith
  have hb : gridBounds N (some Real.pi) 1 1 = (0, -1) := by
    unfold gridBounds
    simp only
    rw [hpp, Real.logb_one, min_eq_left (by norm_num : (1 : ℝ) ≤ 10 ^ 16), max_eq_left (by rw [hN.hundred]; norm_num), Real.logb_one]
    norm_num
  have hraw : rawGrid N (some Real.pi) (some 20000) [Complex.exp (-Real.pi)] =
      logspace (-1) 0 20000 ++ (gridExtra N [-1] ++ gridNyquist (some Real.pi) 0) := by
    unfold rawGrid
    rw [disc_modes hN]
    simp only [List.headD_cons, getLastD_one, norm_neg, norm_one, hb, gridSamples, Int.toNat_natCast]
  have h2 : w.Sublist (((rawGrid N (some Real.pi) (some 20000) [Complex.exp (-Real.pi)]).mergeSort fun x y => decide (x ≤ y)).filter fun x => decide (x ≤ 0.995)) := by
    have h3 : w.Sublist ((rawGrid N (some Real.pi) (some 20000) [Complex.exp (-Real.pi)]).mergeSort fun x y => decide (x ≤ y)) := by
      rw [modesGrid_ok h1]
      exact gridDrop_sublist.trans gridCut_sublist
    have h4 := h3.filter fun x => decide (x ≤ 0.995)
    rwa [List.filter_eq_self.mpr fun x hx => by simpa using hle x hx] at h4
  have h3 := h2.length_le
  have h4 := (List.Perm.filter (fun x : ℝ => decide (x ≤ 0.995)) (List.mergeSort_perm (rawGrid N (some Real.pi) (some 20000) [Complex.exp (-Real.pi)]) fun x y => decide (x ≤ y))).length_eq
  rw [h4, hraw, List.filter_append, List.length_append] at h3
  have hd : dampFact (-1) = 1 := by simp [dampFact]
  have hex : (gridExtra N [-1]).length = 6 := by
    have hg : gridNum N (-1) = 3 := by
      unfold gridNum
      rw [hd, if_neg (by norm_num)]
    simp [gridExtra, pointsAround, pointsLeft, pointsRight, geomspace, hg]
  have hny : (gridNyquist (some Real.pi) 0).length = 15 := by simp [gridNyquist, logspace]
  have h5 : ((gridExtra N [-1] ++ gridNyquist (some Real.pi) 0).filter fun x => decide (x ≤ 0.995)).length ≤ 21 := by
    refine (List.length_filter_le _ _).trans ?_
    rw [List.length_append, hex, hny]
  have h6 : ((logspace (-1) 0 20000).filter fun x => decide (x ≤ 0.995)).length ≤ 19960 := by
    refine logspace_filter 19960 40 fun j _ => ?_
    have h8 : (0.995 : ℝ) < 10 ^ (-(1 / 500) : ℝ) := by
      by_contra hcon
      have h9 := pow_le_pow_left₀ (Real.rpow_nonneg (by norm_num) _) (not_lt.mp hcon) 500
      rw [← Real.rpow_natCast, ← Real.rpow_mul (by norm_num)] at h9
      rw [show (-(1 / 500) : ℝ) * ((500 : ℕ) : ℝ) = -1 by norm_num, Real.rpow_neg_one] at h9
      have h10 : (0.995 : ℝ) ^ 100 ≤ 0.61 := by norm_num
      have h11 : ((0.995 : ℝ) ^ 100) ^ 5 ≤ 0.61 ^ 5 := pow_le_pow_left₀ (by positivity) h10 5
      rw [← pow_mul] at h11
      have h12 := h9.trans h11
      norm_num at h12
    refine lt_of_lt_of_le h8 (Real.rpow_le_rpow_of_exponent_le (by norm_num) ?_)
    have : (0 : ℝ) ≤ j := Nat.cast_nonneg j
    have e : ((0 : ℝ) - -1) / ((19960 + 40 - 1 : ℕ) : ℝ) = 1 / 19999 := by norm_num
    rw [e]
    push_cast
    linarith
  omega

/-! ## Non-vacuity -/

/-- Double precision spacings satisfy the assumption. -/
theorem exists_spacingOk : ∃ N : GridNum, SpacingOk N :=
  ⟨⟨2⁻¹ ^ 52, fun x => if x = 100 then 2⁻¹ ^ 46 else 2⁻¹ ^ 43⟩, rfl, if_pos rfl, if_neg (by norm_num)⟩

/-- Non-vacuity of `C74_span_partial`, `C74_order`, `C74_no_pole`, `C74_peak` and `C74_count_partial`: the poles `-1 ± 2i` and the zero `-5`. -/
example : ∃ (N : GridNum) (w : List ℝ), SpacingOk N ∧ autoFreqGrid N none (some 50) [⟨-1, 2⟩, ⟨-1, -2⟩] [some (-5)] = .ok (some w) ∧ Spans w 5 ∧ √3 ∈ w ∧ 50 ≤ w.length := by
  obtain ⟨N, hN⟩ := exists_spacingOk
  have hn1 : ∀ b : ℝ, b = 2 ∨ b = -2 → ‖(⟨-1, b⟩ : ℂ)‖ = √5 := by
    intro b hb
    rw [Complex.norm_def, Complex.normSq_mk]
    congr 1
    rcases hb with rfl | rfl <;> norm_num
  have h5 : (2 : ℝ) ≤ √5 := Real.le_sqrt_of_sq_le (by norm_num)
  have h5' : √5 ≤ 3 := Real.sqrt_le_iff.mpr (by norm_num)
  have hc : ConjPairs ([⟨-1, 2⟩, ⟨-1, -2⟩] ++ ([some (-5)] : List (Option ℂ)).filterMap id) := by
    intro z hz
    simp only [List.filterMap_cons_some (id_eq _), List.filterMap_nil, List.cons_append, List.nil_append, List.mem_cons, List.not_mem_nil, or_false] at hz ⊢
    rcases hz with rfl | rfl | rfl
    · right; left; apply Complex.ext <;> simp
    · left; apply Complex.ext <;> simp
    · right; right; rw [map_neg, map_ofNat]
  have hmem : ∀ z ∈ [⟨-1, 2⟩, ⟨-1, -2⟩] ++ ([some (-5)] : List (Option ℂ)).filterMap id, z = ⟨-1, 2⟩ ∨ z = ⟨-1, -2⟩ ∨ z = -5 := by
    intro z hz
    simpa [List.filterMap_cons_some (id_eq _)] using hz
  obtain ⟨w, h1, h2⟩ := C74_span_partial (N := N) (samples := some 50) (poles := [⟨-1, 2⟩, ⟨-1, -2⟩]) (zeros := [some (-5)]) hN (by simp) hc
    (fun z hz _ => by
      rcases hmem z hz with rfl | rfl | rfl
      · rw [hn1 2 (.inl rfl)]; constructor <;> norm_num <;> linarith
      · rw [hn1 (-2) (.inr rfl)]; constructor <;> norm_num <;> linarith
      · norm_num) (fun k hk => by cases hk; norm_num)
  have hs : √N.eps = 2⁻¹ ^ 26 := by
    rw [hN.one, show (2⁻¹ : ℝ) ^ 52 = (2⁻¹ ^ 26) ^ 2 by norm_num, Real.sqrt_sq (by positivity)]
  have hund : ∀ z ∈ [⟨-1, 2⟩, ⟨-1, -2⟩] ++ ([some (-5)] : List (Option ℂ)).filterMap id, ¬ Undamped N.eps z := by
    intro z hz hu
    unfold Undamped at hu
    rw [hs] at hu
    rcases hmem z hz with rfl | rfl | rfl
    · rw [hn1 2 (.inl rfl)] at hu; norm_num at hu; linarith
    · rw [hn1 (-2) (.inr rfl)] at hu; norm_num at hu; linarith
    · norm_num at hu
  refine ⟨N, w, hN, h1, ?_, ?_, C74_count_partial hN hund h1⟩
  · have := h2 (-5) (by simp [List.filterMap_cons_some (id_eq _)]) (by norm_num)
    simpa using this
  · have hz : (⟨-1, 2⟩ : ℂ) ∈ [⟨-1, 2⟩, ⟨-1, -2⟩] ++ ([some (-5)] : List (Option ℂ)).filterMap id := by simp
    rcases C74_peak hN hc h1 hz (fun h => by have := congrArg Complex.re h; norm_num at this) (hund _ hz) with h | ⟨y, hy, hyu, -⟩
    · have : peak ⟨-1, 2⟩ = √3 := by
        unfold peak
        rw [hn1 2 (.inl rfl), if_pos (by norm_num; exact Real.lt_sqrt_of_sq_lt (by norm_num)), Real.sq_sqrt (by norm_num)]
        norm_num
      rwa [this] at h
    · exact absurd hyu (hund y hy)

/-! ## `State` models -/

section state
open Matrix
variable {p m n : ℕ} {A : Matrix (Fin n) (Fin n) ℝ} {B : Matrix (Fin n) (Fin m) ℝ} {C : Matrix (Fin p) (Fin n) ℝ} {D : Matrix (Fin p) (Fin m) ℝ} {T : TzNum} {P : Numerics ℝ ℂ}

theorem channel_eq (G : StateM ℝ) (hG : G = ⟨Arr.of A, Arr.of B, Arr.of C, Arr.of D, dt, false⟩) (i : Fin p) (j : Fin m) :
    (⟨Arr.of A, (Arr.of B).slice 0 (Arr.of B).r j (j + 1), (Arr.of C).slice i (i + 1) 0 (Arr.of C).c, (Arr.of D).slice i (i + 1) j (j + 1)⟩ : Quad) =
      ⟨Arr.of A, Arr.of (Matrix.of fun k (_ : Fin 1) => B k j), Arr.of (Matrix.of fun (_ : Fin 1) k => C i k), Arr.of (Matrix.of fun (_ _ : Fin 1) => D i j)⟩ := by
  have hi := i.2
  have hj := j.2
  rw [slice_of (a := n) (b := 1) _ _ _ _ _ (by simp) (by omega), slice_of (a := 1) (b := n) _ _ _ _ _ (by omega) (by simp), slice_of (a := 1) (b := 1) _ _ _ _ _ (by omega) (by omega)]
  congr 1
  · congr 1
    ext a b
    simp only [Matrix.of_apply]
    congr 1 <;> apply Fin.ext <;> simp
  · congr 1
    ext a b
    simp only [Matrix.of_apply]
    congr 1 <;> apply Fin.ext <;> simp
  · congr 1
    ext a b
    simp only [Matrix.of_apply]
    congr 1 <;> apply Fin.ext <;> simp

theorem tfAt_channel {s : ℂ} {M : Matrix (Fin p) (Fin m) ℂ} (h : TfAt A B C D s M) (i : Fin p) (j : Fin m) :
    TfAt A (Matrix.of fun k (_ : Fin 1) => B k j) (Matrix.of fun (_ : Fin 1) k => C i k) (Matrix.of fun (_ _ : Fin 1) => D i j) s (Matrix.of fun (_ _ : Fin 1) => M i j) := by
  obtain ⟨h1, rfl⟩ := h
  refine ⟨h1, ?_⟩
  ext a b
  simp only [Matrix.of_apply, Matrix.add_apply, Matrix.mul_apply, Matrix.map_apply]

theorem channel_zeros (hT : TzExact T) (i : Fin p) (j : Fin m) (h : (∀ k, B k j = 0) ∨ (∀ k, C i k = 0) ∨ ChannelLive A B C D i j) :
    ∃ zs : List ℂ, transmissionZeros T ⟨Arr.of A, Arr.of (Matrix.of fun k (_ : Fin 1) => B k j), Arr.of (Matrix.of fun (_ : Fin 1) k => C i k), Arr.of (Matrix.of fun (_ _ : Fin 1) => D i j)⟩ = .ok (zs.map some) ∧
      (∀ z ∈ zs, ChannelLive A B C D i j ∧ ChannelZero A B C D i j z) ∧ (ChannelLive A B C D i j → ∀ z, ChannelZero A B C D i j z → z ∈ zs) := by
  by_cases hl : ChannelLive A B C D i j
  · obtain ⟨⟨k, hk⟩, ⟨k', hk'⟩, s, M, hM, hne⟩ := hl
    obtain ⟨zs, h1, h2, -⟩ := C73_left_invertible (N := T) (A := A) (B := Matrix.of fun k (_ : Fin 1) => B k j) (C := Matrix.of fun (_ : Fin 1) k => C i k) (D := Matrix.of fun (_ _ : Fin 1) => D i j) hT
      (fun h0 => hk (congrFun (congrFun h0 k) 0)) (fun h0 => hk' (congrFun (congrFun h0 0) k')) ⟨s, _, tfAt_channel hM i j, by
        have := rank_pos_of_ne (M := (Matrix.of fun (_ _ : Fin 1) => M i j)) (fun h0 => hne (congrFun (congrFun h0 0) 0))
        have h3 := rank_le_width (Matrix.of fun (_ _ : Fin 1) => M i j)
        omega⟩
    exact ⟨zs, h1, fun z hz => ⟨⟨⟨k, hk⟩, ⟨k', hk'⟩, s, M, hM, hne⟩, (h2 z).mp hz⟩, fun _ z hz => (h2 z).mpr hz⟩
  · refine ⟨[], ?_, by simp, fun h => absurd h hl⟩
    have hany : (Arr.of (Matrix.of fun k (_ : Fin 1) => B k j)).any = false ∨ (Arr.of (Matrix.of fun (_ : Fin 1) k => C i k)).any = false := by
      rcases h with h | h | h
      · left
        rw [← Bool.not_eq_true, Arr.any_iff]
        push Not
        exact fun a b => h a
      · right
        rw [← Bool.not_eq_true, Arr.any_iff]
        push Not
        exact fun a b => h b
      · exact absurd h hl
    unfold transmissionZeros
    simp only [hany, if_true, List.map_nil]

theorem channelZeros_spec (hT : TzExact T) (h : ∀ i j, (∀ k, B k j = 0) ∨ (∀ k, C i k = 0) ∨ ChannelLive A B C D i j) :
    ∃ zs : List ℂ, channelZeros T ⟨Arr.of A, Arr.of B, Arr.of C, Arr.of D, dt, false⟩ = .ok (zs.map some) ∧
      ∀ z, z ∈ zs ↔ ∃ i j, ChannelLive A B C D i j ∧ ChannelZero A B C D i j z := by
  choose zs h1 h2 h3 using fun i j => channel_zeros (A := A) (D := D) hT i j (h i j)
  refine ⟨(List.ofFn fun i => (List.ofFn fun j => zs i j).flatten).flatten, ?_, fun z => ?_⟩
  · unfold channelZeros
    have e1 : ∀ i : Fin p, (finM fun c : Fin m => transmissionZeros T
        ⟨Arr.of A, (Arr.of B).slice 0 (Arr.of B).r c (c + 1), (Arr.of C).slice i (i + 1) 0 (Arr.of C).c, (Arr.of D).slice i (i + 1) c (c + 1)⟩) = .ok fun j => (zs i j).map some := by
      intro i
      rw [finM_ok]
      intro j
      rw [channel_eq (dt := none) ⟨Arr.of A, Arr.of B, Arr.of C, Arr.of D, none, false⟩ rfl i j]
      exact h1 i j
    have e2 : (finM fun r : Fin p => do
        let z ← finM fun c : Fin m => transmissionZeros T
          ⟨Arr.of A, (Arr.of B).slice 0 (Arr.of B).r c (c + 1), (Arr.of C).slice r (r + 1) 0 (Arr.of C).c, (Arr.of D).slice r (r + 1) c (c + 1)⟩
        (.ok (List.ofFn z).flatten : Res (List (Option ℂ)))) = .ok fun i => ((List.ofFn fun j => zs i j).flatten).map some := by
      rw [finM_ok]
      intro i
      rw [e1 i]
      simp only [bind, Except.bind, List.map_flatten, List.map_ofFn]
      rfl
    change (do
      let z ← finM fun r : Fin p => do
        let z ← finM fun c : Fin m => transmissionZeros T
          ⟨Arr.of A, (Arr.of B).slice 0 (Arr.of B).r c (c + 1), (Arr.of C).slice r (r + 1) 0 (Arr.of C).c, (Arr.of D).slice r (r + 1) c (c + 1)⟩
        (.ok (List.ofFn z).flatten : Res (List (Option ℂ)))
      (.ok (List.ofFn z).flatten : Res (List (Option ℂ)))) = _
    rw [e2]
    simp only [bind, Except.bind]
    rw [List.map_flatten, List.map_ofFn]
    rfl
  · simp only [List.mem_flatten, List.mem_ofFn]
    constructor
    · rintro ⟨l, ⟨i, rfl⟩, hl⟩
      obtain ⟨l', ⟨j, rfl⟩, hz⟩ := by simpa only [List.mem_flatten, List.mem_ofFn] using hl
      exact ⟨i, j, h2 i j z hz⟩
    · rintro ⟨i, j, hl, hz⟩
      exact ⟨_, ⟨i, rfl⟩, List.mem_flatten.mpr ⟨_, List.mem_ofFn.mpr ⟨j, rfl⟩, h3 i j hl z hz⟩⟩

open ComplexOrder in
theorem rank_sysPencil_conj {m p : ℕ} {B : Matrix (Fin n) (Fin m) ℝ} {C : Matrix (Fin p) (Fin n) ℝ} {D : Matrix (Fin p) (Fin m) ℝ} (s : ℂ) :
    (sysPencil A B C D ((starRingEnd ℂ) s)).rank = (sysPencil A B C D s).rank := by
  have : sysPencil A B C D ((starRingEnd ℂ) s) = (sysPencil A B C D s)ᴴᵀ := by
    ext a b
    rcases a with a | a <;> rcases b with b | b <;>
      simp [sysPencil, conjTranspose_apply, transpose_apply, Matrix.one_apply]
    split_ifs <;> simp
  rw [this, rank_transpose, rank_conjTranspose]

theorem channelZero_conj {i : Fin p} {j : Fin m} {z : ℂ} (h : ChannelZero A B C D i j z) : ChannelZero A B C D i j ((starRingEnd ℂ) z) := by
  obtain ⟨s', h⟩ := h
  exact ⟨s', by rw [rank_sysPencil_conj]; exact h⟩

theorem mem_eig (hP : EigExact P) (z : ℂ) : z ∈ P.eig (Arr.of A) ↔ (z • (1 : Matrix (Fin n) (Fin n) ℂ) - A.map Complex.ofReal).det = 0 := by
  have h2 : (A.charpoly.map (algebraMap ℝ ℂ)).eval z = (z • (1 : Matrix (Fin n) (Fin n) ℂ) - A.map Complex.ofReal).det := by
    rw [Polynomial.eval_map_algebraMap, aeval_charpoly]
    rfl
  rw [← h2, hP A, eval_prod_sub, List.prod_eq_zero_iff, List.mem_map]
  constructor
  · exact fun h => ⟨z, h, sub_self z⟩
  · rintro ⟨y, hy, h⟩
    rw [sub_eq_zero.mp h]
    exact hy

theorem eig_conj (hP : EigExact P) {z : ℂ} (h : z ∈ P.eig (Arr.of A)) : (starRingEnd ℂ) z ∈ P.eig (Arr.of A) := by
  rw [mem_eig hP] at h ⊢
  have : (starRingEnd ℂ) z • (1 : Matrix (Fin n) (Fin n) ℂ) - A.map Complex.ofReal = (z • (1 : Matrix (Fin n) (Fin n) ℂ) - A.map Complex.ofReal)ᴴᵀ := by
    ext a b
    simp only [conjTranspose_apply, transpose_apply, Matrix.one_apply, Matrix.sub_apply, Matrix.smul_apply, Matrix.map_apply]
    split_ifs <;> simp
  rw [this, det_transpose, det_conjTranspose, h, star_zero]

/-- **C74** for continuous `State` models: if the transfer function of each channel is not zero (or its column of `B` or its row of `C` is) and the frequencies of poles and channel zeros (apart from
zero) are between `10⁻¹³` and `10¹⁶`, the grid is computed and reaches one decade beyond each pole and each zero of a channel. Missing: frequencies outside of these bounds (`C74_fast_violated`, `C74_slow_violated`). -/
theorem C74_state_span_partial (hN : SpacingOk N) (hT : TzExact T) (hP : EigExact P) (h : ∀ i j, (∀ k, B k j = 0) ∨ (∀ k, C i k = 0) ∨ ChannelLive A B C D i j)
    (hp : ∀ z : ℂ, (z • (1 : Matrix (Fin n) (Fin n) ℂ) - A.map Complex.ofReal).det = 0 → z ≠ 0 → (10 : ℝ)⁻¹ ^ 13 ≤ ‖z‖ ∧ ‖z‖ ≤ 10 ^ 16)
    (hz : ∀ i j z, ChannelLive A B C D i j → ChannelZero A B C D i j z → z ≠ 0 → (10 : ℝ)⁻¹ ^ 13 ≤ ‖z‖ ∧ ‖z‖ ≤ 10 ^ 16) (hs : ∀ k, samples = some k → 2 ≤ k) :
    ∃ w, stateFreqGrid N T P ⟨Arr.of A, Arr.of B, Arr.of C, Arr.of D, none, false⟩ samples = .ok (some w) ∧
      (∀ z : ℂ, (z • (1 : Matrix (Fin n) (Fin n) ℂ) - A.map Complex.ofReal).det = 0 → z ≠ 0 → Spans w ‖z‖) ∧
      (∀ i j z, ChannelLive A B C D i j → ChannelZero A B C D i j z → z ≠ 0 → Spans w ‖z‖) ∧
      ∀ x ∈ w, ∃ M, HasTF (⟨Arr.of A, Arr.of B, Arr.of C, Arr.of D, none, false⟩ : StateM ℝ) p m (evalPoint none x) M := by
  obtain ⟨zs, h1, h2⟩ := channelZeros_spec (dt := none) hT h
  have hf : (zs.map some).filterMap id = zs := by rw [List.filterMap_map]; simp
  have hmem : ∀ z, z ∈ P.eig (Arr.of A) ++ (zs.map some).filterMap id ↔ (z • (1 : Matrix (Fin n) (Fin n) ℂ) - A.map Complex.ofReal).det = 0 ∨
      ∃ i j, ChannelLive A B C D i j ∧ ChannelZero A B C D i j z := by
    intro z
    rw [hf, List.mem_append, mem_eig hP, h2]
  obtain ⟨w, h3, h4⟩ := C74_span_partial (N := N) (samples := samples) (poles := P.eig (Arr.of A)) (zeros := zs.map some) hN (by simp)
    (fun z hz0 => by
      rw [hmem] at hz0 ⊢
      rcases hz0 with h0 | ⟨i, j, h0, h5⟩
      · left
        rw [← mem_eig hP] at h0 ⊢
        exact eig_conj hP h0
      · exact .inr ⟨i, j, h0, channelZero_conj h5⟩)
    (fun z hz0 hne => by
      rw [hmem] at hz0
      rcases hz0 with h0 | ⟨i, j, h0, h5⟩
      · exact hp z h0 hne
      · exact hz i j z h0 h5 hne) hs
  have h5 : stateFreqGrid N T P ⟨Arr.of A, Arr.of B, Arr.of C, Arr.of D, none, false⟩ samples = .ok (some w) := by
    unfold stateFreqGrid
    rw [h1]
    exact h3
  exact ⟨w, h5, fun z h0 => h4 z ((hmem z).mpr (.inl h0)), fun i j z h0 h6 => h4 z ((hmem z).mpr (.inr ⟨i, j, h0, h6⟩)), C74_state hN hP (fun t h => by cases h) h5⟩

/-- Non-vacuity of `C74_state_span_partial` and `C74_state`: the model `1/(s+1)`. -/
example : ∃ (N : GridNum) (T : TzNum) (P : Numerics ℝ ℂ) (w : List ℝ), SpacingOk N ∧ TzExact T ∧ EigExact P ∧
    stateFreqGrid N T P ⟨Arr.of !![-1], Arr.of !![1], Arr.of !![1], Arr.of !![0], none, false⟩ none = .ok (some w) ∧ Spans w 1 := by
  obtain ⟨N, hN⟩ := exists_spacingOk
  obtain ⟨T, hT⟩ := exists_tzExact
  obtain ⟨P, hP, -⟩ := exists_exact_numerics
  have hdet : ∀ z : ℂ, (z • (1 : Matrix (Fin 1) (Fin 1) ℂ) - (!![-1] : Matrix (Fin 1) (Fin 1) ℝ).map Complex.ofReal).det = z + 1 := by
    intro z
    rw [det_fin_one]
    simp
  obtain ⟨w, h1, h2, -⟩ := C74_state_span_partial (A := !![-1]) (B := !![1]) (C := !![1]) (D := !![0]) (samples := none) hN hT hP
    (fun i j => .inr (.inr ⟨⟨0, by fin_cases j; simp⟩, ⟨0, by fin_cases i; simp⟩, 0, _, ⟨by rw [hdet]; norm_num, rfl⟩, by
      fin_cases i
      fin_cases j
      rw [Matrix.add_apply, Matrix.mul_apply, Fin.sum_univ_one, Matrix.mul_apply, Fin.sum_univ_one, inv_def, adjugate_fin_one, hdet]
      simp⟩))
    (fun z hz _ => by
      rw [hdet] at hz
      rw [eq_neg_of_add_eq_zero_left hz]
      norm_num)
    (fun i j z _ ⟨s', hs'⟩ _ => by
      exfalso
      have h3 : ∀ s : ℂ, (sysPencil (!![-1] : Matrix (Fin 1) (Fin 1) ℝ) (Matrix.of fun k (_ : Fin 1) => (!![1] : Matrix (Fin 1) (Fin 1) ℝ) k j) (Matrix.of fun (_ : Fin 1) k => (!![1] : Matrix (Fin 1) (Fin 1) ℝ) i k)
          (Matrix.of fun (_ _ : Fin 1) => (!![0] : Matrix (Fin 1) (Fin 1) ℝ) i j) s).rank = 2 := by
        intro s
        rw [rank_of_isUnit, Fintype.card_sum, Fintype.card_fin]
        unfold sysPencil
        fin_cases i
        fin_cases j
        have e0 : (Matrix.of fun (_ _ : Fin 1) => (!![0] : Matrix (Fin 1) (Fin 1) ℝ) 0 0).map Complex.ofReal = 0 := by ext a b; simp
        have e1 : (Matrix.of fun (k : Fin 1) (_ : Fin 1) => (!![1] : Matrix (Fin 1) (Fin 1) ℝ) k 0).map Complex.ofReal = 1 := by ext a b; fin_cases a; fin_cases b; simp
        have e2 : (Matrix.of fun (_ : Fin 1) (k : Fin 1) => (!![1] : Matrix (Fin 1) (Fin 1) ℝ) 0 k).map Complex.ofReal = 1 := by ext a b; fin_cases a; fin_cases b; simp
        simp only [Fin.zero_eta, Fin.isValue, e0, e1, e2]
        generalize (!![-1] : Matrix (Fin 1) (Fin 1) ℝ).map Complex.ofReal - s • (1 : Matrix (Fin 1) (Fin 1) ℂ) = X
        refine IsUnit.of_mul_eq_one (fromBlocks 0 1 1 (-X)) ?_
        rw [fromBlocks_multiply, ← fromBlocks_one]
        simp
      rw [h3, h3] at hs'
      exact lt_irrefl _ hs') (fun k h => by cases h)
  refine ⟨N, T, P, w, hN, hT, hP, h1, ?_⟩
  have := h2 (-1) (by rw [hdet]; norm_num) (by norm_num)
  simpa using this

/-- Non-vacuity of `C74_discrete_span_partial` and `C74_nyquist`: the pole `1/2`. -/
example : ∃ (N : GridNum) (w : List ℝ), SpacingOk N ∧ autoFreqGrid N (some 1) none [((2⁻¹ : ℝ) : ℂ)] [] = .ok (some w) ∧ ∃ x ∈ w, x ≤ ‖Complex.log ((2⁻¹ : ℝ) : ℂ)‖ / 1 / 10 := by
  obtain ⟨N, hN⟩ := exists_spacingOk
  obtain ⟨w, hw⟩ := C74_discrete (N := N) (samples := none) (poles := [((2⁻¹ : ℝ) : ℂ)]) (zeros := []) one_pos (by simp)
  have h1 : Complex.log ((2⁻¹ : ℝ) : ℂ) = ((-Real.log 2 : ℝ) : ℂ) := by
    rw [← Complex.ofReal_log (by norm_num), Real.log_inv]
  refine ⟨N, w, hN, hw, C74_discrete_span_partial hN one_pos (by norm_num) (fun z hz => ?_) (fun z hz _ => ?_) (fun k h => by cases h) hw (z := ((2⁻¹ : ℝ) : ℂ)) (by simp) (fun h => by
    have h2 : (2⁻¹ : ℝ) = 1 := by exact_mod_cast h
    norm_num at h2) (by rw [Complex.norm_real]; norm_num)⟩
  · simp only [List.filterMap_nil, List.append_nil, List.mem_singleton] at hz ⊢
    rw [hz, Complex.conj_ofReal]
  · simp only [List.filterMap_nil, List.append_nil, List.mem_singleton] at hz
    rw [hz, h1, Complex.norm_real, norm_neg, Real.norm_eq_abs, abs_of_pos (Real.log_pos (by norm_num)), div_one]
    have := Real.log_two_gt_d9
    refine le_trans ?_ this.le
    norm_num

end state

end Harold
