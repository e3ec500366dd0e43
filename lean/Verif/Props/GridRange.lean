import Verif.Props.FreqAuto
import Verif.Props.Freq

/-!
# C74: range and resolution of the automatic frequency grid
-/

namespace Harold

open Classical Spec

variable {N : GridNum} {samples : Option ℕ} {poles : List ℂ} {zeros : List (Option ℂ)} {w : List ℝ}

/-! ## The points around a frequency -/

theorem geomspace_exp {n k : ℕ} (e : Bool) (hk : k < n) : 0 ≤ (k : ℝ) / ((if e then n - 1 else n : ℕ) : ℝ) ∧ (k : ℝ) / ((if e then n - 1 else n : ℕ) : ℝ) ≤ 1 := by
  refine ⟨by positivity, div_le_one_of_le₀ ?_ (by positivity)⟩
  have : k ≤ (if e then n - 1 else n : ℕ) := by split_ifs <;> omega
  exact_mod_cast this

theorem geomspace_neg {a b : ℝ} (hab : a ≤ b) (hb : b < 0) {n : ℕ} {e : Bool} {y : ℝ} (hy : y ∈ geomspace a b n e) : a ≤ y ∧ y ≤ b := by
  obtain ⟨k, hk, rfl⟩ := List.mem_map.mp hy
  obtain ⟨h0, h1⟩ := geomspace_exp e (List.mem_range.mp hk)
  have ha : a < 0 := lt_of_le_of_lt hab hb
  have hr : 0 < b / a := div_pos_of_neg_of_neg hb ha
  have hr1 : b / a ≤ 1 := by rw [div_le_one_of_neg ha]; exact hab
  generalize (k : ℝ) / ((if e then n - 1 else n : ℕ) : ℝ) = t at h0 h1
  have h2 : (b / a) ^ t ≤ 1 := Real.rpow_le_one hr.le hr1 h0
  have h3 : b / a ≤ (b / a) ^ t := by
    have := Real.rpow_le_rpow_of_exponent_ge hr hr1 h1
    rwa [Real.rpow_one] at this
  have h4 : a * (b / a) = b := by rw [mul_div_assoc', mul_div_cancel_left₀ _ ha.ne]
  constructor
  · nlinarith
  · calc a * (b / a) ^ t ≤ a * (b / a) := mul_le_mul_of_nonpos_left h3 ha.le
      _ = b := h4

theorem geomspace_nonneg {a b : ℝ} (ha : 0 < a) (hab : a ≤ b) {n : ℕ} {e : Bool} {y : ℝ} (hy : y ∈ geomspace a b n e) : a ≤ y ∧ y ≤ b := by
  obtain ⟨k, hk, rfl⟩ := List.mem_map.mp hy
  obtain ⟨h0, h1⟩ := geomspace_exp e (List.mem_range.mp hk)
  have hr1 : 1 ≤ b / a := by rw [le_div_iff₀ ha, one_mul]; exact hab
  generalize (k : ℝ) / ((if e then n - 1 else n : ℕ) : ℝ) = t at h0 h1
  have h2 : 1 ≤ (b / a) ^ t := Real.one_le_rpow hr1 h0
  have h3 : (b / a) ^ t ≤ b / a := by
    have := Real.rpow_le_rpow_of_exponent_le hr1 h1
    rwa [Real.rpow_one] at this
  have h4 : a * (b / a) = b := by field_simp
  constructor
  · nlinarith
  · calc a * (b / a) ^ t ≤ a * (b / a) := mul_le_mul_of_nonneg_left h3 ha.le
      _ = b := h4

theorem logb_abs_ceil (x : ℝ) : -(|(⌈x⌉ : ℝ)| + 1) < x ∧ x < |(⌈x⌉ : ℝ)| + 1 := by
  have h1 := Int.le_ceil x
  have h2 := Int.ceil_lt_add_one x
  have h3 := abs_le.mp (le_refl |(⌈x⌉ : ℝ)|)
  exact ⟨by linarith [h3.1], by linarith [h3.2]⟩

theorem rpow_le_of_le_logb {x y : ℝ} (hx : 0 < x) (h : y ≤ Real.logb 10 x) : (10 : ℝ) ^ y ≤ x := by
  calc (10 : ℝ) ^ y ≤ 10 ^ Real.logb 10 x := Real.rpow_le_rpow_of_exponent_le (by norm_num) h
    _ = x := Real.rpow_logb (by norm_num) (by norm_num) hx

theorem le_rpow_of_logb_le {x y : ℝ} (hx : 0 < x) (h : Real.logb 10 x ≤ y) : x ≤ (10 : ℝ) ^ y := by
  calc x = 10 ^ Real.logb 10 x := (Real.rpow_logb (by norm_num) (by norm_num) hx).symm
    _ ≤ (10 : ℝ) ^ y := Real.rpow_le_rpow_of_exponent_le (by norm_num) h

theorem pointsLeft_near {x : ℝ} (hx : 0 < x) {n : ℕ} {y : ℝ} (hy : y ∈ pointsLeft x n) : 0.85 * x ≤ y ∧ y ≤ x := by
  obtain ⟨u, hu, rfl⟩ := List.mem_map.mp hy
  have h1 := (logb_abs_ceil (Real.logb 10 x)).2
  have hx' : 0 < x * (1 - 0.15) := by positivity
  have h2 : Real.logb 10 (x * (1 - 0.15)) ≤ Real.logb 10 x := Real.logb_le_logb_of_le (by norm_num) hx' (by nlinarith)
  obtain ⟨h3, h4⟩ := geomspace_neg (by linarith) (by linarith) hu
  exact ⟨by have := le_rpow_of_logb_le hx' (y := u + (|(⌈Real.logb 10 x⌉ : ℝ)| + 1)) (by linarith); linarith, rpow_le_of_le_logb hx (by linarith)⟩

theorem pointsRight_near {x : ℝ} (hx : 0 < x) {n : ℕ} {y : ℝ} (hy : y ∈ pointsRight x n) : x ≤ y ∧ y ≤ 1.15 * x := by
  obtain ⟨u, hu, rfl⟩ := List.mem_map.mp hy
  have h1 := (logb_abs_ceil (Real.logb 10 x)).1
  have hx' : 0 < x * (1 + 0.15) := by positivity
  have h2 : Real.logb 10 x ≤ Real.logb 10 (x * (1 + 0.15)) := Real.logb_le_logb_of_le (by norm_num) hx (by nlinarith)
  obtain ⟨h3, h4⟩ := geomspace_nonneg (by linarith) (by linarith) hu
  exact ⟨le_rpow_of_logb_le hx (by linarith), by have := rpow_le_of_le_logb hx' (y := u - (|(⌈Real.logb 10 x⌉ : ℝ)| + 1)) (by linarith); linarith⟩

theorem pointsRight_increasing {x : ℝ} (hx : 0 < x) (n : ℕ) : (pointsRight x n).Pairwise (· < ·) := by
  unfold pointsRight geomspace
  simp only [List.map_map]
  rw [List.pairwise_map]
  refine List.pairwise_lt_range.imp_of_mem fun {i j} hi hj hij => ?_
  have hn : (0 : ℝ) < n := by
    have := List.mem_range.mp hj
    exact_mod_cast (by omega : 0 < n)
  have h1 := (logb_abs_ceil (Real.logb 10 x)).1
  have h2 : Real.logb 10 x < Real.logb 10 (x * (1 + 0.15)) := Real.logb_lt_logb (by norm_num) hx (by nlinarith)
  simp only [Function.comp_apply, Bool.false_eq_true, if_false]
  generalize Real.logb 10 (x * (1 + 0.15)) = b at h2
  generalize Real.logb 10 x = a at h1 h2 ⊢
  refine Real.rpow_lt_rpow_of_exponent_lt (by norm_num) ?_
  have ha : 0 < a + (|(⌈a⌉ : ℝ)| + 1) := by linarith
  refine sub_lt_sub_right (mul_lt_mul_of_pos_left (Real.rpow_lt_rpow_of_exponent_lt ?_ ?_) ha) _
  · rw [lt_div_iff₀ ha, one_mul]; linarith
  · exact div_lt_div_of_pos_right (by exact_mod_cast hij) hn

theorem pointsRight_length (x : ℝ) (n : ℕ) : (pointsRight x n).length = n := by simp [pointsRight, geomspace]

theorem pointsRight_head {x : ℝ} (hx : 0 < x) {n : ℕ} (hn : 0 < n) : x ∈ pointsRight x n := by
  refine List.mem_map.mpr ⟨Real.logb 10 x + (|(⌈Real.logb 10 x⌉ : ℝ)| + 1), List.mem_map.mpr ⟨0, List.mem_range.mpr hn, ?_⟩, ?_⟩
  · simp
  · rw [add_sub_cancel_right]
    exact Real.rpow_logb (by norm_num) (by norm_num) hx

theorem pointsAround_near {x : ℝ} (hx : 0 < x) {v : Option ℝ} {n : ℕ} {y : ℝ} (hy : y ∈ pointsAround x v n) : 0.85 * x ≤ y ∧ y ≤ 1.15 * x := by
  have key : y ∈ pointsLeft x n ∨ y ∈ pointsRight x n := by
    unfold pointsAround at hy
    rcases List.mem_append.mp hy with hy | hy
    · cases v with
      | none => exact .inl hy
      | some v => exact .inl (List.mem_filter.mp hy).1
    · exact .inr hy
  rcases key with h | h
  · have := pointsLeft_near hx h
    exact ⟨this.1, by linarith [this.2]⟩
  · have := pointsRight_near hx h
    exact ⟨by linarith [this.1], this.2⟩

theorem gridExtra_fold (ms : List ℂ) : ∀ v : List ℝ,
    (∀ x ∈ ms.foldl (fun w z => w ++ pointsAround (gridCentre N z) w.getLast? (gridNum N z)) v, x ∈ v ∨ ∃ z ∈ ms, ∃ u n, x ∈ pointsAround (gridCentre N z) u n) ∧
    (∀ x ∈ v, x ∈ ms.foldl (fun w z => w ++ pointsAround (gridCentre N z) w.getLast? (gridNum N z)) v) ∧
    ∀ z ∈ ms, ∀ x ∈ pointsRight (gridCentre N z) (gridNum N z), x ∈ ms.foldl (fun w z => w ++ pointsAround (gridCentre N z) w.getLast? (gridNum N z)) v := by
  induction ms with
  | nil => exact fun v => ⟨fun x hx => .inl hx, fun x hx => hx, by simp⟩
  | cons a ms ih =>
    intro v
    obtain ⟨h1, h2, h3⟩ := ih (v ++ pointsAround (gridCentre N a) v.getLast? (gridNum N a))
    refine ⟨fun x hx => ?_, fun x hx => h2 x (List.mem_append_left _ hx), fun z hz x hx => ?_⟩
    · rcases h1 x hx with h | ⟨z, hz, h⟩
      · rcases List.mem_append.mp h with h | h
        · exact .inl h
        · exact .inr ⟨a, List.mem_cons_self, _, _, h⟩
      · exact .inr ⟨z, List.mem_cons_of_mem _ hz, h⟩
    · rcases List.mem_cons.mp hz with rfl | hz
      · exact h2 _ (List.mem_append_right _ (List.mem_append_right _ hx))
      · exact h3 z hz x hx

/-! ## Range -/

theorem logspace_between {a b : ℝ} (hab : a ≤ b) {n : ℕ} {x : ℝ} (hx : x ∈ logspace a b n) : (10 : ℝ) ^ a ≤ x ∧ x ≤ (10 : ℝ) ^ b := by
  obtain ⟨k, hk, rfl⟩ := List.mem_map.mp hx
  have hk := List.mem_range.mp hk
  have h0 : (0 : ℝ) ≤ k * ((b - a) / ((n - 1 : ℕ) : ℝ)) := mul_nonneg (by positivity) (div_nonneg (by linarith) (by positivity))
  have h1 : (k : ℝ) * ((b - a) / ((n - 1 : ℕ) : ℝ)) ≤ b - a := by
    by_cases hn : n - 1 = 0
    · have : k = 0 := by omega
      rw [this, Nat.cast_zero, zero_mul]
      linarith
    · have hp : (0 : ℝ) < ((n - 1 : ℕ) : ℝ) := by exact_mod_cast Nat.pos_of_ne_zero hn
      rw [mul_div_assoc', div_le_iff₀ hp, mul_comm]
      refine mul_le_mul_of_nonneg_left ?_ (by linarith)
      exact_mod_cast (by omega : k ≤ n - 1)
  exact ⟨Real.rpow_le_rpow_of_exponent_le (by norm_num) (by linarith), Real.rpow_le_rpow_of_exponent_le (by norm_num) (by linarith)⟩

theorem peak_near {z : ℂ} : ‖z‖ / 2 ≤ peak z ∧ peak z ≤ ‖z‖ := by
  unfold peak
  split_ifs with h
  · have h1 : (2 * |z.re|) ^ 2 < ‖z‖ ^ 2 := pow_lt_pow_left₀ h (by positivity) (by norm_num)
    rw [mul_pow, sq_abs] at h1
    constructor
    · refine Real.le_sqrt_of_sq_le ?_
      nlinarith [sq_nonneg ‖z‖]
    · rw [Real.sqrt_le_left (norm_nonneg z)]
      nlinarith [sq_nonneg z.re]
  · exact ⟨by linarith [norm_nonneg z], le_refl _⟩

theorem centre_damped {y : ℂ} (hpos : 0 < ‖y‖) (hd : ¬ Undamped N.eps y) : gridCentre N y = peak y := by
  unfold gridCentre
  rw [if_neg, peakFreq_eq hpos]
  rintro ⟨-, h2⟩
  exact hd ((dampFact_lt hpos).mp h2)

/-- The modes of a continuous model with poles or zeros other than `0` are these. -/
theorem modes_mem {l : List ℂ} (hc : ConjPairs l) (hne : ∃ z ∈ l, z ≠ 0) {y : ℂ} (hy : y ∈ gridModes N none l) : y ∈ l ∧ y ≠ 0 := by
  rw [mem_gridModes] at hy
  obtain ⟨z, hz, h0⟩ := hne
  have hk : pzKeep none l ≠ [] := by
    have : ∃ u, u ∈ pzKeep none l := by
      by_cases him : 0 ≤ z.im
      · exact ⟨z, mem_pzKeep.mpr ⟨hz, by simpa using h0, him⟩⟩
      · exact ⟨(starRingEnd ℂ) z, mem_pzKeep.mpr ⟨hc z hz, by simpa using h0, by rw [Complex.conj_im]; linarith⟩⟩
    obtain ⟨u, hu⟩ := this
    exact List.ne_nil_of_mem hu
  unfold pzDummy pzMap at hy
  rw [if_neg hk] at hy
  have := mem_pzKeep.mp hy
  exact ⟨this.1, by simpa using this.2.1⟩

/-- **C74**, continuous models without undamped poles and zeros, frequencies between `10⁻¹³` and `10¹⁶`: no frequency of the grid is more than two decades below all nonzero poles and zeros or
more than two decades above all of them. Missing: undamped modes (where `np.spacing` of the peak frequency is added), frequencies outside of these bounds. -/
theorem C74_range_partial (hN : SpacingOk N) (hc : ConjPairs (poles ++ zeros.filterMap id)) (hne : ∃ z ∈ poles ++ zeros.filterMap id, z ≠ 0)
    (hr : ∀ z ∈ poles ++ zeros.filterMap id, z ≠ 0 → (10 : ℝ)⁻¹ ^ 13 ≤ ‖z‖ ∧ ‖z‖ ≤ 10 ^ 16) (hu : ∀ y ∈ poles ++ zeros.filterMap id, ¬ Undamped N.eps y)
    (h : autoFreqGrid N none samples poles zeros = .ok (some w)) :
    ∀ x ∈ w, (∃ z ∈ poles ++ zeros.filterMap id, z ≠ 0 ∧ ‖z‖ / 100 ≤ x) ∧ ∃ z ∈ poles ++ zeros.filterMap id, z ≠ 0 ∧ x ≤ 100 * ‖z‖ := by
  intro x hx
  have hx := mem_grid h hx
  generalize poles ++ zeros.filterMap id = l at *
  have hm : ∀ y ∈ gridModes N none l, y ∈ l ∧ y ≠ 0 := fun y hy => modes_mem hc hne hy
  unfold rawGrid at hx
  simp only at hx
  rw [cont_bounds hN hr] at hx
  have hlo := hm _ (headD_mem (N := N) (dt := none) (l := l))
  have hhi := hm _ (getLastD_mem (N := N) (dt := none) (l := l))
  have hp1 := norm_pos_iff.mpr hlo.2
  have hp2 := norm_pos_iff.mpr hhi.2
  have hle : ‖(gridModes N none l).headD 0‖ ≤ ‖(gridModes N none l).getLastD 0‖ := headD_le getLastD_mem
  rcases List.mem_append.mp hx with hx | hx
  · have h2 : Real.logb 10 ‖(gridModes N none l).headD 0‖ ≤ Real.logb 10 ‖(gridModes N none l).getLastD 0‖ := Real.logb_le_logb_of_le (by norm_num) hp1 hle
    have h3 := Int.floor_le (Real.logb 10 ‖(gridModes N none l).headD 0‖)
    have h4 := Int.le_ceil (Real.logb 10 ‖(gridModes N none l).getLastD 0‖)
    have h5 := Int.sub_one_lt_floor (Real.logb 10 ‖(gridModes N none l).headD 0‖)
    have h6 := Int.ceil_lt_add_one (Real.logb 10 ‖(gridModes N none l).getLastD 0‖)
    obtain ⟨h7, h8⟩ := logspace_between (by linarith) hx
    have l2 : Real.logb 10 100 = 2 := by
      rw [show (100 : ℝ) = 10 ^ 2 by norm_num, Real.logb_pow, Real.logb_self_eq_one (by norm_num)]; norm_num
    refine ⟨⟨_, hlo.1, hlo.2, le_trans (le_rpow_of_logb_le (by positivity) ?_) h7⟩, ⟨_, hhi.1, hhi.2, h8.trans (rpow_le_of_le_logb (by positivity) ?_)⟩⟩
    · rw [Real.logb_div hp1.ne' (by norm_num), l2]
      linarith
    · rw [Real.logb_mul (by norm_num) hp2.ne', l2]
      linarith
  · have hx : x ∈ gridExtra N (gridModes N none l) := by
      rcases List.mem_append.mp hx with hx | hx
      · exact hx
      · simp [gridNyquist] at hx
    rcases (gridExtra_fold (gridModes N none l) []).1 x hx with h0 | ⟨z, hz, u, n, h0⟩
    · cases h0
    obtain ⟨hz1, hz2⟩ := hm z hz
    have hpz := norm_pos_iff.mpr hz2
    rw [centre_damped hpz (hu z hz1)] at h0
    obtain ⟨h1, h2⟩ := pointsAround_near (peak_pos hpz) h0
    obtain ⟨h3, h4⟩ := peak_near (z := z)
    exact ⟨⟨z, hz1, hz2, by linarith⟩, ⟨z, hz1, hz2, by linarith⟩⟩

/-- **C74**, continuous models without undamped poles and zeros: around every pole and zero the grid resolves the peak. From the frequency of the peak on there are three different frequencies within
15 percent, five if the damping ratio is below one half. Missing: undamped modes, discrete models. -/
theorem C74_resolution_partial (hN : SpacingOk N) (hc : ConjPairs (poles ++ zeros.filterMap id)) (hu : ∀ y ∈ poles ++ zeros.filterMap id, ¬ Undamped N.eps y)
    (h : autoFreqGrid N none samples poles zeros = .ok (some w)) {z : ℂ} (hz : z ∈ poles ++ zeros.filterMap id) (h0 : z ≠ 0) :
    ∃ l : List ℝ, l.Pairwise (· < ·) ∧ 3 ≤ l.length ∧ (2 * |z.re| < ‖z‖ → 5 ≤ l.length) ∧ peak z ∈ l ∧ ∀ x ∈ l, x ∈ w ∧ peak z ≤ x ∧ x ≤ 1.15 * peak z := by
  obtain ⟨-, h1⟩ := autoFreqGrid_ok h
  obtain ⟨y, hy, hy1, hy2, -⟩ := mode_of_mem (dt := none) hc hz (by simpa using h0)
  have hym : y ∈ gridModes N none (poles ++ zeros.filterMap id) := mem_gridModes.mpr hy
  have hpos : 0 < ‖y‖ := by rw [hy1]; exact norm_pos_iff.mpr h0
  have hpk : peak y = peak z := by unfold peak; rw [hy1, hy2]
  have hcen : gridCentre N y = peak z := by
    rw [centre_damped hpos, hpk]
    unfold Undamped
    rw [hy1, hy2]
    exact hu z hz
  have hpp : 0 < peak z := by rw [← hpk]; exact peak_pos hpos
  have hn : 3 ≤ gridNum N y ∧ (2 * |z.re| < ‖z‖ → 5 ≤ gridNum N y) := by
    unfold gridNum
    have := le_max_left (5 : ℤ) (5 - ⌈Real.logb 10 (max (dampFact y) √N.eps)⌉)
    split_ifs with hd
    · exact ⟨by omega, fun _ => by omega⟩
    · refine ⟨le_refl _, fun h2 => absurd ?_ hd⟩
      rw [dampFact_lt hpos, hy1, hy2]
      linarith
  refine ⟨pointsRight (peak z) (gridNum N y), pointsRight_increasing hpp _, by rw [pointsRight_length]; exact hn.1, fun h2 => by rw [pointsRight_length]; exact hn.2 h2,
    pointsRight_head hpp (by omega), fun x hx => ⟨?_, pointsRight_near hpp hx⟩⟩
  rw [modesGrid_ok h1]
  refine mem_gridDrop.mpr ⟨List.mem_mergeSort.mpr ?_, fun u hu' hd habs => ?_⟩
  · unfold rawGrid
    refine List.mem_append_right _ (List.mem_append_left _ ?_)
    exact (gridExtra_fold (gridModes N none (poles ++ zeros.filterMap id)) []).2.2 y hym x (by rw [hcen]; exact hx)
  · obtain ⟨h2, h3⟩ := undamped_mem hN hu' hd
    exact hu u h2 h3

/-- The hypotheses of `C74_range_partial` and `C74_resolution_partial` are met by the poles `-1 ± j` and `-2`. -/
example : ConjPairs ([-1 + Complex.I, -1 - Complex.I, -2] ++ ([] : List (Option ℂ)).filterMap id) ∧
    (∃ z ∈ ([-1 + Complex.I, -1 - Complex.I, -2] : List ℂ), z ≠ 0) ∧ ∀ y ∈ ([-1 + Complex.I, -1 - Complex.I, -2] : List ℂ), ¬ Undamped (2⁻¹ ^ 52) y := by
  refine ⟨?_, ⟨-2, by simp, by norm_num⟩, ?_⟩
  · intro z hz
    simp only [List.filterMap_nil, List.append_nil, List.mem_cons, List.not_mem_nil, or_false] at hz ⊢
    rcases hz with rfl | rfl | rfl
    · right; left; simp [Complex.ext_iff]
    · left; simp [Complex.ext_iff]
    · right; right; rw [map_neg, Complex.conj_ofNat]
  · have hs : √((2⁻¹ : ℝ) ^ 52) ≤ 1 / 4 := by
      rw [Real.sqrt_le_left (by norm_num)]
      norm_num
    intro y hy hd
    unfold Undamped at hd
    have h2 : |y.re| < 1 / 4 * ‖y‖ := lt_of_lt_of_le hd (mul_le_mul_of_nonneg_right hs (norm_nonneg _))
    have h3 := Complex.norm_le_abs_re_add_abs_im y
    simp only [List.mem_cons, List.not_mem_nil, or_false] at hy
    rcases hy with rfl | rfl | rfl
    · norm_num at h2 h3
      linarith
    · norm_num at h2 h3
      linarith
    · norm_num at h2

/-! ## The grid of a static gain -/

/-- What a list of `n` frequencies from `a` to `b` has to satisfy. -/
theorem logspace_covers {a b : ℝ} (ha : 0 < a) (hab : a ≤ b) (n : ℕ) :
    (logspace (Real.logb 10 a) (Real.logb 10 b) n).length = n ∧ (∀ x ∈ logspace (Real.logb 10 a) (Real.logb 10 b) n, a ≤ x ∧ x ≤ b) ∧
      (1 ≤ n → a ∈ logspace (Real.logb 10 a) (Real.logb 10 b) n) ∧ (2 ≤ n → b ∈ logspace (Real.logb 10 a) (Real.logb 10 b) n) := by
  have hbp : 0 < b := lt_of_lt_of_le ha hab
  have ea : (10 : ℝ) ^ Real.logb 10 a = a := Real.rpow_logb (by norm_num) (by norm_num) ha
  have eb : (10 : ℝ) ^ Real.logb 10 b = b := Real.rpow_logb (by norm_num) (by norm_num) hbp
  refine ⟨by simp [logspace], fun x hx => ?_, fun hn => ?_, fun hn => ?_⟩
  · have := logspace_between (Real.logb_le_logb_of_le (by norm_num) ha hab) hx
    rwa [ea, eb] at this
  · have := logspace_start (Real.logb 10 a) (Real.logb 10 b) (n := n) (by omega)
    rwa [ea] at this
  · have := logspace_stop (Real.logb 10 a) (Real.logb 10 b) (n := n) (by omega)
    rwa [eb] at this

/-- **C44**, the grid of static gains: without frequencies and in rad/s the grid has the requested number of frequencies (two by default); it reaches from `1/100` to `100` in continuous time and over
the two decades up to the Nyquist frequency in discrete time. -/
theorem C44_gain_grid {auto : List ℝ} {G : TransferM ℝ} (hg : G.isgain = true) (hdt : DtOk G.dt) {iu : String} {R : FreqOut}
    (h : freqTransfer auto G none samples iu "rad/s" = .ok R) :
    ∃ lo hi : ℝ, (G.dt = none → lo = 1 / 100 ∧ hi = 100) ∧ (∀ d, G.dt = some d → lo = Real.pi / d / 100 ∧ hi = Real.pi / d) ∧
      R.w.length = samples.getD 2 ∧ (∀ x ∈ R.w, lo ≤ x ∧ x ≤ hi) ∧ (1 ≤ samples.getD 2 → lo ∈ R.w) ∧ (2 ≤ samples.getD 2 → hi ∈ R.w) := by
  obtain ⟨ws, -, -, h1, h2, -⟩ := freqTransfer_ok h
  unfold freqGrid at h1
  rw [hg] at h1
  simp only [if_true, Except.ok.injEq] at h1
  have hw : R.w = gainGrid G.dt samples := by rw [h2, ← h1]; simp [outGrid]
  rw [hw]
  have l2 : Real.logb 10 100 = 2 := by
    rw [show (100 : ℝ) = 10 ^ 2 by norm_num, Real.logb_pow, Real.logb_self_eq_one (by norm_num)]; norm_num
  cases hd : G.dt with
  | none =>
    refine ⟨1 / 100, ⟨100, ⟨fun _ => ⟨rfl, rfl⟩, ⟨fun d h => by simp at h, ?_⟩⟩⟩⟩
    have := logspace_covers (a := 1 / 100) (b := 100) (by norm_num) (by norm_num) (samples.getD 2)
    rwa [one_div, Real.logb_inv, l2, ← one_div] at this
  | some d =>
    have hpos : 0 < Real.pi / d := div_pos Real.pi_pos (hdt d hd)
    refine ⟨Real.pi / d / 100, ⟨Real.pi / d, ⟨fun h => by simp at h, ⟨fun e he => by simp only [Option.some.injEq] at he; subst he; exact ⟨rfl, rfl⟩, ?_⟩⟩⟩⟩
    have := logspace_covers (a := Real.pi / d / 100) (b := Real.pi / d) (by positivity) (by linarith) (samples.getD 2)
    rwa [Real.logb_div hpos.ne' (by norm_num), l2] at this

/-- A static gain that `C44_gain_grid` applies to. -/
example (auto : List ℝ) : ∃ R, freqTransfer auto ⟨constArr 1 1 [5], constArr 1 1 [1], true, some (1 / 10)⟩ none (some 7) "Hz" "rad/s" = .ok R := by
  have hu : unitOk "Hz" = true := unitOk_iff.mpr (.inl isHz_Hz)
  have hu' : unitOk "rad/s" = true := unitOk_iff.mpr (.inr isRad_rad)
  exact ⟨_, by simp [freqTransfer, hu, hu', freqGrid, gainResp, TransferM.isSISO, constArr, Arr.entry, bind, Except.bind]; rfl⟩

end Harold
