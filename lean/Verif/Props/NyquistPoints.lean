import Verif.Props.GridRange
import Mathlib.Analysis.Real.Pi.Bounds

/-!
# C74: the automatic grid next to the Nyquist frequency
-/

namespace Harold

open Classical Spec

variable {N : GridNum} {samples : Option ℕ} {poles : List ℂ} {zeros : List (Option ℂ)} {w : List ℝ} {d : ℝ}

theorem rpow_below {x : ℝ} (hx : 3.14 ≤ x) : x ^ (0.995 : ℝ) ≤ 0.995 * x := by
  have hx0 : 0 < x := by linarith
  have h1 : x ^ (0.995 : ℝ) * x ^ (0.005 : ℝ) = x := by
    rw [← Real.rpow_add hx0, show (0.995 : ℝ) + 0.005 = 1 by norm_num, Real.rpow_one]
  have h2 : (1 : ℝ) ≤ 0.995 * x ^ (0.005 : ℝ) := by
    refine (one_le_pow_iff_of_nonneg (by positivity) (by norm_num : (200 : ℕ) ≠ 0)).mp ?_
    rw [mul_pow, ← Real.rpow_natCast (x ^ (0.005 : ℝ)), ← Real.rpow_mul hx0.le, show (0.005 : ℝ) * ((200 : ℕ) : ℝ) = 1 by norm_num, Real.rpow_one]
    calc (1 : ℝ) ≤ 0.995 ^ 200 * 3.14 := by norm_num
      _ ≤ 0.995 ^ 200 * x := by gcongr
  have h3 : 0 < x ^ (0.995 : ℝ) := by positivity
  calc x ^ (0.995 : ℝ) ≤ x ^ (0.995 : ℝ) * (0.995 * x ^ (0.005 : ℝ)) := le_mul_of_one_le_right h3.le h2
    _ = 0.995 * (x ^ (0.995 : ℝ) * x ^ (0.005 : ℝ)) := by ring
    _ = 0.995 * x := by rw [h1]

/-- **C74**, discrete models with a fast pole or zero (natural frequency at least a tenth of the Nyquist frequency `π/d`, or at the origin), `10⁻¹⁵ ≤ d ≤ 1`, none undamped: fifteen frequencies of the
grid run from `3/4` of the Nyquist frequency to its power `0.995`, with a constant ratio. -/
theorem C74_nyquist_points (hN : SpacingOk N) (hd0 : (10 : ℝ)⁻¹ ^ 15 ≤ d) (hd1 : d ≤ 1) (h : autoFreqGrid N (some d) samples poles zeros = .ok (some w))
    (hfast : ∃ z ∈ poles ++ zeros.filterMap id, 0 ≤ z.im ∧ (z = 0 ∨ Real.pi / 10 ≤ ‖Complex.log z‖))
    (hu : ∀ z ∈ poles ++ zeros.filterMap id, ¬ Undamped N.eps (Complex.log z / d)) :
    ∃ r : ℝ, 3 / 4 * (Real.pi / d) * r ^ 14 = (Real.pi / d) ^ (0.995 : ℝ) ∧ 1 < r ∧ ∀ k ≤ 14, 3 / 4 * (Real.pi / d) * r ^ k ∈ w := by
  obtain ⟨-, h1⟩ := autoFreqGrid_ok h
  have hd : 0 < d := lt_of_lt_of_le (by positivity) hd0
  have hpi := Real.pi_gt_d2
  have hpi4 := Real.pi_lt_d2
  have hP : 0 < Real.pi / d := div_pos Real.pi_pos hd
  have hP3 : 3.14 ≤ Real.pi / d := by rw [le_div_iff₀ hd]; nlinarith
  have hnd : ‖(d : ℂ)‖ = d := by rw [Complex.norm_real, Real.norm_eq_abs, abs_of_pos hd]
  obtain ⟨z, hz, him, hzf⟩ := hfast
  have hz1 : z ≠ 1 := by
    rintro rfl
    rcases hzf with h0 | h0
    · exact one_ne_zero h0
    · rw [Complex.log_one, norm_zero] at h0; linarith
  have hkeep : z ∈ pzKeep (some d) (poles ++ zeros.filterMap id) := mem_pzKeep.mpr ⟨hz, by simpa using hz1, him⟩
  have hne : pzKeep (some d) (poles ++ zeros.filterMap id) ≠ [] := List.ne_nil_of_mem hkeep
  -- the fastest mode
  have hhi : Real.pi / d / 10 ≤ ‖(gridModes N (some d) (poles ++ zeros.filterMap id)).getLastD 0‖ := by
    have hm : (if N.spacing 1000 < ‖z‖ then Complex.log z / d else ((Real.pi / d : ℝ) : ℂ)) ∈ gridModes N (some d) (poles ++ zeros.filterMap id) :=
      mem_gridModes.mpr (List.mem_map.mpr ⟨z, mem_pzDummy_of hkeep, rfl⟩)
    refine le_trans ?_ (le_getLastD hm)
    split_ifs with h2
    · have hz0 : z ≠ 0 := by
        rintro rfl
        rw [norm_zero, hN.thousand] at h2
        exact absurd h2 (not_lt.mpr (by positivity))
      rw [norm_div, hnd, div_right_comm]
      exact div_le_div_of_nonneg_right (hzf.resolve_left hz0) hd.le
    · rw [Complex.norm_real, Real.norm_eq_abs, abs_of_pos hP]; linarith
  -- the upper end is the Nyquist frequency
  have hud : (gridBounds N (some d) ‖(gridModes N (some d) (poles ++ zeros.filterMap id)).headD 0‖ ‖(gridModes N (some d) (poles ++ zeros.filterMap id)).getLastD 0‖).1 =
      Real.logb 10 (Real.pi / d) := by
    have h16 : Real.pi / d / 10 ≤ 10 ^ 16 := by
      rw [div_le_iff₀ (by norm_num), div_le_iff₀ hd]
      calc Real.pi ≤ 10 ^ 16 * 10 * (10 : ℝ)⁻¹ ^ 15 := by norm_num; linarith
        _ ≤ 10 ^ 16 * 10 * d := by gcongr
    have h2 : Real.logb 10 (Real.pi / d) - 1 ≤ Real.logb 10 (min ‖(gridModes N (some d) (poles ++ zeros.filterMap id)).getLastD 0‖ (10 ^ 16)) := by
      have e : Real.logb 10 (Real.pi / d) - 1 = Real.logb 10 (Real.pi / d / 10) := by
        rw [Real.logb_div hP.ne' (by norm_num), Real.logb_self_eq_one (by norm_num)]
      rw [e]
      exact Real.logb_le_logb_of_le (by norm_num) (by positivity) (le_min hhi h16)
    have h3 := Int.le_ceil (Real.logb 10 (min ‖(gridModes N (some d) (poles ++ zeros.filterMap id)).getLastD 0‖ (10 ^ 16)))
    unfold gridBounds
    simp only
    split_ifs
    · exact min_eq_right (sub_le_iff_le_add.mp (h2.trans h3))
    · exact min_eq_right (sub_le_iff_le_add.mp (h2.trans h3))
  have h34 : (10 : ℝ) ^ (Real.logb 10 (Real.pi / d) + Real.logb 10 0.75) = 3 / 4 * (Real.pi / d) := by
    rw [Real.rpow_add (by norm_num), Real.rpow_logb (by norm_num) (by norm_num) hP, Real.rpow_logb (by norm_num) (by norm_num) (by norm_num)]
    norm_num
    ring
  have htop : (10 : ℝ) ^ (0.995 * Real.logb 10 (Real.pi / d)) = (Real.pi / d) ^ (0.995 : ℝ) := by
    rw [mul_comm, Real.rpow_mul (by norm_num), Real.rpow_logb (by norm_num) (by norm_num) hP]
  obtain ⟨s, hs⟩ : ∃ s, s = (0.995 * Real.logb 10 (Real.pi / d) - (Real.logb 10 (Real.pi / d) + Real.logb 10 0.75)) / 14 := ⟨_, rfl⟩
  -- each point
  have hpt : ∀ k : ℕ, 3 / 4 * (Real.pi / d) * ((10 : ℝ) ^ s) ^ k = 10 ^ (Real.logb 10 (Real.pi / d) + Real.logb 10 0.75 + k * s) := fun k => by
    rw [Real.rpow_add (by norm_num), h34, ← Real.rpow_natCast, ← Real.rpow_mul (by norm_num), mul_comm s]
  have h14 : 3 / 4 * (Real.pi / d) * ((10 : ℝ) ^ s) ^ 14 = (Real.pi / d) ^ (0.995 : ℝ) := by
    rw [hpt, ← htop, hs]
    congr 1
    push_cast
    ring
  have hbelow : (Real.pi / d) ^ (0.995 : ℝ) ≤ 0.995 * (Real.pi / d) := rpow_below hP3
  have hs0 : 0 < s := by
    have e : s = (-(0.005 * Real.logb 10 (Real.pi / d)) - Real.logb 10 0.75) / 14 := by rw [hs]; ring
    have h17 : Real.logb 10 (Real.pi / d) ≤ 17 := by
      rw [Real.logb_le_iff_le_rpow (by norm_num) hP, div_le_iff₀ hd]
      calc Real.pi ≤ (10 : ℝ) ^ (17 : ℕ) * (10 : ℝ)⁻¹ ^ 15 := by norm_num; linarith
        _ ≤ (10 : ℝ) ^ (17 : ℝ) * d := by rw [← Real.rpow_natCast]; push_cast; gcongr
    have h75 : Real.logb 10 0.75 < -0.1 := by
      rw [Real.logb_lt_iff_lt_rpow (by norm_num) (by norm_num)]
      refine lt_of_pow_lt_pow_left₀ 10 (by positivity) ?_
      rw [← Real.rpow_natCast (10 ^ (-0.1 : ℝ)), ← Real.rpow_mul (by norm_num)]
      norm_num
    rw [e]
    exact div_pos (by linarith) (by norm_num)
  have hr : 1 < (10 : ℝ) ^ s := Real.one_lt_rpow (by norm_num) hs0
  refine ⟨10 ^ s, h14, hr, fun k hk => ?_⟩
  rw [modesGrid_ok h1]
  refine mem_gridDrop.mpr ⟨?_, fun u hum hdamp => ?_⟩
  · have hmem : 3 / 4 * (Real.pi / d) * ((10 : ℝ) ^ s) ^ k ∈ (rawGrid N (some d) samples (poles ++ zeros.filterMap id)).mergeSort fun x y => decide (x ≤ y) := by
      rw [List.mem_mergeSort]
      unfold rawGrid
      simp only
      refine List.mem_append_right _ (List.mem_append_right _ ?_)
      rw [hud]
      unfold gridNyquist logspace
      rw [if_pos (by rfl)]
      refine List.mem_map.mpr ⟨k, List.mem_range.mpr (by omega), ?_⟩
      rw [hpt, hs]
      norm_num
    unfold gridCut
    simp only
    split_ifs
    · refine List.mem_filter.mpr ⟨hmem, ?_⟩
      rw [decide_eq_true_eq]
      calc 3 / 4 * (Real.pi / d) * ((10 : ℝ) ^ s) ^ k ≤ 3 / 4 * (Real.pi / d) * ((10 : ℝ) ^ s) ^ 14 := by
            refine mul_le_mul_of_nonneg_left (pow_le_pow_right₀ hr.le hk) (by positivity)
        _ = (Real.pi / d) ^ (0.995 : ℝ) := h14
        _ ≤ _ := hbelow
    · exact hmem
  · exfalso
    have hpos : 0 < ‖u‖ := gridModes_pos (fun t ht => by cases ht; exact hd) (by rw [hN.thousand]; positivity) hum
    have hund : Undamped N.eps u := (dampFact_lt hpos).mp hdamp
    obtain ⟨v, hv, rfl⟩ := List.mem_map.mp (mem_gridModes.mp hum)
    unfold pzDummy at hv
    rw [if_neg hne] at hv
    split_ifs at hund with h2
    · exact hu v (mem_pzKeep.mp hv).1 hund
    · unfold Undamped at hund
      rw [Complex.norm_real, Complex.ofReal_re, Real.norm_eq_abs] at hund
      have hsq : √N.eps ≤ 1 := by rw [hN.one]; exact Real.sqrt_le_one.mpr (by norm_num)
      nlinarith [abs_nonneg (Real.pi / d)]

/-- A model with a pole at the origin, sampled with period `1`, meets the hypotheses. -/
example (hN : SpacingOk N) : ∃ w, autoFreqGrid N (some 1) none [0] [] = .ok (some w) ∧ ∃ r : ℝ, 3 / 4 * Real.pi * r ^ 14 = Real.pi ^ (0.995 : ℝ) ∧ 1 < r ∧ ∀ k ≤ 14, 3 / 4 * Real.pi * r ^ k ∈ w := by
  obtain ⟨w, hw⟩ := C74_discrete (N := N) (samples := none) (poles := [0]) (zeros := []) one_pos (by simp)
  refine ⟨w, hw, ?_⟩
  have := C74_nyquist_points hN (by norm_num) le_rfl hw ⟨0, by simp, le_rfl, Or.inl rfl⟩ (by simp [Undamped])
  simpa using this

end Harold
