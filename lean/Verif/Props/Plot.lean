import Verif.Model.Freq
import Mathlib.Analysis.SpecialFunctions.Log.Base
import Mathlib.Data.List.MinMax
import Mathlib.Tactic.Linarith

/-!
# C47: the frequency grids of the plots
-/

namespace Harold

theorem logspace_ne {a b : ℝ} {k : ℕ} (h : 0 < k) : logspace a b k ≠ [] := by
  unfold logspace
  simp
  omega

theorem logspace_head {a b : ℝ} {k : ℕ} (h : 0 < k) : (logspace a b k).head? = some ((10 : ℝ) ^ a) := by
  obtain ⟨k, rfl⟩ := Nat.exists_eq_succ_of_ne_zero (by omega : k ≠ 0)
  simp [logspace, List.range_succ_eq_map]

theorem logspace_last {a b : ℝ} {k : ℕ} (h : 1 < k) : (logspace a b k).getLast? = some ((10 : ℝ) ^ b) := by
  obtain ⟨k, rfl⟩ := Nat.exists_eq_succ_of_ne_zero (by omega : k ≠ 0)
  have hk : (k : ℝ) ≠ 0 := by norm_cast; omega
  simp [logspace, List.range_succ]
  congr 1
  field_simp
  ring

theorem logspace_one {a b : ℝ} : logspace a b 1 = [(10 : ℝ) ^ a] := by
  simp [logspace]

theorem pow_logb {x : ℝ} (h : 0 < x) : (10 : ℝ) ^ Real.logb 10 x = x := Real.rpow_logb (by norm_num) (by norm_num) h

theorem padCount_pos {g : Bool} {x : ℝ} (h : 0 < x) : 0 < padCount g x := by
  unfold padCount
  split_ifs
  · omega
  · exact Nat.ceil_pos.mpr (by positivity)

theorem headD_eq {g : List ℝ} {x : ℝ} (h : g.head? = some x) : g.headD 0 = x := by
  cases g <;> simp_all

theorem getLastD_eq {g : List ℝ} {x : ℝ} (h : g.getLast? = some x) : g.getLastD 0 = x := by
  rw [List.getLastD_eq_getLast?, h]
  rfl

/-- **C47**: a system whose own grid ends at the largest frequency of all systems, or a discrete one (truncated at Nyquist), is given its own grid
extended to the left down to the smallest frequency.
`_partial`: for the other systems the extension to the left is lost (`C47_left_violated`); none of this reaches the plots of the second and
further systems (`C47_plot_violated`). -/
theorem C47_left_partial {minw maxw w0 w1 : ℝ} {s : PlotSys} (hmin : 0 < minw) (h0 : s.grid.head? = some w0) (h1 : s.grid.getLast? = some w1)
    (hle : minw ≤ w0) (hr : w1 = maxw ∨ s.discrete = true) :
    ∃ pad, padGrid minw maxw s = pad ++ s.grid ∧ (padGrid minw maxw s).head? = some minw ∧ (padGrid minw maxw s).getLast? = some w1 := by
  unfold padGrid
  simp only [headD_eq h0, getLastD_eq h1]
  rw [if_neg (by rcases hr with rfl | hr; · simp
                 · simp [hr])]
  split_ifs with h2
  · refine ⟨_, rfl, ?_, ?_⟩
    · have hp := padCount_pos (g := s.isgain) (sub_pos.mpr (Real.logb_lt_logb (b := 10) (by norm_num) hmin h2))
      rw [List.head?_append, logspace_head hp, pow_logb hmin]
      rfl
    · rw [List.getLast?_append, h1]
      rfl
  · refine ⟨[], rfl, ?_, h1⟩
    rw [h0, le_antisymm (not_lt.mp h2) hle]

/-- **C47**: a continuous system whose own grid starts at the smallest frequency of all systems is given its own grid extended to the right; the
extension reaches the largest frequency if it has two points at least (`C47_short_violated` for one point). -/
theorem C47_right_partial {minw maxw w0 w1 : ℝ} {s : PlotSys} (hmin : 0 < w1) (h0 : s.grid.head? = some w0) (h1 : s.grid.getLast? = some w1)
    (hle : w1 ≤ maxw) (hl : minw = w0) (hd : s.discrete = false)
    (hc : w1 < maxw → 1 < padCount s.isgain (Real.logb 10 maxw - Real.logb 10 w1)) :
    ∃ pad, padGrid minw maxw s = s.grid ++ pad ∧ (padGrid minw maxw s).head? = some minw ∧ (padGrid minw maxw s).getLast? = some maxw := by
  unfold padGrid
  simp only [headD_eq h0, getLastD_eq h1]
  by_cases h2 : w1 < maxw
  · rw [if_pos ⟨h2, hd⟩]
    refine ⟨_, rfl, ?_, ?_⟩
    · rw [List.head?_append, h0, hl]
      rfl
    · rw [List.getLast?_append, logspace_last (hc h2), pow_logb (hmin.trans h2)]
      rfl
  · rw [if_neg (by simp [h2]), if_neg (by simp [hl])]
    refine ⟨[], by simp, by rw [h0, hl], ?_⟩
    rw [h1, le_antisymm hle (not_lt.mp h2)]

/-- The numbers `minw` and `maxw` of the theorems above are the smallest first and the largest last frequency over all systems. Missing from the full claim: the extended grids do not reach `minw` (`C47_left_violated`). -/
theorem C47_range_partial {sys : List PlotSys} {i : ℕ} {s : PlotSys} (h : sys[i]? = some s) :
    ∃ minw maxw, (commonGrid sys)[i]? = some (padGrid minw maxw s) ∧
      ((∃ t ∈ sys, t.grid.headD 0 = minw) ∧ ∀ t ∈ sys, minw ≤ t.grid.headD 0) ∧
      ((∃ t ∈ sys, t.grid.getLastD 0 = maxw) ∧ ∀ t ∈ sys, t.grid.getLastD 0 ≤ maxw) := by
  have hne : sys ≠ [] := by rintro rfl; simp at h
  obtain ⟨mn, hmn⟩ : ∃ x, (sys.map fun s => s.grid.headD 0).min? = some x := by
    cases hh : (sys.map fun s => s.grid.headD 0).min? with
    | none => rw [List.min?_eq_none_iff, List.map_eq_nil_iff] at hh; exact absurd hh hne
    | some x => exact ⟨x, rfl⟩
  obtain ⟨mx, hmx⟩ : ∃ x, (sys.map fun s => s.grid.getLastD 0).max? = some x := by
    cases hh : (sys.map fun s => s.grid.getLastD 0).max? with
    | none => rw [List.max?_eq_none_iff, List.map_eq_nil_iff] at hh; exact absurd hh hne
    | some x => exact ⟨x, rfl⟩
  refine ⟨mn, mx, ?_, ?_, ?_⟩
  · unfold commonGrid
    rw [hmn, hmx]
    simp [h]
  · rw [List.min?_eq_some_iff] at hmn
    simpa using hmn
  · rw [List.max?_eq_some_iff] at hmx
    simpa using hmx

/-- **C47** fails for a continuous system whose grid must be extended on both sides: the result starts at the first frequency of its own grid, not at the
smallest one. -/
theorem C47_left_violated {minw maxw w0 w1 : ℝ} {s : PlotSys} (h0 : s.grid.head? = some w0) (h1 : s.grid.getLast? = some w1)
    (hmax : w1 < maxw) (hlt : minw < w0) (hd : s.discrete = false) :
    (padGrid minw maxw s).head? = some w0 ∧ some w0 ≠ some minw := by
  unfold padGrid
  simp only [headD_eq h0, getLastD_eq h1]
  rw [if_pos ⟨hmax, hd⟩, List.head?_append, h0]
  exact ⟨rfl, by simp [hlt.ne']⟩

/-- **C47** fails at the right end when the missing range is at most 1/15 of a decade: the extension consists of the last point of the own grid. -/
theorem C47_short_violated {minw maxw w0 w1 : ℝ} {s : PlotSys} (hpos : 0 < w1) (h0 : s.grid.head? = some w0) (h1 : s.grid.getLast? = some w1)
    (hmax : w1 < maxw) (hs : Real.logb 10 maxw - Real.logb 10 w1 ≤ 1 / 15) (hg : s.isgain = false) (hd : s.discrete = false) :
    padGrid minw maxw s = s.grid ++ [w1] := by
  unfold padGrid
  simp only [headD_eq h0, getLastD_eq h1]
  have hp := sub_pos.mpr (Real.logb_lt_logb (b := 10) (by norm_num) hpos hmax)
  have h2 : padCount s.isgain (Real.logb 10 maxw - Real.logb 10 w1) = 1 := by
    have h3 := padCount_pos (g := s.isgain) hp
    refine le_antisymm ?_ h3
    unfold padCount
    rw [hg, if_neg (by simp)]
    exact Nat.ceil_le.mpr (by push_cast; linarith)
  rw [if_pos ⟨hmax, hd⟩, h2, logspace_one, pow_logb hpos]

theorem plotLoop_some (useHz : Bool) (W : List (List ℝ)) (w : List ℝ) : plotLoop useHz W (some w) = W.map fun _ => some w := by
  induction W with
  | nil => rfl
  | cons g W ih => simp [plotLoop, ih]

/-- **C47** fails in the plots: every drawn system is evaluated on the grid of the first one. -/
theorem C47_plot_violated (useHz : Bool) {styles : ℕ} (s : PlotSys) (sys : List PlotSys) (h : 0 < styles) :
    ∃ w, plotGrids useHz styles (s :: sys) = List.replicate (min styles (sys.length + 1)) (some w) ∧
      w = ((commonGrid (s :: sys)).headD []).map fun x => if useHz then x / (2 * Real.pi) else x := by
  obtain ⟨k, rfl⟩ := Nat.exists_eq_succ_of_ne_zero (by omega : styles ≠ 0)
  unfold plotGrids
  obtain ⟨g, W, hW⟩ : ∃ g W, commonGrid (s :: sys) = g :: W := ⟨_, _, rfl⟩
  have hl : W.length = sys.length := by
    have := congrArg List.length hW
    simpa [commonGrid] using this.symm
  rw [hW, List.take_succ_cons]
  refine ⟨_, ?_, rfl⟩
  simp only [plotLoop, plotLoop_some, List.headD_cons]
  have e : (if useHz then g.map fun x => x / (2 * Real.pi) else g) = g.map fun x => if useHz then x / (2 * Real.pi) else x := by
    cases useHz <;> simp
  rw [e, List.map_const', List.length_take, hl, Nat.succ_min_succ]
  rfl

/-- **C47** fails for many systems: those beyond the length of the property cycle (ten by default) are not drawn. -/
theorem C47_styles_violated (useHz : Bool) {styles : ℕ} {sys : List PlotSys} (h0 : 0 < styles) (h : styles < sys.length) :
    (plotGrids useHz styles sys).length < sys.length := by
  cases sys with
  | nil => simp at h
  | cons s sys =>
    obtain ⟨w, h1, -⟩ := C47_plot_violated useHz s sys h0
    rw [h1, List.length_replicate]
    simp only [List.length_cons] at h ⊢
    omega

/-! ## Witnesses -/

/-- One system on `[1, 10]`, one on `[0.1, 100]`: the first is not extended to `0.1`, the second is drawn on the grid of the first. -/
example : ((commonGrid [⟨[1, 10], false, false⟩, ⟨[1 / 10, 100], false, false⟩]).headD []).head? = some 1 := by
  have h := (C47_left_violated (minw := 1 / 10) (maxw := 100) (w0 := 1) (w1 := 10) (s := ⟨[1, 10], false, false⟩) rfl rfl (by norm_num) (by norm_num)
    rfl).1
  have e1 : min (1 : ℝ) (1 / 10) = 1 / 10 := by norm_num
  have e2 : max (10 : ℝ) 100 = 100 := by norm_num
  simp only [commonGrid, List.map_cons, List.map_nil, List.headD_cons, List.min?_cons, List.max?_cons, List.min?_nil, List.max?_nil, Option.elim_some,
    Option.elim_none, Option.getD_some, List.getLastD_cons, List.getLastD_nil, e1, e2]
  exact h

/-- `C47_left_partial` and `C47_right_partial` apply to the two systems with the grids `[1, 100]` and `[0.1, 10]`. -/
example : (padGrid (1 / 10) 100 ⟨[1, 100], false, false⟩).head? = some (1 / 10) := by
  obtain ⟨_, _, h, _⟩ := C47_left_partial (minw := 1 / 10) (maxw := 100) (w0 := 1) (w1 := 100) (s := ⟨[1, 100], false, false⟩) (by norm_num) rfl rfl
    (by norm_num) (.inl rfl)
  exact h

example : (padGrid (1 / 10) 100 ⟨[1 / 10, 10], true, false⟩).getLast? = some 100 := by
  obtain ⟨_, _, _, h⟩ := C47_right_partial (minw := 1 / 10) (maxw := 100) (w0 := 1 / 10) (w1 := 10) (s := ⟨[1 / 10, 10], true, false⟩) (by norm_num) rfl rfl
    (by norm_num) rfl rfl (fun _ => by simp [padCount])
  exact h

end Harold
