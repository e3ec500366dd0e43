import Verif.Spec.FreqAuto
import Verif.Props.Freq
import Verif.Props.TransZeros

/-!
# Lemmas on the automatic frequency grid
-/

namespace Harold

open Classical Spec

variable {N : GridNum} {dt : Option ℝ} {samples : Option ℕ} {l : List ℂ}

theorem mem_pzKeep {z : ℂ} : z ∈ pzKeep dt l ↔ z ∈ l ∧ z ≠ (if dt.isSome then 1 else 0) ∧ 0 ≤ z.im := by
  simp [pzKeep]

theorem pzDummy_ne_nil : pzDummy dt l ≠ [] := by
  unfold pzDummy
  split_ifs <;> simp_all

theorem gridModes_ne_nil : gridModes N dt l ≠ [] := by
  intro h
  have h1 : pzMap N dt (pzDummy dt (pzKeep dt l)) = [] := by
    have := (List.mergeSort_perm (pzMap N dt (pzDummy dt (pzKeep dt l))) fun x y => decide (‖x‖ ≤ ‖y‖)).length_eq
    unfold gridModes at h
    rw [h] at this
    exact List.length_eq_zero_iff.mp this.symm
  unfold pzMap at h1
  split at h1
  · exact pzDummy_ne_nil h1
  · exact pzDummy_ne_nil (List.map_eq_nil_iff.mp h1)

theorem mem_gridModes {z : ℂ} : z ∈ gridModes N dt l ↔ z ∈ pzMap N dt (pzDummy dt (pzKeep dt l)) := by
  unfold gridModes
  rw [List.mem_mergeSort]

theorem mem_pzDummy_of {z : ℂ} (hz : z ∈ l) : z ∈ pzDummy dt l := by
  unfold pzDummy
  rw [if_neg (List.ne_nil_of_mem hz)]
  exact hz

theorem pzDummy_ne_int {z : ℂ} (hz : z ∈ pzDummy dt (pzKeep dt l)) : z ≠ (if dt.isSome then 1 else 0) := by
  unfold pzDummy at hz
  split_ifs at hz with h1 h2
  · rw [if_pos h2]
    rcases List.mem_cons.mp hz with rfl | hz
    · norm_num
    · rw [List.mem_singleton.mp hz]
      norm_num
  · rw [if_neg h2]
    rcases List.mem_cons.mp hz with rfl | hz
    · norm_num
    · rw [List.mem_singleton.mp hz]
      norm_num
  · exact (mem_pzKeep.mp hz).2.1

/-- The natural frequencies are positive. -/
theorem gridModes_pos (hdt : DtOk dt) (hsp : 0 ≤ N.spacing 1000) {z : ℂ} (hz : z ∈ gridModes N dt l) : 0 < ‖z‖ := by
  rw [mem_gridModes] at hz
  rw [norm_pos_iff]
  cases dt with
  | none => exact pzDummy_ne_int hz
  | some d =>
    have hd := hdt d rfl
    obtain ⟨y, hy, rfl⟩ := List.mem_map.mp hz
    split_ifs with h
    · refine div_ne_zero (fun h0 => ?_) (by exact_mod_cast hd.ne')
      have h1 : y ≠ 0 := norm_pos_iff.mp (lt_of_le_of_lt hsp h)
      have h2 := Complex.exp_log h1
      rw [h0, Complex.exp_zero] at h2
      exact pzDummy_ne_int hy h2.symm
    · exact_mod_cast (div_pos Real.pi_pos hd).ne'

theorem gridModes_sorted : (gridModes N dt l).Pairwise fun x y => ‖x‖ ≤ ‖y‖ := by
  have h := List.pairwise_mergeSort (le := fun x y : ℂ => decide (‖x‖ ≤ ‖y‖)) (fun a b c h1 h2 => by
      simp only [decide_eq_true_eq] at *
      exact h1.trans h2) (fun a b => by
      simp only [Bool.or_eq_true, decide_eq_true_eq]
      exact le_total _ _) (pzMap N dt (pzDummy dt (pzKeep dt l)))
  exact h.imp fun h => by simpa using h

theorem headD_le {z : ℂ} (hz : z ∈ gridModes N dt l) : ‖(gridModes N dt l).headD 0‖ ≤ ‖z‖ := by
  have hs := gridModes_sorted (N := N) (dt := dt) (l := l)
  generalize gridModes N dt l = m at hz hs
  cases m with
  | nil => cases hz
  | cons a m =>
    rcases List.mem_cons.mp hz with rfl | hz
    · exact le_refl _
    · exact (List.pairwise_cons.mp hs).1 z hz

theorem le_getLastD {z : ℂ} (hz : z ∈ gridModes N dt l) : ‖z‖ ≤ ‖(gridModes N dt l).getLastD 0‖ := by
  have hs := gridModes_sorted (N := N) (dt := dt) (l := l)
  generalize gridModes N dt l = m at hz hs
  induction m using List.reverseRecOn with
  | nil => cases hz
  | append_singleton m a _ =>
    rw [List.getLastD_concat]
    rcases List.mem_append.mp hz with hz | hz
    · exact (List.pairwise_append.mp hs).2.2 z hz a (List.mem_singleton.mpr rfl)
    · rw [List.mem_singleton.mp hz]

theorem headD_mem : (gridModes N dt l).headD 0 ∈ gridModes N dt l := by
  have h := gridModes_ne_nil (N := N) (dt := dt) (l := l)
  generalize gridModes N dt l = m at h
  cases m with
  | nil => exact absurd rfl h
  | cons a m => exact List.mem_cons_self

theorem getLastD_mem : (gridModes N dt l).getLastD 0 ∈ gridModes N dt l := by
  have h := gridModes_ne_nil (N := N) (dt := dt) (l := l)
  generalize gridModes N dt l = m at h
  induction m using List.reverseRecOn with
  | nil => exact absurd rfl h
  | append_singleton m a _ =>
    rw [List.getLastD_concat]
    exact List.mem_append_right _ (List.mem_singleton.mpr rfl)

/-! ## Points -/

theorem logspace_pos {a b : ℝ} {n : ℕ} {x : ℝ} (hx : x ∈ logspace a b n) : 0 < x := by
  obtain ⟨k, -, rfl⟩ := List.mem_map.mp hx
  exact Real.rpow_pos_of_pos (by norm_num) _

theorem pointsAround_pos {x : ℝ} {w : Option ℝ} {n : ℕ} {y : ℝ} (hy : y ∈ pointsAround x w n) : 0 < y := by
  unfold pointsAround at hy
  have h1 : ∀ {y}, y ∈ pointsLeft x n → 0 < y := fun hy => by
    obtain ⟨k, -, rfl⟩ := List.mem_map.mp hy
    exact Real.rpow_pos_of_pos (by norm_num) _
  rcases List.mem_append.mp hy with hy | hy
  · cases w with
    | none => exact h1 hy
    | some w => exact h1 (List.mem_filter.mp hy).1
  · obtain ⟨k, -, rfl⟩ := List.mem_map.mp hy
    exact Real.rpow_pos_of_pos (by norm_num) _

theorem mem_pointsAround {x : ℝ} (hx : 0 < x) (w : Option ℝ) {n : ℕ} (hn : 0 < n) : x ∈ pointsAround x w n := by
  refine List.mem_append_right _ (List.mem_map.mpr ⟨Real.logb 10 x + (|(⌈Real.logb 10 x⌉ : ℝ)| + 1), List.mem_map.mpr ⟨0, List.mem_range.mpr hn, ?_⟩, ?_⟩)
  · simp
  · rw [add_sub_cancel_right]
    exact Real.rpow_logb (by norm_num) (by norm_num) hx

theorem gridNum_pos (N : GridNum) (z : ℂ) : 0 < gridNum N z := by
  unfold gridNum
  split_ifs
  · have := le_max_left (5 : ℤ) (5 - ⌈Real.logb 10 (max (dampFact z) √N.eps)⌉)
    omega
  · norm_num

theorem gridExtra_append (ms : List ℂ) : ∀ (w : List ℝ), (∀ x ∈ w, 0 < x) →
    (∀ x ∈ ms.foldl (fun w z => w ++ pointsAround (gridCentre N z) w.getLast? (gridNum N z)) w, 0 < x) ∧
    (∀ x ∈ w, x ∈ ms.foldl (fun w z => w ++ pointsAround (gridCentre N z) w.getLast? (gridNum N z)) w) ∧
    ∀ z ∈ ms, 0 < gridCentre N z → gridCentre N z ∈ ms.foldl (fun w z => w ++ pointsAround (gridCentre N z) w.getLast? (gridNum N z)) w := by
  induction ms with
  | nil => exact fun w h => ⟨h, fun x hx => hx, by simp⟩
  | cons a ms ih =>
    intro w h
    obtain ⟨h1, h2, h3⟩ := ih (w ++ pointsAround (gridCentre N a) w.getLast? (gridNum N a)) fun x hx => by
      rcases List.mem_append.mp hx with hx | hx
      · exact h x hx
      · exact pointsAround_pos hx
    refine ⟨h1, fun x hx => h2 x (List.mem_append_left _ hx), fun z hz hp => ?_⟩
    rcases List.mem_cons.mp hz with rfl | hz
    · exact h2 _ (List.mem_append_right _ (mem_pointsAround hp _ (gridNum_pos N z)))
    · exact h3 z hz hp

theorem gridExtra_pos {ms : List ℂ} {x : ℝ} (hx : x ∈ gridExtra N ms) : 0 < x := (gridExtra_append ms [] (by simp)).1 x hx

theorem centre_mem {ms : List ℂ} {z : ℂ} (hz : z ∈ ms) (h : 0 < gridCentre N z) : gridCentre N z ∈ gridExtra N ms :=
  (gridExtra_append ms [] (by simp)).2.2 z hz h

theorem mem_gridDrop {ms : List ℂ} {w : List ℝ} {x : ℝ} :
    x ∈ gridDrop N ms w ↔ x ∈ w ∧ ∀ z ∈ ms, dampFact z < √N.eps → ¬ |x - ‖z‖| < 100 * N.eps := by
  unfold gridDrop
  have h : ∀ (l : List ℂ) (w : List ℝ), x ∈ l.foldl (fun w z => w.filter fun x => decide (¬ |x - ‖z‖| < 100 * N.eps)) w ↔
      x ∈ w ∧ ∀ z ∈ l, ¬ |x - ‖z‖| < 100 * N.eps := by
    intro l
    induction l with
    | nil => simp
    | cons a l ih =>
      intro w
      rw [List.foldl_cons, ih, List.mem_filter]
      simp only [List.mem_cons, forall_eq_or_imp, decide_eq_true_eq]
      tauto
  rw [h]
  simp only [List.mem_filter, decide_eq_true_eq, and_imp]

theorem gridDrop_sublist {ms : List ℂ} {w : List ℝ} : (gridDrop N ms w).Sublist w := by
  unfold gridDrop
  generalize ms.filter _ = l
  induction l generalizing w with
  | nil => exact List.Sublist.refl _
  | cons a l ih => exact ih.trans List.filter_sublist

theorem gridCut_sublist {w : List ℝ} : (gridCut dt w).Sublist w := by
  unfold gridCut
  split
  · exact List.Sublist.refl _
  · split_ifs
    · exact List.filter_sublist
    · exact List.Sublist.refl _

theorem sorted_sort (w : List ℝ) : (w.mergeSort fun x y => decide (x ≤ y)).Pairwise (· ≤ ·) := by
  have h := List.pairwise_mergeSort (le := fun x y : ℝ => decide (x ≤ y)) (fun a b c h1 h2 => by
      simp only [decide_eq_true_eq] at *
      exact h1.trans h2) (fun a b => by
      simp only [Bool.or_eq_true, decide_eq_true_eq]
      exact le_total _ _) w
  exact h.imp fun h => by simpa using h

theorem gridCut_le {d : ℝ} {w : List ℝ} (hs : w.Pairwise (· ≤ ·)) {x : ℝ} (hx : x ∈ gridCut (some d) w) : x ≤ 0.995 * (Real.pi / d) := by
  unfold gridCut at hx
  simp only at hx
  split_ifs at hx with h
  · simpa using (List.mem_filter.mp hx).2
  · refine le_trans ?_ (not_lt.mp h)
    clear h
    induction w using List.reverseRecOn with
    | nil => cases hx
    | append_singleton m a _ =>
      rw [List.getLastD_concat]
      rcases List.mem_append.mp hx with hx | hx
      · exact (List.pairwise_append.mp hs).2.2 x hx a (List.mem_singleton.mpr rfl)
      · rw [List.mem_singleton.mp hx]

/-- The points before sorting. -/
noncomputable def rawGrid (N : GridNum) (dt : Option ℝ) (samples : Option ℕ) (l : List ℂ) : List ℝ :=
  let b := gridBounds N dt ‖(gridModes N dt l).headD 0‖ ‖(gridModes N dt l).getLastD 0‖
  logspace b.2 b.1 (gridSamples samples b.1 b.2).toNat ++ (gridExtra N (gridModes N dt l) ++ gridNyquist dt b.1)

theorem modesGrid_ok {w : List ℝ} (h : modesGrid N dt samples l = .ok w) :
    w = gridDrop N (gridModes N dt l) (gridCut dt ((rawGrid N dt samples l).mergeSort fun x y => decide (x ≤ y))) := by
  unfold modesGrid at h
  simp only at h
  split_ifs at h with h1
  cases h
  rfl

theorem rawGrid_pos {x : ℝ} (hx : x ∈ rawGrid N dt samples l) : 0 < x := by
  unfold rawGrid at hx
  rcases List.mem_append.mp hx with hx | hx
  · exact logspace_pos hx
  · rcases List.mem_append.mp hx with hx | hx
    · exact gridExtra_pos hx
    · unfold gridNyquist at hx
      split_ifs at hx
      · exact logspace_pos hx
      · cases hx

theorem autoFreqGrid_ok {poles : List ℂ} {zeros : List (Option ℂ)} {w : List ℝ} (h : autoFreqGrid N dt samples poles zeros = .ok (some w)) :
    none ∉ zeros ∧ modesGrid N dt samples (poles ++ zeros.filterMap id) = .ok w := by
  unfold autoFreqGrid at h
  split_ifs at h with h1
  · cases h
  refine ⟨h1, ?_⟩
  cases h2 : modesGrid N dt samples (poles ++ zeros.filterMap id) with
  | error e => rw [h2] at h; cases h
  | ok v => rw [h2] at h; cases h; rfl

end Harold
