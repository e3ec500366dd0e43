import Verif.Spec.AutoGrid
import Verif.Props.Sim

/-!
# C60: automatic simulation grids
-/

namespace Harold

open Matrix Spec Classical

variable {P : Type} {Nm : Numerics ℝ P} {E : DNum} {S : StateObj ℝ P} {m p : ℕ} {A : AutoNum}

theorem sqrtEps_pos : 0 < sqrtEps := by unfold sqrtEps; positivity

theorem log100_pos : 0 < Real.log 100 := Real.log_pos (by norm_num)

theorem foldl_max_pos : ∀ (l : List ℝ) (x : ℝ), 0 < x → 0 < l.foldl max x
  | [], _, h => h
  | y :: l, x, h => foldl_max_pos l (max x y) (lt_max_of_lt_left h)

theorem foldl_min_pos : ∀ (l : List ℝ) (x : ℝ), 0 < x → (∀ y ∈ l, 0 < y) → 0 < l.foldl min x
  | [], _, h, _ => h
  | y :: l, x, h, hl => foldl_min_pos l (min x y) (lt_min h (hl y (by simp))) fun z hz => hl z (by simp [hz])

theorem realMax_pos {l : List ℝ} (h : l ≠ []) (hl : ∀ y ∈ l, 0 < y) : ∃ r, realMax l = .ok r ∧ 0 < r := by
  cases l with
  | nil => exact absurd rfl h
  | cons x l => exact ⟨_, rfl, foldl_max_pos l x (hl x (by simp))⟩

theorem arrMin_pos {l : List ℝ} (h : l ≠ []) (hl : ∀ y ∈ l, 0 < y) : ∃ r, arrMin l = .ok r ∧ 0 < r := by
  cases l with
  | nil => exact absurd rfl h
  | cons x l => exact ⟨_, rfl, foldl_min_pos l x (hl x (by simp)) fun y hy => hl y (by simp [hy])⟩

theorem foldl_max_fin : ∀ (l : List (WithTop ℝ)) (x : ℝ), (∀ y ∈ l, ∃ r : ℝ, y = r) → ∃ r : ℝ, l.foldl max (x : WithTop ℝ) = r
  | [], x, _ => ⟨x, rfl⟩
  | y :: l, x, h => by
    obtain ⟨r, rfl⟩ := h y (by simp)
    rw [List.foldl_cons, ← WithTop.coe_max]
    exact foldl_max_fin l (max x r) fun z hz => h z (by simp [hz])

theorem arrMax_fin {l : List (WithTop ℝ)} (h : l ≠ []) (hl : ∀ y ∈ l, ∃ r : ℝ, y = r) : ∃ r : ℝ, arrMax l = .ok (r : WithTop ℝ) := by
  cases l with
  | nil => exact absurd rfl h
  | cons x l =>
    obtain ⟨r, rfl⟩ := hl x (by simp)
    obtain ⟨r', e⟩ := foldl_max_fin l r fun y hy => hl y (by simp [hy])
    exact ⟨r', congrArg Except.ok e⟩

theorem foldl_max_top : ∀ (l : List (WithTop ℝ)) (x : WithTop ℝ), (x = ⊤ ∨ ⊤ ∈ l) → l.foldl max x = ⊤
  | [], x, h => by simpa using h
  | y :: l, x, h => by
    rw [List.foldl_cons]
    refine foldl_max_top l _ ?_
    rcases h with rfl | h
    · simp
    · rcases List.mem_cons.mp h with h | h
      · rw [← h]; simp
      · exact .inr h

/-! ## Continuous time -/

theorem clampPoints_spec {tf dt : ℝ} (h1 : 0 < tf) (h2 : 0 < dt) :
    0 < (clampPoints tf dt).2 ∧ 100 ≤ (clampPoints tf dt).1 / (clampPoints tf dt).2 ∧ (clampPoints tf dt).1 / (clampPoints tf dt).2 < 10001 := by
  unfold clampPoints
  simp only
  set d := if 10000 < ⌊tf / dt⌋ then tf / 10000 else dt with hd
  have hdp : 0 < d := by rw [hd]; split_ifs <;> positivity
  have hup : tf / d < 10001 := by
    rw [hd]
    split_ifs with h
    · rw [div_div_eq_mul_div, mul_comm, mul_div_assoc, div_self h1.ne']; norm_num
    · push Not at h
      have := Int.lt_floor_add_one (tf / dt)
      have h' : ((⌊tf / dt⌋ : ℤ) : ℝ) ≤ 10000 := by exact_mod_cast h
      linarith
  refine ⟨hdp, ?_, ?_⟩
  · split_ifs with h
    · rw [mul_comm, mul_div_assoc, div_self hdp.ne']; norm_num
    · push Not at h
      have h' : (100 : ℝ) ≤ ((⌊tf / d⌋ : ℤ) : ℝ) := by exact_mod_cast h
      exact h'.trans (Int.floor_le _)
  · split_ifs with h
    · rw [mul_comm, mul_div_assoc, div_self hdp.ne']; norm_num
    · exact hup

/-- Whatever the modes are, the horizon covers between 100 and 10001 steps. -/
theorem contGrid_spec (isStep : Bool) {l : List Mode} (hl : l ≠ []) :
    ∃ tf ts, contGrid isStep l = .ok (tf, ts) ∧ 0 < ts ∧ 100 ≤ tf / ts ∧ tf / ts < 10001 := by
  have hd : ∃ d, realMax (l.map (modeDc isStep)) = .ok d := by
    cases l with
    | nil => exact absurd rfl hl
    | cons x l => exact ⟨_, rfl⟩
  obtain ⟨d, hd⟩ := hd
  unfold contGrid
  rw [hd]
  simp only [bind, Except.bind]
  generalize ((l.filter fun μ => decide (1 / 10 * d < modeDc isStep μ) || !μ.ok).map Mode.p) = q
  set iw := q.filter fun z => decide (iwMask z) with hiw
  set rest := q.filter fun z => decide (¬ iwMask z ∧ ¬ ‖z‖ = 0) with hrest
  have hiw' : ∀ z ∈ iw, 0 < ‖z‖ := by
    intro z hz
    rw [hiw, List.mem_filter, decide_eq_true_eq] at hz
    have : z ≠ 0 := fun h => hz.2.1 (by rw [h]; rfl)
    exact norm_pos_iff.mpr this
  have hrest' : ∀ z ∈ rest, 0 < ‖z‖ ∧ 0 < |z.re| := by
    intro z hz
    rw [hrest, List.mem_filter, decide_eq_true_eq] at hz
    obtain ⟨-, h1, h2⟩ := hz
    refine ⟨lt_of_le_of_ne (norm_nonneg _) (Ne.symm h2), abs_pos.mpr fun h => ?_⟩
    refine h1 ⟨fun hi => h2 (norm_eq_zero.mpr (Complex.ext h hi)), ?_⟩
    rw [h, abs_zero]; exact sqrtEps_pos.le
  have hl100 := log100_pos
  have hpi := Real.pi_pos
  generalize hfac : (if ∃ μ ∈ l, ‖μ.p‖ = 0 then (5 : ℝ) else 1) = fac
  have hfp : 0 < fac := by rw [← hfac]; split_ifs <;> norm_num
  split_ifs with h1
  · exact ⟨_, _, rfl, by norm_num, by norm_num, by norm_num⟩
  · obtain ⟨t, ht, htp⟩ := realMax_pos h1 (by
      intro y hy
      rcases List.mem_append.mp hy with hy | hy
      · obtain ⟨z, hz, rfl⟩ := List.mem_map.mp hy
        have := hiw' z hz
        positivity
      · obtain ⟨z, hz, rfl⟩ := List.mem_map.mp hy
        have := (hrest' z hz).2
        positivity)
    obtain ⟨dt, hdt, hdtp⟩ := arrMin_pos (l := (iw.map fun z => 2 * Real.pi / 25 / ‖z‖) ++
      (rest.map fun z => min (Real.log 100 / |z.re| / 50) (2 * Real.pi / 25 / ‖z‖))) (by
      intro h0
      rw [List.append_eq_nil_iff, List.map_eq_nil_iff, List.map_eq_nil_iff] at h0
      exact h1 (by rw [h0.1, h0.2]; rfl)) (by
      intro y hy
      rcases List.mem_append.mp hy with hy | hy
      · obtain ⟨z, hz, rfl⟩ := List.mem_map.mp hy
        have := hiw' z hz
        positivity
      · obtain ⟨z, hz, rfl⟩ := List.mem_map.mp hy
        obtain ⟨h3, h4⟩ := hrest' z hz
        exact lt_min (by positivity) (by positivity))
    rw [ht, hdt]
    exact ⟨_, _, rfl, clampPoints_spec (mul_pos htp hfp) hdtp⟩

theorem arange_spec {tf ts : ℝ} (hts : 0 < ts) : arange (tf + ts) ts = (List.range ⌈tf / ts + 1⌉₊).map (fun k : ℕ => (k : ℝ) * ts) := by
  unfold arange
  rw [add_div, div_self hts.ne']

theorem eqGrid_zero (N : ℕ) (h : ℝ) : eqGrid N 0 h = (List.range N).map (fun k : ℕ => (k : ℝ) * h) := by
  refine List.ext_getElem (by simp [eqGrid]) fun i h1 h2 => ?_
  simp [eqGrid]

/-- Once horizon and step are sane both responses run on the grid. -/
theorem responses_run (hE : BalanceOk E) (hG : Consistent S.g p m) (hdt : DtOk S.g.dt) (hm : 1 ≤ m) {tf ts : ℝ} (hts : 0 < ts) (htf : 0 < tf / ts)
    (hper : ∀ h, S.g.dt = some h → ts = h) :
    (∃ y, stepResponse Nm E S (tf, ts) none = .ok (y, (List.range ⌈tf / ts + 1⌉₊).map (fun k : ℕ => (k : ℝ) * ts))) ∧
    (∃ y, impulseResponse Nm E S (tf, ts) none = .ok (y, (List.range ⌈tf / ts + 1⌉₊).map (fun k : ℕ => (k : ℝ) * ts))) := by
  have hN : 2 ≤ ⌈tf / ts + 1⌉₊ := by
    have : 1 < ⌈tf / ts + 1⌉₊ := Nat.lt_ceil.mpr (by push_cast; linarith)
    omega
  have hgrid : GridOk ((List.range ⌈tf / ts + 1⌉₊).map (fun k : ℕ => (k : ℝ) * ts)) := by
    rw [← eqGrid_zero]; exact eqGrid_ok hN hts
  have hp : PeriodOk S.g.dt ((List.range ⌈tf / ts + 1⌉₊).map (fun k : ℕ => (k : ℝ) * ts)) := by
    intro h hh
    have e := hper h hh
    rw [List.getD_eq_getElem _ _ (by rw [List.length_map, List.length_range]; omega), List.getD_eq_getElem _ _ (by rw [List.length_map, List.length_range]; omega)]
    simp only [List.getElem_map, List.getElem_range, Nat.cast_one, one_mul, Nat.cast_zero, zero_mul, sub_zero, e, sub_self, abs_zero]
    positivity
  obtain rfl : S.g.m = m := hG.1.2
  constructor
  · obtain ⟨y, hy⟩ := C43_accepts (Nm := Nm) hE hG hdt hm hgrid hp rfl (Matrix.of fun _ _ => (1 : ℝ)) true
    refine ⟨y, ?_⟩
    unfold stepResponse responseGrid
    simp only [bind, Except.bind, Arr.ones]
    rw [arange_spec hts]
    exact hy
  · obtain ⟨y, hy⟩ := C43_accepts (Nm := Nm) hE hG hdt hm hgrid hp rfl (Matrix.of fun i _ => if (i : ℕ) = 0 then 1 / ts else 0) true
    refine ⟨y, ?_⟩
    unfold impulseResponse responseGrid
    simp only [bind, Except.bind, impulseU]
    rw [arange_spec hts]
    exact hy

/-- **C60**, continuous time: whatever the modes of the model are, the step and the impulse response without a time argument run on an equidistant grid
`0, ts, 2 ts, ...` of between 101 and 10002 samples. -/
theorem C60_continuous (hE : BalanceOk E) (hG : Consistent S.g p m) (hc : S.g.dt = none) (hm : 1 ≤ m) (hA : S.g.isgain = false → A.modes S.g ≠ []) :
    (∃ y t, stepAuto A Nm E S = .ok (y, t) ∧ UsableGrid S.g.dt t ∧ 101 ≤ t.length ∧ t.length ≤ 10002) ∧
    (∃ y t, impulseAuto A Nm E S = .ok (y, t) ∧ UsableGrid S.g.dt t ∧ 101 ≤ t.length ∧ t.length ≤ 10002) := by
  have key : ∀ isStep, ∃ tf ts, autoGrid A S.g isStep = .ok (some tf, ts) ∧ 0 < ts ∧ (100 : ℝ) ≤ tf / ts ∧ tf / ts < 10001 := by
    intro isStep
    unfold autoGrid
    by_cases hg : S.g.isgain = true
    · rw [if_pos hg, hc]
      exact ⟨5, 5 / 100, rfl, by norm_num, by norm_num, by norm_num⟩
    · rw [if_neg hg, hc]
      obtain ⟨tf, ts, e, h1, h2, h3⟩ := contGrid_spec isStep (hA (by simpa using hg))
      exact ⟨tf, ts, by simp only [e, bind, Except.bind], h1, h2, h3⟩
  have fin : ∀ {tf ts : ℝ}, 0 < ts → 100 ≤ tf / ts → tf / ts < 10001 →
      UsableGrid S.g.dt ((List.range ⌈tf / ts + 1⌉₊).map (fun k : ℕ => (k : ℝ) * ts)) ∧
      101 ≤ ((List.range ⌈tf / ts + 1⌉₊).map (fun k : ℕ => (k : ℝ) * ts)).length ∧ ((List.range ⌈tf / ts + 1⌉₊).map (fun k : ℕ => (k : ℝ) * ts)).length ≤ 10002 := by
    intro tf ts h1 h2 h3
    have h4 : 100 < ⌈tf / ts + 1⌉₊ := Nat.lt_ceil.mpr (by push_cast; linarith)
    have h5 : ⌈tf / ts + 1⌉₊ ≤ 10002 := Nat.ceil_le.mpr (by push_cast; linarith)
    refine ⟨⟨_, ts, ?_, h1, rfl, by simp [hc]⟩, ?_, ?_⟩
    · omega
    · rw [List.length_map, List.length_range]; exact h4
    · rw [List.length_map, List.length_range]; exact h5
  constructor
  · obtain ⟨tf, ts, e, h1, h2, h3⟩ := key true
    obtain ⟨⟨y, hy⟩, -⟩ := responses_run (Nm := Nm) hE hG (by simp [hc, DtOk]) hm h1 (by linarith) (by simp [hc])
    exact ⟨y, _, by simp only [stepAuto, e, bind, Except.bind, hy], fin h1 h2 h3⟩
  · obtain ⟨tf, ts, e, h1, h2, h3⟩ := key false
    obtain ⟨-, ⟨y, hy⟩⟩ := responses_run (Nm := Nm) hE hG (by simp [hc, DtOk]) hm h1 (by linarith) (by simp [hc])
    exact ⟨y, _, by simp only [impulseAuto, e, bind, Except.bind, hy], fin h1 h2 h3⟩

/-! ## Discrete time -/

theorem raiseTo_fin {l : List ℂ} {temp : Res (WithTop ℝ)} {x : ℝ} (hx : 5 ≤ x) (h : l ≠ [] → ∃ r : ℝ, temp = .ok (r : WithTop ℝ)) :
    ∃ y : ℝ, raiseTo l temp (x : WithTop ℝ) = .ok (y : WithTop ℝ) ∧ 5 ≤ y := by
  unfold raiseTo
  split_ifs with hl
  · exact ⟨x, rfl, hx⟩
  · obtain ⟨r, e⟩ := h hl
    rw [e]
    exact ⟨max x r, by simp only [bind, Except.bind, WithTop.coe_max], hx.trans (le_max_left _ _)⟩

theorem tdiv_fin {x y : ℝ} (h : y ≠ 0) : tdiv x y = ((x / y : ℝ) : WithTop ℝ) := if_neg h

theorem log_re_ne {z : ℂ} {dt : ℝ} (hdt : 0 < dt) (h0 : ‖z‖ ≠ 0) (h1 : ‖z‖ ≠ 1) : |(Complex.log z / dt).re| ≠ 0 := by
  rw [Complex.div_ofReal_re, Complex.log_re]
  have : Real.log ‖z‖ ≠ 0 := Real.log_ne_zero.mpr ⟨h0, h1, by linarith [norm_nonneg z]⟩
  exact abs_ne_zero.mpr (div_ne_zero this hdt.ne')

theorem log_norm_ne {z : ℂ} {dt : ℝ} (hdt : 0 < dt) (h0 : z ≠ 0) (h1 : z ≠ 1) : ‖Complex.log z / dt‖ ≠ 0 := by
  rw [norm_ne_zero_iff]
  refine div_ne_zero (fun h => h1 ?_) (by exact_mod_cast hdt.ne')
  rw [← Complex.exp_log h0, h, Complex.exp_zero]

theorem discHorizon_spec {q : List ℂ} {dt : ℝ} (hdt : 0 < dt) (ha : (∃ z ∈ q, Unstable z) → ∃ z ∈ q, Unstable z ∧ ¬ NegReal z)
    (hb : ∀ z ∈ q, NegReal z → ‖z‖ ≠ 1) : ∃ x : ℝ, discHorizon q dt = .ok (x : WithTop ℝ) ∧ 5 ≤ x := by
  have hsu : ∀ z : ℂ, 1 + sqrtEps ≤ ‖z‖ ↔ Unstable z := fun z => Iff.rfl
  have hsn : ∀ z : ℂ, negRealMask z ↔ NegReal z := fun z => Iff.rfl
  have heps := sqrtEps_pos
  unfold discHorizon
  simp only [bind, Except.bind]
  obtain ⟨x1, e1, h1⟩ := raiseTo_fin (l := q.filter fun z => decide (1 + sqrtEps ≤ ‖z‖))
    (temp := arrMax (((q.filter fun z => decide (1 + sqrtEps ≤ ‖z‖)).filter fun z => decide (¬ negRealMask z)).map fun z => tdiv (Real.log 100) ‖Complex.log z / dt‖)) (le_refl (5 : ℝ)) (by
      intro hne
      apply arrMax_fin
      · obtain ⟨z, hz⟩ := List.exists_mem_of_ne_nil _ hne
        rw [List.mem_filter, decide_eq_true_eq] at hz
        obtain ⟨z', hz', h1, h2⟩ := ha ⟨z, hz.1, hz.2⟩
        exact List.ne_nil_of_mem (List.mem_map.mpr ⟨z', List.mem_filter.mpr ⟨List.mem_filter.mpr ⟨hz', decide_eq_true h1⟩, decide_eq_true h2⟩, rfl⟩)
      · intro y hy
        obtain ⟨z, hz, rfl⟩ := List.mem_map.mp hy
        rw [List.mem_filter, List.mem_filter, decide_eq_true_eq, decide_eq_true_eq] at hz
        have hn := hz.1.2
        rw [tdiv_fin (log_norm_ne hdt (fun h => by rw [h, norm_zero] at hn; linarith) (fun h => by rw [h, norm_one] at hn; linarith))]
        exact ⟨_, rfl⟩)
  rw [e1]
  simp only
  set q1 := (q.filter fun z => decide (¬ 1 + sqrtEps ≤ ‖z‖)).filter fun z => decide (¬ ‖z‖ < sqrtEps) with hq1
  have hq1' : ∀ z ∈ q1, z ∈ q ∧ ‖z‖ ≠ 0 := by
    intro z hz
    rw [hq1, List.mem_filter, List.mem_filter, decide_eq_true_eq, decide_eq_true_eq] at hz
    exact ⟨hz.1.1, fun h => hz.2 (by rw [h]; exact heps)⟩
  obtain ⟨x2, e2, h2⟩ := raiseTo_fin (l := q1.filter fun z => decide (negRealMask z))
    (temp := arrMax ((q1.filter fun z => decide (negRealMask z)).map fun z => tdiv (Real.log 100) |(Complex.log z / dt).re|)) h1 (by
      intro hne
      apply arrMax_fin
      · simpa using hne
      · intro y hy
        obtain ⟨z, hz, rfl⟩ := List.mem_map.mp hy
        rw [List.mem_filter, decide_eq_true_eq] at hz
        rw [tdiv_fin (log_re_ne hdt (hq1' z hz.1).2 (hb z (hq1' z hz.1).1 hz.2))]
        exact ⟨_, rfl⟩)
  rw [e2]
  simp only
  set q2 := (q1.filter fun z => decide (¬ negRealMask z)).filter fun z => decide (¬ (z.re - 1 < sqrtEps ∧ |z.im| < sqrtEps)) with hq2
  have hq2' : ∀ z ∈ q2, ‖z‖ ≠ 0 ∧ z ≠ 1 := by
    intro z hz
    rw [hq2, List.mem_filter, List.mem_filter, decide_eq_true_eq, decide_eq_true_eq] at hz
    exact ⟨(hq1' z hz.1.1).2, fun h => hz.2 (by rw [h]; simp [heps])⟩
  have hmin : ∀ (l : List ℂ) (f : ℂ → ℝ) (c : ℝ), (∀ z ∈ l, f z ≠ 0) → (∀ z ∈ l, 0 ≤ f z) → l ≠ [] →
      ∃ r : ℝ, divMin c (l.map f) = Except.ok (r : WithTop ℝ) := by
    intro l f c hf hf' hne
    obtain ⟨r, e, hr⟩ := arrMin_pos (l := l.map f) (by simpa using hne) (by
      intro y hy
      obtain ⟨z, hz, rfl⟩ := List.mem_map.mp hy
      exact lt_of_le_of_ne (hf' z hz) (Ne.symm (hf z hz)))
    refine ⟨c / r, ?_⟩
    simp only [divMin, e, bind, Except.bind, tdiv_fin hr.ne']
  obtain ⟨x3, e3, h3⟩ := raiseTo_fin (l := q2.filter fun z => decide (|‖z‖ - 1| < sqrtEps)) h2
    (hmin (q2.filter fun z => decide (|‖z‖ - 1| < sqrtEps)) (fun z => ‖Complex.log z / dt‖) (5 * 2 * Real.pi) (by
      intro z hz
      rw [List.mem_filter] at hz
      obtain ⟨h5, h6⟩ := hq2' z hz.1
      exact log_norm_ne hdt (norm_ne_zero_iff.mp h5) h6) (fun z _ => norm_nonneg _))
  rw [e3]
  simp only
  obtain ⟨x4, e4, h4⟩ := raiseTo_fin (l := q2.filter fun z => decide (¬ |‖z‖ - 1| < sqrtEps)) h3
    (hmin (q2.filter fun z => decide (¬ |‖z‖ - 1| < sqrtEps)) (fun z => |(Complex.log z / dt).re|) (Real.log 100) (by
      intro z hz
      rw [List.mem_filter, decide_eq_true_eq] at hz
      obtain ⟨h5, h6⟩ := hq2' z hz.1
      exact log_re_ne hdt h5 fun h => hz.2 (by rw [h]; simpa using heps)) (fun z _ => abs_nonneg _))
  rw [e4]
  simp only
  split_ifs
  · exact ⟨x4, rfl, h4⟩
  · exact ⟨x4 * 5, rfl, by linarith⟩

/-- Rounding gives a multiple of the sampling period. -/
theorem discRound_spec {x dt : ℝ} (hdt : 0 < dt) (hx : dt ≤ x) : ∃ k : ℕ, 1 ≤ k ∧ k ≤ 75000 ∧ discRound (x : WithTop ℝ) dt = some (dt * k) := by
  have h1 : 1 ≤ ⌊x / dt⌋ := Int.le_floor.mpr (by push_cast; exact (one_le_div hdt).mpr hx)
  by_cases h : 75000 < ⌊x / dt⌋
  · exact ⟨75000, by norm_num, le_refl _, by simp [discRound, h]⟩
  · obtain ⟨k, hk⟩ := Int.eq_ofNat_of_zero_le (a := ⌊x / dt⌋) (by omega)
    refine ⟨k, by omega, by omega, ?_⟩
    show some (if 75000 < ⌊x / dt⌋ then dt * 75000 else dt * ⌊x / dt⌋) = _
    rw [if_neg h, hk]
    simp

/-- **C60**, discrete time: the responses run on the grid `0, dt, ..., k dt`, `1 ≤ k ≤ 75000`, if the sampling period is at most 5, no pole
is a negative real number of modulus exactly 1, and the unstable poles, if any, are not all negative real.
Missing: the excluded models, which raise an error, see the theorems `C60_..._violated`. -/
theorem C60_discrete_partial (hE : BalanceOk E) (hG : Consistent S.g p m) {dt : ℝ} (hd : S.g.dt = some dt) (hdt : 0 < dt) (h5 : dt ≤ 5) (hm : 1 ≤ m)
    (ha : (∃ z ∈ A.eigvals S.g.a, Unstable z) → ∃ z ∈ A.eigvals S.g.a, Unstable z ∧ ¬ NegReal z)
    (hb : ∀ z ∈ A.eigvals S.g.a, NegReal z → ‖z‖ ≠ 1) :
    (∃ y t, stepAuto A Nm E S = .ok (y, t) ∧ UsableGrid S.g.dt t ∧ t.length ≤ 75001) ∧
    (∃ y t, impulseAuto A Nm E S = .ok (y, t) ∧ UsableGrid S.g.dt t ∧ t.length ≤ 75001) := by
  have key : ∃ k : ℕ, 1 ≤ k ∧ k ≤ 75000 ∧ ∀ isStep, autoGrid A S.g isStep = .ok (some (dt * k), dt) := by
    unfold autoGrid
    by_cases hg : S.g.isgain = true
    · simp only [hg, if_true, hd]
      exact ⟨20, by norm_num, by norm_num, fun _ => by norm_num⟩
    · simp only [hg, hd]
      obtain ⟨x, e, hx⟩ := discHorizon_spec hdt ha hb
      obtain ⟨k, h1, h2, e'⟩ := discRound_spec hdt (h5.trans hx)
      exact ⟨k, h1, h2, fun _ => by simp [e, e', bind, Except.bind]⟩
  obtain ⟨k, h1, h2, e⟩ := key
  have hq : dt * (k : ℝ) / dt = k := by rw [mul_comm, mul_div_assoc, div_self hdt.ne', mul_one]
  have hlen : ⌈dt * (k : ℝ) / dt + 1⌉₊ = k + 1 := by
    rw [hq]; exact_mod_cast Nat.ceil_natCast (R := ℝ) (k + 1)
  have h1' : (1 : ℝ) ≤ k := by exact_mod_cast h1
  obtain ⟨⟨y, hy⟩, ⟨y', hy'⟩⟩ := responses_run (Nm := Nm) hE hG (fun t ht => by rw [hd] at ht; cases ht; exact hdt) hm (tf := dt * k) hdt
    (by rw [hq]; linarith) (fun h hh => by rw [hd] at hh; exact Option.some.inj hh)
  rw [hlen] at hy hy'
  have hu : UsableGrid S.g.dt ((List.range (k + 1)).map (fun k : ℕ => (k : ℝ) * dt)) :=
    ⟨k + 1, dt, by omega, hdt, rfl, fun h hh => by rw [hd] at hh; exact Option.some.inj hh⟩
  refine ⟨⟨y, _, by simp only [stepAuto, e, bind, Except.bind, hy], hu, by simp; omega⟩, ⟨y', _, by simp only [impulseAuto, e, bind, Except.bind, hy'], hu, by simp; omega⟩⟩

/-- **C60** fails when the unstable poles are all negative real, for example `State(-2, 1, 1, 0, dt=1)`: `ValueError` (maximum of an empty array). -/
theorem C60_negative_violated (hg : S.g.isgain = false) {dt : ℝ} (hd : S.g.dt = some dt) (h1 : ∃ z ∈ A.eigvals S.g.a, Unstable z)
    (h2 : ∀ z ∈ A.eigvals S.g.a, Unstable z → NegReal z) :
    stepAuto A Nm E S = .error .value ∧ impulseAuto A Nm E S = .error .value := by
  have key : ∀ isStep, autoGrid A S.g isStep = .error .value := by
    intro isStep
    have hne : (A.eigvals S.g.a).filter (fun z => decide (1 + sqrtEps ≤ ‖z‖)) ≠ [] := by
      obtain ⟨z, hz, h⟩ := h1
      exact List.ne_nil_of_mem (List.mem_filter.mpr ⟨hz, decide_eq_true h⟩)
    have hem : ((A.eigvals S.g.a).filter (fun z => decide (1 + sqrtEps ≤ ‖z‖))).filter (fun z => decide (¬ negRealMask z)) = [] := by
      rw [List.filter_eq_nil_iff]
      intro z hz
      rw [List.mem_filter, decide_eq_true_eq] at hz
      simpa using (show negRealMask z from h2 z hz.1 hz.2)
    have : discHorizon (A.eigvals S.g.a) dt = .error .value := by
      unfold discHorizon
      simp only [bind, Except.bind, raiseTo, hne, if_false, hem, List.map_nil, arrMax]
    simp [autoGrid, hg, hd, this, bind, Except.bind]
  constructor
  · simp only [stepAuto, key, bind, Except.bind]
  · simp only [impulseAuto, key, bind, Except.bind]

/-- **C60** fails for a pole at `-1` (a negative real number of modulus 1): the horizon is `inf // dt`, which is `nan`, and `np.arange` raises `ValueError`. -/
theorem C60_minus_one_violated (hg : S.g.isgain = false) {dt : ℝ} (hd : S.g.dt = some dt) (h1 : A.eigvals S.g.a = [-1]) :
    stepAuto A Nm E S = .error .value ∧ impulseAuto A Nm E S = .error .value := by
  have heps := sqrtEps_pos
  have heps1 : sqrtEps ≤ 1 := by unfold sqrtEps; norm_num
  have key : ∀ isStep, autoGrid A S.g isStep = .ok (none, dt) := by
    intro isStep
    have hneg : negRealMask (-1) := by simp [negRealMask, heps]
    have : discHorizon (A.eigvals S.g.a) dt = .ok ⊤ := by
      unfold discHorizon
      simp [h1, bind, Except.bind, raiseTo, hneg, heps, heps1, arrMax, tdiv, Complex.log_re]
    simp [autoGrid, hg, hd, this, bind, Except.bind, discRound]
  constructor
  · simp only [stepAuto, key, bind, Except.bind]
  · simp only [impulseAuto, key, bind, Except.bind]

/-- **C60** fails for a sampling period above 5 when all poles are at the origin: the grid has a single sample, which the simulation rejects by a `ValueError`. -/
theorem C60_single_sample_violated (hg : S.g.isgain = false) {dt : ℝ} (hd : S.g.dt = some dt) (h5 : 5 < dt) (h1 : ∀ z ∈ A.eigvals S.g.a, z = 0) :
    stepAuto A Nm E S = .error .value ∧ impulseAuto A Nm E S = .error .value := by
  have heps := sqrtEps_pos
  have hf : (A.eigvals S.g.a).filter (fun z => decide (1 + sqrtEps ≤ ‖z‖)) = [] := by
    rw [List.filter_eq_nil_iff]
    intro z hz
    rw [h1 z hz]
    simp; linarith
  have hf2 : ((A.eigvals S.g.a).filter (fun z => decide (¬ 1 + sqrtEps ≤ ‖z‖))).filter (fun z => decide (¬ ‖z‖ < sqrtEps)) = [] := by
    rw [List.filter_eq_nil_iff]
    intro z hz
    rw [h1 z (List.mem_filter.mp hz).1]
    simpa using heps
  have key : ∀ isStep, autoGrid A S.g isStep = .ok (some 0, dt) := by
    intro isStep
    have : discHorizon (A.eigvals S.g.a) dt = .ok ((5 : ℝ) : WithTop ℝ) := by
      unfold discHorizon
      simp only [bind, Except.bind, hf, hf2, raiseTo, if_true, List.filter_nil]
    have hfl : ⌊(5 : ℝ) / dt⌋ = 0 := by
      rw [Int.floor_eq_zero_iff]
      exact ⟨by positivity, (div_lt_one (by linarith)).mpr h5⟩
    have hr : discRound ((5 : ℝ) : WithTop ℝ) dt = some 0 := by
      show some (if 75000 < ⌊(5 : ℝ) / dt⌋ then dt * 75000 else dt * ⌊(5 : ℝ) / dt⌋) = _
      rw [hfl]; simp
    simp only [autoGrid, hg, hd, this, hr, bind, Except.bind]
    rfl
  have hgrid : arange (0 + dt) dt = [0] := by
    rw [arange_spec (by linarith)]
    simp
  have hT : ∀ u, checkUT S.g.m S.g.dt u (some [0]) = .error .value := by
    intro u
    simp [checkUT, timeArray, checkT, bind, Except.bind]
  constructor
  · simp only [stepAuto, key, bind, Except.bind, stepResponse, responseGrid, simulate, checkX0]
    rw [hgrid, hT]
  · simp only [impulseAuto, key, bind, Except.bind, impulseResponse, responseGrid, simulate, checkX0]
    rw [hgrid, hT]

/-! ## Non-vacuity -/

/-- The poles of `sim2`. -/
noncomputable def auto2 : AutoNum := ⟨fun _ => [1 / 2, 1 / 3], fun _ => [⟨-1, 1, true⟩]⟩

example : Consistent (sim2 P).g 1 2 ∧ (sim2 P).g.dt = some 1 ∧ (sim2 P).g.isgain = false ∧
    ((∃ z ∈ auto2.eigvals (sim2 P).g.a, Unstable z) → ∃ z ∈ auto2.eigvals (sim2 P).g.a, Unstable z ∧ ¬ NegReal z) ∧
    ∀ z ∈ auto2.eigvals (sim2 P).g.a, NegReal z → ‖z‖ ≠ 1 := by
  refine ⟨by simp [Consistent, sim2], rfl, rfl, ?_, ?_⟩
  · rintro ⟨z, hz, hu⟩
    exfalso
    unfold Unstable at hu
    simp only [auto2, List.mem_cons, List.not_mem_nil, or_false] at hz
    rcases hz with rfl | rfl <;> norm_num at hu
  · intro z hz hn
    simp only [auto2, List.mem_cons, List.not_mem_nil, or_false] at hz
    rcases hz with rfl | rfl <;> norm_num [NegReal] at hn

/-- A pole at `-2`, as in `C60_negative_violated`. -/
example : Unstable (-2) ∧ NegReal (-2) := by
  constructor
  · unfold Unstable; norm_num
  · unfold NegReal; norm_num

end Harold
