import Verif.Spec.FreqPlot
import Verif.Props.Freq
import Verif.Props.TimePlot
import Mathlib.Algebra.Order.ToIntervalMod

/-!
# C79: Bode plots, C80: Nyquist plots
-/

namespace Harold

open Harold.Spec

/-! ## Lists -/

theorem mapM_map_ok {α β : Type} {f : α → Res β} {g : α → β} {l : List α} (h : ∀ x ∈ l, f x = .ok (g x)) : l.mapM f = .ok (l.map g) := by
  induction l with
  | nil => rfl
  | cons a l ih =>
    rw [List.mapM_cons, h a (by simp), ih fun c hc => h c (by simp [hc])]
    rfl

theorem flatMap_range_length {α : Type} {n L : ℕ} {f : ℕ → List α} (hf : ∀ i < n, (f i).length = L) :
    ((List.range n).flatMap f).length = n * L := by
  induction n with
  | zero => simp
  | succ n ih =>
    rw [List.range_succ, List.flatMap_append, List.length_append, ih fun i hi => hf i (by omega)]
    simp [hf n (by omega), Nat.succ_mul]

theorem flatMap_range_get {α : Type} {n L i q : ℕ} {f : ℕ → List α} (hf : ∀ i < n, (f i).length = L) (hi : i < n) (hq : q < L) :
    ((List.range n).flatMap f)[i * L + q]? = (f i)[q]? := by
  induction n with
  | zero => omega
  | succ n ih =>
    have hl : ((List.range n).flatMap f).length = n * L := flatMap_range_length fun i hi => hf i (by omega)
    rw [List.range_succ, List.flatMap_append]
    by_cases h : i < n
    · rw [List.getElem?_append_left, ih (fun i hi => hf i (by omega)) h]
      rw [hl]
      calc i * L + q < i * L + L := by omega
        _ = (i + 1) * L := by ring
        _ ≤ n * L := Nat.mul_le_mul_right _ h
    · obtain rfl : i = n := by omega
      rw [List.getElem?_append_right (by rw [hl]; omega), hl]
      simp

theorem forall2_get {α β : Type} {r : α → β → Prop} {l : List α} {l' : List β} (h : List.Forall₂ r l l') {q : ℕ} {a : α}
    (ha : l[q]? = some a) : ∃ b, l'[q]? = some b ∧ r a b := by
  induction h generalizing q with
  | nil => simp at ha
  | cons h1 h2 ih =>
    cases q with
    | zero =>
      simp at ha
      subst ha
      exact ⟨_, rfl, h1⟩
    | succ q => simpa using ih (by simpa using ha)

section scatter
variable {α : Type} {mem : ℕ → ℝ}

theorem scatter_length (f : List (Option α)) (k : ℕ) (l : List ℝ) : (scatter mem k f l).length = f.length := by
  induction f generalizing k l with
  | nil => rfl
  | cons x f ih => cases x <;> simp [scatter, ih]

theorem scatter_none {f : List (Option α)} {k q : ℕ} {l : List ℝ} (h : f[q]? = some none) :
    (scatter mem k f l)[q]? = some (mem (k + q)) := by
  induction f generalizing k q l with
  | nil => simp at h
  | cons x f ih =>
    cases q with
    | zero =>
      simp at h
      subst h
      simp [scatter]
    | succ q =>
      have h' : f[q]? = some none := by simpa using h
      cases x with
      | none => rw [scatter, List.getElem?_cons_succ, ih h']; congr 2; omega
      | some v => rw [scatter, List.getElem?_cons_succ, ih h']; congr 2; omega

theorem scatter_some {r : α → ℝ → Prop} {f : List (Option α)} {k q : ℕ} {l : List ℝ} (hl : List.Forall₂ r (f.filterMap id) l) {v : α}
    (h : f[q]? = some (some v)) : ∃ x, (scatter mem k f l)[q]? = some x ∧ r v x := by
  induction f generalizing k q l with
  | nil => simp at h
  | cons x f ih =>
    cases x with
    | none =>
      cases q with
      | zero => simp at h
      | succ q => exact ih (k := k + 1) (by simpa using hl) (by simpa using h)
    | some u =>
      rw [List.filterMap_cons_some (by rfl)] at hl
      cases hl with
      | cons h1 h2 =>
        cases q with
        | zero =>
          simp at h
          subst h
          exact ⟨_, rfl, h1⟩
        | succ q => exact ih (k := k + 1) h2 (by simpa using h)

theorem scatter_step {r : ℝ → ℝ → Prop} {f : List (Option α)} {k q : ℕ} {l : List ℝ} (hlen : (f.filterMap id).length = l.length)
    (hl : ∀ (q : ℕ) (a b : ℝ), l[q]? = some a → l[q + 1]? = some b → r a b) {v w : α}
    (h : f[q]? = some (some v)) (h' : f[q + 1]? = some (some w)) {x y : ℝ} (hx : (scatter mem k f l)[q]? = some x)
    (hy : (scatter mem k f l)[q + 1]? = some y) : r x y := by
  induction f generalizing k q l with
  | nil => simp at h
  | cons u f ih =>
    cases u with
    | none =>
      cases q with
      | zero => simp at h
      | succ q =>
        exact ih (k := k + 1) (q := q) (by simpa using hlen) hl (by simpa using h) (by simpa using h') (by simpa [scatter] using hx)
          (by simpa [scatter] using hy)
    | some u =>
      rw [List.filterMap_cons_some (by rfl)] at hlen
      cases l with
      | nil => simp at hlen
      | cons a l =>
        cases q with
        | zero =>
          cases f with
          | nil => simp at h'
          | cons u' f =>
            simp at h'
            subst h'
            rw [List.filterMap_cons_some (by rfl)] at hlen
            cases l with
            | nil => simp at hlen
            | cons b l =>
              simp [scatter] at hx hy
              subst hx hy
              exact hl 0 a b rfl rfl
        | succ q =>
          exact ih (k := k + 1) (q := q) (by simpa using hlen) (fun q a b h1 h2 => hl (q + 1) a b (by simpa using h1) (by simpa using h2))
            (by simpa using h) (by simpa using h') (by simpa [scatter] using hx) (by simpa [scatter] using hy)

end scatter

/-! ## One channel -/

section channel
variable {unwrap : List ℝ → List ℝ} {mem : ℕ → ℝ} {p m i j q : ℕ} {R : FreqOut}

theorem freAt_length {resp : List (Arr (Option ℂ))} : (freAt resp i j).length = resp.length := by simp [freAt]

theorem freAt_some {z : ℂ} (h : SampleIs R q i j (some z)) (hz : z ≠ 0) : (freAt R.resp i j)[q]? = some (some z) := by
  obtain ⟨a, h1, hi, hj, h2⟩ := h
  simp [freAt, h1, hi, hj, h2, hz, Option.filter]

theorem freAt_zero (h : SampleIs R q i j (some 0)) : (freAt R.resp i j)[q]? = some none := by
  obtain ⟨a, h1, hi, hj, h2⟩ := h
  simp [freAt, h1, hi, hj, h2, Option.filter]

theorem allSamples_get (hi : i < p) (hj : j < m) (hq : q < R.resp.length) :
    (allSamples p m R.resp)[(i * m + j) * R.resp.length + q]? = (freAt R.resp i j)[q]? := by
  have h1 : (i * m + j) * R.resp.length + q = i * (m * R.resp.length) + (j * R.resp.length + q) := by ring
  have h2 : j * R.resp.length + q < m * R.resp.length := by
    calc j * R.resp.length + q < j * R.resp.length + R.resp.length := by omega
      _ = (j + 1) * R.resp.length := by ring
      _ ≤ m * R.resp.length := Nat.mul_le_mul_right _ hj
  rw [h1, allSamples, flatMap_range_get (L := m * R.resp.length) (fun i _ => flatMap_range_length fun j _ => freAt_length) hi h2,
    flatMap_range_get (fun j _ => freAt_length) hj hq]

theorem allSamples_length : (allSamples p m R.resp).length = p * (m * R.resp.length) :=
  flatMap_range_length fun _ _ => flatMap_range_length fun _ _ => freAt_length

theorem bodePhaRad_nan (hn : none ∈ allSamples p m R.resp) (hq : q < R.resp.length) :
    (bodePhaRad unwrap mem p m R.resp i j)[q]?
      = (scatter mem 0 (allSamples p m R.resp) (unwrap (((allSamples p m R.resp).filterMap id).map Complex.arg)))[(i * m + j) * R.resp.length + q]? := by
  unfold bodePhaRad
  rw [if_pos hn, List.getElem?_take_of_lt hq, List.getElem?_drop]

theorem all_some {f : List (Option ℂ)} (h : none ∉ f) : f = (f.filterMap id).map some := by
  induction f with
  | nil => rfl
  | cons x f ih =>
    cases x with
    | none => simp at h
    | some v =>
      rw [List.filterMap_cons_some (by rfl), List.map_cons, ← ih fun hf => h (by simp [hf])]

theorem freAt_all (hn : none ∉ allSamples p m R.resp) (hi : i < p) (hj : j < m) : none ∉ freAt R.resp i j := fun h => hn (by
  simp only [allSamples, List.mem_flatMap, List.mem_range]
  exact ⟨i, hi, j, hj, h⟩)

theorem sample_lt {z : Option ℂ} (h : SampleIs R q i j z) : q < R.resp.length := by
  obtain ⟨a, h1, -⟩ := h
  exact (List.getElem?_eq_some_iff.mp h1).1

theorem forall2_arg (hU : UnwrapOk unwrap) (l : List ℂ) :
    List.Forall₂ (fun z x => ∃ k : ℤ, x = Complex.arg z + k * (2 * Real.pi)) l (unwrap (l.map Complex.arg)) :=
  List.forall₂_map_left_iff.mp (hU.mod (l.map Complex.arg))

theorem forall2_length {α β : Type} {r : α → β → Prop} {l : List α} {l' : List β} (h : List.Forall₂ r l l') : l.length = l'.length :=
  List.Forall₂.length_eq h

theorem bodePhaRad_length (hU : UnwrapOk unwrap) (hi : i < p) (hj : j < m) :
    (bodePhaRad unwrap mem p m R.resp i j).length = R.resp.length := by
  by_cases hn : none ∈ allSamples p m R.resp
  · unfold bodePhaRad
    rw [if_pos hn]
    have hle : (i * m + j) * R.resp.length + R.resp.length ≤ p * (m * R.resp.length) := by
      calc (i * m + j) * R.resp.length + R.resp.length = (i * m + (j + 1)) * R.resp.length := by ring
        _ ≤ (i * m + m) * R.resp.length := Nat.mul_le_mul_right _ (by omega)
        _ = (i + 1) * (m * R.resp.length) := by ring
        _ ≤ p * (m * R.resp.length) := Nat.mul_le_mul_right _ hi
    rw [List.length_take, List.length_drop, scatter_length, allSamples_length]
    omega
  · unfold bodePhaRad
    rw [if_neg hn, ← forall2_length (forall2_arg hU _)]
    conv_rhs => rw [← freAt_length (i := i) (j := j), all_some (freAt_all hn hi hj), List.length_map]

theorem bodePhaRad_mod (hU : UnwrapOk unwrap) (hi : i < p) (hj : j < m) {z : ℂ} (h : SampleIs R q i j (some z)) (hz : z ≠ 0) :
    ∃ x, (bodePhaRad unwrap mem p m R.resp i j)[q]? = some x ∧ ∃ k : ℤ, x = Complex.arg z + k * (2 * Real.pi) := by
  have h1 := freAt_some h hz
  have hq := sample_lt h
  by_cases hn : none ∈ allSamples p m R.resp
  · rw [bodePhaRad_nan hn hq]
    exact scatter_some (forall2_arg hU _) (by rw [allSamples_get hi hj hq, h1])
  · unfold bodePhaRad
    rw [if_neg hn]
    refine forall2_get (forall2_arg hU _) ?_
    rw [all_some (freAt_all hn hi hj), List.getElem?_map] at h1
    cases hf : ((freAt R.resp i j).filterMap id)[q]? with
    | none => rw [hf] at h1; cases h1
    | some w => rw [hf] at h1; simpa using h1

theorem bodePhaRad_step (hU : UnwrapOk unwrap) (hi : i < p) (hj : j < m) {z w : ℂ} (h : SampleIs R q i j (some z)) (hz : z ≠ 0)
    (h' : SampleIs R (q + 1) i j (some w)) (hw : w ≠ 0) {x y : ℝ} (hx : (bodePhaRad unwrap mem p m R.resp i j)[q]? = some x)
    (hy : (bodePhaRad unwrap mem p m R.resp i j)[q + 1]? = some y) : |y - x| ≤ Real.pi := by
  have hq := sample_lt h
  have hq' := sample_lt h'
  by_cases hn : none ∈ allSamples p m R.resp
  · rw [bodePhaRad_nan hn hq] at hx
    rw [bodePhaRad_nan hn hq'] at hy
    exact scatter_step (r := fun a b => |b - a| ≤ Real.pi) (by rw [← forall2_length (forall2_arg hU _)]) (hU.step _)
      (by rw [allSamples_get hi hj hq, freAt_some h hz]) (by rw [add_assoc, allSamples_get hi hj hq', freAt_some h' hw]) hx (by rw [add_assoc]; exact hy)
  · unfold bodePhaRad at hx hy
    rw [if_neg hn] at hx hy
    exact hU.step _ q x y hx hy

theorem bodePhaRad_zero (hi : i < p) (hj : j < m) (h : SampleIs R q i j (some 0)) :
    (bodePhaRad unwrap mem p m R.resp i j)[q]? = some (mem ((i * m + j) * R.resp.length + q)) := by
  have hq := sample_lt h
  have h1 : (allSamples p m R.resp)[(i * m + j) * R.resp.length + q]? = some none := by
    rw [allSamples_get hi hj hq, freAt_zero h]
  rw [bodePhaRad_nan (List.mem_of_getElem? h1) hq, scatter_none h1, zero_add]

end channel

/-! ## The loop over the systems -/

theorem freqLoop_ok {α : Type} {draw : ℕ → FSys → FreqOut → Res (List α)} {useHz : Bool} {v : Option (List ℝ)} {f : ℕ → FSys → List α}
    {l : List (ℕ × FSys × Option (List ℝ))} (h : ∀ x ∈ l, ∃ R, x.2.1.resp v = .ok R ∧ draw x.1 x.2.1 R = .ok (f x.1 x.2.1))
    {w : Option (List ℝ)} (hw : w = v ∧ (w = none → ∀ x ∈ l, x.2.2 = none)) :
    freqLoop draw useHz l w = .ok (l.flatMap fun x => f x.1 x.2.1) := by
  induction l with
  | nil => rfl
  | cons x l ih =>
    obtain ⟨ind, G, g⟩ := x
    obtain ⟨R, h1, h2⟩ := h (ind, G, g) (by simp)
    have hg : keepGrid useHz w g = w := by
      cases hw' : w with
      | some w => rfl
      | none =>
        have : g = none := hw.2 hw' (ind, G, g) (by simp)
        simp [this, keepGrid]
    unfold freqLoop
    simp only [hg]
    rw [← hw.1] at h1
    simp only at h1 h2
    simp only [h1, bind, Except.bind, h2, ih (fun x hx => h x (by simp [hx])) ⟨hw.1, fun h0 x hx => hw.2 h0 x (by simp [hx])⟩]
    rfl

/-- All systems get the same grid. -/
theorem freqLoop_entries {α : Type} {draw : ℕ → FSys → FreqOut → Res (List α)} {useHz : Bool} {sys : List FSys} {w : Option (List ℝ)} {styles : ℕ}
    {f : ℕ → FSys → List α}
    (h : ∀ k G, sys[k]? = some G → k < styles → ∃ R, G.resp (plotGrid sys w useHz) = .ok R ∧ draw k G R = .ok (f k G)) :
    freqLoop draw useHz (plotEntries sys w styles) w = .ok (((sys.take styles).zipIdx).flatMap fun x => f x.2 x.1) := by
  have hmem : ∀ x ∈ (sys.take styles).zipIdx, sys[x.2]? = some x.1 ∧ x.2 < styles := by
    intro x hx
    have h1 := List.mk_mem_zipIdx_iff_getElem?.mp (show (x.1, x.2) ∈ _ from hx)
    rw [List.getElem?_take] at h1
    split_ifs at h1 with h2
    exact ⟨h1, h2⟩
  by_cases hw : w.isNone ∧ 1 < sys.length
  · obtain rfl : w = none := by simpa using hw.1
    cases styles with
    | zero => simp [plotEntries, freqLoop]
    | succ styles =>
      cases sys with
      | nil => simp at hw
      | cons G sys =>
        have hP : plotGrid (G :: sys) none useHz = some (if useHz then ((commonGrid ((G :: sys).map FSys.grid)).getD 0 []).map fun x => x / (2 * Real.pi)
            else (commonGrid ((G :: sys).map FSys.grid)).getD 0 []) := by
          unfold plotGrid
          rw [if_pos hw]
          cases useHz <;> simp [List.headD_eq_head?_getD, List.head?_eq_getElem?]
        have hE : plotEntries (G :: sys) none (styles + 1) = (0, G, some ((commonGrid ((G :: sys).map FSys.grid)).getD 0 [])) ::
            ((sys.take styles).zipIdx 1).map fun x => (x.2, x.1, some ((commonGrid ((G :: sys).map FSys.grid)).getD x.2 [])) := by
          unfold plotEntries
          simp only [hw, and_self, if_true, List.take_succ_cons, List.zipIdx_cons, List.map_cons]
        rw [hE]
        obtain ⟨R, h1, h2⟩ := h 0 G rfl (by omega)
        have h3 := freqLoop_ok (useHz := useHz) (draw := draw) (v := plotGrid (G :: sys) none useHz) (f := f)
          (l := ((sys.take styles).zipIdx 1).map fun x => (x.2, x.1, some ((commonGrid ((G :: sys).map FSys.grid)).getD x.2 [])))
          (fun x hx => by
            obtain ⟨y, hy, rfl⟩ := List.mem_map.mp hx
            have := hmem y (by rw [List.take_succ_cons, List.zipIdx_cons]; exact List.mem_cons_of_mem _ hy)
            exact h y.2 y.1 this.1 this.2)
          (w := plotGrid (G :: sys) none useHz) ⟨rfl, fun h0 => by rw [hP] at h0; cases h0⟩
        unfold freqLoop
        rw [show keepGrid useHz none (some ((commonGrid ((G :: sys).map FSys.grid)).getD 0 [])) = plotGrid (G :: sys) none useHz from hP.symm]
        simp only [h1, bind, Except.bind, h2, h3]
        simp [List.take_succ_cons, List.zipIdx_cons, List.flatMap_map]
  · have hv : plotGrid sys w useHz = w := by
      unfold plotGrid
      rw [if_neg hw]
    have h3 := freqLoop_ok (useHz := useHz) (draw := draw) (v := w) (f := f) (l := plotEntries sys w styles)
      (fun x hx => by
        obtain ⟨y, hy, rfl⟩ := List.mem_map.mp hx
        have := hmem y hy
        rw [← hv]
        exact h y.2 y.1 this.1 this.2)
      (w := w) ⟨rfl, fun _ x hx => by
        obtain ⟨y, hy, rfl⟩ := List.mem_map.mp hx
        rw [if_neg hw]⟩
    rw [h3]
    simp [plotEntries, List.flatMap_map]

section bode
variable {unwrap : List ℝ → List ℝ} {mem : ℕ → ℕ → ℝ} {sys : List FSys} {w : Option (List ℝ)} {useDb useHz useDeg : Bool} {styles : ℕ}

/-- The artists of one channel. -/
noncomputable def channelItems (unwrap : List ℝ → List ℝ) (mem : ℕ → ℝ) (useDb useHz useDeg : Bool) (ind : ℕ) (G : FSys)
    (F : FreqOut) (row col : ℕ) : List BodeItem :=
  [.curve (2 * row) col (bodeLabel ind col row "mag") ind F.w (bodeMag useDb (freAt F.resp row col)),
   .curve (2 * row + 1) col (bodeLabel ind col row "phase") ind F.w (bodePha useDeg (bodePhaRad unwrap mem G.p G.m F.resp row col))] ++
  match G.dt with
  | none => []
  | some dt => [.vline (2 * row) col (bodeLabel ind col row "mag_nyqline") ind (nyqFreq useHz dt),
      .vline (2 * row + 1) col (bodeLabel ind col row "phase_nyqline") ind (nyqFreq useHz dt)]

theorem bodeChannel_ok {mem : ℕ → ℝ} (hU : UnwrapOk unwrap) {R C ind row col : ℕ} {G : FSys} {F : FreqOut} (hF : RespOk G F) (hrow : row < G.p)
    (hcol : col < G.m) (hR : G.p ≤ R) (hC : G.m ≤ C) :
    bodeChannel unwrap mem useDb useHz useDeg (2 * R) C ind G F row col = .ok (channelItems unwrap mem useDb useHz useDeg ind G F row col) := by
  unfold bodeChannel semilogx channelItems
  rw [if_neg (by omega), if_neg (by simp [bodeMag, freAt_length, hF.length]), if_neg (by omega),
    if_neg (by simp [bodePha, bodePhaRad_length hU hrow hcol, hF.length])]
  cases G.dt <;> rfl

/-- The artists of one system. -/
noncomputable def systemItems (unwrap : List ℝ → List ℝ) (mem : ℕ → ℕ → ℝ) (useDb useHz useDeg : Bool) (ind : ℕ) (G : FSys)
    (F : FreqOut) : List BodeItem :=
  (((List.range G.m).flatMap fun col => (List.range G.p).map fun row => (row, col)).map fun x =>
    channelItems unwrap (mem ind) useDb useHz useDeg ind G F x.1 x.2).flatten

theorem bodeSys_ok (hU : UnwrapOk unwrap) {R C ind : ℕ} {G : FSys} {F : FreqOut} (hF : RespOk G F) (hR : G.p ≤ R) (hC : G.m ≤ C) :
    bodeSys unwrap mem useDb useHz useDeg (2 * R) C ind G F = .ok (systemItems unwrap mem useDb useHz useDeg ind G F) := by
  unfold bodeSys systemItems
  rw [mapM_map_ok (g := fun x => channelItems unwrap (mem ind) useDb useHz useDeg ind G F x.1 x.2)]
  · rfl
  · intro x hx
    simp only [List.mem_flatMap, List.mem_map, List.mem_range] at hx
    obtain ⟨col, hc, row, hr, rfl⟩ := hx
    exact bodeChannel_ok hU hF hr hc hR hC

theorem mem_systemItems {ind : ℕ} {G : FSys} {F : FreqOut} {it : BodeItem} :
    it ∈ systemItems unwrap mem useDb useHz useDeg ind G F ↔
      ∃ row < G.p, ∃ col < G.m, it ∈ channelItems unwrap (mem ind) useDb useHz useDeg ind G F row col := by
  simp only [systemItems, List.mem_flatten, List.mem_map, List.mem_flatMap, List.mem_range]
  constructor
  · rintro ⟨l, ⟨x, ⟨col, hc, row, hr, rfl⟩, rfl⟩, hit⟩
    exact ⟨row, hr, col, hc, hit⟩
  · rintro ⟨row, hr, col, hc, hit⟩
    exact ⟨_, ⟨(row, col), ⟨col, hc, row, hr, rfl⟩, rfl⟩, hit⟩

/-- The whole plot. -/
theorem bodePlot_ok (hU : UnwrapOk unwrap) (hne : sys ≠ [])
    (hresp : ∀ G ∈ sys, ∃ R, G.resp (plotGrid sys w useHz) = .ok R ∧ RespOk G R) :
    ∃ items, bodePlot unwrap mem sys w useDb useHz useDeg styles = .ok items ∧
      ∀ it, it ∈ items ↔ ∃ k G R, sys[k]? = some G ∧ k < styles ∧ G.resp (plotGrid sys w useHz) = .ok R ∧
        ∃ row < G.p, ∃ col < G.m, it ∈ channelItems unwrap (mem k) useDb useHz useDeg k G R row col := by
  classical
  let f : ℕ → FSys → List BodeItem := fun k G => match G.resp (plotGrid sys w useHz) with
    | .ok R => systemItems unwrap mem useDb useHz useDeg k G R
    | .error _ => []
  have hle : ∀ G ∈ sys, G.p ≤ (sys.map FSys.p).foldr max 0 ∧ G.m ≤ (sys.map FSys.m).foldr max 0 :=
    fun G hG => ⟨foldr_max_natGe (List.mem_map_of_mem hG), foldr_max_natGe (List.mem_map_of_mem hG)⟩
  have h := freqLoop_entries (draw := bodeSys unwrap mem useDb useHz useDeg (2 * (sys.map FSys.p).foldr max 0) ((sys.map FSys.m).foldr max 0))
    (useHz := useHz) (sys := sys) (w := w) (styles := styles) (f := f) (fun k G hk _ => by
      have hG := List.mem_of_getElem? hk
      obtain ⟨R, h1, h2⟩ := hresp G hG
      exact ⟨R, h1, by simp only [f, h1]; exact bodeSys_ok hU h2 (hle G hG).1 (hle G hG).2⟩)
  refine ⟨((sys.take styles).zipIdx).flatMap fun x => f x.2 x.1, ?_, fun it => ?_⟩
  · unfold bodePlot maxShapeF
    rw [if_neg hne]
    simp only [bind, Except.bind, h]
  · rw [List.mem_flatMap]
    constructor
    · rintro ⟨x, hx, hit⟩
      have h1 := List.mk_mem_zipIdx_iff_getElem?.mp (show (x.1, x.2) ∈ _ from hx)
      rw [List.getElem?_take] at h1
      split_ifs at h1 with h2
      obtain ⟨R, h3, -⟩ := hresp x.1 (List.mem_of_getElem? h1)
      simp only [f, h3] at hit
      exact ⟨x.2, x.1, R, h1, h2, h3, mem_systemItems.mp hit⟩
    · rintro ⟨k, G, R, h1, h2, h3, h4⟩
      refine ⟨(G, k), List.mk_mem_zipIdx_iff_getElem?.mpr (by rw [List.getElem?_take, if_pos h2]; exact h1), ?_⟩
      simp only [f, h3]
      exact mem_systemItems.mpr h4

theorem bodeLabel_eq (k j i : ℕ) (kind : String) : bodeLabel k j i kind = plotLabel k j i kind := rfl

theorem inRad_deg (useDeg : Bool) (x : ℝ) : inRad useDeg (if useDeg then x * (180 / Real.pi) else x) = x := by
  unfold inRad
  have := Real.pi_ne_zero
  split_ifs
  · field_simp
  · rfl

theorem showsPhase_of {useDeg : Bool} {z : ℂ} {x : ℝ} (h : ∃ k : ℤ, x = Complex.arg z + k * (2 * Real.pi)) :
    ShowsPhase useDeg z (if useDeg then x * (180 / Real.pi) else x) := by
  obtain ⟨k, rfl⟩ := h
  unfold ShowsPhase
  rw [inRad_deg]
  push_cast
  rw [add_mul, Complex.exp_add, show (k : ℂ) * (2 * Real.pi) * Complex.I = k * (2 * Real.pi * Complex.I) by ring, Complex.exp_int_mul_two_pi_mul_I,
    mul_one, Complex.norm_mul_exp_arg_mul_I]

theorem showsMag_of {z : ℂ} (hz : z ≠ 0) : ShowsMag useDb z ((if useDb then 20 else 1) * Real.logb 10 ‖z‖) := by
  unfold ShowsMag
  have h : (10 : ℝ) ^ Real.logb 10 ‖z‖ = ‖z‖ := Real.rpow_logb (by norm_num) (by norm_num) (norm_pos_iff.mpr hz)
  cases useDb
  · simpa using h
  · rw [if_pos rfl, if_pos rfl, mul_div_cancel_left₀ _ (by norm_num)]
    exact h

theorem toRad_nyqFreq {h : ℝ} (hh : h ≠ 0) : toRad (plotUnit useHz) (nyqFreq useHz h) = Real.pi / h := by
  unfold toRad plotUnit nyqFreq
  cases useHz
  · rw [if_neg (by simp [IsHz])]
    simp
  · rw [if_pos (by simpa using isHz_Hz)]
    simp
    field_simp

theorem bodePha_get {useDeg : Bool} {f : List ℝ} {q : ℕ} {φ : ℝ} (h : (bodePha useDeg f)[q]? = some (some φ)) :
    ∃ x, f[q]? = some x ∧ φ = if useDeg then x * (180 / Real.pi) else x := by
  unfold bodePha at h
  rw [List.getElem?_map] at h
  cases hf : f[q]? with
  | none => simp [hf] at h
  | some x =>
    rw [hf] at h
    simp at h
    exact ⟨x, rfl, h.symm⟩

/-- **C79**: a Bode plot succeeds if `frequency_response` answers with one array per frequency for every system. For every drawn system and
every channel `(i, j)` the panels `(2i, j)` and `(2i + 1, j)` contain curves, labelled by system, input and output, over the frequencies of the
answer: at every sample that is not zero the first shows the modulus (as a decimal logarithm or in decibels) and the second an angle of the
value (radians or degrees); angles at consecutive samples differ by half a turn at most; a vertical line marks the Nyquist frequency of
a discrete model. Nothing else is drawn.

`_partial`: systems beyond the length of the property cycle are not drawn, all systems share the grid of the first one
(`C47_styles_violated`, `C47_plot_violated`), the phase at a zero sample is uninitialised memory (`C79_zero_violated`), and static gains
usually do not meet the hypothesis (`C79_gain_violated`). -/
theorem C79_bode_partial (hU : UnwrapOk unwrap) (hne : sys ≠ []) (hresp : ∀ G ∈ sys, ∃ R, G.resp (plotGrid sys w useHz) = .ok R ∧ RespOk G R) :
    ∃ items, bodePlot unwrap mem sys w useDb useHz useDeg styles = .ok items ∧
      (∀ k G R, sys[k]? = some G → k < styles → G.resp (plotGrid sys w useHz) = .ok R → ∀ i < G.p, ∀ j < G.m,
        ∃ ym yp, Faithful useDb useHz useDeg items k G R i j ym yp) ∧
      (∀ it ∈ items, ∃ k G R, sys[k]? = some G ∧ k < styles ∧ G.resp (plotGrid sys w useHz) = .ok R ∧ ∃ i < G.p, ∃ j < G.m,
        (∃ y, it = .curve (2 * i) j (plotLabel k j i "mag") k R.w y) ∨ (∃ y, it = .curve (2 * i + 1) j (plotLabel k j i "phase") k R.w y) ∨
        (G.dt ≠ none ∧ ∃ x, it = .vline (2 * i) j (plotLabel k j i "mag_nyqline") k x ∨ it = .vline (2 * i + 1) j (plotLabel k j i "phase_nyqline") k x)) := by
  obtain ⟨items, h1, h2⟩ := bodePlot_ok (mem := mem) (useDb := useDb) (useDeg := useDeg) (styles := styles) hU hne hresp
  refine ⟨items, h1, fun k G R hk hks hR i hi j hj => ?_, fun it hit => ?_⟩
  · have hok : RespOk G R := by
      obtain ⟨R', h3, h4⟩ := hresp G (List.mem_of_getElem? hk)
      rw [hR] at h3
      cases h3
      exact h4
    have hmem : ∀ it ∈ channelItems unwrap (mem k) useDb useHz useDeg k G R i j, it ∈ items := fun it hit =>
      (h2 it).mpr ⟨k, G, R, hk, hks, hR, i, hi, j, hj, hit⟩
    refine ⟨bodeMag useDb (freAt R.resp i j), bodePha useDeg (bodePhaRad unwrap (mem k) G.p G.m R.resp i j), ?_, ?_, ?_, ?_, ?_, ?_, ?_, ?_, ?_⟩
    · exact hmem _ (by simp [channelItems, bodeLabel_eq])
    · exact hmem _ (by simp [channelItems, bodeLabel_eq])
    · simp [bodeMag, freAt_length, hok.length]
    · simp [bodePha, bodePhaRad_length hU hi hj, hok.length]
    · intro q z hz hz0
      refine ⟨_, ?_, showsMag_of hz0⟩
      simp [bodeMag, freAt_some hz hz0]
    · intro q hz
      simp [bodeMag, freAt_zero hz]
    · intro q z hz hz0
      obtain ⟨x, h3, h4⟩ := bodePhaRad_mod (mem := mem k) hU hi hj hz hz0
      exact ⟨_, by simp [bodePha, h3], showsPhase_of h4⟩
    · intro q z z' φ φ' hz hz0 hz' hz0' h3 h4
      obtain ⟨x, h5, rfl⟩ := bodePha_get h3
      obtain ⟨x', h6, rfl⟩ := bodePha_get h4
      rw [inRad_deg, inRad_deg]
      exact bodePhaRad_step hU hi hj hz hz0 hz' hz0' h5 h6
    · intro h hdt hh
      refine ⟨nyqFreq useHz h, toRad_nyqFreq hh, hmem _ ?_, hmem _ ?_⟩ <;> simp [channelItems, hdt, bodeLabel_eq]
  · obtain ⟨k, G, R, h3, h4, h5, i, hi, j, hj, h6⟩ := (h2 it).mp hit
    refine ⟨k, G, R, h3, h4, h5, i, hi, j, hj, ?_⟩
    unfold channelItems at h6
    cases hdt : G.dt with
    | none =>
      rw [hdt] at h6
      simp at h6
      rcases h6 with rfl | rfl
      · exact Or.inl ⟨_, rfl⟩
      · exact Or.inr (Or.inl ⟨_, rfl⟩)
    | some h =>
      rw [hdt] at h6
      simp at h6
      rcases h6 with rfl | rfl | rfl | rfl
      · exact Or.inl ⟨_, rfl⟩
      · exact Or.inr (Or.inl ⟨_, rfl⟩)
      · exact Or.inr (Or.inr ⟨by simp, _, Or.inl rfl⟩)
      · exact Or.inr (Or.inr ⟨by simp, _, Or.inr rfl⟩)

/-- **C79** fails where the response is zero: for every number `φ` there is a content of the memory for which the phase curve shows `φ` there. -/
theorem C79_zero_violated (hU : UnwrapOk unwrap) (hne : sys ≠ []) (hresp : ∀ G ∈ sys, ∃ R, G.resp (plotGrid sys w useHz) = .ok R ∧ RespOk G R)
    {k i j q : ℕ} {G : FSys} {R : FreqOut} (hk : sys[k]? = some G) (hks : k < styles) (hR : G.resp (plotGrid sys w useHz) = .ok R) (hi : i < G.p)
    (hj : j < G.m) (hz : SampleIs R q i j (some 0)) (φ : ℝ) :
    ∃ mem items yp, bodePlot unwrap mem sys w useDb useHz useDeg styles = .ok items ∧
      .curve (2 * i + 1) j (plotLabel k j i "phase") k R.w yp ∈ items ∧ yp[q]? = some (some φ) := by
  obtain ⟨items, h1, h2⟩ := bodePlot_ok (mem := fun _ _ => inRad useDeg φ) (useDb := useDb) (useDeg := useDeg) (styles := styles) hU hne hresp
  refine ⟨_, items, bodePha useDeg (bodePhaRad unwrap (fun _ => inRad useDeg φ) G.p G.m R.resp i j), h1,
    (h2 _).mpr ⟨k, G, R, hk, hks, hR, i, hi, j, hj, by simp [channelItems, bodeLabel_eq]⟩, ?_⟩
  rw [bodePha, List.getElem?_map, bodePhaRad_zero hi hj hz]
  have := Real.pi_ne_zero
  cases useDeg
  · simp [inRad]
  · simp [inRad]
    field_simp

end bode

/-! ## `State` and `Transfer` systems -/

theorem plotUnit_ok (useHz : Bool) : plotUnit useHz = "rad/s" ∨ IsHz (plotUnit useHz) := by
  cases useHz
  · exact Or.inl rfl
  · exact Or.inr isHz_Hz

theorem sampleIs_of {R : FreqOut} {dt : Option ℝ} {ou : String} {p m : ℕ} {val : ℂ → Matrix (Fin p) (Fin m) ℂ → Prop} (h : Samples R dt ou p m val)
    {q : ℕ} {ω : ℝ} (hq : R.w[q]? = some ω) {M : Matrix (Fin p) (Fin m) ℂ} (hM : val (evalPoint dt (toRad ou ω)) M) (i : Fin p) (j : Fin m) :
    SampleIs R q i j (some (M i j)) :=
  ⟨_, h.value q ω hq M hM, i.isLt, j.isLt, rfl⟩

section systems
variable {n p m : ℕ} {N : HessNum ℝ} {auto : List ℝ} {useHz : Bool} {w : Option (List ℝ)} {R : FreqOut}

/-- **C79**, `State` systems with dynamics: an answer of `frequency_response` meets the hypothesis of `C79_bode_partial`, and its samples are the
values of the transfer matrix at the frequencies on the axis of the plot. -/
theorem C79_state {A : Matrix (Fin n) (Fin n) ℝ} {B : Matrix (Fin n) (Fin m) ℝ} {C : Matrix (Fin p) (Fin n) ℝ} {D : Matrix (Fin p) (Fin m) ℝ}
    {dt : Option ℝ} (hn : 0 < n) (hq : ∀ b : Matrix (Fin n) (Fin 1) ℝ, QrOk N b) (hh : ∀ M : Matrix (Fin n) (Fin n) ℝ, HessOk N M)
    (h : (FSys.ofState N auto ⟨Arr.of A, Arr.of B, Arr.of C, Arr.of D, dt, false⟩ useHz).resp w = .ok R) :
    RespOk (FSys.ofState N auto ⟨Arr.of A, Arr.of B, Arr.of C, Arr.of D, dt, false⟩ useHz) R ∧
    ∀ (q : ℕ) (ω : ℝ), R.w[q]? = some ω → ∀ M : Matrix (Fin p) (Fin m) ℂ,
      HasTF (⟨Arr.of A, Arr.of B, Arr.of C, Arr.of D, dt, false⟩ : StateM ℝ) p m (evalPoint dt (toRad (plotUnit useHz) ω)) M →
      PivotsOk A C (evalPoint dt (toRad (plotUnit useHz) ω)) → ∀ (i : Fin p) (j : Fin m), SampleIs R q i j (some (M i j)) := by
  have hs := C45_values hn hq hh (plotUnit_ok useHz) h
  refine ⟨⟨hs.length, ?_⟩, fun q ω hq' M hM hP i j => sampleIs_of hs hq' ⟨hM, hP⟩ i j⟩
  obtain ⟨ws, -, -, -, -, -, hr⟩ := freqState_ok h
  obtain ⟨rows, -, h2⟩ := hr rfl
  rw [h2]
  intro a ha
  obtain ⟨x, -, rfl⟩ := List.mem_map.mp ha
  exact ⟨rfl, rfl⟩

/-- **C79**, `Transfer` systems with dynamics. -/
theorem C79_transfer {G : TransferM ℝ} (hG : G.isgain = false) (h : (FSys.ofTransfer auto G useHz).resp w = .ok R) :
    RespOk (FSys.ofTransfer auto G useHz) R ∧ ∀ (q : ℕ) (ω : ℝ), R.w[q]? = some ω → ∀ M : Matrix (Fin p) (Fin m) ℂ,
      HasVal G p m (evalPoint G.dt (toRad (plotUnit useHz) ω)) M → ∀ (i : Fin p) (j : Fin m), SampleIs R q i j (some (M i j)) := by
  have hs := C44_values_partial (p := p) (m := m) hG (plotUnit_ok useHz) h
  refine ⟨⟨hs.length, ?_⟩, fun q ω hq' M hM i j => sampleIs_of hs hq' hM i j⟩
  obtain ⟨ws, -, -, -, -, -, hr⟩ := freqTransfer_ok h
  rw [hr hG]
  intro a ha
  obtain ⟨x, -, rfl⟩ := List.mem_map.mp ha
  exact ⟨rfl, rfl⟩

theorem plotUnit_in (useHz : Bool) : plotUnit useHz = "Hz" ∨ IsRad (plotUnit useHz) := by
  cases useHz
  · exact Or.inr isRad_rad
  · exact Or.inl rfl

/-- **C79**: with a grid `g` in the unit of the plot, the answer (so the axis of the plot) contains the frequencies asked for, without those above
the Nyquist frequency of a discrete model. -/
theorem C79_axis {S : StateM ℝ} {T : TransferM ℝ} {g : List ℝ} :
    ((FSys.ofState N auto S useHz).resp (some g) = .ok R → R.w.map (toRad (plotUnit useHz)) = askedGrid S.dt (plotUnit useHz) g) ∧
    ((FSys.ofTransfer auto T useHz).resp (some g) = .ok R → R.w.map (toRad (plotUnit useHz)) = askedGrid T.dt (plotUnit useHz) g) :=
  ⟨fun h => C46_state_grid_partial (plotUnit_in useHz) (plotUnit_ok useHz) h,
    fun h => C46_transfer_grid_partial (plotUnit_in useHz) (plotUnit_ok useHz) h⟩

/-- **C79** fails for static gains with a grid given by the user: unless it has two frequencies, the plot raises `ValueError` because
`frequency_response` answers with two samples. -/
theorem C79_gain_violated {unwrap : List ℝ → List ℝ} {mem : ℕ → ℕ → ℝ} {useDb useDeg : Bool} {styles : ℕ} {D : Matrix (Fin p) (Fin m) ℝ}
    {a b c : Arr ℝ} (hp : 0 < p) (hm : 0 < m) (hst : 0 < styles) {g : List ℝ} (hg : g.length ≠ 2) (sys : List FSys) :
    bodePlot unwrap mem (FSys.ofState N auto ⟨a, b, c, Arr.of D, none, true⟩ useHz :: sys) (some g) useDb useHz useDeg styles = .error .value := by
  obtain ⟨styles, rfl⟩ := Nat.exists_eq_add_of_le' hst
  have hu : unitOk (plotUnit useHz) = true := unitOk_iff.mpr (by
    cases useHz
    · exact Or.inr (by simp [plotUnit, IsRad])
    · exact Or.inl isHz_Hz)
  have hresp : ∃ F, (FSys.ofState N auto ⟨a, b, c, Arr.of D, none, true⟩ useHz).resp (some g) = .ok F ∧ F.resp.length = 2 ∧ F.w.length = g.length := by
    refine ⟨⟨List.replicate 2 (Arr.of (Matrix.of fun i j => some ((D i j : ℝ) : ℂ))),
      outGrid (plotUnit useHz) (if plotUnit useHz = "Hz" then g.map fun x => x * (2 * Real.pi) else g)⟩, ?_, by simp, ?_⟩
    · have h1 : ¬ 1 < (List.filter (fun n => decide (n ≠ 1)) [g.length]).length := by
        have := List.length_filter_le (fun n => decide (n ≠ 1)) [g.length]
        simp only [List.length_singleton] at this
        omega
      simp only [FSys.ofState, freqState, Option.map_some, Option.isSome_some, if_true, hu, freqGrid]
      rw [if_neg h1]
      simp [userGrid, bind, Except.bind]
    · rw [outGrid_length]
      split_ifs <;> simp
  obtain ⟨F, h1, h2, h3⟩ := hresp
  have hlist : ∃ l, ((List.range m).flatMap fun col => (List.range p).map fun row => (row, col)) = (0, 0) :: l := by
    obtain ⟨m, rfl⟩ := Nat.exists_eq_add_of_le' hm
    obtain ⟨p, rfl⟩ := Nat.exists_eq_add_of_le' hp
    have e1 : List.range (m + 1) = 0 :: (List.range m).map Nat.succ := List.range_succ_eq_map
    have e2 : List.range (p + 1) = 0 :: (List.range p).map Nat.succ := List.range_succ_eq_map
    exact ⟨_, by rw [e1, e2, List.flatMap_cons, List.map_cons, List.cons_append]⟩
  obtain ⟨l, hl⟩ := hlist
  have hR : ∀ sys : List FSys, (FSys.ofState N auto ⟨a, b, c, Arr.of D, none, true⟩ useHz).p = p := fun _ => rfl
  have hdraw : ∀ R C, 0 < R → 0 < C → bodeSys unwrap mem useDb useHz useDeg R C 0 (FSys.ofState N auto ⟨a, b, c, Arr.of D, none, true⟩ useHz) F
      = .error .value := by
    intro R C hR hC
    unfold bodeSys
    have e : (FSys.ofState N auto ⟨a, b, c, Arr.of D, none, true⟩ useHz).m = m := rfl
    have e' : (FSys.ofState N auto ⟨a, b, c, Arr.of D, none, true⟩ useHz).p = p := rfl
    rw [e, e', hl, List.mapM_cons]
    have : bodeChannel unwrap (mem 0) useDb useHz useDeg R C 0 (FSys.ofState N auto ⟨a, b, c, Arr.of D, none, true⟩ useHz) F 0 0 = .error .value := by
      unfold bodeChannel semilogx
      rw [if_neg (by omega), if_pos (by simp [bodeMag, freAt_length, h2, h3, hg])]
      rfl
    rw [this]
    rfl
  unfold bodePlot maxShapeF
  rw [if_neg (by simp)]
  simp only [bind, Except.bind]
  unfold plotEntries
  simp only [List.take_succ_cons, List.zipIdx_cons, List.map_cons, freqLoop, keepGrid, h1, bind, Except.bind]
  rw [hdraw]
  · have : p ≤ (List.map FSys.p (FSys.ofState N auto ⟨a, b, c, Arr.of D, none, true⟩ useHz :: sys)).foldr max 0 := le_max_left _ _
    rw [List.map_cons] at this
    omega
  · have : m ≤ (List.map FSys.m (FSys.ofState N auto ⟨a, b, c, Arr.of D, none, true⟩ useHz :: sys)).foldr max 0 := le_max_left _ _
    rw [List.map_cons] at this
    omega

/-- **C79**, static gains on the grid they get on their own. -/
theorem C79_gain_alone {D : Matrix (Fin p) (Fin m) ℝ} {a b c : Arr ℝ} {dt : Option ℝ} :
    ∃ R, (FSys.ofState N auto ⟨a, b, c, Arr.of D, dt, true⟩ useHz).resp none = .ok R ∧
      RespOk (FSys.ofState N auto ⟨a, b, c, Arr.of D, dt, true⟩ useHz) R ∧ R.w.length = 2 ∧
      ∀ q < 2, ∀ (i : Fin p) (j : Fin m), SampleIs R q i j (some (D i j : ℂ)) := by
  have hu : unitOk (plotUnit useHz) = true := unitOk_iff.mpr (by
    cases useHz
    · exact Or.inr (by simp [plotUnit, IsRad])
    · exact Or.inl isHz_Hz)
  have hu' : unitOk "rad/s" = true := unitOk_iff.mpr (Or.inr isRad_rad)
  have hl : (outGrid (plotUnit useHz) (gainGrid dt none)).length = 2 := by
    rw [outGrid_length]
    cases dt <;> simp [gainGrid, logspace]
  refine ⟨⟨List.replicate 2 (Arr.of (Matrix.of fun i j => some ((D i j : ℝ) : ℂ))), outGrid (plotUnit useHz) (gainGrid dt none)⟩, ?_, ⟨?_, ?_⟩, hl, ?_⟩
  · simp [FSys.ofState, freqState, hu, hu', freqGrid, bind, Except.bind]
  · simp [hl]
  · intro x hx
    rw [List.eq_of_mem_replicate hx]
    exact ⟨rfl, rfl⟩
  · intro q hq i j
    exact ⟨_, by rw [List.getElem?_replicate, if_pos hq], i.isLt, j.isLt, rfl⟩

/-- **C79** fails for the gain `np.eye(2)`: what the plot shows as phase of the channel from the first input to the second output is whatever the
memory contained. -/
theorem C79_eye_violated {unwrap : List ℝ → List ℝ} (hU : UnwrapOk unwrap) {useDb useDeg : Bool} {styles : ℕ} (hst : 0 < styles) {a b c : Arr ℝ} (φ : ℝ) :
    ∃ mem items w yp, bodePlot unwrap mem [FSys.ofState N auto ⟨a, b, c, Arr.of (1 : Matrix (Fin 2) (Fin 2) ℝ), none, true⟩ useHz] none useDb useHz
        useDeg styles = .ok items ∧ .curve 3 0 "sys_0_in_0_out_1_phase" 0 w yp ∈ items ∧ yp[0]? = some (some φ) := by
  obtain ⟨R, h1, h2, -, h3⟩ := C79_gain_alone (N := N) (auto := auto) (useHz := useHz) (D := (1 : Matrix (Fin 2) (Fin 2) ℝ)) (a := a) (b := b) (c := c)
    (dt := none)
  have h := C79_zero_violated (useDb := useDb) (useHz := useHz) (useDeg := useDeg) (styles := styles) (w := none)
    (sys := [FSys.ofState N auto ⟨a, b, c, Arr.of (1 : Matrix (Fin 2) (Fin 2) ℝ), none, true⟩ useHz]) (k := 0) (i := 1) (j := 0) (q := 0) hU (by simp)
    (by
      intro G hG
      rw [List.mem_singleton] at hG
      subst hG
      exact ⟨R, by simpa [plotGrid] using h1, h2⟩) rfl hst (by simpa [plotGrid] using h1) (by show 1 < 2; omega) (by show 0 < 2; omega)
    (by simpa using h3 0 (by omega) 1 0) φ
  obtain ⟨mem, items, yp, h4, h5, h6⟩ := h
  exact ⟨mem, items, R.w, yp, h4, h5, h6⟩

/-- `np.unwrap`. -/
noncomputable def refUnwrap : List ℝ → List ℝ
  | [] => []
  | a :: l => a :: go a l
where
  go : ℝ → List ℝ → List ℝ
  | _, [] => []
  | p, a :: l => (a - round ((a - p) / (2 * Real.pi)) * (2 * Real.pi)) :: go (a - round ((a - p) / (2 * Real.pi)) * (2 * Real.pi)) l

theorem refUnwrap_mod (p : ℝ) (l : List ℝ) : List.Forall₂ (fun a b => ∃ k : ℤ, b = a + k * (2 * Real.pi)) l (refUnwrap.go p l) := by
  induction l generalizing p with
  | nil => exact .nil
  | cons a l ih =>
    refine .cons ⟨-round ((a - p) / (2 * Real.pi)), ?_⟩ (ih _)
    push_cast
    ring

theorem refUnwrap_step (p : ℝ) (l : List ℝ) (q : ℕ) (a b : ℝ) (ha : (p :: refUnwrap.go p l)[q]? = some a)
    (hb : (p :: refUnwrap.go p l)[q + 1]? = some b) : |b - a| ≤ Real.pi := by
  induction l generalizing p q with
  | nil => simp [refUnwrap.go] at hb
  | cons x l ih =>
    cases q with
    | succ q =>
      rw [List.getElem?_cons_succ] at ha hb
      exact ih _ q ha hb
    | zero =>
      simp only [refUnwrap.go, List.getElem?_cons_zero, List.getElem?_cons_succ, Option.some.injEq, zero_add] at ha hb
      subst ha hb
      have h := abs_sub_round ((x - p) / (2 * Real.pi))
      have hpi := Real.pi_pos
      have e : x - round ((x - p) / (2 * Real.pi)) * (2 * Real.pi) - p
          = ((x - p) / (2 * Real.pi) - round ((x - p) / (2 * Real.pi))) * (2 * Real.pi) := by
        field_simp
        ring
      rw [e, abs_mul, abs_of_pos (by positivity : 0 < 2 * Real.pi)]
      nlinarith

theorem refUnwrap_ok : UnwrapOk refUnwrap := by
  refine ⟨fun l => ?_, fun l q a b ha hb => ?_⟩
  · cases l with
    | nil => exact .nil
    | cons a l => exact .cons ⟨0, by simp⟩ (refUnwrap_mod a l)
  · cases l with
    | nil => simp [refUnwrap] at ha
    | cons x l => exact refUnwrap_step x l q a b ha hb

/-- The hypotheses of `C79_bode_partial` and `C79_transfer` are met by `1 / (s + 1)` with a grid of three frequencies, plotted together with `1 / (s + 2)`. -/
example : UnwrapOk refUnwrap ∧ ∀ G ∈ [FSys.ofTransfer [] ⟨constArr 1 1 [1], constArr 1 1 [1, 1], false, none⟩ true,
      FSys.ofTransfer [] ⟨constArr 1 1 [1], constArr 1 1 [1, 2], false, none⟩ true],
    ∃ R, G.resp (some [1, 2, 3]) = .ok R ∧ RespOk G R ∧ R.w.length = 3 := by
  have hu : unitOk "Hz" = true := unitOk_iff.mpr (.inl isHz_Hz)
  have key : ∀ d : List ℝ, ∃ R, (FSys.ofTransfer [] ⟨constArr 1 1 [1], constArr 1 1 d, false, none⟩ true).resp (some [1, 2, 3]) = .ok R ∧
      RespOk (FSys.ofTransfer [] ⟨constArr 1 1 [1], constArr 1 1 d, false, none⟩ true) R ∧ R.w.length = 3 := by
    intro d
    have : ∃ R, (FSys.ofTransfer [] ⟨constArr 1 1 [1], constArr 1 1 d, false, none⟩ true).resp (some [1, 2, 3]) = .ok R ∧ R.w.length = 3 := by
      simp [FSys.ofTransfer, plotUnit, freqTransfer, hu, freqGrid, userGrid, bind, Except.bind, outGrid]
    obtain ⟨R, h1, h2⟩ := this
    exact ⟨R, h1, (C79_transfer (p := 1) (m := 1) rfl h1).1, h2⟩
  refine ⟨refUnwrap_ok, fun G hG => ?_⟩
  rcases List.mem_cons.mp hG with rfl | hG
  · exact key _
  · rw [List.mem_singleton] at hG
    subst hG
    exact key _

end systems

/-! ## C80: Nyquist plots -/

section nyquist
variable {sys : List FSys} {w : Option (List ℝ)} {useHz neg : Bool} {styles : ℕ}

/-- The curves of one channel. -/
noncomputable def nyqItems (F : FreqOut) (row col : ℕ) : List NyqCurve :=
  [⟨row, col, "-", nyqPts false F.resp row col⟩, ⟨row, col, "-.", nyqPts true F.resp row col⟩, ⟨row, col, "b+", [some (-1, 0)]⟩]

theorem nyqSys_ok {R C ind : ℕ} {G : FSys} {F : FreqOut} (hR : G.p ≤ R) (hC : G.m ≤ C) :
    ∃ l, nyqSys R C ind G F = .ok l ∧ ∀ it, it ∈ l ↔ ∃ row < G.p, ∃ col < G.m, it ∈ nyqItems F row col := by
  refine ⟨(((List.range G.m).flatMap fun col => (List.range G.p).map fun row => (row, col)).map fun x => nyqItems F x.1 x.2).flatten, ?_, fun it => ?_⟩
  · unfold nyqSys
    rw [mapM_map_ok (g := fun x => nyqItems F x.1 x.2)]
    · rfl
    · intro x hx
      simp only [List.mem_flatMap, List.mem_map, List.mem_range] at hx
      obtain ⟨col, hc, row, hr, rfl⟩ := hx
      unfold nyqChannel nyqItems
      rw [if_neg (by simp only; omega)]
  · simp only [List.mem_flatten, List.mem_map, List.mem_flatMap, List.mem_range]
    constructor
    · rintro ⟨l, ⟨x, ⟨col, hc, row, hr, rfl⟩, rfl⟩, hit⟩
      exact ⟨row, hr, col, hc, hit⟩
    · rintro ⟨row, hr, col, hc, hit⟩
      exact ⟨_, ⟨(row, col), ⟨col, hc, row, hr, rfl⟩, rfl⟩, hit⟩

theorem nyquistPlot_ok (hne : sys ≠ []) (hresp : ∀ G ∈ sys, ∃ R, G.resp (plotGrid sys w useHz) = .ok R) :
    ∃ items, nyquistPlot sys w useHz neg styles = .ok items ∧
      ∀ it, it ∈ items ↔ ∃ k G R, sys[k]? = some G ∧ k < styles ∧ G.resp (plotGrid sys w useHz) = .ok R ∧
        ∃ row < G.p, ∃ col < G.m, it ∈ nyqItems R row col := by
  classical
  have hle : ∀ G ∈ sys, G.p ≤ (sys.map FSys.p).foldr max 0 ∧ G.m ≤ (sys.map FSys.m).foldr max 0 :=
    fun G hG => ⟨foldr_max_natGe (List.mem_map_of_mem hG), foldr_max_natGe (List.mem_map_of_mem hG)⟩
  have hex : ∀ (k : ℕ) (G : FSys), ∃ l, G ∈ sys → ∃ R, G.resp (plotGrid sys w useHz) = .ok R ∧
      nyqSys ((sys.map FSys.p).foldr max 0) ((sys.map FSys.m).foldr max 0) k G R = .ok l ∧
      ∀ it, it ∈ l ↔ ∃ row < G.p, ∃ col < G.m, it ∈ nyqItems R row col := by
    intro k G
    by_cases hG : G ∈ sys
    · obtain ⟨R, h1⟩ := hresp G hG
      obtain ⟨l, h2, h3⟩ := nyqSys_ok (ind := k) (F := R) (hle G hG).1 (hle G hG).2
      exact ⟨l, fun _ => ⟨R, h1, h2, h3⟩⟩
    · exact ⟨[], fun h => absurd h hG⟩
  choose f hf using hex
  have h := freqLoop_entries (draw := nyqSys ((sys.map FSys.p).foldr max 0) ((sys.map FSys.m).foldr max 0))
    (useHz := useHz) (sys := sys) (w := w) (styles := styles) (f := f) (fun k G hk _ => by
      obtain ⟨R, h1, h2, -⟩ := hf k G (List.mem_of_getElem? hk)
      exact ⟨R, h1, h2⟩)
  refine ⟨((sys.take styles).zipIdx).flatMap fun x => f x.2 x.1, ?_, fun it => ?_⟩
  · unfold nyquistPlot maxShapeF
    rw [if_neg hne]
    simp only [bind, Except.bind, h]
  · rw [List.mem_flatMap]
    constructor
    · rintro ⟨x, hx, hit⟩
      have h1 := List.mk_mem_zipIdx_iff_getElem?.mp (show (x.1, x.2) ∈ _ from hx)
      rw [List.getElem?_take] at h1
      split_ifs at h1 with h2
      obtain ⟨R, h3, -, h4⟩ := hf x.2 x.1 (List.mem_of_getElem? h1)
      exact ⟨x.2, x.1, R, h1, h2, h3, (h4 it).mp hit⟩
    · rintro ⟨k, G, R, h1, h2, h3, h4⟩
      refine ⟨(G, k), List.mk_mem_zipIdx_iff_getElem?.mpr (by rw [List.getElem?_take, if_pos h2]; exact h1), ?_⟩
      obtain ⟨R', h5, -, h6⟩ := hf k G (List.mem_of_getElem? h1)
      rw [h3] at h5
      cases h5
      exact (h6 it).mpr h4

theorem nyqPts_get {R : FreqOut} {q i j : ℕ} {z : ℂ} (h : SampleIs R q i j (some z)) (neg : Bool) :
    (nyqPts neg R.resp i j)[q]? = some (some (z.re, if neg then -z.im else z.im)) := by
  obtain ⟨a, h1, hi, hj, h2⟩ := h
  simp only [nyqPts, List.getElem?_map, h1, Option.map_some]
  rw [dif_pos ⟨hi, hj⟩, h2]
  rfl

/-- **C80**: a Nyquist plot succeeds if `frequency_response` answers for every system. For every drawn system and every channel `(i, j)`, panel `(i, j)`
contains the curve through the samples, the curve through their mirror images and a mark at `-1`; nothing else is drawn.

`_partial`: systems beyond the length of the property cycle are not drawn and all systems share the grid of the first one
(`C47_styles_violated`, `C47_plot_violated`); the mirror images are drawn even if they are not wanted (`C80_negative_violated`). -/
theorem C80_nyquist_partial (hne : sys ≠ []) (hresp : ∀ G ∈ sys, ∃ R, G.resp (plotGrid sys w useHz) = .ok R) :
    ∃ items, nyquistPlot sys w useHz neg styles = .ok items ∧
      (∀ k G R, sys[k]? = some G → k < styles → G.resp (plotGrid sys w useHz) = .ok R → ∀ i < G.p, ∀ j < G.m,
        ∃ up lo, ⟨i, j, "-", up⟩ ∈ items ∧ ⟨i, j, "-.", lo⟩ ∈ items ∧ ⟨i, j, "b+", [some (-1, 0)]⟩ ∈ items ∧
          up.length = R.resp.length ∧ lo.length = R.resp.length ∧
          ∀ q z, SampleIs R q i j (some z) → up[q]? = some (some (z.re, z.im)) ∧
            lo[q]? = some (some (((starRingEnd ℂ) z).re, ((starRingEnd ℂ) z).im))) ∧
      (∀ it ∈ items, ∃ k G, sys[k]? = some G ∧ k < styles ∧ it.row < G.p ∧ it.col < G.m ∧
        (it.fmt = "-" ∨ it.fmt = "-." ∨ it.fmt = "b+" ∧ it.pts = [some (-1, 0)])) := by
  obtain ⟨items, h1, h2⟩ := nyquistPlot_ok (neg := neg) (styles := styles) hne hresp
  refine ⟨items, h1, fun k G R hk hks hR i hi j hj => ?_, fun it hit => ?_⟩
  · have hmem : ∀ it ∈ nyqItems R i j, it ∈ items := fun it hit => (h2 it).mpr ⟨k, G, R, hk, hks, hR, i, hi, j, hj, hit⟩
    refine ⟨nyqPts false R.resp i j, nyqPts true R.resp i j, hmem _ (List.mem_cons_self ..), hmem _ (by simp [nyqItems]), hmem _ (by simp [nyqItems]), by simp [nyqPts], by simp [nyqPts], fun q z hz => ?_⟩
    exact ⟨by simpa using nyqPts_get hz false, by simpa using nyqPts_get hz true⟩
  · obtain ⟨k, G, R, h3, h4, h5, i, hi, j, hj, h6⟩ := (h2 it).mp hit
    refine ⟨k, G, h3, h4, ?_⟩
    simp only [nyqItems, List.mem_cons, List.not_mem_nil, or_false] at h6
    rcases h6 with rfl | rfl | rfl
    · exact ⟨hi, hj, Or.inl rfl⟩
    · exact ⟨hi, hj, Or.inr (Or.inl rfl)⟩
    · exact ⟨hi, hj, Or.inr (Or.inr ⟨rfl, rfl⟩)⟩

/-- **C80** fails for `negative_freqs=False`: the mirror image of every sample is drawn nevertheless. -/
theorem C80_negative_violated (hne : sys ≠ []) (hresp : ∀ G ∈ sys, ∃ R, G.resp (plotGrid sys w useHz) = .ok R) {k i j q : ℕ} {G : FSys} {R : FreqOut} {z : ℂ}
    (hk : sys[k]? = some G) (hks : k < styles) (hR : G.resp (plotGrid sys w useHz) = .ok R) (hi : i < G.p) (hj : j < G.m)
    (hz : SampleIs R q i j (some z)) :
    ∃ items, nyquistPlot sys w useHz false styles = .ok items ∧ ∃ c ∈ items, c.row = i ∧ c.col = j ∧ some (z.re, -z.im) ∈ c.pts := by
  obtain ⟨items, h1, h2, -⟩ := C80_nyquist_partial (neg := false) (styles := styles) hne hresp
  obtain ⟨up, lo, -, h3, -, -, -, h4⟩ := h2 k G R hk hks hR i hi j hj
  exact ⟨items, h1, _, h3, rfl, rfl, List.mem_of_getElem? (by simpa using (h4 q z hz).2)⟩

end nyquist

section mirror
variable {p m : ℕ}

theorem evalPoint_neg (dt : Option ℝ) (ω : ℝ) : evalPoint dt (-ω) = (starRingEnd ℂ) (evalPoint dt ω) := by
  cases dt with
  | none => simp [evalPoint]
  | some d =>
    simp only [evalPoint, Option.elim_some]
    rw [← Complex.exp_conj]
    simp

theorem polyAt_conj (s : ℂ) (l : List ℝ) : polyAt ((starRingEnd ℂ) s) l = (starRingEnd ℂ) (polyAt s l) := by
  unfold polyAt
  rw [← Complex.conjAe_coe, Polynomial.aeval_algHom_apply]

/-- **C80**: the mirror images are the values at the negative frequencies, for `Transfer` models. -/
theorem C80_mirror_transfer {G : TransferM ℝ} {ω : ℝ} {M : Matrix (Fin p) (Fin m) ℂ} (h : HasVal G p m (evalPoint G.dt ω) M) :
    HasVal G p m (evalPoint G.dt (-ω)) (M.map (starRingEnd ℂ)) := by
  obtain ⟨N, D, hN, hD, hv⟩ := h
  refine ⟨N, D, hN, hD, fun i j => ?_⟩
  obtain ⟨h1, h2⟩ := hv i j
  rw [evalPoint_neg, polyAt_conj, polyAt_conj]
  exact ⟨by simpa using h1, by rw [Matrix.map_apply, h2, map_div₀]⟩

/-- **C80**: the mirror images are the values at the negative frequencies, for `State` models. -/
theorem C80_mirror_state {G : StateM ℝ} {ω : ℝ} {M : Matrix (Fin p) (Fin m) ℂ} (h : HasTF G p m (evalPoint G.dt ω) M) :
    HasTF G p m (evalPoint G.dt (-ω)) (M.map (starRingEnd ℂ)) := by
  rw [evalPoint_neg]
  rcases h with ⟨h1, D, h2, rfl⟩ | ⟨h1, n, A, B, C, D, hA, hB, hC, hD, h2, h3⟩
  · exact Or.inl ⟨h1, D, h2, by ext i j; simp⟩
  · have hm : ∀ {r c : ℕ} (X : Matrix (Fin r) (Fin c) ℝ), (X.map (algebraMap ℝ ℂ)).map (starRingEnd ℂ) = X.map (algebraMap ℝ ℂ) := by
      intro r c X
      ext i j
      simp
    have hs : ((starRingEnd ℂ) (evalPoint G.dt ω) • (1 : Matrix (Fin n) (Fin n) ℂ) - A.map (algebraMap ℝ ℂ))
        = (evalPoint G.dt ω • (1 : Matrix (Fin n) (Fin n) ℂ) - A.map (algebraMap ℝ ℂ)).map (starRingEnd ℂ) := by
      ext i j
      by_cases hij : i = j
      · subst hij
        simp
      · simp [Matrix.one_apply_ne hij]
    refine Or.inr ⟨h1, n, A, B, C, D, hA, hB, hC, hD, ?_, ?_⟩
    · rw [hs, ← RingHom.mapMatrix_apply, ← RingHom.map_det]
      simpa using h2
    · rw [h3, hs]
      rw [Matrix.map_add _ (map_add _), Matrix.map_mul, Matrix.map_mul, hm, hm, hm]
      congr 3
      rw [Matrix.inv_def, Matrix.inv_def, Ring.inverse_eq_inv']
      generalize evalPoint G.dt ω • (1 : Matrix (Fin n) (Fin n) ℂ) - A.map (algebraMap ℝ ℂ) = X
      rw [← RingHom.mapMatrix_apply, ← RingHom.mapMatrix_apply, ← RingHom.map_det, ← RingHom.map_adjugate]
      ext i j
      simp

/-- The hypothesis of the mirror theorems is met by `1 / (s + 1)` at every frequency. -/
example (ω : ℝ) : HasVal (⟨constArr 1 1 [1], constArr 1 1 [1, 1], false, none⟩ : TransferM ℝ) 1 1 (evalPoint none ω)
    (Matrix.of fun _ _ => 1 / (Complex.I * ω + 1)) := by
  refine ⟨_, _, rfl, rfl, fun i j => ⟨?_, ?_⟩⟩
  · intro h
    have := congrArg Complex.re h
    simp [polyAt, toPoly, evalPoint] at this
  · simp [polyAt, toPoly, evalPoint]

end mirror

end Harold
