import Verif.Spec.TimePlot
import Verif.Props.Sim

/-!
# C78: step and impulse response plots
-/

namespace Harold

open Matrix Harold.Spec

variable {P : Type} {Nm : Numerics ℝ P} {E : DNum}

theorem colList_of {r c : ℕ} (Y : Matrix (Fin r) (Fin c) ℝ) {j : ℕ} (hj : j < c) :
    (Arr.of Y).colList j = List.ofFn fun q => Y q ⟨j, hj⟩ := by
  apply List.ext_getElem
  · simp [Arr.colList]
  · intro i h1 h2
    have hi : i < r := by simpa [Arr.colList] using h1
    have := get_of Y ⟨i, hi⟩ ⟨j, hj⟩
    simpa [Arr.colList] using this

theorem mapM_self {α : Type} {f : α → Res α} {l : List α} (h : ∀ c ∈ l, f c = .ok c) : l.mapM f = .ok l := by
  induction l with
  | nil => rfl
  | cons a l ih =>
    rw [List.mapM_cons, h a (by simp), ih fun c hc => h c (by simp [hc])]
    rfl

/-- The end of the time axis after the systems of the list. -/
noncomputable def limFold (l : List ℝ) (lim : Option ℝ) : Option ℝ :=
  l.foldl (fun lim tl => some (lim.elim tl fun x => min tl x)) lim

theorem limFold_some (l : List ℝ) (a : ℝ) :
    ∃ b, limFold l (some a) = some b ∧ b ≤ a ∧ (∀ x ∈ l, b ≤ x) ∧ (b = a ∨ b ∈ l) := by
  induction l generalizing a with
  | nil => exact ⟨a, rfl, le_refl _, by simp, Or.inl rfl⟩
  | cons x l ih =>
    obtain ⟨b, h1, h2, h3, h4⟩ := ih (min x a)
    refine ⟨b, h1, h2.trans (min_le_right _ _), ?_, ?_⟩
    · intro y hy
      rcases List.mem_cons.mp hy with rfl | hy
      · exact h2.trans (min_le_left _ _)
      · exact h3 y hy
    · rcases h4 with h4 | h4
      · rcases min_choice x a with h5 | h5 <;> rw [h5] at h4
        · exact Or.inr (by simp [h4])
        · exact Or.inl h4
      · exact Or.inr (by simp [h4])

theorem limFold_none {l : List ℝ} (hl : l ≠ []) : ∃ b, limFold l none = some b ∧ (∀ x ∈ l, b ≤ x) ∧ b ∈ l := by
  cases l with
  | nil => exact absurd rfl hl
  | cons x l =>
    obtain ⟨b, h1, h2, h3, h4⟩ := limFold_some l x
    refine ⟨b, h1, ?_, ?_⟩
    · intro y hy
      rcases List.mem_cons.mp hy with rfl | hy
      · exact h2
      · exact h3 y hy
    · rcases h4 with rfl | h4 <;> simp [*]

theorem timeLoop_ok {resp : StateObj ℝ P → Res (SimOut × List ℝ)} {R C : ℕ} {f : StateObj ℝ P → SimOut × List ℝ}
    {l : List (StateObj ℝ P × Option ℕ)}
    (h : ∀ x ∈ l, resp x.1 = .ok (f x.1) ∧ (f x.1).2 ≠ [] ∧
      ∀ c ∈ sysCurves x.1.g (f x.1).1 (f x.1).2 x.2, c.row < R ∧ c.col < C ∧ c.t.length = c.y.length) (lim : Option ℝ) :
    timeLoop resp R C l lim = .ok (l.flatMap fun x => sysCurves x.1.g (f x.1).1 (f x.1).2 x.2,
      limFold (l.map fun x => (f x.1).2.getLastD 0) lim) := by
  induction l generalizing lim with
  | nil => rfl
  | cons x l ih =>
    obtain ⟨S, sty⟩ := x
    obtain ⟨h1, h2, h3⟩ := h (S, sty) (by simp)
    have h4 : (f S).2.getLast? = some ((f S).2.getLastD 0) := by
      rw [List.getLastD_eq_getLast?]
      cases h5 : (f S).2.getLast? with
      | none => exact absurd (List.getLast?_eq_none_iff.mp h5) h2
      | some a => rfl
    have h5 : (sysCurves S.g (f S).1 (f S).2 sty).mapM (drawTime R C) = .ok (sysCurves S.g (f S).1 (f S).2 sty) := by
      refine mapM_self fun c hc => ?_
      obtain ⟨h6, h7, h8⟩ := h3 c hc
      unfold drawTime
      rw [if_neg (by simp [h6, h7]), if_neg (by simp [h8])]
    unfold timeLoop
    simp only at h1
    simp only [h1, bind, Except.bind, h4, h5, ih fun x hx => h x (by simp [hx])]
    rfl

/-- A 2-D array for one input, a 3-D array for several. -/
def packOut {m p N : ℕ} (Y : Fin m → Matrix (Fin N) (Fin p) ℝ) : SimOut :=
  if h : m = 1 then .flat (Arr.of (Y ⟨0, by omega⟩)) else .perChannel (List.ofFn fun j => Arr.of (Y j))

/-- What the per channel simulation of the plots returns. -/
theorem simulate_channels {S : StateObj ℝ P} {t : List ℝ} (hE : BalanceOk E) (hG : Consistent S.g S.g.p S.g.m) (hdt : DtOk S.g.dt)
    (hm : 1 ≤ S.g.m) (hgrid : GridOk t) (hper : PeriodOk S.g.dt t) (v : ℕ → ℝ) :
    ∃ Y : Fin S.g.m → Matrix (Fin t.length) (Fin S.g.p) ℝ,
      (∀ j : Fin S.g.m, simulate Nm E S (Arr.of (Matrix.of fun (q : Fin t.length) (l : Fin S.g.m) => if (l : ℕ) = j then v q else 0)) (some t) none
        false = .ok (.flat (Arr.of (Y j)), t)) ∧
      simulate Nm E S (Arr.of (Matrix.of fun (q : Fin t.length) (_ : Fin S.g.m) => v q)) (some t) none true
        = .ok (packOut Y, t) := by
  have hN : 2 ≤ t.length := hgrid.1
  set U : Matrix (Fin t.length) (Fin S.g.m) ℝ := Matrix.of fun q _ => v q with hU
  have hon : ∀ j : Fin S.g.m, onlyChannel U j = Matrix.of fun (q : Fin t.length) (l : Fin S.g.m) => if (l : ℕ) = j then v q else 0 := by
    intro j
    ext q l
    simp [onlyChannel, hU, Fin.ext_iff]
  obtain ⟨y, hy⟩ := C43_accepts (Nm := Nm) hE hG hdt hm hgrid hper rfl U false
  by_cases h1 : S.g.m = 1
  · have hU1 : ∀ j : Fin S.g.m, onlyChannel U j = U := by
      intro j
      ext q l
      have : l = j := by have := l.isLt; have := j.isLt; exact Fin.ext (by omega)
      simp [onlyChannel, this]
    have ht : timeArray S.g.dt (some (Arr.of U)) (some t) = .ok t := by
      unfold timeArray; exact checkT_ok hgrid hper
    have hpos := timeArray_pos hdt (Arr.of U) hN ht
    suffices ∃ Y0 : Matrix (Fin t.length) (Fin S.g.p) ℝ, ∀ pc, simulate Nm E S (Arr.of U) (some t) none pc = .ok (.flat (Arr.of Y0), t) by
      obtain ⟨Y0, h0⟩ := this
      refine ⟨fun _ => Y0, fun j => ?_, ?_⟩
      · rw [← hon, hU1]; exact h0 false
      · rw [packOut, dif_pos h1]; exact h0 true
    obtain ⟨a, b, c, D, dt', hG'⟩ | ⟨n, A, B, C, D, dt', hG'⟩ := consistent_cases hG
    · exact ⟨U * Dᵀ, fun pc => by rw [simulate_gain hN hm hG' ht rfl, simGain_flat _ (Or.inr h1)]; rfl⟩
    · obtain ⟨A', B', dt'', hmod⟩ := simModel_ok (Nm := Nm) hE hG' hpos
      exact ⟨_, fun pc => simulate_flat (x0 := 0) hN hm (by rw [hG']) (by rw [hG']; rfl) rfl ht rfl hmod
        (Or.inl ⟨rfl, rfl⟩) pc (Or.inr h1)⟩
  · obtain ⟨Y, h2, h3, -⟩ := C40_sum hE hG hdt (by omega) hy
    refine ⟨Y, fun j => ?_, ?_⟩
    · rw [← hon]; exact h3 j
    · rw [packOut, dif_neg h1]; exact h2

/-- The curves of one system: one for every output and every input. -/
theorem mem_sysCurves {S : StateM ℝ} {t : List ℝ} (hp : 1 ≤ S.p) (hm : 1 ≤ S.m) (Y : Fin S.m → Matrix (Fin t.length) (Fin S.p) ℝ)
    (sty : Option ℕ) (c : TimeCurve) :
    c ∈ sysCurves S (packOut Y) t sty ↔
      ∃ (i : Fin S.p) (j : Fin S.m), c = ⟨i, j, S.dt.isSome, t, List.ofFn fun q => Y j q i, sty⟩ := by
  by_cases h1 : S.m = 1
  · rw [packOut, dif_pos h1]
    have hj : ∀ j : Fin S.m, j = ⟨0, by omega⟩ := fun j => by have := j.isLt; exact Fin.ext (by simp; omega)
    have key : c ∈ (List.range S.p).map (fun row => (⟨row, 0, S.dt.isSome, t, (Arr.of (Y ⟨0, by omega⟩)).colList row, sty⟩ : TimeCurve)) ↔
        ∃ (i : Fin S.p) (j : Fin S.m), c = ⟨i, j, S.dt.isSome, t, List.ofFn fun q => Y j q i, sty⟩ := by
      simp only [List.mem_map, List.mem_range]
      constructor
      · rintro ⟨i, hi, rfl⟩
        exact ⟨⟨i, hi⟩, ⟨0, by omega⟩, by rw [colList_of _ hi]⟩
      · rintro ⟨i, j, rfl⟩
        refine ⟨i, i.isLt, ?_⟩
        rw [hj j, colList_of _ i.isLt]
    rw [← key]
    unfold sysCurves
    split_ifs with h2
    · simp only [StateM.isSISO, decide_eq_true_eq] at h2
      have h3 : S.p = 1 := h2.1
      simp [h3]
    · rfl
  · rw [packOut, dif_neg h1]
    have h2 : S.isSISO = false := by
      simp only [StateM.isSISO, decide_eq_false_iff_not]
      exact fun h => h1 h.2
    unfold sysCurves
    rw [if_neg (by simp [h2])]
    have h3 : ((List.ofFn fun j => Arr.of (Y j)).map Arr.c).headD 0 = S.p := by
      have : ∀ (k : ℕ) (X : Fin k → Matrix (Fin t.length) (Fin S.p) ℝ), 1 ≤ k → ((List.ofFn fun j => Arr.of (X j)).map Arr.c).headD 0 = S.p := by
        intro k X hk
        obtain ⟨k, rfl⟩ := Nat.exists_eq_add_of_le' hk
        simp [List.ofFn_succ]
      exact this _ Y hm
    simp only [h3, List.length_ofFn, List.mem_flatMap, List.mem_map, List.mem_range]
    constructor
    · rintro ⟨i, hi, j, hj, rfl⟩
      refine ⟨⟨i, hi⟩, ⟨j, hj⟩, ?_⟩
      simp [hj, colList_of _ hi]
    · rintro ⟨i, j, rfl⟩
      refine ⟨i, i.isLt, j, j.isLt, ?_⟩
      simp [colList_of _ i.isLt]

theorem length_sysCurves {S : StateM ℝ} {t : List ℝ} (hm : 1 ≤ S.m) (Y : Fin S.m → Matrix (Fin t.length) (Fin S.p) ℝ)
    (sty : Option ℕ) :
    (sysCurves S (packOut Y) t sty).length
      = S.p * S.m := by
  by_cases h1 : S.m = 1
  · rw [packOut, dif_pos h1]
    unfold sysCurves
    split_ifs <;> simp [h1]
  · rw [packOut, dif_neg h1]
    have h2 : S.isSISO = false := by
      simp only [StateM.isSISO, decide_eq_false_iff_not]
      exact fun h => h1 h.2
    unfold sysCurves
    rw [if_neg (by simp [h2])]
    have h3 : ((List.ofFn fun j => Arr.of (Y j)).map Arr.c).headD 0 = S.p := by
      have : ∀ (k : ℕ) (X : Fin k → Matrix (Fin t.length) (Fin S.p) ℝ), 1 ≤ k → ((List.ofFn fun j => Arr.of (X j)).map Arr.c).headD 0 = S.p := by
        intro k X hk
        obtain ⟨k, rfl⟩ := Nat.exists_eq_add_of_le' hk
        simp [List.ofFn_succ]
      exact this _ Y hm
    simp only [h3, List.length_flatMap, List.length_map, List.length_range, List.length_ofFn]
    simp

theorem foldr_max_natGe {l : List ℕ} {x : ℕ} (h : x ∈ l) : x ≤ l.foldr max 0 := by
  induction l with
  | nil => simp at h
  | cons a t ih =>
    simp only [List.foldr_cons, List.mem_cons] at h ⊢
    rcases h with rfl | h
    · exact le_max_left _ _
    · exact (ih h).trans (le_max_right _ _)

/-- Both plots. `T` gives the time grid of each system, `v` the signal on the active channel. -/
theorem timePlot_ok {resp : StateObj ℝ P → Res (SimOut × List ℝ)} {sys : List (StateObj ℝ P)} {styled : List (StateObj ℝ P × Option ℕ)}
    {T : StateObj ℝ P → List ℝ} {v : StateObj ℝ P → ℕ → ℝ} (hE : BalanceOk E) (hsub : ∀ x ∈ styled, x.1 ∈ sys) (hne : styled ≠ [])
    (hsys : ∀ S ∈ sys, Consistent S.g S.g.p S.g.m ∧ 1 ≤ S.g.p ∧ 1 ≤ S.g.m ∧ DtOk S.g.dt ∧ GridOk (T S) ∧ PeriodOk S.g.dt (T S))
    (hresp : ∀ S ∈ sys, resp S = simulate Nm E S (Arr.of (Matrix.of fun (q : Fin (T S).length) (_ : Fin S.g.m) => v S q)) (some (T S)) none true) :
    ∃ cs lim, timePlot resp sys styled = .ok (cs, lim) ∧
      (∀ c, c ∈ cs ↔ ∃ S sty, (S, sty) ∈ styled ∧ c.style = sty ∧ c.post = S.g.dt.isSome ∧ c.t = T S ∧ c.col < S.g.m ∧
        ShowsChannel Nm E S (T S) (v S) c.row c.col c.y) ∧
      cs.length = (styled.map fun x => x.1.g.p * x.1.g.m).sum ∧
      (∀ x ∈ styled, ∀ tl, (T x.1).getLast? = some tl → lim ≤ tl) ∧ (∃ x ∈ styled, (T x.1).getLast? = some lim) := by
  classical
  have hY : ∀ S : {S // S ∈ sys}, ∃ Y : Fin S.1.g.m → Matrix (Fin (T S.1).length) (Fin S.1.g.p) ℝ,
      (∀ j : Fin S.1.g.m, simulate Nm E S.1 (Arr.of (Matrix.of fun (q : Fin (T S.1).length) (l : Fin S.1.g.m) => if (l : ℕ) = j then v S.1 q else 0))
        (some (T S.1)) none false = .ok (.flat (Arr.of (Y j)), T S.1)) ∧
      resp S.1 = .ok (packOut Y, T S.1) := by
    intro S
    obtain ⟨h1, h2, h3, h4, h5, h6⟩ := hsys S.1 S.2
    obtain ⟨Y, h7, h8⟩ := simulate_channels (Nm := Nm) hE h1 h4 h3 h5 h6 (v S.1)
    exact ⟨Y, h7, (hresp S.1 S.2).trans h8⟩
  choose Y hY1 hY2 using hY
  let f : StateObj ℝ P → SimOut × List ℝ := fun S => if hS : S ∈ sys then
    (packOut (Y ⟨S, hS⟩), T S)
    else (.perChannel [], [])
  have hf : ∀ S (hS : S ∈ sys), f S = (packOut (Y ⟨S, hS⟩), T S) := fun S hS => dif_pos hS
  have hmem : ∀ x ∈ styled, ∀ c, c ∈ sysCurves x.1.g (f x.1).1 (f x.1).2 x.2 ↔
      c.style = x.2 ∧ c.post = x.1.g.dt.isSome ∧ c.t = T x.1 ∧ c.col < x.1.g.m ∧ ShowsChannel Nm E x.1 (T x.1) (v x.1) c.row c.col c.y := by
    rintro x hx ⟨row, col, post, tt, y, sty⟩
    have hS := hsub x hx
    obtain ⟨h1, h2, h3, -⟩ := hsys x.1 hS
    rw [hf x.1 hS, mem_sysCurves h2 h3]
    constructor
    · rintro ⟨i, j, h⟩
      cases h
      exact ⟨rfl, rfl, rfl, j.isLt, Y ⟨x.1, hS⟩ j, i.isLt, hY1 ⟨x.1, hS⟩ j, rfl⟩
    · rintro ⟨h4, h5, h6, h7, Y', hi, h8, h9⟩
      refine ⟨⟨row, hi⟩, ⟨col, h7⟩, ?_⟩
      have h10 := hY1 ⟨x.1, hS⟩ ⟨col, h7⟩
      simp only at h10
      rw [h8] at h10
      have h11 : Y' = Y ⟨x.1, hS⟩ ⟨col, h7⟩ := by simpa using h10
      simp only at h4 h5 h6 h9
      rw [h4, h5, h6, h9, h11]
  have hR : ∀ x ∈ styled, x.1.g.p ≤ (sys.map fun S => S.g.p).foldr max 0 ∧ x.1.g.m ≤ (sys.map fun S => S.g.m).foldr max 0 := fun x hx =>
    ⟨foldr_max_natGe (List.mem_map.mpr ⟨x.1, hsub x hx, rfl⟩), foldr_max_natGe (List.mem_map.mpr ⟨x.1, hsub x hx, rfl⟩)⟩
  have hgr : ∀ x ∈ styled, T x.1 ≠ [] := fun x hx h0 => by
    obtain ⟨-, -, -, -, h5, -⟩ := hsys x.1 (hsub x hx)
    have := h5.1
    rw [h0] at this
    simp at this
  have hloop := timeLoop_ok (resp := resp) (R := (sys.map fun S => S.g.p).foldr max 0) (C := (sys.map fun S => S.g.m).foldr max 0)
    (f := f) (l := styled) (fun x hx => by
      have hS := hsub x hx
      refine ⟨(hY2 ⟨x.1, hS⟩).trans (by rw [hf x.1 hS]), by rw [hf x.1 hS]; exact hgr x hx, fun c hc => ?_⟩
      obtain ⟨h4, h5, h6, h7, Y', hi, h8, h9⟩ := (hmem x hx c).mp hc
      exact ⟨lt_of_lt_of_le hi (hR x hx).1, lt_of_lt_of_le h7 (hR x hx).2, by rw [h6, h9]; simp⟩) none
  obtain ⟨lim, h1, h2, h3⟩ := limFold_none (l := styled.map fun x => (f x.1).2.getLastD 0) (by simpa using hne)
  have hlast : ∀ x ∈ styled, (T x.1).getLast? = some ((f x.1).2.getLastD 0) := by
    intro x hx
    rw [hf x.1 (hsub x hx), List.getLastD_eq_getLast?]
    cases h5 : (T x.1).getLast? with
    | none => exact absurd (List.getLast?_eq_none_iff.mp h5) (hgr x hx)
    | some a => simp [h5]
  refine ⟨styled.flatMap fun x => sysCurves x.1.g (f x.1).1 (f x.1).2 x.2, lim, ?_, ?_, ?_, ?_, ?_⟩
  · unfold timePlot maxShape
    rw [if_neg (by rintro rfl; obtain ⟨x, hx⟩ := List.exists_mem_of_ne_nil _ hne; simpa using hsub x hx)]
    simp only [bind, Except.bind, hloop, h1]
  · intro c
    simp only [List.mem_flatMap]
    constructor
    · rintro ⟨x, hx, hc⟩
      exact ⟨x.1, x.2, hx, (hmem x hx c).mp hc⟩
    · rintro ⟨S, sty, hx, hc⟩
      exact ⟨(S, sty), hx, (hmem (S, sty) hx c).mpr hc⟩
  · rw [List.length_flatMap]
    congr 1
    refine List.map_congr_left fun x hx => ?_
    have hS := hsub x hx
    rw [hf x.1 hS]
    exact length_sysCurves (hsys x.1 hS).2.2.1 _ _
  · intro x hx tl htl
    have := h2 _ (List.mem_map.mpr ⟨x, hx, rfl⟩)
    rw [hlast x hx] at htl
    cases htl
    exact this
  · obtain ⟨x, hx, h4⟩ := List.mem_map.mp h3
    exact ⟨x, hx, by rw [hlast x hx, h4]⟩

theorem map_fst_zip_take {α β : Type} (l : List α) (l' : List β) : (l.zip l').map Prod.fst = l.take l'.length := by
  induction l generalizing l' with
  | nil => simp
  | cons a l ih => cases l' <;> simp [ih]

theorem mem_zip_styles {sys : List (StateObj ℝ P)} {k : ℕ} {S : StateObj ℝ P} {sty : Option ℕ} :
    (S, sty) ∈ sys.zip ((List.range k).map some) ↔ ∃ i, i < k ∧ sys[i]? = some S ∧ sty = some i := by
  rw [List.mem_iff_getElem?]
  constructor
  · rintro ⟨i, hi⟩
    rw [List.getElem?_zip_eq_some] at hi
    obtain ⟨h1, h2⟩ := hi
    by_cases hik : i < k
    · refine ⟨i, hik, h1, ?_⟩
      simpa [hik] using h2.symm
    · simp [hik] at h2
  · rintro ⟨i, hik, h1, rfl⟩
    refine ⟨i, ?_⟩
    rw [List.getElem?_zip_eq_some]
    exact ⟨h1, by simp [hik]⟩

/-- What the plots rely on: consistent models with an input and an output, and a valid time grid for each. -/
def PlotReady (auto : StateObj ℝ P → ℝ × ℝ) (t : Option (List ℝ)) (S : StateObj ℝ P) (T : List ℝ) (ts : ℝ) : Prop :=
  Consistent S.g S.g.p S.g.m ∧ 1 ≤ S.g.p ∧ 1 ≤ S.g.m ∧ DtOk S.g.dt ∧
    responseGrid (auto S) t = .ok (T, ts) ∧ GridOk T ∧ PeriodOk S.g.dt T

variable {auto : StateObj ℝ P → ℝ × ℝ} {sys : List (StateObj ℝ P)} {t : Option (List ℝ)} {styles : ℕ}
  {T : StateObj ℝ P → List ℝ} {ts : StateObj ℝ P → ℝ}

/-- **C78**, steps: the plot succeeds; the curve in row `i` and column `j` of a drawn system is output `i` of
`simulate_linear_system` for the unit step on input `j` alone, as a staircase for discrete models, in the style of the
same position as the system; there is one curve for every drawn system, output and input, and no other; the time axis
ends where the shortest of the grids ends.

`_partial`: systems beyond the length of the property cycle are not drawn (`C78_styles_violated`). -/
theorem C78_step_partial (hE : BalanceOk E) (hne : sys ≠ []) (hst : 0 < styles) (hsys : ∀ S ∈ sys, PlotReady auto t S (T S) (ts S)) :
    ∃ cs lim, stepPlot Nm E auto sys t styles = .ok (cs, lim) ∧
      (∀ c, c ∈ cs ↔ ∃ k S, sys[k]? = some S ∧ k < styles ∧ c.style = some k ∧ c.post = S.g.dt.isSome ∧ c.t = T S ∧
        c.col < S.g.m ∧ ShowsChannel Nm E S (T S) unitStep c.row c.col c.y) ∧
      cs.length = ((sys.take styles).map fun S => S.g.p * S.g.m).sum ∧
      (∀ S ∈ sys.take styles, ∀ tl, (T S).getLast? = some tl → lim ≤ tl) ∧ (∃ S ∈ sys.take styles, (T S).getLast? = some lim) := by
  have hz : (sys.zip ((List.range styles).map some)).map Prod.fst = sys.take styles := by
    rw [map_fst_zip_take]
    simp
  have hmem : ∀ S, S ∈ sys.take styles ↔ ∃ x ∈ sys.zip ((List.range styles).map some), x.1 = S := fun S => by
    rw [← hz, List.mem_map]
  obtain ⟨cs, lim, h1, h2, h3, h4, h5⟩ := timePlot_ok (Nm := Nm) (resp := fun S => stepResponse Nm E S (auto S) t) (sys := sys)
    (styled := sys.zip ((List.range styles).map some)) (T := T) (v := fun _ => unitStep) hE
    (fun x hx => (List.of_mem_zip (show (x.1, x.2) ∈ _ from hx)).1)
    (by
      intro h0
      rw [h0] at hz
      have h1 := congrArg List.length hz
      have h2 := List.length_pos_of_ne_nil hne
      rw [List.map_nil, List.length_nil, List.length_take] at h1
      omega)
    (fun S hS => by
      obtain ⟨a, b, c, d, -, e, f⟩ := hsys S hS
      exact ⟨a, b, c, d, e, f⟩)
    (fun S hS => by
      obtain ⟨a, b, c, d, e, -⟩ := hsys S hS
      unfold stepResponse
      rw [e]
      rfl)
  refine ⟨cs, lim, h1, fun c => (h2 c).trans ?_, ?_, ?_, ?_⟩
  · constructor
    · rintro ⟨S, sty, hx, h6, h7⟩
      obtain ⟨k, h8, h9, rfl⟩ := mem_zip_styles.mp hx
      exact ⟨k, S, h9, h8, h6, h7⟩
    · rintro ⟨k, S, h9, h8, h6, h7⟩
      exact ⟨S, some k, mem_zip_styles.mpr ⟨k, h8, h9, rfl⟩, h6, h7⟩
  · rw [h3, ← hz, List.map_map]
    rfl
  · intro S hS
    obtain ⟨x, hx, rfl⟩ := (hmem S).mp hS
    exact h4 x hx
  · obtain ⟨x, hx, h6⟩ := h5
    exact ⟨x.1, (hmem _).mpr ⟨x, hx, rfl⟩, h6⟩

/-- **C78**, impulses: as above for the pulse of area one; all systems are drawn.

`_partial`: the argument `style` has no effect (`C78_style_ignored_violated`). -/
theorem C78_impulse_partial (hE : BalanceOk E) (hne : sys ≠ []) (hsys : ∀ S ∈ sys, PlotReady auto t S (T S) (ts S)) :
    ∃ cs lim, impulsePlot Nm E auto sys t styles = .ok (cs, lim) ∧
      (∀ c, c ∈ cs ↔ c.style = none ∧ ∃ S ∈ sys, c.post = S.g.dt.isSome ∧ c.t = T S ∧
        c.col < S.g.m ∧ ShowsChannel Nm E S (T S) (unitPulse (ts S)) c.row c.col c.y) ∧
      cs.length = (sys.map fun S => S.g.p * S.g.m).sum ∧
      (∀ S ∈ sys, ∀ tl, (T S).getLast? = some tl → lim ≤ tl) ∧ (∃ S ∈ sys, (T S).getLast? = some lim) := by
  obtain ⟨cs, lim, h1, h2, h3, h4, h5⟩ := timePlot_ok (Nm := Nm) (resp := fun S => impulseResponse Nm E S (auto S) t) (sys := sys)
    (styled := sys.map fun S => (S, none)) (T := T) (v := fun S => unitPulse (ts S)) hE
    (fun x hx => by obtain ⟨S, hS, rfl⟩ := List.mem_map.mp hx; exact hS)
    (by simpa using hne)
    (fun S hS => by
      obtain ⟨a, b, c, d, -, e, f⟩ := hsys S hS
      exact ⟨a, b, c, d, e, f⟩)
    (fun S hS => by
      obtain ⟨a, b, c, d, e, -⟩ := hsys S hS
      unfold impulseResponse
      rw [e]
      rfl)
  refine ⟨cs, lim, h1, fun c => (h2 c).trans ?_, ?_, ?_, ?_⟩
  · constructor
    · rintro ⟨S, sty, hx, h6, h7⟩
      obtain ⟨S', hS, h8⟩ := List.mem_map.mp hx
      cases h8
      exact ⟨h6, S, hS, h7⟩
    · rintro ⟨h6, S, hS, h7⟩
      exact ⟨S, none, List.mem_map.mpr ⟨S, hS, rfl⟩, h6, h7⟩
  · rw [h3, List.map_map]
    rfl
  · intro S hS
    exact h4 (S, none) (List.mem_map.mpr ⟨S, hS, rfl⟩)
  · obtain ⟨x, hx, h6⟩ := h5
    obtain ⟨S, hS, rfl⟩ := List.mem_map.mp hx
    exact ⟨S, hS, h6⟩

/-- **C78**: a grid given by the user is the grid of every system. -/
theorem C78_user_grid {g : List ℝ} {S : StateObj ℝ P} (hg : GridOk g) :
    responseGrid (auto S) (some g) = .ok (g, g.getD 1 0 - g.getD 0 0) := by
  obtain ⟨h1, h2, h3⟩ := hg
  unfold responseGrid checkCustomTime
  simp only
  rw [if_neg (by omega), if_neg (not_le.mpr h2), if_neg]
  intro hn
  apply hn
  intro x hx
  obtain ⟨i, hi, rfl⟩ := mem_diffs.mp hx
  exact h3 i hi

/-- **C78** fails for many systems: those beyond the length of the property cycle (ten by default) do not appear in a
step response plot; there is no error. -/
theorem C78_styles_violated (hE : BalanceOk E) (hne : sys ≠ []) (hst : 0 < styles) (hsys : ∀ S ∈ sys, PlotReady auto t S (T S) (ts S))
    (hlong : styles < sys.length) :
    ∃ cs lim, stepPlot Nm E auto sys t styles = .ok (cs, lim) ∧ cs.length < (sys.map fun S => S.g.p * S.g.m).sum ∧
      ∀ c ∈ cs, ∀ k, styles ≤ k → c.style ≠ some k := by
  obtain ⟨cs, lim, h1, h2, h3, -⟩ := C78_step_partial (Nm := Nm) hE hne hst hsys
  refine ⟨cs, lim, h1, ?_, fun c hc k hk h => ?_⟩
  · rw [h3]
    conv_rhs => rw [← List.take_append_drop styles sys, List.map_append, List.sum_append]
    have h4 : sys.drop styles ≠ [] := by
      intro h0
      have := List.drop_eq_nil_iff.mp h0
      omega
    obtain ⟨S, hS⟩ := List.exists_mem_of_ne_nil _ h4
    obtain ⟨-, h5, h6, -⟩ := hsys S (List.mem_of_mem_drop hS)
    have h7 : S.g.p * S.g.m ≤ ((sys.drop styles).map fun S => S.g.p * S.g.m).sum :=
      List.single_le_sum (by simp) _ (List.mem_map.mpr ⟨S, hS, rfl⟩)
    have := Nat.mul_pos h5 h6
    omega
  · obtain ⟨k', S, -, h5, h6, -⟩ := (h2 c).mp hc
    rw [h] at h6
    cases h6
    omega

/-- **C78** fails for `style=` of an impulse response plot: whatever is given, no curve has a style of the cycle. -/
theorem C78_style_ignored_violated (hE : BalanceOk E) (hne : sys ≠ []) (hsys : ∀ S ∈ sys, PlotReady auto t S (T S) (ts S)) :
    ∃ cs lim, (∀ styles, impulsePlot Nm E auto sys t styles = .ok (cs, lim)) ∧ cs ≠ [] ∧ ∀ c ∈ cs, c.style = none := by
  obtain ⟨cs, lim, h1, h2, h3, -⟩ := C78_impulse_partial (Nm := Nm) (styles := 0) hE hne hsys
  refine ⟨cs, lim, fun _ => h1, ?_, fun c hc => ((h2 c).mp hc).1⟩
  rintro rfl
  obtain ⟨S, hS⟩ := List.exists_mem_of_ne_nil _ hne
  obtain ⟨-, h5, h6, -⟩ := hsys S hS
  have h7 : S.g.p * S.g.m ≤ (sys.map fun S => S.g.p * S.g.m).sum :=
    List.single_le_sum (by simp) _ (List.mem_map.mpr ⟨S, hS, rfl⟩)
  have := Nat.mul_pos h5 h6
  simp only [List.length_nil] at h3
  omega

/-- Both plots of one and of two copies of a discrete model with two inputs, on a grid of five points, and the second with
a property cycle of length one. -/
example : (∀ S ∈ [sim2 P, sim2 P], PlotReady auto (some (eqGrid 5 0 1)) S (eqGrid 5 0 1) 1) ∧ 1 < [sim2 P, sim2 P].length := by
  refine ⟨fun S hS => ?_, by simp⟩
  have : S = sim2 P := by simpa using hS
  subst this
  refine ⟨by simp [Consistent, sim2, StateM.p, StateM.m], by simp [sim2, StateM.p], by simp [sim2, StateM.m],
    by intro t ht; cases ht; exact one_pos, ?_, eqGrid_ok (by norm_num) one_pos, periodOk_eqGrid (by norm_num)⟩
  exact checkCustomTime_eqGrid (by norm_num) one_pos

end Harold
