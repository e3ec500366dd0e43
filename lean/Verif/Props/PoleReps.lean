import Verif.Model.PoleReps
import Verif.Spec.PoleReps
import Mathlib.Data.List.Range
import Mathlib.Tactic.Linarith

/-!
# C110: repeated pole locations
-/

namespace Harold

open Spec

variable {P : Type} [DecidableEq P]

/-- `γ` is true exactly on `s < j ≤ e` around there. -/
def TrueOn (γ : ℕ → Bool) (s e : ℕ) : Prop := s < e ∧ γ s = false ∧ (∀ j, s < j → j ≤ e → γ j = true) ∧ γ (e + 1) = false

theorem reshape2_flips (γ : ℕ → Bool) (n : ℕ) (hn : γ (n + 1) = false) (d : ℕ) : ∀ k, k + d = n + 1 →
    (γ k = false → ∃ L, reshape2 ((List.range' k d).filter fun j => γ j != γ (j + 1)) = .ok L ∧ (∀ a e, (a, e) ∈ L ↔ k ≤ a ∧ e ≤ n ∧ TrueOn γ a e) ∧
      L.Pairwise fun x y => x.2 < y.1) ∧
    (∀ s, s < k → γ s = false → (∀ j, s < j → j ≤ k → γ j = true) → ∃ L, reshape2 (s :: (List.range' k d).filter fun j => γ j != γ (j + 1)) = .ok L ∧
      (∀ a e, (a, e) ∈ L ↔ (a = s ∨ k ≤ a) ∧ e ≤ n ∧ TrueOn γ a e) ∧ L.Pairwise fun x y => x.2 < y.1) := by
  induction d with
  | zero =>
    intro k hk
    obtain rfl : k = n + 1 := by omega
    refine ⟨fun _ => ⟨[], rfl, fun a e => ?_, List.Pairwise.nil⟩, fun s hs _ h => ?_⟩
    · simp only [List.not_mem_nil, false_iff]
      rintro ⟨h1, h2, h3, -⟩
      omega
    · rw [h (n + 1) hs le_rfl] at hn
      cases hn
  | succ d ih =>
    intro k hk
    obtain ⟨ih1, ih2⟩ := ih (k + 1) (by omega)
    rw [List.range'_succ, List.filter_cons]
    refine ⟨fun h0 => ?_, fun s hs hsf hst => ?_⟩
    · cases h1 : γ (k + 1) with
      | false =>
        rw [h0, if_neg (by simp)]
        obtain ⟨L, e1, e2, e3⟩ := ih1 h1
        refine ⟨L, e1, fun a e => (e2 a e).trans ⟨fun h => ⟨by omega, h.2⟩, fun h => ⟨?_, h.2⟩⟩, e3⟩
        rcases Nat.lt_or_ge k a with h' | h'
        · exact h'
        · obtain rfl : a = k := by omega
          rw [h.2.2.2.2.1 (a + 1) (by omega) h.2.2.1] at h1
          cases h1
      | true =>
        rw [h0, if_pos (by simp)]
        obtain ⟨L, e1, e2, e3⟩ := ih2 k (by omega) h0 (fun j h2 h3 => by rw [show j = k + 1 by omega]; exact h1)
        exact ⟨L, e1, fun a e => (e2 a e).trans ⟨fun h => ⟨by omega, h.2⟩, fun h => ⟨by omega, h.2⟩⟩, e3⟩
    · have hk1 := hst k hs le_rfl
      cases h1 : γ (k + 1) with
      | true =>
        rw [hk1, if_neg (by simp)]
        obtain ⟨L, e1, e2, e3⟩ := ih2 s (by omega) hsf (fun j h2 h3 => by
          rcases Nat.lt_or_ge k j with h | h
          · rw [show j = k + 1 by omega]; exact h1
          · exact hst j h2 h)
        refine ⟨L, e1, fun a e => (e2 a e).trans ⟨fun h => ⟨by omega, h.2⟩, fun h => ⟨?_, h.2⟩⟩, e3⟩
        rcases h.1 with h' | h'
        · exact Or.inl h'
        · rcases Nat.lt_or_ge k a with h'' | h''
          · exact Or.inr h''
          · obtain rfl : a = k := by omega
            have := h.2.2.2.1
            rw [hk1] at this
            cases this
      | false =>
        rw [hk1, if_pos (by simp)]
        obtain ⟨L, e1, e2, e3⟩ := ih1 h1
        refine ⟨(s, k) :: L, by simp only [reshape2, e1, bind, Except.bind], fun a e => ?_, List.Pairwise.cons (fun x hx => ?_) e3⟩
        · rw [List.mem_cons, e2, Prod.mk.injEq]
          constructor
          · rintro (⟨rfl, rfl⟩ | h)
            · exact ⟨Or.inl rfl, by omega, hs, hsf, hst, h1⟩
            · exact ⟨Or.inr (by omega), h.2⟩
          · rintro ⟨h | h, h2, h3⟩
            · subst h
              left
              refine ⟨rfl, ?_⟩
              obtain ⟨t1, -, t3, t4⟩ := h3
              rcases Nat.lt_trichotomy e k with h | h | h
              · rw [hst (e + 1) (by omega) (by omega)] at t4; cases t4
              · exact h
              · rw [t3 (k + 1) (by omega) (by omega)] at h1; cases h1
            · right
              refine ⟨?_, h2, h3⟩
              rcases Nat.lt_or_ge k a with h'' | h''
              · exact h''
              · obtain rfl : a = k := by omega
                have := h3.2.1
                rw [hk1] at this
                cases this
        · have := ((e2 x.1 x.2).mp hx).1
          show k < x.1
          omega

/-- The truth values with `false` before and after them. -/
def padB (b : List Bool) (j : ℕ) : Bool := match j with
  | 0 => false
  | j + 1 => b.getD j false

theorem flips_eq {b : List Bool} {b0 b1 : Bool} (h0 : b.head? = some b0) (h1 : b.getLast? = some b1) :
    (if b1 then (if b0 then 0 :: flipIdx b else flipIdx b) ++ [b.length] else (if b0 then 0 :: flipIdx b else flipIdx b))
      = (List.range' 0 (b.length + 1)).filter fun j => padB b j != padB b (j + 1) := by
  obtain ⟨n, hn⟩ : ∃ n, b.length = n + 1 := by
    cases b with
    | nil => simp at h0
    | cons x t => exact ⟨t.length, rfl⟩
  have hb0 : b.getD 0 false = b0 := by
    cases b with
    | nil => simp at h0
    | cons x t => simpa using h0
  have hb1 : b.getD n false = b1 := by
    rw [List.getLast?_eq_getElem?, hn, Nat.add_sub_cancel] at h1
    rw [List.getD_eq_getElem?_getD, h1]; rfl
  have hb2 : b.getD (n + 1) false = false := by
    rw [List.getD_eq_getElem?_getD, List.getElem?_eq_none (by omega)]; rfl
  have hmid : flipIdx b = (List.range' 1 n).filter fun j => padB b j != padB b (j + 1) := by
    rw [flipIdx, hn, Nat.add_sub_cancel, List.range'_eq_map_range, List.filter_map]
    rw [show (fun x => 1 + x) = (fun x : ℕ => x + 1) from funext fun x => Nat.add_comm 1 x]
    rfl
  rw [hn, List.range'_succ, List.range'_concat, List.filter_cons, List.filter_append, ← hmid]
  simp only [padB, List.filter_cons, List.filter_nil, mul_one, one_mul, Nat.zero_add, show 1 + n = n + 1 by omega, hb0, hb1, hb2]
  cases b0 <;> cases b1 <;> simp

theorem length_equalNext : ∀ l : List P, (equalNext l).length = l.length - 1
  | [] => rfl
  | [_] => rfl
  | x :: y :: t => by rw [equalNext, List.length_cons, length_equalNext (y :: t)]; simp

theorem equalNext_getD : ∀ (l : List P) (j : ℕ), (equalNext l).getD j false = true ↔ j + 1 < l.length ∧ l[j]? = l[j + 1]?
  | [], j => by simp [equalNext]
  | [x], j => by simp [equalNext]
  | x :: y :: t, 0 => by simp [equalNext]
  | x :: y :: t, j + 1 => by
    rw [equalNext, List.getD_cons_succ, equalNext_getD (y :: t) j]
    simp

theorem padB_succ (l : List P) (j : ℕ) : padB (equalNext l) (j + 1) = true ↔ j + 1 < l.length ∧ l[j]? = l[j + 1]? := equalNext_getD l j

theorem repetition_iff (l : List P) (s e : ℕ) : Repetition l s (e + 1) ↔ e ≤ l.length - 1 ∧ TrueOn (padB (equalNext l)) s e := by
  constructor
  · rintro ⟨h1, h2, v, h3, h4, h5⟩
    refine ⟨by omega, by omega, ?_, fun j hj hj' => ?_, ?_⟩
    · cases s with
      | zero => rfl
      | succ s =>
        rw [← Bool.not_eq_true, padB_succ]
        rintro ⟨-, h⟩
        exact h4 s rfl (by rw [h, h3 (s + 1) le_rfl (by omega)])
    · obtain ⟨j, rfl⟩ : ∃ i, j = i + 1 := ⟨j - 1, by omega⟩
      rw [padB_succ]
      exact ⟨by omega, by rw [h3 j (by omega) (by omega), h3 (j + 1) (by omega) (by omega)]⟩
    · rw [← Bool.not_eq_true, padB_succ]
      rintro ⟨-, h⟩
      exact h5 (by rw [← h, h3 e (by omega) (by omega)])
  · rintro ⟨h1, h2, h3, h4, h5⟩
    have hlen : e + 1 ≤ l.length := by omega
    have hadj : ∀ i, s ≤ i → i + 1 ≤ e → l[i]? = l[i + 1]? := fun i hi hi' => ((padB_succ l i).mp (h4 (i + 1) (by omega) hi')).2
    have hall : ∀ k, s + k ≤ e → l[s + k]? = l[s]? := by
      intro k
      induction k with
      | zero => intro _; rfl
      | succ k ih => intro hk; rw [← ih (by omega)]; exact (hadj (s + k) (by omega) (by omega)).symm
    refine ⟨by omega, hlen, l[s], fun i hi hi' => ?_, fun i hi h => ?_, fun h => ?_⟩
    · have := hall (i - s) (by omega)
      rw [show s + (i - s) = i by omega] at this
      rw [this, List.getElem?_eq_getElem]
    · subst hi
      rw [← Bool.not_eq_true, padB_succ] at h3
      exact h3 ⟨by omega, by rw [h, List.getElem?_eq_getElem]⟩
    · rw [← Bool.not_eq_true, padB_succ] at h5
      have hlt : e + 1 < l.length := by
        by_contra hc
        rw [List.getElem?_eq_none (by omega)] at h
        cases h
      have := hall (e - s) (by omega)
      rw [show s + (e - s) = e by omega] at this
      exact h5 ⟨hlt, by rw [this, h, List.getElem?_eq_getElem]⟩

/-- The repetitions found in one of the two lists. -/
theorem repIdx_spec (l : List P) (hl : 2 ≤ l.length) :
    ∃ L, repIdx l = .ok L ∧ (∀ s e, (s, e) ∈ L ↔ Repetition l s e) ∧ L.Pairwise fun x y => x.2 ≤ y.1 := by
  have hlen := length_equalNext l
  cases h0 : (equalNext l).head? with
  | none => rw [List.head?_eq_none_iff] at h0; rw [h0] at hlen; simp at hlen; omega
  | some b0 =>
  cases h1 : (equalNext l).getLast? with
  | none => rw [List.getLast?_eq_none_iff] at h1; rw [h1] at hlen; simp at hlen; omega
  | some b1 =>
    have hn : padB (equalNext l) ((equalNext l).length + 1) = false := by
      show (equalNext l).getD _ false = false
      rw [List.getD_eq_getElem?_getD, List.getElem?_eq_none le_rfl]; rfl
    obtain ⟨L, h2, h3, h4⟩ := (reshape2_flips _ _ hn ((equalNext l).length + 1) 0 (by omega)).1 rfl
    rw [← flips_eq h0 h1] at h2
    refine ⟨L.map fun se => (se.1, se.2 + 1), ?_, fun s e => ?_, ?_⟩
    · simp only [repIdx, h0, h1, h2, bind, Except.bind]
    · rw [List.mem_map]
      constructor
      · rintro ⟨⟨a, c⟩, h5, h6⟩
        simp only [Prod.mk.injEq] at h6
        obtain ⟨rfl, rfl⟩ := h6
        rw [h3, hlen] at h5
        exact (repetition_iff l a c).mpr h5.2
      · intro h
        obtain ⟨c, rfl⟩ : ∃ c, e = c + 1 := ⟨e - 1, by have := h.1; omega⟩
        refine ⟨(s, c), ?_, rfl⟩
        rw [h3, hlen]
        exact ⟨Nat.zero_le _, (repetition_iff l s c).mp h⟩
    · rw [List.pairwise_map]
      exact h4.imp fun h => h

omit [DecidableEq P] in
theorem everyOther_length : ∀ l : List P, (everyOther l).length = (l.length + 1) / 2
  | [] => by simp [everyOther]
  | [_] => by simp [everyOther]
  | _ :: _ :: t => by
    rw [everyOther, List.length_cons, everyOther_length t]
    simp only [List.length_cons]
    omega

omit [DecidableEq P] in
theorem everyOther_get : ∀ (l : List P) (i : ℕ), (everyOther l)[i]? = l[2 * i]?
  | [], i => by simp [everyOther]
  | [x], 0 => rfl
  | [x], i + 1 => by simp [everyOther]
  | x :: y :: t, 0 => rfl
  | x :: y :: t, i + 1 => by
    rw [everyOther, List.getElem?_cons_succ, everyOther_get t i, show 2 * (i + 1) = 2 * i + 1 + 1 by omega]
    rfl

/-- **C110**: for every array of locations `_get_pole_reps` returns the number `nc` of non-real and `nr` of real locations, all maximal repetitions in the list `q` of the first
members of the pairs, and all maximal repetitions among the last `nr` locations (as positions in the array), both in order and without overlap. -/
theorem C110_repetitions (isReal : P → Bool) (p : List P) :
    ∃ cs rs nc nr, getPoleReps isReal p = .ok ((cs, rs), nc, nr) ∧ nr = p.countP isReal ∧ nc + nr = p.length ∧
      (∃ q : List P, (∀ i, q[i]? = (p.take nc)[2 * i]?) ∧ ∀ s e, (s, e) ∈ cs ↔ Repetition q s e) ∧
      (∀ s e, (s, e) ∈ rs ↔ ∃ s' e', s = s' + nc ∧ e = e' + nc ∧ Repetition (p.drop nc) s' e') ∧
      cs.Pairwise (fun x y => x.2 ≤ y.1) ∧ rs.Pairwise fun x y => x.2 ≤ y.1 := by
  have hle : p.countP isReal ≤ p.length := List.countP_le_length
  obtain ⟨nr, hnr⟩ : ∃ nr, nr = p.countP isReal := ⟨_, rfl⟩
  obtain ⟨nc, hnc⟩ : ∃ nc, nc = p.length - nr := ⟨_, rfl⟩
  have hc : ∃ cs, pairReps nc p = .ok cs ∧ (∀ s e, (s, e) ∈ cs ↔ Repetition (everyOther (p.take nc)) s e) ∧
      cs.Pairwise fun x y => x.2 ≤ y.1 := by
    have hlen : (everyOther (p.take nc)).length = (nc + 1) / 2 := by rw [everyOther_length, List.length_take, min_eq_left (by omega)]
    unfold pairReps
    split_ifs with h
    · refine ⟨[], rfl, fun s e => ?_, List.Pairwise.nil⟩
      simp only [List.not_mem_nil, false_iff]
      rintro ⟨h1, h2, -⟩
      omega
    · exact repIdx_spec _ (by omega)
  have hr : ∃ rs, realReps nc nr p = .ok rs ∧
      (∀ s e, (s, e) ∈ rs ↔ ∃ s' e', s = s' + nc ∧ e = e' + nc ∧ Repetition (p.drop nc) s' e') ∧ rs.Pairwise fun x y => x.2 ≤ y.1 := by
    have hlen : (p.drop nc).length = nr := by rw [List.length_drop]; omega
    unfold realReps
    split_ifs with h
    · refine ⟨[], rfl, fun s e => ?_, List.Pairwise.nil⟩
      simp only [List.not_mem_nil, false_iff]
      rintro ⟨s', e', -, -, h1, h2, -⟩
      omega
    · obtain ⟨L, h1, h2, h3⟩ := repIdx_spec (p.drop nc) (by omega)
      refine ⟨L.map fun se => (se.1 + nc, se.2 + nc), by simp only [h1, bind, Except.bind], fun s e => ?_, ?_⟩
      · rw [List.mem_map]
        constructor
        · rintro ⟨⟨a, c⟩, h4, h5⟩
          simp only [Prod.mk.injEq] at h5
          exact ⟨a, c, h5.1.symm, h5.2.symm, (h2 a c).mp h4⟩
        · rintro ⟨a, c, rfl, rfl, h4⟩
          exact ⟨(a, c), (h2 a c).mpr h4, rfl⟩
      · rw [List.pairwise_map]
        exact h3.imp fun {x y} h => by show x.2 + nc ≤ y.1 + nc; omega
  obtain ⟨cs, c1, c2, c3⟩ := hc
  obtain ⟨rs, r1, r2, r3⟩ := hr
  refine ⟨cs, rs, nc, nr, ?_, hnr, by omega, ⟨_, everyOther_get _, c2⟩, r2, c3, r3⟩
  unfold getPoleReps
  simp only [← hnr, ← hnc, c1, r1, bind, Except.bind]

theorem count_of_repetition {l : List P} (hg : Grouped l) {s e : ℕ} (h : Repetition l s e) : ∃ v, (∀ i, s ≤ i → i < e → l[i]? = some v) ∧ l.count v = e - s := by
  obtain ⟨h1, h2, v, h3, h4, h5⟩ := h
  refine ⟨v, h3, ?_⟩
  have hs : l[s]? = some v := h3 s le_rfl (by omega)
  have hlow : ∀ i, i < s → l[i]? ≠ some v := fun i hi h => by
    refine h4 (s - 1) (by omega) ?_
    rw [hg i (s - 1) s (by omega) (by omega) (by omega) (by rw [h, hs]), h]
  have hhigh : ∀ i, e ≤ i → l[i]? ≠ some v := fun i hi h => by
    have hil : i < l.length := by
      by_contra hc
      rw [List.getElem?_eq_none (by omega)] at h
      cases h
    refine h5 ?_
    rw [hg s e i (by omega) hi hil (by rw [h, hs]), hs]
  have hsplit : l = l.take s ++ ((l.drop s).take (e - s) ++ l.drop e) := by
    conv_lhs => rw [← List.take_append_drop s l, ← List.take_append_drop (e - s) (l.drop s)]
    rw [List.drop_drop, show s + (e - s) = e by omega]
  have c1 : (l.take s).count v = 0 := List.count_eq_zero.mpr fun hm => by
    obtain ⟨i, hi⟩ := List.mem_iff_getElem?.mp hm
    rw [List.getElem?_take] at hi
    split_ifs at hi with hlt
    exact hlow i hlt hi
  have c3 : (l.drop e).count v = 0 := List.count_eq_zero.mpr fun hm => by
    obtain ⟨i, hi⟩ := List.mem_iff_getElem?.mp hm
    rw [List.getElem?_drop] at hi
    exact hhigh (e + i) (by omega) hi
  have c2 : ((l.drop s).take (e - s)).count v = e - s := by
    have hlen : ((l.drop s).take (e - s)).length = e - s := by rw [List.length_take, List.length_drop]; omega
    rw [List.count_eq_length.mpr, hlen]
    intro x hx
    obtain ⟨i, hi⟩ := List.mem_iff_getElem?.mp hx
    rw [List.getElem?_take] at hi
    split_ifs at hi with hlt
    rw [List.getElem?_drop, h3 (s + i) (by omega) (by omega)] at hi
    exact Option.some.inj hi
  conv_lhs => rw [hsplit]
  rw [List.count_append, List.count_append, c1, c2, c3]
  omega

theorem repetition_of_count {l : List P} (hg : Grouped l) {v : P} (h : 2 ≤ l.count v) :
    ∃ s e, Repetition l s e ∧ (∀ i, s ≤ i → i < e → l[i]? = some v) ∧ l.count v = e - s := by
  classical
  have hmem : v ∈ l := List.count_pos_iff.mp (by omega)
  obtain ⟨i0, hi0⟩ := List.mem_iff_getElem?.mp hmem
  have hex : ∃ i, l[i]? = some v := ⟨i0, hi0⟩
  set s := Nat.find hex with hs
  have hsv : l[s]? = some v := Nat.find_spec hex
  have hlow : ∀ i, i < s → l[i]? ≠ some v := fun i hi => Nat.find_min hex hi
  have hexe : ∃ e, s < e ∧ l[e]? ≠ some v := by
    have hsl : s < l.length := by
      by_contra hc
      rw [List.getElem?_eq_none (by omega)] at hsv
      cases hsv
    exact ⟨l.length, hsl, by rw [List.getElem?_eq_none le_rfl]; simp⟩
  set e := Nat.find hexe with he
  obtain ⟨he1, he2⟩ : s < e ∧ l[e]? ≠ some v := Nat.find_spec hexe
  have hmid : ∀ i, s ≤ i → i < e → l[i]? = some v := fun i hi hie => by
    rcases Nat.eq_or_lt_of_le hi with rfl | hi
    · exact hsv
    · by_contra hc
      exact Nat.find_min hexe hie ⟨hi, hc⟩
  have hel : e ≤ l.length := by
    by_contra hc
    have := hmid (e - 1) (by omega) (by omega)
    rw [List.getElem?_eq_none (by omega)] at this
    cases this
  by_cases h2 : s + 2 ≤ e
  · have hr : Repetition l s e := ⟨h2, hel, v, hmid, fun i hi => hlow i (by omega), he2⟩
    obtain ⟨w, hw, hc⟩ := count_of_repetition hg hr
    obtain rfl : w = v := by
      have := hw s le_rfl he1
      rw [hsv] at this
      exact (Option.some.inj this).symm
    exact ⟨s, e, hr, hmid, hc⟩
  · exfalso
    have hee : e = s + 1 := by omega
    have hhigh : ∀ i, e ≤ i → l[i]? ≠ some v := fun i hi h => by
      have hil : i < l.length := by
        by_contra hc
        rw [List.getElem?_eq_none (by omega)] at h
        cases h
      refine he2 ?_
      rw [hg s e i (by omega) hi hil (by rw [h, hsv]), hsv]
    have hsplit : l = l.take s ++ ((l.drop s).take 1 ++ l.drop e) := by
      conv_lhs => rw [← List.take_append_drop s l, ← List.take_append_drop 1 (l.drop s)]
      rw [List.drop_drop, hee]
    have c1 : (l.take s).count v = 0 := List.count_eq_zero.mpr fun hm => by
      obtain ⟨i, hi⟩ := List.mem_iff_getElem?.mp hm
      rw [List.getElem?_take] at hi
      split_ifs at hi with hlt
      exact hlow i hlt hi
    have c3 : (l.drop e).count v = 0 := List.count_eq_zero.mpr fun hm => by
      obtain ⟨i, hi⟩ := List.mem_iff_getElem?.mp hm
      rw [List.getElem?_drop] at hi
      exact hhigh (e + i) (by omega) hi
    have c2 : ((l.drop s).take 1).count v ≤ 1 := List.count_le_length.trans (by rw [List.length_take]; omega)
    rw [hsplit, List.count_append, List.count_append, c1, c3] at h
    omega

omit [DecidableEq P] in
theorem everyOther_pairs (f : P → P) (zs : List P) : everyOther (zs.flatMap fun z => [z, f z]) = zs := by
  induction zs with
  | nil => rfl
  | cons z t ih => simp only [List.flatMap_cons, List.cons_append, List.nil_append, everyOther, ih]

/-- **C110**, multiplicities: if the locations are conjugate pairs followed by real numbers, equal ones side by side, then the returned intervals are exactly the
locations of multiplicity two or more, and their lengths are the multiplicities. -/
theorem C110_multiplicities {isReal : P → Bool} {conj : P → P} {zs rs : List P} (hz : ∀ z ∈ zs, isReal z = false ∧ isReal (conj z) = false)
    (hr : ∀ x ∈ rs, isReal x = true) (hgz : Grouped zs) (hgr : Grouped rs) :
    ∃ ci ri, getPoleReps isReal ((zs.flatMap fun z => [z, conj z]) ++ rs) = .ok ((ci, ri), 2 * zs.length, rs.length) ∧
      (∀ k v, 2 ≤ k → ((∃ s, (s, s + k) ∈ ci ∧ ∀ i, s ≤ i → i < s + k → zs[i]? = some v) ↔ zs.count v = k)) ∧
      (∀ k v, 2 ≤ k → ((∃ s, (s, s + k) ∈ ri ∧ ∀ i, s ≤ i → i < s + k → ((zs.flatMap fun z => [z, conj z]) ++ rs)[i]? = some v) ↔ rs.count v = k)) := by
  obtain ⟨ci, ri, nc, nr, h1, h2, h3, ⟨q, hq, h4⟩, h5, -, -⟩ := C110_repetitions isReal ((zs.flatMap fun z => [z, conj z]) ++ rs)
  have hzl : (zs.flatMap fun z => [z, conj z]).length = 2 * zs.length := by
    clear * -
    induction zs with
    | nil => rfl
    | cons z t ih => simp only [List.flatMap_cons, List.length_append, ih, List.length_cons, List.length_nil]; omega
  have hcz : (zs.flatMap fun z => [z, conj z]).countP isReal = 0 := by
    rw [List.countP_eq_zero]
    intro x hx
    obtain ⟨z, hz1, hz2⟩ := List.mem_flatMap.mp hx
    rcases List.mem_cons.mp hz2 with rfl | hz2
    · simp [(hz _ hz1).1]
    · rw [List.mem_singleton] at hz2
      subst hz2
      simp [(hz _ hz1).2]
  have hnr : nr = rs.length := by
    rw [h2, List.countP_append, hcz, List.countP_eq_length.mpr hr]; omega
  have hnc : nc = 2 * zs.length := by
    rw [List.length_append, hzl] at h3; omega
  subst hnr
  rw [hnc] at h1 h5 hq
  have hqz : q = zs := by
    rw [List.take_left' hzl] at hq
    rw [← everyOther_pairs conj zs]
    exact List.ext_getElem? fun i => (hq i).trans (everyOther_get _ i).symm
  rw [hqz] at h4
  rw [List.drop_left' hzl] at h5
  refine ⟨ci, ri, h1, fun k v hk => ⟨?_, fun hc => ?_⟩, fun k v hk => ⟨?_, fun hc => ?_⟩⟩
  · rintro ⟨s, hs, hv⟩
    obtain ⟨w, hw, hc⟩ := count_of_repetition hgz ((h4 _ _).mp hs)
    obtain rfl : w = v := Option.some.inj ((hw s le_rfl (by omega)).symm.trans (hv s le_rfl (by omega)))
    omega
  · obtain ⟨s, e, hr1, hr2, hr3⟩ := repetition_of_count hgz (v := v) (by omega)
    have he : e = s + k := by have := hr1.1; omega
    subst he
    exact ⟨s, (h4 _ _).mpr hr1, hr2⟩
  · rintro ⟨s, hs, hv⟩
    obtain ⟨s', e', rfl, he, hrep⟩ := (h5 _ _).mp hs
    have he' : e' = s' + k := by omega
    subst he'
    obtain ⟨w, hw, hc⟩ := count_of_repetition hgr hrep
    have h6 := hv (s' + 2 * zs.length) le_rfl (by omega)
    rw [List.getElem?_append_right (by omega), hzl, Nat.add_sub_cancel] at h6
    obtain rfl : w = v := Option.some.inj ((hw s' le_rfl (by omega)).symm.trans h6)
    omega
  · obtain ⟨s, e, hr1, hr2, hr3⟩ := repetition_of_count hgr (v := v) (by omega)
    have he : e = s + k := by have := hr1.1; omega
    subst he
    refine ⟨s + 2 * zs.length, (h5 _ _).mpr ⟨s, s + k, rfl, by omega, hr1⟩, fun i hi hik => ?_⟩
    rw [List.getElem?_append_right (by omega), hzl]
    exact hr2 _ (by omega) (by omega)

/-- `[1+i, 1-i, 1+i, 1-i, 0, 0.5, 0.5]`, coded by integers (negative: conjugates; real: at least ten). -/
example : getPoleReps (fun x : ℤ => decide (10 ≤ x)) [1, -1, 1, -1, 10, 15, 15] = .ok (([(0, 2)], [(5, 7)]), 4, 3) := by decide

/-- The hypotheses of `C110_multiplicities` are met by it. -/
example : (∀ z ∈ [(1 : ℤ), 1], decide (10 ≤ z) = false ∧ decide (10 ≤ -z) = false) ∧ (∀ x ∈ [(10 : ℤ), 15, 15], decide (10 ≤ x) = true) ∧ Grouped [(1 : ℤ), 1] ∧
    Grouped [(10 : ℤ), 15, 15] := by
  refine ⟨by decide, by decide, ?_, ?_⟩
  · intro i j k h1 h2 h3 h4
    simp at h3
    have : k = 0 ∨ k = 1 := by omega
    have : j = 0 ∨ j = 1 := by omega
    have : i = 0 ∨ i = 1 := by omega
    rcases this with rfl | rfl <;> rcases ‹j = 0 ∨ j = 1› with rfl | rfl <;> rfl
  · intro i j k h1 h2 h3 h4
    simp at h3
    have hk : k = 0 ∨ k = 1 ∨ k = 2 := by omega
    have hj : j = 0 ∨ j = 1 ∨ j = 2 := by omega
    have hi : i = 0 ∨ i = 1 ∨ i = 2 := by omega
    rcases hi with rfl | rfl | rfl <;> rcases hj with rfl | rfl | rfl <;> rcases hk with rfl | rfl | rfl <;> simp at h1 h2 h4 ⊢

end Harold
