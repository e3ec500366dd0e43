import Verif.Lemmas.Poly
import Verif.Lemmas.Companion
import Verif.Lemmas.StateTF
import Mathlib.Algebra.Polynomial.BigOperators
import Mathlib.Algebra.Polynomial.FieldDivision
import Mathlib.Algebra.BigOperators.Fin
import Mathlib.Tactic.LinearCombination

/-!
# C01-C05: polynomial arithmetic on coefficient arrays

`toPoly l` (in `Verif.Spec.Poly`) is the polynomial with coefficients `l` in decreasing powers.
-/

namespace Harold

open Polynomial Spec

variable {K : Type} [Field K] [DecidableEq K]

/-! ## C01: multiplication -/

theorem polymulLoop_ok (xs : List (List K)) : ∀ (p : List K), p ≠ [] → p.getD 0 0 ≠ 0 →
    (∀ x ∈ xs, x = [] ∨ x.getD 0 0 ≠ 0) →
    ∃ r, polymulLoop p xs = .ok r ∧ toPoly r = toPoly p * (xs.map toPoly).prod ∧
      (r = [] ∨ r.getD 0 0 ≠ 0) := by
  induction xs with
  | nil => intro p hp h0 _; exact ⟨p, rfl, by simp, Or.inr h0⟩
  | cons x xs ih =>
    intro p hp h0 hx
    by_cases hl : x = []
    · subst hl
      exact ⟨[], by simp [polymulLoop], by simp, Or.inl rfl⟩
    · obtain ⟨r, hr, h1, h2, h3⟩ := convolve_ok hp hl
      have hx0 : x.getD 0 0 ≠ 0 := (hx x (by simp)).resolve_left hl
      have hr' : r ≠ [] := by
        rintro rfl
        have := List.length_pos_iff.mpr hp
        have := List.length_pos_iff.mpr hl
        simp at h2; omega
      obtain ⟨r', e1, e2, e3⟩ := ih r hr' (by rw [h3]; exact mul_ne_zero h0 hx0)
        (fun y hy => hx y (by simp [hy]))
      refine ⟨r', ?_, ?_, e3⟩
      · have : ¬ x.length = 0 := by simpa using hl
        simp only [polymulLoop, this, if_false, hr, bind, Except.bind, e1]
      · rw [e2, h1]; simp [mul_assoc]

theorem trimZeros_head (l : List K) : trimZeros l = [] ∨ (trimZeros l).getD 0 0 ≠ 0 := by
  rcases trimZeros_cases l with ⟨h, -⟩ | ⟨a, t, h, ha⟩
  · exact Or.inl h
  · right; rw [h]; simpa using ha

theorem trimmed_of_head {r : List K} (h : r = [] ∨ r.getD 0 0 ≠ 0) :
    Trimmed (if r.any (fun a => decide (a ≠ 0)) then r else [0]) ∧
      toPoly (if r.any (fun a => decide (a ≠ 0)) then r else [0]) = toPoly r := by
  cases r with
  | nil => simp [Trimmed]
  | cons a t =>
    have ha : a ≠ 0 := by simpa using h
    have : ((a :: t).any fun a => decide (a ≠ 0)) = true := by simp [ha]
    rw [this, if_pos rfl]
    exact ⟨Or.inr ⟨a, t, rfl, ha⟩, rfl⟩

/-- **C01**: the product of any number of polynomials, in normal form. Missing from the full claim:
the call fails if the first argument is zero and the second is not
(`C01_zero_first_violated`). -/
theorem C01_polymul_partial (p : List K) (rest : List (List K))
    (h : toPoly p ≠ 0 ∨ rest = [] ∨ ∃ q rest', rest = q :: rest' ∧ toPoly q = 0) :
    ∃ r, polymul (p :: rest) = .ok r ∧ toPoly r = ((p :: rest).map toPoly).prod ∧ Trimmed r := by
  have hx : ∀ x ∈ rest.map trimZeros, x = [] ∨ x.getD 0 0 ≠ 0 := by
    intro x hx
    obtain ⟨y, -, rfl⟩ := List.mem_map.mp hx
    exact trimZeros_head y
  have hmap : ((rest.map trimZeros).map toPoly) = rest.map toPoly := by
    simp [Function.comp_def, toPoly_trimZeros]
  rcases trimZeros_cases p with ⟨h1, h2⟩ | ⟨a, t, h1, ha⟩
  · -- the first factor is zero
    rcases h with h | rfl | ⟨q, rest', rfl, hq⟩
    · exact absurd h2 h
    · refine ⟨[0], by simp [polymul, h1, polymulLoop, bind, Except.bind], by simp [h2], Or.inl rfl⟩
    · rw [← trimZeros_eq_nil_iff] at hq
      refine ⟨[0], by simp [polymul, h1, hq, polymulLoop, bind, Except.bind], by simp [h2],
        Or.inl rfl⟩
  · obtain ⟨r, e1, e2, e3⟩ := polymulLoop_ok (rest.map trimZeros) (a :: t) (by simp) (by simpa) hx
    have h4 := trimmed_of_head e3
    refine ⟨_, ?_, ?_, h4.1⟩
    · simp only [polymul, if_true, List.map_cons, h1, e1, bind, Except.bind]
    · rw [h4.2, e2, hmap, ← h1, toPoly_trimZeros]; simp

/-- **C01** fails in all remaining cases: a zero first factor followed by a nonzero one is a
`ValueError` (`np.convolve` of an empty array). -/
theorem C01_zero_first_violated (p q : List K) (rest : List (List K)) (hp : toPoly p = 0)
    (hq : toPoly q ≠ 0) : polymul (p :: q :: rest) = .error .value := by
  rw [← trimZeros_eq_nil_iff] at hp
  rw [ne_eq, ← trimZeros_eq_nil_iff] at hq
  simp [polymul, hp, polymulLoop, hq, convolve, bind, Except.bind]

example : polymul [[0], [1, 2]] = (.error .value : Res (List ℚ)) :=
  C01_zero_first_violated _ _ _ (by simp) (toPoly_ne_zero_of_cons (by norm_num) _)

/-- **C01** with `trim_zeros=False`: the product for non-empty arrays (leading zeros may remain). -/
theorem C01_polymul_untrimmed (p : List K) (rest : List (List K)) (hp : p ≠ [])
    (h : ∀ x ∈ rest, x ≠ []) :
    ∃ r, polymul (p :: rest) false = .ok r ∧ toPoly r = ((p :: rest).map toPoly).prod := by
  have key : ∀ (xs : List (List K)) (p : List K), p ≠ [] → (∀ x ∈ xs, x ≠ []) →
      ∃ r, polymulLoop p xs = .ok r ∧ toPoly r = toPoly p * (xs.map toPoly).prod := by
    intro xs
    induction xs with
    | nil => intro p _ _; exact ⟨p, rfl, by simp⟩
    | cons x xs ih =>
      intro p hp hx
      have hl := hx x (by simp)
      obtain ⟨r, hr, h1, h2, -⟩ := convolve_ok hp hl
      have hr' : r ≠ [] := by
        rintro rfl
        have := List.length_pos_iff.mpr hp
        have := List.length_pos_iff.mpr hl
        simp at h2; omega
      obtain ⟨r', e1, e2⟩ := ih r hr' (fun y hy => hx y (by simp [hy]))
      refine ⟨r', ?_, by rw [e2, h1]; simp [mul_assoc]⟩
      have : ¬ x.length = 0 := by simpa using hl
      simp only [polymulLoop, this, if_false, hr, bind, Except.bind, e1]
  obtain ⟨r, e1, e2⟩ := key rest p hp h
  by_cases h0 : r.any (fun a => decide (a ≠ 0)) = true
  · exact ⟨r, by simp only [polymul, Bool.false_eq_true, if_false, e1, bind, Except.bind, h0,
      if_true], by rw [e2]; simp⟩
  · refine ⟨[0], by simp only [polymul, Bool.false_eq_true, if_false, e1, bind, Except.bind, h0],
      ?_⟩
    have : toPoly r = 0 := (toPoly_eq_zero_iff r).mpr (by simpa using h0)
    rw [List.map_cons, List.prod_cons, ← e2, this]; simp

example : ∀ x ∈ [[0, 1, 3], [1, (2 : ℚ)]], x ≠ [] := by simp

/-! ## C02: addition -/

theorem addRight_ok {s x : List K} (h : x.length ≤ s.length) :
    (addRight s x).length = s.length ∧ toPoly (addRight s x) = toPoly s + toPoly x := by
  have hd : (s.drop (s.length - x.length)).length = x.length := by simp; omega
  constructor
  · simp [addRight]; omega
  · simp only [addRight]
    rw [toPoly_append, toPoly_zipWith_add hd, List.length_zipWith, hd, min_self]
    conv_rhs => rw [← List.take_append_drop (s.length - x.length) s, toPoly_append, hd]
    ring

theorem le_foldr_max {x : ℕ} {l : List ℕ} (h : x ∈ l) : x ≤ l.foldr max 0 := by
  induction l with
  | nil => simp at h
  | cons a l ih =>
    rcases List.mem_cons.mp h with rfl | h
    · simp
    · simp [ih h]

theorem foldl_addRight (xs : List (List K)) : ∀ s : List K, (∀ x ∈ xs, x.length ≤ s.length) →
    (xs.foldl addRight s).length = s.length ∧
      toPoly (xs.foldl addRight s) = toPoly s + (xs.map toPoly).sum := by
  induction xs with
  | nil => intro s _; simp
  | cons x xs ih =>
    intro s h
    obtain ⟨h1, h2⟩ := addRight_ok (h x (by simp))
    obtain ⟨h3, h4⟩ := ih (addRight s x) (fun y hy => by rw [h1]; exact h y (by simp [hy]))
    exact ⟨by rw [List.foldl_cons, h3, h1], by rw [List.foldl_cons, h4, h2]; simp [add_assoc]⟩

/-- **C02**: `haroldpolyadd` denotes the sum and is as long as the longest (trimmed) argument, with
and without trimming of the arguments. -/
theorem C02_polyadd (args : List (List K)) (trim : Bool) (h : args ≠ []) :
    ∃ r, polyadd args trim = .ok r ∧ toPoly r = (args.map toPoly).sum ∧
      (∀ x ∈ args, (if trim then trimZeros x else x).length ≤ r.length) ∧
      ∃ x ∈ args, (if trim then trimZeros x else x).length = r.length := by
  set targs := if trim then args.map trimZeros else args with ht
  have hne : targs ≠ [] := by
    cases trim <;> simp [ht, h]
  have hsum : (targs.map toPoly).sum = (args.map toPoly).sum := by
    cases trim <;> simp [ht, Function.comp_def, toPoly_trimZeros]
  have hmem : ∀ x, x ∈ targs ↔ ∃ y ∈ args, (if trim then trimZeros y else y) = x := by
    intro x; cases trim <;> simp [ht]
  set m := (targs.map List.length).foldr max 0 with hm
  have hle : ∀ x ∈ targs, x.length ≤ m := fun x hx =>
    le_foldr_max (List.mem_map.mpr ⟨x, hx, rfl⟩)
  obtain ⟨h1, h2⟩ := foldl_addRight targs (List.replicate m 0) (by simpa using hle)
  have hlen : (targs.foldl addRight (List.replicate m 0)).length = m := by simpa using h1
  have hatt : ∃ x ∈ targs, x.length = m := by
    have aux : ∀ l : List (List K), l ≠ [] →
        ∃ x ∈ l, x.length = (l.map List.length).foldr max 0 := by
      intro l
      induction l with
      | nil => simp
      | cons a l ih =>
        intro _
        by_cases hl : l = []
        · subst hl; exact ⟨a, by simp, by simp⟩
        · obtain ⟨x, hx, e⟩ := ih hl
          rcases le_total ((l.map List.length).foldr max 0) a.length with hh | hh
          · exact ⟨a, by simp, by simp [max_eq_left hh]⟩
          · exact ⟨x, by simp [hx], by simp [max_eq_right hh, e]⟩
    exact aux targs hne
  refine ⟨targs.foldl addRight (List.replicate m 0), ?_, ?_, ?_, ?_⟩
  · simp only [polyadd, ← ht, hne, if_false, ← hm]
  · rw [h2, toPoly_replicate_zero, hsum, zero_add]
  · intro x hx
    rw [hlen]
    exact hle _ ((hmem _).mpr ⟨x, hx, rfl⟩)
  · obtain ⟨x, hx, e⟩ := hatt
    obtain ⟨y, hy, rfl⟩ := (hmem x).mp hx
    exact ⟨y, hy, by rw [hlen, e]⟩

example : polyadd [[2, 3], [(1 : ℚ), 0, 4]] = .ok [1, 2, 7] := by
  simp [polyadd, trimZeros, addRight, List.replicate_succ]
  norm_num

/-! ## C03: division with remainder -/

theorem lfilterImp_length (num den : List K) (n : ℕ) : (lfilterImp num den n).length = n := by
  induction n with
  | zero => rfl
  | succ n ih => simp [lfilterImp, ih]

theorem lfilterImp_getD (num den : List K) (n k : ℕ) (h : k < n) :
    (lfilterImp num den n).getD k 0 = (lfilterImp num den (k + 1)).getD k 0 := by
  induction n with
  | zero => omega
  | succ n ih =>
    rcases Nat.lt_succ_iff_lt_or_eq.mp h with h | rfl
    · rw [← ih h]
      simp only [lfilterImp]
      rw [List.getD_append _ _ _ _ (by rw [lfilterImp_length]; exact h)]
    · rfl

theorem lfilterImp_rec (num den : List K) (n k : ℕ) (h : k < n) (h0 : den.getD 0 0 ≠ 0) :
    ∑ j ∈ Finset.range (k + 1), den.getD j 0 * (lfilterImp num den n).getD (k - j) 0
      = num.getD k 0 := by
  rw [Finset.sum_range_succ', Nat.sub_zero, lfilterImp_getD num den n k h]
  simp only [lfilterImp]
  rw [List.getD_append_right _ _ _ _ (by rw [lfilterImp_length]), lfilterImp_length, Nat.sub_self,
    List.getD_cons_zero, mul_div_cancel₀ _ h0]
  have : ∑ j ∈ Finset.range k, den.getD (j + 1) 0 * (lfilterImp num den n).getD (k - (j + 1)) 0
      = ∑ j ∈ Finset.range k, den.getD (j + 1) 0 * (lfilterImp num den k).getD (k - (j + 1)) 0 := by
    apply Finset.sum_congr rfl
    intro j hj
    rw [Finset.mem_range] at hj
    rw [lfilterImp_getD num den n _ (by omega), lfilterImp_getD num den k _ (by omega)]
  rw [this]; ring

/-- **C03**: division with remainder, with the uniqueness that makes it *the* quotient and
remainder. -/
theorem C03_polydiv (num den : List K) (hd : den.getD 0 0 ≠ 0) :
    ∃ q r, polydiv num den = .ok (q, r) ∧ toPoly num = toPoly q * toPoly den + toPoly r ∧
      (toPoly r).degree < (toPoly den).degree ∧
      ∀ q' r' : K[X], toPoly num = q' * toPoly den + r' → r'.degree < (toPoly den).degree →
        q' = toPoly q ∧ r' = toPoly r := by
  have hden : ∃ b t, den = b :: t ∧ b ≠ 0 := by
    cases den with
    | nil => simp at hd
    | cons b t => exact ⟨b, t, rfl, by simpa using hd⟩
  obtain ⟨b, t, rfl, hb⟩ := hden
  have hdeg := degree_toPoly_cons hb t
  have main : ∃ q r, polydiv num (b :: t) = .ok (q, r) ∧
      toPoly num = toPoly q * toPoly (b :: t) + toPoly r ∧
      (toPoly r).degree < (toPoly (b :: t)).degree := by
    by_cases hlt : num.length < (b :: t).length
    · refine ⟨[], trimZeros num, ?_, ?_, ?_⟩
      · simp only [polydiv, deconvolve, hlt, if_true, bind, Except.bind]; rfl
      · rw [toPoly_trimZeros]; simp
      · rw [toPoly_trimZeros, hdeg]
        refine lt_of_lt_of_le (degree_toPoly_lt num) ?_
        simp only [List.length_cons] at hlt
        exact_mod_cast Nat.lt_succ_iff.mp hlt
    · simp only [List.length_cons, not_lt] at hlt
      set n := num.length - (b :: t).length + 1 with hn
      set q := lfilterImp num (b :: t) n with hq
      have hql : q.length = n := lfilterImp_length _ _ _
      have hq0 : q ≠ [] := by intro h; rw [h] at hql; simp at hql
      obtain ⟨dq, h1, h2, h3, -⟩ := convolve_ok (p := b :: t) (x := q) (by simp) hq0
      have hlen : num.length = dq.length := by
        rw [h3, hql]; simp only [List.length_cons] at hn ⊢
        omega
      refine ⟨trimZeros q, trimZeros (List.zipWith (· - ·) num dq), ?_, ?_, ?_⟩
      · have hlt' : ¬ num.length < (b :: t).length := by simp; omega
        simp only [polydiv, deconvolve, hlt', if_false, hd, ← hn, ← hq, h1, bind, Except.bind]
      · rw [toPoly_trimZeros, toPoly_trimZeros, toPoly_zipWith_sub hlen, h2]; ring
      · rw [toPoly_trimZeros, hdeg, degree_lt_iff_coeff_zero]
        intro i hi
        have hzl : (List.zipWith (· - ·) num dq).length = num.length := by simp [← hlen]
        by_cases hin : i < num.length
        · rw [coeff_toPoly_lt (by rw [hzl]; exact hin), hzl]
          set k := num.length - 1 - i with hk
          have hkn : k < n := by simp only [List.length_cons] at hn; omega
          rw [List.getD_eq_getElem _ _ (by rw [hzl]; omega), List.getElem_zipWith, sub_eq_zero]
          have hdq : dq = List.ofFn fun n : Fin ((b :: t).length + q.length - 1) =>
              ∑ k ∈ Finset.range (n + 1), (b :: t).getD k 0 * q.getD (n - k) 0 := by
            have := h1
            rw [convolve, if_neg (by simp [hq0])] at this
            exact (Except.ok.inj this).symm
          have e := lfilterImp_rec num (b :: t) n k hkn hd
          rw [← hq] at e
          rw [← List.getD_eq_getElem num 0 (by omega), ← e]
          simp only [hdq, List.getElem_ofFn]
        · exact coeff_toPoly_ge (by rw [hzl]; omega)
  obtain ⟨q, r, h1, h2, h3⟩ := main
  refine ⟨q, r, h1, h2, h3, ?_⟩
  intro q' r' e hr
  have e2 : (q' - toPoly q) * toPoly (b :: t) = toPoly r - r' := by
    have := e.symm.trans h2
    linear_combination this
  have hq : q' - toPoly q = 0 := by
    by_contra hne
    have hdl : (toPoly r - r').degree < (toPoly (b :: t)).degree :=
      lt_of_le_of_lt (degree_sub_le _ _) (max_lt h3 hr)
    rw [← e2, degree_mul] at hdl
    have h0 : 0 ≤ (q' - toPoly q).degree := zero_le_degree_iff.mpr hne
    have := le_add_of_nonneg_left (a := (toPoly (b :: t)).degree) h0
    exact absurd hdl (not_lt.mpr this)
  constructor
  · exact sub_eq_zero.mp hq
  · rw [hq, zero_mul] at e2
    exact (sub_eq_zero.mp e2.symm).symm

example : ([1, 3, 6] : List ℚ).getD 0 0 ≠ 0 := by simp

/-- **C03**: a divisor with a zero leading coefficient is rejected when it is not longer than the
dividend. -/
theorem C03_leading_zero (num t : List K) (h : t.length + 1 ≤ num.length) :
    polydiv num (0 :: t) = .error .value := by
  have : ¬ num.length < (0 :: t : List K).length := by simp; omega
  simp only [polydiv, deconvolve, this, if_false, List.getD_cons_zero, if_true, bind, Except.bind]

/-! ## C04: polynomials from roots -/

theorem polyInner_apply (r : K) (x : ℕ) : ∀ (p : ℕ → K) (y : ℕ),
    polyInner r x p y = if 1 ≤ y ∧ y ≤ x then p y - p (y - 1) * r else p y := by
  induction x with
  | zero => intro p y; simp [polyInner]; omega
  | succ x ih =>
    intro p y
    rw [polyInner, ih]
    by_cases h : y = x + 1
    · subst h; simp
    · by_cases h2 : 1 ≤ y ∧ y ≤ x
      · rw [if_pos h2, if_pos (by omega), Function.update_of_ne h,
          Function.update_of_ne (by omega)]
      · rw [if_neg h2, if_neg (by omega), Function.update_of_ne h]

/-- The polynomial held in the first `x + 1` cells. -/
noncomputable def cells (x : ℕ) (p : ℕ → K) : K[X] :=
  ∑ i ∈ Finset.range (x + 1), C (p i) * X ^ (x - i)

theorem cells_step (r : K) (x : ℕ) (p : ℕ → K) :
    cells (x + 1) (polyInner r x (Function.update p (x + 1) (-(p x) * r)))
      = cells x p * (X - C r) := by
  have h1 : cells (x + 1) (polyInner r x (Function.update p (x + 1) (-(p x) * r)))
      = (∑ i ∈ Finset.range (x + 1), C (p i) * X ^ (x + 1 - i))
        - ∑ i ∈ Finset.range (x + 1), C (p i * r) * X ^ (x - i) := by
    rw [cells, Finset.sum_range_succ' _ (x + 1), Finset.sum_range_succ _ x,
      Finset.sum_range_succ' (fun i => C (p i) * X ^ (x + 1 - i)) x]
    have e1 : ∀ i ∈ Finset.range x, C (polyInner r x (Function.update p (x + 1) (-(p x) * r))
        (i + 1)) * X ^ (x + 1 - (i + 1)) =
        C (p (i + 1)) * X ^ (x + 1 - (i + 1)) - C (p i * r) * X ^ (x - i) := by
      intro i hi
      rw [Finset.mem_range] at hi
      rw [polyInner_apply, if_pos (by omega), Function.update_of_ne (by omega),
        Function.update_of_ne (by omega), Nat.add_sub_cancel, map_sub, Nat.add_sub_add_right]
      ring
    rw [Finset.sum_congr rfl e1, Finset.sum_sub_distrib, Finset.sum_range_succ _ x]
    have e2 : polyInner r x (Function.update p (x + 1) (-(p x) * r)) (x + 1) = -(p x) * r := by
      rw [polyInner_apply, if_neg (by omega), Function.update_self]
    have e3 : polyInner r x (Function.update p (x + 1) (-(p x) * r)) 0 = p 0 := by
      rw [polyInner_apply, if_neg (by omega), Function.update_of_ne (by omega)]
    rw [e2, e3]
    simp only [Nat.sub_self, Nat.sub_zero, pow_zero, mul_one, map_mul, map_neg]
    ring
  rw [h1, cells, mul_sub, Finset.sum_mul, Finset.sum_mul]
  congr 1
  · apply Finset.sum_congr rfl
    intro i hi
    rw [Finset.mem_range] at hi
    rw [mul_assoc, ← pow_succ]
    congr 2; omega
  · apply Finset.sum_congr rfl
    intro i _
    rw [map_mul]; ring

theorem cells_outer (rs : List K) : ∀ (x : ℕ) (p : ℕ → K),
    cells (x + rs.length) (polyOuter x rs p) = cells x p * (rs.map fun r => X - C r).prod := by
  induction rs with
  | nil => intro x p; simp [polyOuter]
  | cons r rs ih =>
    intro x p
    rw [polyOuter, List.length_cons, show x + (rs.length + 1) = x + 1 + rs.length by ring, ih,
      cells_step]
    simp [mul_assoc]

omit [DecidableEq K] in
theorem toPoly_ofFn (n : ℕ) (f : Fin n → K) :
    toPoly (List.ofFn f) = ∑ i : Fin n, C (f i) * X ^ (n - 1 - i) := by
  induction n with
  | zero => simp
  | succ n ih =>
    rw [List.ofFn_succ, toPoly_cons, ih, Fin.sum_univ_succ]
    simp only [List.length_ofFn, Fin.val_zero, Nat.add_sub_cancel, Nat.sub_zero, Fin.val_succ]
    congr 1
    apply Finset.sum_congr rfl
    intro i _
    congr 2; omega

/-- **C04**: `haroldpoly` returns the `n + 1` coefficients of `∏ (s - rᵢ)`. -/
theorem C04_poly (roots : List K) :
    toPoly (poly roots) = (roots.map fun r => X - C r).prod ∧
      (poly roots).length = roots.length + 1 ∧ (poly roots).getD 0 0 = 1 := by
  have h1 : toPoly (poly roots) = (roots.map fun r => X - C r).prod := by
    cases roots with
    | nil => simp [poly]
    | cons r rs =>
      have e := cells_outer rs 1 (Function.update (Function.update (fun _ => 0) 0 1) 1 (-r))
      have e0 : cells 1 (Function.update (Function.update (fun _ => 0) 0 1) 1 (-r))
          = (X - C r : K[X]) := by
        simp [cells, Finset.sum_range_succ]; ring
      rw [poly, toPoly_ofFn, List.map_cons, List.prod_cons, ← e0, ← e, cells]
      simp only [List.length_cons]
      rw [Finset.sum_range, show 1 + rs.length + 1 = rs.length + 1 + 1 by ring]
      apply Finset.sum_congr rfl
      intro i _
      congr 2; omega
  refine ⟨h1, ?_, ?_⟩
  · cases roots <;> simp [poly]
  · cases roots with
    | nil => rfl
    | cons r rs =>
      have aux : ∀ (rs : List K) (x : ℕ) (p : ℕ → K), polyOuter x rs p 0 = p 0 := by
        intro rs
        induction rs with
        | nil => intro x p; rfl
        | cons r rs ih =>
          intro x p
          rw [polyOuter, ih, polyInner_apply, if_neg (by omega), Function.update_of_ne (by omega)]
      rw [poly, List.getD_eq_getElem _ _ (by simp), List.getElem_ofFn]
      simp [aux]

example : poly ([1, 2] : List ℚ) = [1, -3, 2] := by
  simp [poly, polyOuter, polyInner, List.ofFn_succ, Function.update]
  norm_num

/-! ## C05: companion matrices -/

/-- The coefficients of the monic polynomial in increasing powers. -/
def monicCoeffs (a : K) (t : List K) (i : Fin t.length) : K := t.getD (t.length - 1 - i) 0 / a

omit [DecidableEq K] in
theorem toPoly_monic {a : K} (ha : a ≠ 0) (t : List K) :
    toPoly (a :: t) = C a * (X ^ t.length + ∑ i, C (monicCoeffs a t i) * X ^ i.val) := by
  have ht : toPoly t = C a * ∑ i, C (monicCoeffs a t i) * X ^ i.val := by
    conv_lhs => rw [show t = List.ofFn (fun i : Fin t.length => t.getD i 0) by
      apply List.ext_getElem <;> simp]
    rw [toPoly_ofFn, Finset.mul_sum, ← Equiv.sum_comp Fin.revPerm]
    apply Finset.sum_congr rfl
    intro i _
    simp only [Fin.revPerm_apply, Fin.val_rev, monicCoeffs]
    rw [← mul_assoc, ← C_mul, mul_div_cancel₀ _ ha]
    have e1 : t.length - (i.val + 1) = t.length - 1 - i.val := by omega
    have e2 : t.length - 1 - (t.length - 1 - i.val) = i.val := by omega
    rw [e1, e2]
  rw [toPoly_cons, ht]; ring

omit [DecidableEq K] in
theorem companion_blocks (n : ℕ) (hn : 0 < n) (f : ℕ → K) :
    (do
      let top ← Arr.hstack (Arr.zeros (n - 1) 1) (Arr.eye (n - 1))
      let m ← Arr.vstack top (Arr.of (Matrix.of fun (_ : Fin 1) (j : Fin n) => f j))
      (.ok (some m) : Res (Option (Arr K)))) =
    .ok (some (Arr.of (Matrix.of fun (i j : Fin n) =>
      if i.val + 1 = n then f j else if j.val = i.val + 1 then 1 else 0))) := by
  obtain ⟨m, rfl⟩ : ∃ m, n = m + 1 := ⟨n - 1, by omega⟩
  have hc : 1 + m = m + 1 := by omega
  simp only [Nat.add_sub_cancel, Arr.zeros, Arr.eye, Arr.hstack_of, bind, Except.bind, Arr.vstack,
    Arr.of_c, hc, dif_pos, Except.ok.injEq, Option.some.injEq]
  refine Arr.ext_cast (by simp) (by simp; omega) ?_
  intro i j
  simp only [Arr.of_m, Matrix.of_apply, Fin.val_cast]
  obtain ⟨i', rfl⟩ := finSumFinEquiv.surjective i
  obtain ⟨j', rfl⟩ := finSumFinEquiv.surjective j
  rcases i' with i' | i'
  · have hi : ¬ (i'.val = m) := by omega
    rcases j' with j' | j'
    · have : ¬ (j'.val = i'.val + 1) := by omega
      simp [vcat, hcat, hi, this]
    · by_cases hij : i' = j'
      · subst hij; simp [vcat, hcat, hi, add_comm]
      · have : ¬ (1 + j'.val = i'.val + 1) := fun e => hij (Fin.ext (by omega))
        simp [vcat, hcat, hi, hij, this]
  · have hi : i'.val = 0 := by omega
    simp [vcat, hi]

theorem companion_eq (l : List K) {a : K} {t : List K} (h : trimZeros l = a :: t) (ha : a ≠ 0)
    (ht : t ≠ []) : companion l = .ok (some (Arr.of (compM (monicCoeffs a t)))) := by
  have hl : l ≠ [] := by rintro rfl; simp [trimZeros] at h
  set ta := ((a :: t).map (fun x => 1 / a * x)).tail.reverse.map (fun x => -x) with hta
  have hn : ta.length = t.length := by simp [hta]
  have hget : ∀ j (hj : j < t.length), ta.getD j 0 = -monicCoeffs a t ⟨j, hj⟩ := by
    intro j hj
    rw [List.getD_eq_getElem _ _ (by omega)]
    simp only [hta, List.map_cons, List.tail_cons, List.getElem_map, List.getElem_reverse,
      List.length_map, monicCoeffs]
    rw [List.getD_eq_getElem _ _ (by omega)]
    field_simp
  have hpos : 0 < t.length := List.length_pos_iff.mpr ht
  have key : companion l = (if ta.length = 0 then .ok none
      else if ta.length = 1 then
        .ok (some (Arr.of (Matrix.of fun (_ : Fin 1) (j : Fin ta.length) => ta.getD j 0)))
      else do
        let top ← Arr.hstack (Arr.zeros (ta.length - 1) 1) (Arr.eye (ta.length - 1))
        let m ← Arr.vstack top
          (Arr.of (Matrix.of fun (_ : Fin 1) (j : Fin ta.length) => ta.getD j 0))
        .ok (some m)) := by
    rw [companion, if_neg hl, h]
  rw [key]
  have hM : Arr.of (compM (monicCoeffs a t)) = Arr.of (Matrix.of fun (i j : Fin ta.length) =>
      if i.val + 1 = ta.length then ta.getD j 0 else if j.val = i.val + 1 then (1 : K) else 0) := by
    refine Arr.ext_cast (by simp [hn]) (by simp [hn]) ?_
    intro i j
    simp only [Arr.of_m, Matrix.of_apply, Fin.val_cast, compM, hn, hget j.val j.2]
  rw [hM]
  by_cases h1 : ta.length = 1
  · rw [if_neg (by omega), if_pos h1]
    congr 2
    refine Arr.ext_cast (by simp [h1]) (by simp) ?_
    intro i j
    have hi : i = 0 := Subsingleton.elim (α := Fin 1) _ _
    subst hi
    simp [h1]
  · rw [if_neg (by omega), if_neg h1]
    exact companion_blocks ta.length (by omega) (fun j => ta.getD j 0)

/-- **C05**: the companion matrix of a nonconstant polynomial is square of the size of its degree
and its characteristic polynomial is the polynomial divided by its leading coefficient. -/
theorem C05_companion (l : List K) (h : 0 < (toPoly l).degree) :
    ∃ (n : ℕ) (M : Matrix (Fin n) (Fin n) K), companion l = .ok (some (Arr.of M)) ∧
      n = (toPoly l).natDegree ∧ M.charpoly = C (toPoly l).leadingCoeff⁻¹ * toPoly l := by
  rcases trimZeros_cases l with ⟨-, h2⟩ | ⟨a, t, h1, ha⟩
  · rw [h2] at h; simp at h
  · have hp : toPoly l = toPoly (a :: t) := by rw [← toPoly_trimZeros, h1]
    have hdeg := degree_toPoly_cons ha t
    have ht : t ≠ [] := by
      rintro rfl
      rw [hp, hdeg] at h; simp at h
    refine ⟨t.length, _, companion_eq l h1 ha ht, ?_, ?_⟩
    · rw [hp, natDegree_eq_of_degree_eq_some hdeg]
    · rw [charpoly_compM, hp, leadingCoeff_toPoly_cons ha, toPoly_monic ha, ← mul_assoc, ← C_mul,
        inv_mul_cancel₀ ha, C_1, one_mul]

example : 0 < (toPoly ([2, 4, 6] : List ℚ)).degree := by
  rw [degree_toPoly_cons (by norm_num)]; simp

/-- **C05**: constants (and the empty array) give an empty array, the zero polynomial an error. -/
theorem C05_constant (l : List K) :
    ((toPoly l).degree = 0 ∨ l = [] → companion l = .ok none) ∧
      (l ≠ [] → toPoly l = 0 → companion l = .error .index) := by
  constructor
  · rintro (h | rfl)
    · rcases trimZeros_cases l with ⟨-, h2⟩ | ⟨a, t, h1, ha⟩
      · rw [h2] at h; simp at h
      · rw [← toPoly_trimZeros, h1, degree_toPoly_cons ha] at h
        have : t = [] := by simpa using h
        subst this
        have hl : l ≠ [] := by rintro rfl; simp [trimZeros] at h1
        simp [companion, hl, h1]
    · simp [companion]
  · intro hl h
    rw [← trimZeros_eq_nil_iff] at h
    simp [companion, hl, h]

end Harold
