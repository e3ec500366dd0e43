import Verif.Spec.Index
import Mathlib.Algebra.Ring.Divisibility.Basic
import Mathlib.Data.List.Sort
import Mathlib.Tactic.Ring
import Mathlib.Tactic.Linarith

/-!
# `np.arange(n)[expr]` returns the selected positions
-/

namespace Harold

open Spec

theorem pyIndex_ok_iff {n : ℕ} {i : ℤ} {k : ℕ} : pyIndex n i = .ok k ↔ Resolves n i k := by
  unfold pyIndex Resolves
  split_ifs with h1 h2
  · simp only [Except.ok.injEq]; omega
  · simp only [Except.ok.injEq]; omega
  · simp only [reduceCtorEq, false_iff]; omega

theorem pyIndex_error {n : ℕ} {i : ℤ} {e : Err} (h : pyIndex n i = .error e) :
    e = .index ∧ ∀ k, ¬ Resolves n i k := by
  constructor
  · unfold pyIndex at h
    split_ifs at h
    simpa using h.symm
  · intro k hk
    rw [← pyIndex_ok_iff] at hk
    rw [hk] at h
    simp at h

theorem pySeq_ok_iff {n : ℕ} {l : List ℤ} {ks : List ℕ} :
    pySeq n l = .ok ks ↔ List.Forall₂ (Resolves n) l ks := by
  induction l generalizing ks with
  | nil => simp [pySeq, eq_comm]
  | cons i l ih =>
    simp only [pySeq, bind, Except.bind]
    cases h : pyIndex n i with
    | error e =>
      have := (pyIndex_error h).2
      simp only [reduceCtorEq, false_iff]
      intro h
      cases h with
      | cons h1 h2 => exact this _ h1
    | ok k =>
      cases h' : pySeq n l with
      | error e =>
        simp only [reduceCtorEq, false_iff]
        intro h
        cases h with
        | cons h1 h2 => rw [ih.mpr h2] at h'; simp at h'
      | ok ks' =>
        have h1 := pyIndex_ok_iff.mp h
        have h2 := ih.mp h'
        simp only [Except.ok.injEq]
        constructor
        · rintro rfl; exact .cons h1 h2
        · intro h3
          cases h3 with
          | cons h4 h5 =>
            rw [← pyIndex_ok_iff, h] at h4
            rw [← ih, h'] at h5
            simp at h4 h5
            rw [h4, h5]

theorem mem_sliceWalk_pos {st b : ℤ} (hst : 0 < st) (fuel : ℕ) (i : ℤ) (hi : 0 ≤ i)
    (hf : b - i < fuel) (k : ℕ) :
    k ∈ sliceWalk st b fuel i ↔ i ≤ k ∧ (k : ℤ) < b ∧ st ∣ (k : ℤ) - i := by
  induction fuel generalizing i with
  | zero =>
    simp only [sliceWalk, List.not_mem_nil, false_iff]
    rintro ⟨h1, h2, _⟩
    simp at hf
    omega
  | succ fuel ih =>
    rw [sliceWalk]
    split_ifs with h
    · have hib : i < b := by omega
      rw [List.mem_cons, ih (i + st) (by omega) (by push_cast at hf; omega)]
      constructor
      · rintro (h1 | ⟨h1, h2, h3⟩)
        · have : (k : ℤ) = i := by omega
          rw [this]; simp [hib]
        · refine ⟨by omega, h2, ?_⟩
          have : (k : ℤ) - i = (k - (i + st)) + st := by ring
          rw [this]; exact dvd_add h3 (dvd_refl _)
      · rintro ⟨h1, h2, h3⟩
        by_cases hk : (k : ℤ) = i
        · left; omega
        · right
          obtain ⟨c, hc⟩ := h3
          have hc0 : 0 < c := by
            by_contra hcn
            have : st * c ≤ 0 := mul_nonpos_of_nonneg_of_nonpos hst.le (by omega)
            omega
          refine ⟨?_, h2, ⟨c - 1, by rw [mul_sub, ← hc]; ring⟩⟩
          have : st * 1 ≤ st * c := mul_le_mul_of_nonneg_left (by omega) hst.le
          omega
    · simp only [List.not_mem_nil, false_iff]
      rintro ⟨h1, h2, _⟩
      omega

theorem mem_sliceWalk_neg {st b : ℤ} (hst : st < 0) (hb : -1 ≤ b) (fuel : ℕ) (i : ℤ)
    (hf : i - b < fuel) (k : ℕ) :
    k ∈ sliceWalk st b fuel i ↔ (k : ℤ) ≤ i ∧ b < (k : ℤ) ∧ st ∣ (k : ℤ) - i := by
  induction fuel generalizing i with
  | zero =>
    simp only [sliceWalk, List.not_mem_nil, false_iff]
    rintro ⟨h1, h2, _⟩
    simp at hf
    omega
  | succ fuel ih =>
    rw [sliceWalk]
    split_ifs with h
    · have hib : b < i := by omega
      rw [List.mem_cons, ih (i + st) (by push_cast at hf; omega)]
      constructor
      · rintro (h1 | ⟨h1, h2, h3⟩)
        · have : (k : ℤ) = i := by omega
          rw [this]; simp [hib]
        · refine ⟨by omega, h2, ?_⟩
          have : (k : ℤ) - i = (k - (i + st)) + st := by ring
          rw [this]; exact dvd_add h3 (dvd_refl _)
      · rintro ⟨h1, h2, h3⟩
        by_cases hk : (k : ℤ) = i
        · left; omega
        · right
          obtain ⟨c, hc⟩ := h3
          have hc0 : 0 < c := by
            by_contra hcn
            have : 0 ≤ st * c := mul_nonneg_of_nonpos_of_nonpos hst.le (by omega)
            omega
          refine ⟨?_, h2, ⟨c - 1, by rw [mul_sub, ← hc]; ring⟩⟩
          have : st * c ≤ st * 1 := mul_le_mul_of_nonpos_left (by omega) hst.le
          omega
    · simp only [List.not_mem_nil, false_iff]
      rintro ⟨h1, h2, _⟩
      omega

theorem pairwise_sliceWalk_pos {st b : ℤ} (hst : 0 < st) (fuel : ℕ) (i : ℤ) (hi : 0 ≤ i)
    (hf : b - i < fuel) : (sliceWalk st b fuel i).Pairwise (· < ·) := by
  induction fuel generalizing i with
  | zero => simp [sliceWalk]
  | succ fuel ih =>
    rw [sliceWalk]
    split_ifs with h
    · have hf' : b - (i + st) < fuel := by push_cast at hf; omega
      refine List.pairwise_cons.mpr ⟨?_, ih _ (by omega) hf'⟩
      intro k hk
      rw [mem_sliceWalk_pos hst fuel _ (by omega) hf'] at hk
      omega
    · simp

theorem pairwise_sliceWalk_neg {st b : ℤ} (hst : st < 0) (hb : -1 ≤ b) (fuel : ℕ) (i : ℤ)
    (hf : i - b < fuel) : (sliceWalk st b fuel i).Pairwise (· > ·) := by
  induction fuel generalizing i with
  | zero => simp [sliceWalk]
  | succ fuel ih =>
    rw [sliceWalk]
    split_ifs with h
    · have hf' : i + st - b < fuel := by push_cast at hf; omega
      refine List.pairwise_cons.mpr ⟨?_, ih _ hf'⟩
      intro k hk
      rw [mem_sliceWalk_neg hst hb fuel _ hf'] at hk
      omega
    · simp

theorem eq_of_pairwise_lt {l l' : List ℕ} (h : l.Pairwise (· < ·)) (h' : l'.Pairwise (· < ·))
    (hm : ∀ k, k ∈ l ↔ k ∈ l') : l = l' := by
  have hp : l.Perm l' := (List.perm_ext_iff_of_nodup (h.imp fun h => h.ne)
    (h'.imp fun h => h.ne)).mpr hm
  exact hp.eq_of_pairwise (fun _ _ _ _ h1 h2 => by omega) h h'

theorem eq_of_pairwise_gt {l l' : List ℕ} (h : l.Pairwise (· > ·)) (h' : l'.Pairwise (· > ·))
    (hm : ∀ k, k ∈ l ↔ k ∈ l') : l = l' := by
  have hp : l.Perm l' := (List.perm_ext_iff_of_nodup (h.imp fun h => h.ne')
    (h'.imp fun h => h.ne')).mpr hm
  exact hp.eq_of_pairwise (fun _ _ _ _ h1 h2 => by omega) h h'

theorem walk_pos_eq {n : ℕ} {st A B : ℤ} {P : ℕ → Bool} (hs : 0 < st) (hA : 0 ≤ A) (hB : B ≤ n)
    (h : ∀ k : ℕ, (A ≤ k ∧ (k : ℤ) < B ∧ st ∣ (k : ℤ) - A) ↔ k < n ∧ P k = true) :
    sliceWalk st B (n + 1) A = (List.range n).filter P := by
  have hf : B - A < ((n + 1 : ℕ) : ℤ) := by push_cast; omega
  refine eq_of_pairwise_lt (pairwise_sliceWalk_pos hs _ _ hA hf)
    (List.Pairwise.filter _ List.pairwise_lt_range) fun k => ?_
  rw [mem_sliceWalk_pos hs _ _ hA hf, List.mem_filter, List.mem_range, h]

theorem walk_neg_eq {n : ℕ} {st A B : ℤ} {P : ℕ → Bool} (hs : st < 0) (hA : A ≤ n - 1) (hB : -1 ≤ B)
    (h : ∀ k : ℕ, ((k : ℤ) ≤ A ∧ B < (k : ℤ) ∧ st ∣ (k : ℤ) - A) ↔ k < n ∧ P k = true) :
    sliceWalk st B (n + 1) A = (List.range n).reverse.filter P := by
  have hf : A - B < ((n + 1 : ℕ) : ℤ) := by push_cast; omega
  refine eq_of_pairwise_gt (pairwise_sliceWalk_neg hs hB _ _ hf)
    (List.Pairwise.filter _ (List.pairwise_reverse.mpr List.pairwise_lt_range)) fun k => ?_
  rw [mem_sliceWalk_neg hs hB _ _ hf, List.mem_filter, List.mem_reverse, List.mem_range, h]

theorem clip_pos (n : ℕ) (x : ℤ) : clipBound n 0 n x = min (n : ℤ) (max 0 (fromEnd n x)) := by
  simp only [clipBound, fromEnd]
  split_ifs <;> omega

theorem clip_neg (n : ℕ) (x : ℤ) :
    clipBound n (-1) (n - 1) x = max (-1) (min ((n : ℤ) - 1) (fromEnd n x)) := by
  simp only [clipBound, fromEnd]
  split_ifs <;> omega

theorem pySlice_ok {n : ℕ} {a b s : Option ℤ} (h : s.getD 1 ≠ 0) :
    pySlice n a b s = .ok (sliceSpec n a b (s.getD 1)) := by
  unfold pySlice sliceSpec
  simp only [h, if_false]
  split_ifs with hs
  · congr 1
    cases a with
    | none =>
      cases b with
      | none =>
        refine walk_pos_eq hs le_rfl le_rfl fun k => ?_
        simp
      | some y =>
        simp only [clip_pos]
        refine walk_pos_eq hs le_rfl (min_le_left _ _) fun k => ?_
        simp only [Option.mem_some_iff, forall_eq', decide_eq_true_eq]
        omega
    | some x =>
      simp only [clip_pos]
      have hA : 0 ≤ min (n : ℤ) (max 0 (fromEnd n x)) := by omega
      by_cases hx : max 0 (fromEnd n x) ≤ (n : ℤ)
      · rw [min_eq_right hx] at hA ⊢
        cases b with
        | none =>
          refine walk_pos_eq hs hA le_rfl fun k => ?_
          simp only [Option.mem_def, reduceCtorEq, IsEmpty.forall_iff, implies_true, true_and,
            decide_eq_true_eq]
          omega
        | some y =>
          refine walk_pos_eq hs hA (min_le_left _ _) fun k => ?_
          simp only [Option.mem_some_iff, forall_eq', decide_eq_true_eq]
          omega
      · rw [min_eq_left (by omega)] at hA ⊢
        cases b with
        | none =>
          refine walk_pos_eq hs hA le_rfl fun k => ?_
          simp only [decide_eq_true_eq]
          omega
        | some y =>
          refine walk_pos_eq hs hA (min_le_left _ _) fun k => ?_
          simp only [decide_eq_true_eq]
          omega
  · have hs' : s.getD 1 < 0 := by omega
    congr 1
    cases a with
    | none =>
      cases b with
      | none =>
        refine walk_neg_eq hs' le_rfl le_rfl fun k => ?_
        simp only [Option.mem_def, reduceCtorEq, IsEmpty.forall_iff, implies_true, true_and,
            decide_eq_true_eq]
        omega
      | some y =>
        simp only [clip_neg]
        refine walk_neg_eq hs' le_rfl (le_max_left _ _) fun k => ?_
        simp only [Option.mem_some_iff, forall_eq', decide_eq_true_eq]
        omega
    | some x =>
      simp only [clip_neg]
      have hA : max (-1) (min ((n : ℤ) - 1) (fromEnd n x)) ≤ n - 1 := by omega
      by_cases hx : (-1 : ℤ) ≤ min ((n : ℤ) - 1) (fromEnd n x)
      · rw [max_eq_right hx] at hA ⊢
        cases b with
        | none =>
          refine walk_neg_eq hs' hA le_rfl fun k => ?_
          simp only [Option.mem_def, reduceCtorEq, IsEmpty.forall_iff, implies_true, true_and,
            decide_eq_true_eq]
          omega
        | some y =>
          refine walk_neg_eq hs' hA (le_max_left _ _) fun k => ?_
          simp only [Option.mem_some_iff, forall_eq', decide_eq_true_eq]
          omega
      · rw [max_eq_left (by omega)] at hA ⊢
        cases b with
        | none =>
          refine walk_neg_eq hs' hA le_rfl fun k => ?_
          simp only [decide_eq_true_eq]
          omega
        | some y =>
          refine walk_neg_eq hs' hA (le_max_left _ _) fun k => ?_
          simp only [decide_eq_true_eq]
          omega

theorem arangeIdx_ok {n : ℕ} {e : Idx} {ks : List ℕ} (h : Selects n e ks) :
    arangeIdx n e = .ok ks := by
  cases h with
  | int h => simp [arangeIdx, pyIndex_ok_iff.mpr h, bind, Except.bind]
  | seq h => exact pySeq_ok_iff.mpr h
  | slice h => exact pySlice_ok h

theorem selects_of_arangeIdx {n : ℕ} {e : Idx} {ks : List ℕ} (h : arangeIdx n e = .ok ks) :
    Selects n e ks := by
  cases e with
  | int i =>
    simp only [arangeIdx, bind, Except.bind] at h
    cases h1 : pyIndex n i with
    | error e => rw [h1] at h; simp at h
    | ok k =>
      rw [h1] at h
      simp at h
      subst h
      exact .int (pyIndex_ok_iff.mp h1)
  | seq l => exact .seq (pySeq_ok_iff.mp h)
  | slice a b s =>
    by_cases hs : s.getD 1 = 0
    · simp [arangeIdx, pySlice, hs] at h
    · rw [arangeIdx, pySlice_ok hs] at h
      simp at h
      subst h
      exact .slice hs

theorem Spec.Selects.lt {n : ℕ} {e : Idx} {ks : List ℕ} (h : Selects n e ks) : ∀ k ∈ ks, k < n := by
  cases h with
  | int h => intro k hk; simp at hk; subst hk; exact h.1
  | seq h =>
    induction h with
    | nil => simp
    | cons h1 _ ih =>
      intro k hk
      rcases List.mem_cons.mp hk with rfl | hk
      · exact h1.1
      · exact ih k hk
  | slice h =>
    intro k hk
    unfold sliceSpec at hk
    split_ifs at hk <;> simp at hk <;> exact hk.1

theorem sliceSpec_full (n : ℕ) : sliceSpec n none none 1 = List.range n := by
  simp [sliceSpec, List.filter_eq_self]

end Harold
