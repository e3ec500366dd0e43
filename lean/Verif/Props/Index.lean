import Verif.Model.AuxLinalg
import Verif.Lemmas.Index

/-!
# C08: `e_i`
-/

namespace Harold

open Matrix Spec

variable {K : Type} [Zero K] [One K]

private theorem fold_col (l : List ℕ) (start r c : ℕ) (M : Matrix (Fin r) (Fin c) K) :
    (l.zipIdx start).foldl (fun E xi => Arr.set E xi.1 xi.2 1) (Arr.of M)
      = Arr.of (Matrix.of fun (i : Fin r) (j : Fin c) =>
          if start ≤ j ∧ l[(j : ℕ) - start]? = some (i : ℕ) then 1 else M i j) := by
  induction l generalizing start M with
  | nil => simp; rfl
  | cons x l ih =>
    rw [List.zipIdx_cons, List.foldl_cons]
    show List.foldl _ (Arr.of (Matrix.of fun (a : Fin r) (b : Fin c) => _)) _ = _
    rw [ih]
    congr 1
    ext i j
    simp only [Matrix.of_apply]
    by_cases h1 : start + 1 ≤ (j : ℕ)
    · have h2 : (j : ℕ) - start = ((j : ℕ) - (start + 1)) + 1 := by omega
      have h3 : (j : ℕ) ≠ start := by omega
      have h4 : start ≤ (j : ℕ) := by omega
      rw [h2, List.getElem?_cons_succ]
      simp [h1, h3, h4]
    · by_cases h2 : (j : ℕ) = start
      · simp [h2, eq_comm]
      · have h3 : ¬ start ≤ (j : ℕ) := by omega
        simp [h1, h2, h3]

private theorem fold_row (l : List ℕ) (start r c : ℕ) (M : Matrix (Fin r) (Fin c) K) :
    (l.zipIdx start).foldl (fun E xi => Arr.set E xi.2 xi.1 1) (Arr.of M)
      = Arr.of (Matrix.of fun (i : Fin r) (j : Fin c) =>
          if start ≤ i ∧ l[(i : ℕ) - start]? = some (j : ℕ) then 1 else M i j) := by
  induction l generalizing start M with
  | nil => simp; rfl
  | cons x l ih =>
    rw [List.zipIdx_cons, List.foldl_cons]
    show List.foldl _ (Arr.of (Matrix.of fun (a : Fin r) (b : Fin c) => _)) _ = _
    rw [ih]
    congr 1
    ext i j
    simp only [Matrix.of_apply]
    by_cases h1 : start + 1 ≤ (i : ℕ)
    · have h2 : (i : ℕ) - start = ((i : ℕ) - (start + 1)) + 1 := by omega
      have h3 : (i : ℕ) ≠ start := by omega
      have h4 : start ≤ (i : ℕ) := by omega
      rw [h2, List.getElem?_cons_succ]
      simp [h1, h3, h4]
    · by_cases h2 : (i : ℕ) = start
      · simp [h2, eq_comm]
      · have h3 : ¬ start ≤ (i : ℕ) := by omega
        simp [h1, h2, h3]

/-- **C08**. If the index expression `nth` (an integer, a sequence of integers with repetitions, or
a slice) selects the positions `ks` of an axis of length `width`, then `e_i(width, nth)` is the
matrix whose `j`-th column is column `ks[j]` of the identity matrix. -/
theorem C08_e_i_columns {width : ℕ} {nth : Idx} {ks : List ℕ} (h : Selects width nth ks) :
    eI (K := K) width nth true
      = .ok (Arr.of (Matrix.of fun (i : Fin width) (j : Fin ks.length) =>
          (1 : Matrix (Fin width) (Fin width) K) i ⟨ks[j], h.lt _ (ks.getElem_mem _)⟩)) := by
  simp only [eI, arangeIdx_ok h, bind, Except.bind, if_true]
  congr 1
  refine (fold_col ks 0 width ks.length 0).trans ?_
  congr 1
  ext i j
  simp [Matrix.one_apply, Fin.ext_iff, eq_comm]

/-- **C08**, rows: with `output='r'` the `i`-th row is row `ks[i]` of the identity matrix. -/
theorem C08_e_i_rows {width : ℕ} {nth : Idx} {ks : List ℕ} (h : Selects width nth ks) :
    eI (K := K) width nth false
      = .ok (Arr.of (Matrix.of fun (i : Fin ks.length) (j : Fin width) =>
          (1 : Matrix (Fin width) (Fin width) K) ⟨ks[i], h.lt _ (ks.getElem_mem _)⟩ j)) := by
  simp only [eI, arangeIdx_ok h, bind, Except.bind, Bool.false_eq_true, if_false]
  congr 1
  refine (fold_row ks 0 ks.length width 0).trans ?_
  congr 1
  ext i j
  simp [Matrix.one_apply, Fin.ext_iff]

/-- **C08**, errors: for integer and sequence indices `e_i` raises exactly if some index does not
name a position, and then it raises `IndexError`. -/
theorem C08_e_i_error {width : ℕ} {l : List ℤ} {isCol : Bool} :
    (eI (K := K) width (.seq l) isCol = .error .index ↔
      ∃ i ∈ l, ∀ k, ¬ Resolves width i k) ∧
    (∀ i, eI (K := K) width (.int i) isCol = .error .index ↔ ∀ k, ¬ Resolves width i k) ∧
    (∀ e, eI (K := K) width (.seq l) isCol = .error e → e = .index) := by
  have key : ∀ l : List ℤ, (∃ ks, pySeq width l = .ok ks) ∨
      (pySeq width l = .error .index ∧ ∃ i ∈ l, ∀ k, ¬ Resolves width i k) := by
    intro l
    induction l with
    | nil => exact Or.inl ⟨[], rfl⟩
    | cons i l ih =>
      cases h : pyIndex width i with
      | error e =>
        obtain ⟨rfl, h2⟩ := pyIndex_error h
        exact Or.inr ⟨by simp [pySeq, h, bind, Except.bind], i, by simp, h2⟩
      | ok k =>
        rcases ih with ⟨ks, hk⟩ | ⟨h1, j, hj, h2⟩
        · exact Or.inl ⟨k :: ks, by simp [pySeq, h, hk, bind, Except.bind]⟩
        · exact Or.inr ⟨by simp [pySeq, h, h1, bind, Except.bind], j, by simp [hj], h2⟩
  refine ⟨?_, ?_, ?_⟩
  · rcases key l with ⟨ks, hk⟩ | ⟨h1, hj⟩
    · simp only [eI, arangeIdx, hk, bind, Except.bind, reduceCtorEq, false_iff]
      rintro ⟨i, hi, hn⟩
      have hF := pySeq_ok_iff.mp hk
      obtain ⟨n, hn', rfl⟩ := List.mem_iff_getElem.mp hi
      have := List.forall₂_iff_get.mp hF
      exact hn _ (this.2 n hn' (by rw [← this.1]; exact hn'))
    · simp [eI, arangeIdx, h1, bind, Except.bind, hj]
  · intro i
    cases h : pyIndex width i with
    | error e =>
      obtain ⟨rfl, h2⟩ := pyIndex_error h
      simpa [eI, arangeIdx, h, bind, Except.bind] using h2
    | ok k =>
      simp only [eI, arangeIdx, h, bind, Except.bind, reduceCtorEq, false_iff, not_forall, not_not]
      exact ⟨k, pyIndex_ok_iff.mp h⟩
  · intro e he
    rcases key l with ⟨ks, hk⟩ | ⟨h1, hj⟩
    · simp [eI, arangeIdx, hk, bind, Except.bind] at he
    · simpa [eI, arangeIdx, h1, bind, Except.bind] using he.symm

/-- `e_i(5, [0, 4, 4, 4, 1])` from the docstring meets the hypothesis. -/
example : Selects 5 (.seq [0, 4, -1, 4, 1]) [0, 4, 4, 4, 1] :=
  .seq (by simp [Resolves])

/-- `e_i(5, slice(1, 5, 2), output='r')` from the docstring. -/
example : Selects 5 (.slice (some 1) (some 5) (some 2)) [1, 3] := by
  have := Selects.slice (n := 5) (start := some 1) (stop := some 5) (step := some 2) (by decide)
  simpa [sliceSpec, fromEnd, List.range_succ, List.filter] using this

/-- An out of range index exists. -/
example : ∀ k, ¬ Resolves 5 (-6) k := by
  rintro k ⟨h1, h2 | h2⟩ <;> omega

end Harold
