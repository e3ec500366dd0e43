import Verif.Lemmas.StairLoop
import Verif.Lemmas.SvdExists
import Verif.Lemmas.StateOps

/-!
# C50: `staircase`
-/

namespace Harold

open Matrix Spec

variable {K : Type} [Field K] [LinearOrder K] {n m p : ℕ}

theorem frobSq_rev {r c : ℕ} (M : Matrix (Fin r) (Fin c) K) : frobSq (M.submatrix Fin.rev id) = frobSq M := by
  unfold frobSq
  exact Fintype.sum_equiv Fin.revPerm _ _ fun i => rfl

theorem frobSq_rev' {r c : ℕ} (M : Matrix (Fin r) (Fin c) K) : frobSq (M.submatrix id Fin.rev) = frobSq M := by
  rw [← frobSq_transpose, ← frobSq_transpose M, ← frobSq_rev Mᵀ]
  rfl

theorem frobSq_rev2 {r c : ℕ} (M : Matrix (Fin r) (Fin c) K) : frobSq (M.submatrix Fin.rev Fin.rev) = frobSq M := by
  rw [← frobSq_rev M, ← frobSq_rev' (M.submatrix Fin.rev id)]
  rfl

section
variable {A : Matrix (Fin n) (Fin n) K} {B : Matrix (Fin n) (Fin m) K} {C : Matrix (Fin p) (Fin n) K} {ea eb ec : K}
  {Ah : Matrix (Fin n) (Fin n) K} {Bh : Matrix (Fin n) (Fin m) K} {Ch : Matrix (Fin p) (Fin n) K} {T : Matrix (Fin n) (Fin n) K}

/-- Reversing the order of the new coordinates. -/
theorem _root_.Harold.Spec.Coordinates.rev (h : Coordinates A B C ea eb ec Ah Bh Ch T) :
    Coordinates A B C ea eb ec (Ah.submatrix Fin.rev Fin.rev) (Bh.submatrix Fin.rev id) (Ch.submatrix id Fin.rev) (T.submatrix id Fin.rev) where
  orth := by
    have : (T.submatrix id Fin.rev)ᵀ * T.submatrix id Fin.rev = (Tᵀ * T).submatrix Fin.rev Fin.rev := rfl
    rw [this, h.orth, submatrix_one _ Fin.rev_injective]
  a := by
    have : Ah.submatrix Fin.rev Fin.rev - (T.submatrix id Fin.rev)ᵀ * A * T.submatrix id Fin.rev = (Ah - Tᵀ * A * T).submatrix Fin.rev Fin.rev := rfl
    rw [this, frobSq_rev2]
    exact h.a
  b := by
    have : Bh.submatrix Fin.rev id - (T.submatrix id Fin.rev)ᵀ * B = (Bh - Tᵀ * B).submatrix Fin.rev id := rfl
    rw [this, frobSq_rev]
    exact h.b
  c := by
    have : Ch.submatrix id Fin.rev - C * T.submatrix id Fin.rev = (Ch - C * T).submatrix id Fin.rev := rfl
    rw [this, frobSq_rev']
    exact h.c

/-- The transposed system. -/
theorem _root_.Harold.Spec.Coordinates.dual (h : Coordinates Aᵀ Cᵀ Bᵀ ea ec eb Ah Chᵀ Bhᵀ T) : Coordinates A B C ea eb ec Ahᵀ Bh Ch T where
  orth := h.orth
  a := by
    have : Ahᵀ - Tᵀ * A * T = (Ah - Tᵀ * Aᵀ * T)ᵀ := by
      simp only [transpose_sub, transpose_mul, transpose_transpose, Matrix.mul_assoc]
    rw [this, frobSq_transpose]
    exact h.a
  b := by
    have : Bh - Tᵀ * B = (Bhᵀ - Bᵀ * T)ᵀ := by simp only [transpose_sub, transpose_mul, transpose_transpose]
    rw [this, frobSq_transpose]
    exact h.c
  c := by
    have : Ch - C * T = (Chᵀ - Tᵀ * Cᵀ)ᵀ := by simp only [transpose_sub, transpose_mul, transpose_transpose]
    rw [this, frobSq_transpose]
    exact h.b

end

omit [LinearOrder K] in
theorem blk_zero (E : Matrix (Fin 0) (Fin 0) K) (X : Matrix (Fin n) (Fin m) K) : Arr.of (blk E 0 0 X) = Arr.of X := by
  refine Arr.ext_cast (Nat.zero_add n) (Nat.zero_add m) fun i j => ?_
  change blk E 0 0 X i j = X (Fin.cast (Nat.zero_add n) i) (Fin.cast (Nat.zero_add m) j)
  obtain ⟨i, rfl⟩ : ∃ i' : Fin n, i = Fin.natAdd 0 i' := ⟨Fin.cast (Nat.zero_add n) i, Fin.ext (Nat.zero_add _).symm⟩
  obtain ⟨j, rfl⟩ : ∃ j' : Fin m, j = Fin.natAdd 0 j' := ⟨Fin.cast (Nat.zero_add m) j, Fin.ext (Nat.zero_add _).symm⟩
  unfold blk
  rw [submatrix_apply, finSumFinEquiv_symm_apply_natAdd, finSumFinEquiv_symm_apply_natAdd, fromBlocks_apply₂₂]
  congr 1 <;> ext <;> simp

omit [LinearOrder K] in
theorem eye_zero_blockDiag {k : ℕ} (hk : k = 0) (X : Matrix (Fin n) (Fin m) K) : (Arr.eye k).blockDiag (Arr.of X) = Arr.of X := by
  subst hk
  exact blk_zero 1 X

variable [IsStrictOrderedRing K]

omit [IsStrictOrderedRing K] in
theorem foldr_max_mem {s : List K} (hs : s ≠ []) : s.foldr max (s.headD 0) ∈ s := by
  have key : ∀ (l : List K) (a : K), l.foldr max a = a ∨ l.foldr max a ∈ l := by
    intro l a
    induction l with
    | nil => exact Or.inl rfl
    | cons b l ih =>
      rw [List.foldr_cons]
      rcases max_choice b (l.foldr max a) with h | h
      · rw [h]; exact Or.inr (by simp)
      · rw [h]
        rcases ih with h' | h'
        · exact Or.inl h'
        · exact Or.inr (by simp [h'])
  rcases key s (s.headD 0) with h | h
  · rw [h]
    cases s with
    | nil => exact absurd rfl hs
    | cons a l => simp
  · exact h

/-- A singular value is at most the Frobenius norm. -/
theorem sq_le_frobSq {M : Matrix (Fin n) (Fin m) K} {U : Matrix (Fin n) (Fin n) K} {s : List K} {V : Matrix (Fin m) (Fin m) K} (h : IsSvd M U s V) {t : K}
    (ht : t ∈ s) : t ^ 2 ≤ frobSq M := by
  obtain ⟨i, hi, rfl⟩ := List.getElem_of_mem ht
  have hl := h.len
  have e : frobSq M = frobSq (diagRect n m s) := by
    conv_lhs => rw [h.eq]
    rw [frobSq_mul_right h.v_orth, frobSq_mul_left h.u_orth]
  rw [e]
  have e1 : diagRect n m s ⟨i, by omega⟩ ⟨i, by omega⟩ = s[i] := by
    unfold diagRect
    rw [Matrix.of_apply, if_pos rfl, List.getD_eq_getElem _ _ hi]
  have h1 : diagRect n m s ⟨i, by omega⟩ ⟨i, by omega⟩ ^ 2 ≤ ∑ j, diagRect n m s ⟨i, by omega⟩ j ^ 2 :=
    Finset.single_le_sum (f := fun j => diagRect n m s ⟨i, by omega⟩ j ^ 2) (fun _ _ => sq_nonneg _) (Finset.mem_univ _)
  have h2 : ∑ j, diagRect n m s ⟨i, by omega⟩ j ^ 2 ≤ frobSq (diagRect n m s) :=
    Finset.single_le_sum (f := fun i => ∑ j, diagRect n m s i j ^ 2) (fun _ _ => Finset.sum_nonneg fun _ _ => sq_nonneg _) (Finset.mem_univ _)
  rw [e1] at h1
  exact h1.trans h2

theorem norm1_nonneg (x : Arr K) : 0 ≤ x.norm1 := by
  unfold Arr.norm1
  have : ∀ l : List K, 0 ≤ l.foldr max 0 := by
    intro l
    induction l with
    | nil => exact le_refl _
    | cons a l ih => exact le_max_of_le_right ih
  exact this _

theorem norm1_le (A : Matrix (Fin n) (Fin n) K) : (Arr.of A).norm1 ≤ Spec.norm1 A := by
  unfold Arr.norm1 Spec.norm1
  have key : ∀ (l : List K) (b : K), 0 ≤ b → (∀ x ∈ l, x ≤ b) → l.foldr max 0 ≤ b := by
    intro l b hb h
    induction l with
    | nil => exact hb
    | cons a l ih => exact max_le (h a (by simp)) (ih fun x hx => h x (by simp [hx]))
  refine key _ _ ?_ ?_
  · exact (Finset.le_fold_max _).mpr (Or.inl (le_refl _))
  · intro x hx
    obtain ⟨j, rfl⟩ := List.mem_ofFn.mp hx
    exact (Finset.le_fold_max _).mpr (Or.inr ⟨j, Finset.mem_univ _, le_refl _⟩)

/-- What the common part of both forms computes. `b` is whether line 91 returned. -/
theorem stairCore_spec {S : SvdNum K} (hS : ∀ (a b : ℕ) (M : Matrix (Fin a) (Fin b) K), SvdOk S M) (he : 0 ≤ S.eps) (invert : Bool)
    (A : Matrix (Fin n) (Fin n) K) {B : Matrix (Fin n) (Fin m) K} (C : Matrix (Fin p) (Fin n) K) (hB : B ≠ 0) :
    ∃ Ah Bh Ch T b, stairCore S invert (Arr.of A) (Arr.of B) (Arr.of C) = .ok ((Arr.of Ah, Arr.of Bh, Arr.of Ch, Arr.of Tᵀ), b) ∧
      Coordinates A B C (stairErrA S.eps A) (stairErrB S.eps B) 0 Ah Bh Ch T ∧ (b = true → B.rank = n) ∧ (SvdExact S B → B.rank = n → b = true) := by
  obtain ⟨U, s, V, h1, h2⟩ := hS _ _ B
  have hnm : 0 < n ∧ 0 < m := by
    constructor
    · rcases Nat.eq_zero_or_pos n with rfl | h
      · exact absurd (Subsingleton.elim _ _) hB
      · exact h
    · rcases Nat.eq_zero_or_pos m with rfl | h
      · exact absurd (Subsingleton.elim _ _) hB
      · exact h
  have hs := svd_ne_nil h2 hnm.1 hnm.2
  set tol := rankTol S.eps n m s with htol
  have ht : 0 ≤ tol := rankTol_nonneg he h2.nonneg
  have htB : ((min n m : ℕ) : K) * tol ^ 2 ≤ stairErrB S.eps B := by
    unfold stairErrB
    rw [mul_assoc]
    refine mul_le_mul_of_nonneg_left ?_ (Nat.cast_nonneg _)
    rw [htol, rankTol, mul_assoc, mul_pow, mul_comm]
    exact mul_le_mul_of_nonneg_left (sq_le_frobSq h2 (foldr_max_mem hs)) (sq_nonneg _)
  set tolA := (n : K) * (Arr.of A).norm1 * S.eps with htolA
  have htA : 0 ≤ tolA := mul_nonneg (mul_nonneg (Nat.cast_nonneg _) (norm1_nonneg _)) he
  have hUU : U * Uᵀ = 1 := mul_eq_one_comm.mp h2.u_orth
  have hrk : countAbove tol s ≤ n := (countAbove_le_rank he h2).trans (B.rank_le_height)
  have inv0 : StairInv A B C tolA (stairErrB S.eps B) 0 (countAbove tol s) (Uᵀ * A * U) (diagRect n m (s.take (countAbove tol s)) * V) (C * U) Uᵀ := by
    refine ⟨by omega, by rw [transpose_transpose]; exact h2.u_orth, fun i c _ h => by omega, ?_, ?_, ?_, (frobSq_drop h2 ht).trans htB, by rw [transpose_transpose]⟩
    · intro i c hi
      rw [Matrix.mul_apply]
      refine Finset.sum_eq_zero fun t _ => ?_
      unfold diagRect
      rw [Matrix.of_apply, List.getD_eq_default _ _ (by rw [List.length_take]; omega), ite_self, zero_mul]
    · intro i c _
      rw [transpose_transpose, sub_self]
      rfl
    · rw [transpose_transpose, sub_self, frobSq_zero]
      simp
  have fin : ∀ {j' s' : ℕ} {A1 : Matrix (Fin n) (Fin n) K} {C1 : Matrix (Fin p) (Fin n) K} {T1 : Matrix (Fin n) (Fin n) K} (b : Bool),
      StairInv A B C tolA (stairErrB S.eps B) j' s' A1 (diagRect n m (s.take (countAbove tol s)) * V) C1 T1 →
      stairCore S invert (Arr.of A) (Arr.of B) (Arr.of C) = .ok (stairInvert invert (Arr.of A1, Arr.of (diagRect n m (s.take (countAbove tol s)) * V),
        Arr.of C1, Arr.of T1), b) → (b = true → B.rank = n) → (SvdExact S B → B.rank = n → b = true) →
      ∃ Ah Bh Ch T b, stairCore S invert (Arr.of A) (Arr.of B) (Arr.of C) = .ok ((Arr.of Ah, Arr.of Bh, Arr.of Ch, Arr.of Tᵀ), b) ∧
      Coordinates A B C (stairErrA S.eps A) (stairErrB S.eps B) 0 Ah Bh Ch T ∧ (b = true → B.rank = n) ∧ (SvdExact S B → B.rank = n → b = true) := by
    intro j' s' A1 C1 T1 b h3 h4 h5 h6
    have hco : Coordinates A B C (stairErrA S.eps A) (stairErrB S.eps B) 0 A1 (diagRect n m (s.take (countAbove tol s)) * V) C1 T1ᵀ := by
      refine ⟨by rw [transpose_transpose]; exact h3.orth, ?_, ?_, ?_⟩
      · rw [transpose_transpose]
        refine h3.err.trans ?_
        unfold stairErrA
        refine mul_le_mul (by exact_mod_cast le_trans (Nat.le_add_right _ _) h3.le) ?_ (sq_nonneg _) (Nat.cast_nonneg _)
        refine pow_le_pow_left₀ htA ?_ 2
        exact mul_le_mul_of_nonneg_right (mul_le_mul_of_nonneg_left (norm1_le A) (Nat.cast_nonneg _)) he
      · rw [transpose_transpose]
        exact h3.b
      · rw [h3.c, sub_self, frobSq_zero]
    cases hi : invert
    · rw [hi] at h4
      exact ⟨_, _, _, T1ᵀ, b, by rw [h4, transpose_transpose]; rfl, hco, h5, h6⟩
    · rw [hi] at h4
      exact ⟨_, _, _, _, b, h4, hco.rev, h5, h6⟩
  have hcore : stairCore S invert (Arr.of A) (Arr.of B) (Arr.of C) =
      (if n = countAbove tol s then .ok (stairInvert invert (Arr.of (Uᵀ * A * U), Arr.of (diagRect n m (s.take (countAbove tol s)) * V), Arr.of (C * U), Arr.of Uᵀ), true)
       else do
        let q ← stairLoop S tolA n 0 (countAbove tol s) (Arr.of (Uᵀ * A * U)) (Arr.of (C * U)) (Arr.of Uᵀ)
        .ok (stairInvert invert (q.1, Arr.of (diagRect n m (s.take (countAbove tol s)) * V), q.2.1, q.2.2), false)) := by
    unfold stairCore
    simp only [haroldsvd_eq h1 hs, Arr.T_of, Arr.matmul_of, zeroFrom_diag, bind, Except.bind, Arr.of_c, Arr.of_r]
    rw [eye_zero_blockDiag (by omega)]
  by_cases hn : n = countAbove tol s
  · rw [if_pos hn] at hcore
    refine fin true inv0 hcore (fun _ => le_antisymm B.rank_le_height ?_) fun _ _ => rfl
    have := countAbove_le_rank (S := S) he h2
    rw [← htol, ← hn] at this
    exact this
  · rw [if_neg hn] at hcore
    obtain ⟨j', s', A1, C1, T1, h3, h4⟩ := stairLoop_spec hS htA n inv0
    rw [h3] at hcore
    refine fin false h4 hcore (by simp) ?_
    rintro ⟨U', s', V', h5, h6, h7⟩ hr
    have e : (Arr.of U, s, Arr.of V) = (Arr.of U', s', Arr.of V') := h1.symm.trans h5
    simp only [Prod.mk.injEq] at e
    obtain ⟨-, rfl, -⟩ := e
    exact absurd (hr.symm.trans (countAbove_eq_rank he h2 h7).symm) hn

omit [IsStrictOrderedRing K] in
theorem validate_triple (A : Matrix (Fin n) (Fin n) K) (B : Matrix (Fin n) (Fin m) K) (C : Matrix (Fin p) (Fin n) K) :
    ∃ r, validateState (some (Arr.of A)) (some (Arr.of B)) (some (Arr.of C)) (some (Arr.zeros (Arr.of C).r (Arr.of B).c)) = .ok r := by
  unfold validateState
  simp [Arr.zeros]

theorem coordinates_refl (A : Matrix (Fin n) (Fin n) K) (B : Matrix (Fin n) (Fin m) K) (C : Matrix (Fin p) (Fin n) K) {ea eb ec : K} (ha : 0 ≤ ea) (hb : 0 ≤ eb)
    (hc : 0 ≤ ec) : Coordinates A B C ea eb ec A B C 1 :=
  ⟨by simp, by simpa using ha, by simpa using hb, by simpa using hc⟩

theorem stairErrA_nonneg (eps : K) (A : Matrix (Fin n) (Fin n) K) : 0 ≤ stairErrA eps A := mul_nonneg (Nat.cast_nonneg _) (sq_nonneg _)
theorem stairErrB_nonneg (eps : K) (B : Matrix (Fin n) (Fin m) K) : 0 ≤ stairErrB eps B :=
  mul_nonneg (mul_nonneg (Nat.cast_nonneg _) (sq_nonneg _)) (frobSq_nonneg _)

/-- **C50**, controller form: for all matrices, every backend that returns singular value decompositions, with and without `invert`, the result is
`(TᵀAT, TᵀB, CT)` with an orthogonal `T`, up to the singular values that fall below the rank tolerances. -/
theorem C50_controller {S : SvdNum K} (hS : ∀ (a b : ℕ) (M : Matrix (Fin a) (Fin b) K), SvdOk S M) (he : 0 ≤ S.eps) (invert : Bool)
    (A : Matrix (Fin n) (Fin n) K) (B : Matrix (Fin n) (Fin m) K) (C : Matrix (Fin p) (Fin n) K) :
    ∃ Ah Bh Ch T, staircase S "c" invert (Arr.of A) (Arr.of B) (Arr.of C) = .ok (Arr.of Ah, Arr.of Bh, Arr.of Ch, Arr.of T) ∧
      Coordinates A B C (stairErrA S.eps A) (stairErrB S.eps B) 0 Ah Bh Ch T := by
  obtain ⟨r, hr⟩ := validate_triple A B C
  unfold staircase
  rw [if_neg (by simp), hr]
  simp only [bind, Except.bind]
  rw [if_neg (by decide)]
  by_cases hB : (Arr.of B).any = false
  · rw [if_pos hB]
    exact ⟨A, B, C, 1, rfl, coordinates_refl A B C (stairErrA_nonneg _ _) (stairErrB_nonneg _ _) (le_refl _)⟩
  · rw [if_neg hB]
    have hB' : B ≠ 0 := by
      rintro rfl
      apply hB
      rw [Bool.eq_false_iff]
      intro h
      obtain ⟨i, j, h⟩ := (Arr.any_iff _).mp h
      exact h rfl
    obtain ⟨Ah, Bh, Ch, T, b, h1, h2, -, -⟩ := stairCore_spec hS he invert A C hB'
    rw [h1]
    exact ⟨Ah, Bh, Ch, T, rfl, h2⟩

/-- **C50**, observer form, for models whose output matrix does not have rank `n`. Missing: the case `rank C = n`, where the code returns the input and
output matrices in the wrong order (`C50_observer_violated`). -/
theorem C50_observer_partial {S : SvdNum K} (hS : ∀ (a b : ℕ) (M : Matrix (Fin a) (Fin b) K), SvdOk S M) (he : 0 ≤ S.eps) (invert : Bool)
    (A : Matrix (Fin n) (Fin n) K) (B : Matrix (Fin n) (Fin m) K) (C : Matrix (Fin p) (Fin n) K) (hC : C.rank < n) :
    ∃ Ah Bh Ch T, staircase S "o" invert (Arr.of A) (Arr.of B) (Arr.of C) = .ok (Arr.of Ah, Arr.of Bh, Arr.of Ch, Arr.of T) ∧
      Coordinates A B C (stairErrA S.eps Aᵀ) 0 (stairErrB S.eps Cᵀ) Ah Bh Ch T := by
  obtain ⟨r, hr⟩ := validate_triple A B C
  unfold staircase
  rw [if_neg (by simp), hr]
  simp only [bind, Except.bind]
  rw [if_pos trivial]
  by_cases hB : (Arr.of C).T.any = false
  · rw [if_pos hB]
    exact ⟨A, B, C, 1, rfl, coordinates_refl A B C (stairErrA_nonneg _ _) (le_refl _) (stairErrB_nonneg _ _)⟩
  · rw [if_neg hB]
    have hC' : Cᵀ ≠ 0 := by
      intro h0
      apply hB
      rw [Arr.T_of, h0, Bool.eq_false_iff]
      intro h
      obtain ⟨i, j, h⟩ := (Arr.any_iff _).mp h
      exact h rfl
    obtain ⟨Ah, Bh, Ch, T, b, h1, h2, h3, -⟩ := stairCore_spec hS he invert Aᵀ Bᵀ hC'
    rw [Arr.T_of, Arr.T_of, Arr.T_of, h1]
    cases b
    · refine ⟨Ahᵀ, Chᵀ, Bhᵀ, T, rfl, ?_⟩
      refine Coordinates.dual ?_
      rw [transpose_transpose, transpose_transpose]
      exact h2
    · have := h3 rfl
      rw [rank_transpose] at this
      omega

/-- **C50**, negation: if the output matrix has rank `n`, the observer form returns the transformed input and output matrices in swapped positions
(`_system_funcs.py:91` returns `(A0.T, B0.T, C0.T)`, while line 122 has `(A0.T, C0.T, B0.T)`). -/
theorem C50_observer_violated {S : SvdNum K} (hS : ∀ (a b : ℕ) (M : Matrix (Fin a) (Fin b) K), SvdOk S M) (he : 0 ≤ S.eps) (invert : Bool)
    (A : Matrix (Fin n) (Fin n) K) (B : Matrix (Fin n) (Fin m) K) (C : Matrix (Fin p) (Fin n) K) (hx : SvdExact S Cᵀ) (hC : C.rank = n) (hn : 0 < n) :
    ∃ Ah Bh Ch T, staircase S "o" invert (Arr.of A) (Arr.of B) (Arr.of C) = .ok (Arr.of Ah, Arr.of Ch, Arr.of Bh, Arr.of T) ∧
      Coordinates A B C (stairErrA S.eps Aᵀ) 0 (stairErrB S.eps Cᵀ) Ah Bh Ch T := by
  obtain ⟨r, hr⟩ := validate_triple A B C
  unfold staircase
  rw [if_neg (by simp), hr]
  simp only [bind, Except.bind]
  rw [if_pos trivial]
  have hC' : Cᵀ ≠ 0 := by
    intro h0
    rw [← rank_transpose, h0, rank_zero] at hC
    omega
  have hB : ¬ (Arr.of C).T.any = false := by
    rw [Bool.not_eq_false, Arr.any_iff]
    by_contra h
    push Not at h
    exact hC' (Matrix.ext fun i j => h i j)
  rw [if_neg hB]
  obtain ⟨Ah, Bh, Ch, T, b, h1, h2, -, h3⟩ := stairCore_spec hS he invert Aᵀ Bᵀ hC'
  obtain rfl := h3 hx (by rw [rank_transpose]; exact hC)
  rw [Arr.T_of, Arr.T_of, Arr.T_of, h1]
  refine ⟨Ahᵀ, Chᵀ, Bhᵀ, T, rfl, ?_⟩
  refine Coordinates.dual ?_
  rw [transpose_transpose, transpose_transpose]
  exact h2

/-- ... so for one state, one output and two inputs the returned input matrix is not even `1 × 2`. -/
theorem C50_observer_shape_violated {S : SvdNum ℝ} (he : 0 ≤ S.eps) (hS : ∀ {a b : ℕ} (M : Matrix (Fin a) (Fin b) ℝ), SvdExact S M) (invert : Bool) :
    ∃ r, staircase S "o" invert (Arr.of (0 : Matrix (Fin 1) (Fin 1) ℝ)) (Arr.of (!![1, 2] : Matrix (Fin 1) (Fin 2) ℝ))
      (Arr.of (1 : Matrix (Fin 1) (Fin 1) ℝ)) = .ok r ∧ r.2.1.c = 1 ∧ r.2.2.1.c = 2 := by
  obtain ⟨Ah, Bh, Ch, T, h, -⟩ := C50_observer_violated (fun a b M => let ⟨U, s, V, h1, h2, _⟩ := hS M; ⟨U, s, V, h1, h2⟩) he invert
    (0 : Matrix (Fin 1) (Fin 1) ℝ) (!![1, 2] : Matrix (Fin 1) (Fin 2) ℝ) (1 : Matrix (Fin 1) (Fin 1) ℝ) (hS _) (by rw [rank_one]; rfl) one_pos
  exact ⟨_, h, rfl, rfl⟩

/-- **C50** in exact arithmetic (`eps = 0`): the transformation is exact. -/
theorem C50_exact {A : Matrix (Fin n) (Fin n) K} {B : Matrix (Fin n) (Fin m) K} {C : Matrix (Fin p) (Fin n) K} {Ah : Matrix (Fin n) (Fin n) K}
    {Bh : Matrix (Fin n) (Fin m) K} {Ch : Matrix (Fin p) (Fin n) K} {T : Matrix (Fin n) (Fin n) K}
    (h : Coordinates A B C (stairErrA 0 A) (stairErrB 0 B) 0 Ah Bh Ch T) : Tᵀ * T = 1 ∧ Ah = Tᵀ * A * T ∧ Bh = Tᵀ * B ∧ Ch = C * T := by
  obtain ⟨h1, h2, h3, h4⟩ := h
  exact ⟨h1, sub_eq_zero.mp (frobSq_eq_zero (by simpa [stairErrA] using h2)), sub_eq_zero.mp (frobSq_eq_zero (by simpa [stairErrB] using h3)),
    sub_eq_zero.mp (frobSq_eq_zero h4)⟩

/-- **C50**: other values of `form` are rejected. -/
theorem C50_form (S : SvdNum K) (invert : Bool) (a b c : Arr K) {form : String} (h1 : form ≠ "c") (h2 : form ≠ "o") :
    staircase S form invert a b c = .error .value := by
  unfold staircase
  rw [if_pos ⟨h1, h2⟩]

/-- The contract is met over the reals. -/
example : ∃ S : SvdNum ℝ, (∀ (a b : ℕ) (M : Matrix (Fin a) (Fin b) ℝ), SvdOk S M) ∧ 0 ≤ S.eps := by
  obtain ⟨S, h1, h2⟩ := exists_svdNum
  refine ⟨S, fun a b M => ?_, h1.ge⟩
  obtain ⟨U, s, V, h3, h4, -⟩ := h2 M
  exact ⟨U, s, V, h3, h4⟩

/-- ... with exact ranks. -/
example : ∃ S : SvdNum ℝ, 0 ≤ S.eps ∧ ∀ {a b : ℕ} (M : Matrix (Fin a) (Fin b) ℝ), SvdExact S M := by
  obtain ⟨S, h1, h2⟩ := exists_svdNum
  exact ⟨S, h1.ge, h2⟩

/-- A model with `rank C < n`. -/
example : (!![1, 0] : Matrix (Fin 1) (Fin 2) ℚ).rank < 2 :=
  lt_of_le_of_lt (Matrix.rank_le_height _) one_lt_two

end Harold
