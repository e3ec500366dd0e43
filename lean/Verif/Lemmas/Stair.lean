import Verif.Spec.Stair
import Verif.Lemmas.Svd
import Verif.Lemmas.Hess
import Verif.Lemmas.TransferMk
import Mathlib.Data.List.GetD
import Mathlib.Algebra.BigOperators.Fin
import Mathlib.Algebra.Order.BigOperators.Ring.Finset

/-!
# One sweep of `staircase`
-/

namespace Harold

open Matrix Spec

section frob
variable {K : Type} [Field K] [LinearOrder K] {n m p : ℕ}

omit [LinearOrder K] in
theorem colSq_mul {Q : Matrix (Fin n) (Fin n) K} (hQ : Qᵀ * Q = 1) (M : Matrix (Fin n) (Fin m) K) (j : Fin m) :
    ∑ i, (Q * M) i j ^ 2 = ∑ i, M i j ^ 2 := by
  have e : ∀ N : Matrix (Fin n) (Fin m) K, ∑ i, N i j ^ 2 = (Nᵀ * N) j j := by
    intro N
    rw [Matrix.mul_apply]
    exact Finset.sum_congr rfl fun i _ => by rw [transpose_apply, sq]
  rw [e, e, transpose_mul, Matrix.mul_assoc, ← Matrix.mul_assoc Qᵀ, hQ, Matrix.one_mul]

theorem frobSq_cols (M : Matrix (Fin n) (Fin m) K) : frobSq M = ∑ j, ∑ i, M i j ^ 2 := Finset.sum_comm

theorem frobSq_transpose (M : Matrix (Fin n) (Fin m) K) : frobSq Mᵀ = frobSq M := by
  unfold frobSq
  rw [Finset.sum_comm]
  rfl

theorem frobSq_mul_left {Q : Matrix (Fin n) (Fin n) K} (hQ : Qᵀ * Q = 1) (M : Matrix (Fin n) (Fin m) K) : frobSq (Q * M) = frobSq M := by
  rw [frobSq_cols, frobSq_cols]
  exact Finset.sum_congr rfl fun j _ => colSq_mul hQ M j

theorem frobSq_mul_right {Q : Matrix (Fin m) (Fin m) K} (hQ : Q * Qᵀ = 1) (M : Matrix (Fin n) (Fin m) K) : frobSq (M * Q) = frobSq M := by
  rw [← frobSq_transpose, transpose_mul, frobSq_mul_left (by rwa [transpose_transpose]), frobSq_transpose]

/-- Matrices with different nonzero columns. -/
theorem frobSq_add_disjoint {M N : Matrix (Fin n) (Fin m) K} (h : ∀ j, (∀ i, M i j = 0) ∨ (∀ i, N i j = 0)) : frobSq (M + N) = frobSq M + frobSq N := by
  rw [frobSq_cols, frobSq_cols, frobSq_cols, ← Finset.sum_add_distrib]
  refine Finset.sum_congr rfl fun j _ => ?_
  rw [← Finset.sum_add_distrib]
  refine Finset.sum_congr rfl fun i _ => ?_
  rcases h j with h | h
  · rw [Matrix.add_apply, h i]; ring
  · rw [Matrix.add_apply, h i]; ring

@[simp] theorem frobSq_zero : frobSq (0 : Matrix (Fin n) (Fin m) K) = 0 := by simp [frobSq]

variable [IsStrictOrderedRing K]

theorem frobSq_nonneg (M : Matrix (Fin n) (Fin m) K) : 0 ≤ frobSq M :=
  Finset.sum_nonneg fun _ _ => Finset.sum_nonneg fun _ _ => sq_nonneg _

theorem frobSq_eq_zero {M : Matrix (Fin n) (Fin m) K} (h : frobSq M ≤ 0) : M = 0 := by
  have h0 := le_antisymm h (frobSq_nonneg M)
  unfold frobSq at h0
  have h1 := (Finset.sum_eq_zero_iff_of_nonneg fun _ _ => Finset.sum_nonneg fun _ _ => sq_nonneg _).mp h0
  ext i j
  have h2 := (Finset.sum_eq_zero_iff_of_nonneg fun _ _ => sq_nonneg _).mp (h1 i (Finset.mem_univ _))
  simpa using h2 j (Finset.mem_univ _)

end frob

section list
variable {K : Type} [LinearOrder K]

/-- In a descending list the entries behind the ones above `tol` are not above `tol`. -/
theorem desc_getD_le [Zero K] {s : List K} {tol : K} (hs : s.Pairwise (· ≥ ·)) : ∀ {i : ℕ}, countAbove tol s ≤ i → i < s.length → s.getD i 0 ≤ tol := by
  induction s with
  | nil => intro i _ h; simp at h
  | cons a l ih =>
    intro i h1 h2
    rw [List.pairwise_cons] at hs
    by_cases ha : tol < a
    · have : countAbove tol (a :: l) = countAbove tol l + 1 := by simp [countAbove, ha]
      obtain ⟨i, rfl⟩ : ∃ k, i = k + 1 := ⟨i - 1, by omega⟩
      rw [List.getD_cons_succ]
      exact ih hs.2 (by omega) (by simpa using h2)
    · rcases i with _ | i
      · simpa using ha
      · rw [List.getD_cons_succ, List.getD_eq_getElem _ _ (by simpa using h2)]
        exact (hs.1 _ (List.getElem_mem _)).trans (not_lt.mp ha)

end list

section svd
variable {K : Type} [Field K] [LinearOrder K] [IsStrictOrderedRing K] {p m : ℕ}

theorem zeroFrom_diag (p m : ℕ) (s : List K) (r : ℕ) : (Arr.of (diagRect p m s)).zeroFrom r = Arr.of (diagRect p m (s.take r)) := by
  refine Arr.of_inj.mpr ?_
  ext i j
  simp only [Matrix.of_apply, diagRect, Arr.of_m]
  by_cases hij : (i : ℕ) = j
  · rw [if_pos hij, if_pos hij]
    by_cases hr : r ≤ (i : ℕ)
    · rw [if_pos ⟨hr, hij ▸ hr⟩, List.getD_eq_default _ _ (by rw [List.length_take]; omega)]
    · rw [if_neg (fun h => hr h.1)]
      rw [List.getD_eq_getElem?_getD, List.getD_eq_getElem?_getD, List.getElem?_take, if_pos (by omega)]
  · rw [if_neg hij, if_neg hij, ite_self]

/-- Dropping the singular values that are not above `tol`. -/
theorem frobSq_drop {M : Matrix (Fin p) (Fin m) K} {U : Matrix (Fin p) (Fin p) K} {s : List K} {V : Matrix (Fin m) (Fin m) K} (h : IsSvd M U s V) {tol : K}
    (ht : 0 ≤ tol) : frobSq (diagRect p m (s.take (countAbove tol s)) * V - Uᵀ * M) ≤ ((min p m : ℕ) : K) * tol ^ 2 := by
  have e : diagRect p m (s.take (countAbove tol s)) * V - Uᵀ * M = (diagRect p m (s.take (countAbove tol s)) - diagRect p m s) * V := by
    rw [Matrix.sub_mul]
    congr 1
    conv_lhs => rw [h.eq]
    rw [Matrix.mul_assoc, ← Matrix.mul_assoc Uᵀ, h.u_orth, Matrix.one_mul]
  rw [e, frobSq_mul_right h.v_orth]
  have hent : ∀ (i : Fin p) (j : Fin m), (diagRect p m (s.take (countAbove tol s)) - diagRect p m s) i j ^ 2 ≤ if (i : ℕ) = j then tol ^ 2 else 0 := by
    intro i j
    simp only [Matrix.sub_apply, diagRect, Matrix.of_apply]
    by_cases hij : (i : ℕ) = j
    · simp only [if_pos hij]
      by_cases hi : (i : ℕ) < countAbove tol s
      · rw [List.getD_eq_getElem?_getD, List.getD_eq_getElem?_getD, List.getElem?_take, if_pos hi, sub_self]
        simpa using sq_nonneg tol
      · rw [List.getD_eq_default _ _ (by rw [List.length_take]; omega), zero_sub, neg_sq]
        have hl : (i : ℕ) < s.length := by rw [h.len]; omega
        have h1 := desc_getD_le h.desc (not_lt.mp hi) hl
        have h2 : 0 ≤ s.getD i 0 := by
          rw [List.getD_eq_getElem _ _ hl]
          exact h.nonneg _ (List.getElem_mem _)
        exact pow_le_pow_left₀ h2 h1 2
    · simp [if_neg hij]
  have hrow : ∀ i : Fin p, ∑ j : Fin m, (if (i : ℕ) = j then tol ^ 2 else 0) = if (i : ℕ) < m then tol ^ 2 else 0 := by
    intro i
    by_cases hi : (i : ℕ) < m
    · rw [if_pos hi, Finset.sum_eq_single ⟨i, hi⟩]
      · simp
      · intro b _ hb
        rw [if_neg (fun h => hb (Fin.ext h.symm))]
      · simp
    · rw [if_neg hi]
      exact Finset.sum_eq_zero fun j _ => if_neg (by have := j.2; omega)
  calc frobSq (diagRect p m (s.take (countAbove tol s)) - diagRect p m s)
      ≤ ∑ i : Fin p, ∑ j : Fin m, (if (i : ℕ) = j then tol ^ 2 else 0) := Finset.sum_le_sum fun i _ => Finset.sum_le_sum fun j _ => hent i j
    _ = ∑ i : Fin p, (if (i : ℕ) < m then tol ^ 2 else 0) := Finset.sum_congr rfl fun i _ => hrow i
    _ = ((min p m : ℕ) : K) * tol ^ 2 := by
      rw [Finset.sum_ite, Finset.sum_const_zero, add_zero, Finset.sum_const, nsmul_eq_mul]
      congr 2
      rw [Fin.card_filter_val_lt]

end svd

theorem exists_shift {n k : ℕ} {i : Fin n} (h : ¬ (i : ℕ) < k) : ∃ t : Fin (n - k), i = ⟨k + t, Nat.add_lt_of_lt_sub' t.2⟩ :=
  ⟨⟨i - k, by omega⟩, by ext; simp; omega⟩

section emb
variable {K : Type} [Field K] [LinearOrder K] {n m p q : ℕ}

/-- `block_diag(eye(k), U)`. -/
def emb (k : ℕ) {n : ℕ} (U : Matrix (Fin (n - k)) (Fin (n - k)) K) : Matrix (Fin n) (Fin n) K :=
  Matrix.of fun i j => if h : k ≤ (i : ℕ) ∧ k ≤ (j : ℕ) then U ⟨i - k, by omega⟩ ⟨j - k, by omega⟩ else if i = j then 1 else 0

omit [LinearOrder K] in
theorem sum_split {k : ℕ} (hk : k ≤ n) (f : Fin n → K) :
    ∑ t, f t = ∑ t : Fin k, f ⟨t, by omega⟩ + ∑ t : Fin (n - k), f ⟨k + t, by omega⟩ := by
  obtain ⟨r, rfl⟩ := Nat.exists_eq_add_of_le hk
  rw [Fin.sum_univ_add]
  congr 1
  exact Fintype.sum_equiv (finCongr (by omega)) _ _ fun t => rfl

omit [LinearOrder K] in
theorem emb_lt {k : ℕ} (U : Matrix (Fin (n - k)) (Fin (n - k)) K) {i j : Fin n} (h : (i : ℕ) < k ∨ (j : ℕ) < k) : emb k U i j = if i = j then 1 else 0 := by
  unfold emb
  rw [Matrix.of_apply, dif_neg (by omega)]

omit [LinearOrder K] in
theorem emb_ge {k : ℕ} (U : Matrix (Fin (n - k)) (Fin (n - k)) K) (i j : Fin (n - k)) : emb k U ⟨k + i, by omega⟩ ⟨k + j, by omega⟩ = U i j := by
  unfold emb
  rw [Matrix.of_apply, dif_pos (by simp)]
  congr 1 <;> ext <;> simp

omit [LinearOrder K] in
theorem emb_transpose {k : ℕ} (U : Matrix (Fin (n - k)) (Fin (n - k)) K) : (emb k U)ᵀ = emb k Uᵀ := by
  ext i j
  unfold emb
  rw [transpose_apply, Matrix.of_apply, Matrix.of_apply]
  by_cases h : k ≤ (i : ℕ) ∧ k ≤ (j : ℕ)
  · rw [dif_pos h.symm, dif_pos h]; rfl
  · rw [dif_neg (fun h' => h h'.symm), dif_neg h]
    simp [eq_comm]

omit [LinearOrder K] in
/-- Columns of a product with `emb`. -/
theorem mul_emb_lt {k : ℕ} (X : Matrix (Fin m) (Fin n) K) (U : Matrix (Fin (n - k)) (Fin (n - k)) K) (i : Fin m) {j : Fin n}
    (h : (j : ℕ) < k) : (X * emb k U) i j = X i j := by
  rw [Matrix.mul_apply, Finset.sum_eq_single j]
  · rw [emb_lt U (Or.inl h), if_pos rfl, mul_one]
  · intro t _ ht
    rw [emb_lt U (Or.inr h), if_neg ht, mul_zero]
  · simp

omit [LinearOrder K] in
theorem mul_emb_ge {k : ℕ} (hk : k ≤ n) (X : Matrix (Fin m) (Fin n) K) (U : Matrix (Fin (n - k)) (Fin (n - k)) K) (i : Fin m) (j : Fin (n - k)) :
    (X * emb k U) i ⟨k + j, by omega⟩ = ∑ t : Fin (n - k), X i ⟨k + t, by omega⟩ * U t j := by
  rw [Matrix.mul_apply, sum_split hk, Finset.sum_eq_zero, zero_add]
  · exact Finset.sum_congr rfl fun t _ => by rw [emb_ge]
  · intro t _
    rw [emb_lt U (Or.inl (by simp)), if_neg (by intro h; have := congrArg Fin.val h; simp at this; omega), mul_zero]

omit [LinearOrder K] in
theorem emb_mul_lt {k : ℕ} (X : Matrix (Fin n) (Fin m) K) (U : Matrix (Fin (n - k)) (Fin (n - k)) K) {i : Fin n} (j : Fin m)
    (h : (i : ℕ) < k) : (emb k U * X) i j = X i j := by
  rw [Matrix.mul_apply, Finset.sum_eq_single i]
  · rw [emb_lt U (Or.inl h), if_pos rfl, one_mul]
  · intro t _ ht
    rw [emb_lt U (Or.inl h), if_neg (Ne.symm ht), zero_mul]
  · simp

omit [LinearOrder K] in
theorem emb_mul_ge {k : ℕ} (hk : k ≤ n) (X : Matrix (Fin n) (Fin m) K) (U : Matrix (Fin (n - k)) (Fin (n - k)) K) (i : Fin (n - k)) (j : Fin m) :
    (emb k U * X) ⟨k + i, by omega⟩ j = ∑ t : Fin (n - k), U i t * X ⟨k + t, by omega⟩ j := by
  rw [Matrix.mul_apply, sum_split hk, Finset.sum_eq_zero, zero_add]
  · exact Finset.sum_congr rfl fun t _ => by rw [emb_ge]
  · intro t _
    rw [emb_lt U (Or.inr (by simp)), if_neg (by intro h; have := congrArg Fin.val h; simp at this; omega), zero_mul]

omit [LinearOrder K] in
theorem emb_orth {k : ℕ} (hk : k ≤ n) {U : Matrix (Fin (n - k)) (Fin (n - k)) K} (hU : Uᵀ * U = 1) : (emb k U)ᵀ * emb k U = 1 := by
  rw [emb_transpose]
  ext i j
  by_cases hi : (i : ℕ) < k
  · rw [emb_mul_lt _ _ _ hi, emb_lt _ (Or.inl hi), Matrix.one_apply]
  · obtain ⟨i, rfl⟩ := exists_shift hi
    rw [emb_mul_ge hk]
    by_cases hj : (j : ℕ) < k
    · rw [Matrix.one_apply_ne (by intro h; have := congrArg Fin.val h; simp at this; omega)]
      refine Finset.sum_eq_zero fun t _ => ?_
      rw [emb_lt _ (Or.inr hj), if_neg (by intro h; have := congrArg Fin.val h; simp at this; omega), mul_zero]
    · obtain ⟨j, rfl⟩ := exists_shift hj
      have := congrFun (congrFun hU i) j
      rw [Matrix.mul_apply] at this
      simp only [emb_ge, this, Matrix.one_apply, Fin.ext_iff, Nat.add_left_cancel_iff]

omit [Field K] [LinearOrder K] in
theorem slice_rows (X : Matrix (Fin n) (Fin m) K) (k : ℕ) :
    (Arr.of X).slice k n 0 m = Arr.of (Matrix.of fun (i : Fin (n - k)) (j : Fin m) => X ⟨k + i, Nat.add_lt_of_lt_sub' i.2⟩ j) := by
  refine Arr.ext_cast (by simp [Arr.slice]) (by simp [Arr.slice]) fun i j => ?_
  simp [Arr.slice]
  rfl

omit [Field K] [LinearOrder K] in
theorem slice_cols (X : Matrix (Fin m) (Fin n) K) (k : ℕ) :
    (Arr.of X).slice 0 m k n = Arr.of (Matrix.of fun (i : Fin m) (j : Fin (n - k)) => X i ⟨k + j, Nat.add_lt_of_lt_sub' j.2⟩) := by
  refine Arr.ext_cast (by simp [Arr.slice]) (by simp [Arr.slice]) fun i j => ?_
  simp [Arr.slice]
  rfl

omit [Field K] [LinearOrder K] in
theorem slice_corner (X : Matrix (Fin n) (Fin m) K) (k l : ℕ) :
    (Arr.of X).slice k n l m = Arr.of (Matrix.of fun (i : Fin (n - k)) (j : Fin (m - l)) =>
      X ⟨k + i, Nat.add_lt_of_lt_sub' i.2⟩ ⟨l + j, Nat.add_lt_of_lt_sub' j.2⟩) := by
  refine Arr.ext_cast (by simp [Arr.slice]) (by simp [Arr.slice]) fun i j => ?_
  simp [Arr.slice]
  rfl

/-- `x[k:, :] = u.T @ x[k:, :]`. -/
theorem rows_update {k : ℕ} (hk : k ≤ n) (X : Matrix (Fin n) (Fin m) K) (U : Matrix (Fin (n - k)) (Fin (n - k)) K) :
    (do let x ← (Arr.of U).T.matmul ((Arr.of X).slice k n 0 m)
        (Arr.of X).setBlock k n 0 m x) = .ok (Arr.of (emb k Uᵀ * X)) := by
  rw [slice_rows, Arr.T_of, Arr.matmul_of]
  simp only [bind, Except.bind]
  unfold Arr.setBlock
  rw [dif_pos (by simp [hk])]
  congr 1
  refine Arr.of_inj.mpr ?_
  ext i j
  by_cases hi : (i : ℕ) < k
  · rw [emb_mul_lt _ _ _ hi, Matrix.of_apply, dif_neg (by omega)]
  · obtain ⟨i, rfl⟩ := exists_shift hi
    rw [emb_mul_ge hk, Matrix.of_apply, dif_pos ⟨⟨by simp, Nat.add_lt_of_lt_sub' i.2⟩, by simp⟩, Arr.of_m, Matrix.mul_apply]
    refine Finset.sum_congr rfl fun t _ => ?_
    simp

/-- `x[:, k:] = x[:, k:] @ u`. -/
theorem cols_update {k : ℕ} (hk : k ≤ n) (X : Matrix (Fin m) (Fin n) K) (U : Matrix (Fin (n - k)) (Fin (n - k)) K) :
    (do let x ← ((Arr.of X).slice 0 m k n).matmul (Arr.of U)
        (Arr.of X).setBlock 0 m k n x) = .ok (Arr.of (X * emb k U)) := by
  rw [slice_cols, Arr.matmul_of]
  simp only [bind, Except.bind]
  unfold Arr.setBlock
  rw [dif_pos (by simp [hk])]
  congr 1
  refine Arr.of_inj.mpr ?_
  ext i j
  by_cases hj : (j : ℕ) < k
  · rw [mul_emb_lt _ _ _ hj, Matrix.of_apply, dif_neg (by omega)]
  · obtain ⟨j, rfl⟩ := exists_shift hj
    rw [mul_emb_ge hk, Matrix.of_apply, dif_pos ⟨by simp, ⟨by simp, Nat.add_lt_of_lt_sub' j.2⟩⟩, Arr.of_m, Matrix.mul_apply]
    refine Finset.sum_congr rfl fun t _ => ?_
    simp

/-- The new block below the diagonal. -/
def withBlock (X : Matrix (Fin n) (Fin n) K) (j k s : ℕ) (hs : j + s = k) (Y : Matrix (Fin (n - k)) (Fin s) K) : Matrix (Fin n) (Fin n) K :=
  Matrix.of fun i c => if h : k ≤ (i : ℕ) ∧ j ≤ (c : ℕ) ∧ (c : ℕ) < k then Y ⟨i - k, by omega⟩ ⟨c - j, by omega⟩ else X i c

theorem stairUpdate_of {j k s : ℕ} (hs : j + s = k) (hk : k < n) (A : Matrix (Fin n) (Fin n) K) (C : Matrix (Fin p) (Fin n) K) (T : Matrix (Fin n) (Fin n) K)
    (U : Matrix (Fin (n - k)) (Fin (n - k)) K) (Y : Matrix (Fin (n - k)) (Fin s) K) (h0 : ∀ i c : Fin n, k ≤ (i : ℕ) → (c : ℕ) < j → A i c = 0) :
    stairUpdate (Arr.of A) (Arr.of C) (Arr.of T) j k (Arr.of U) (Arr.of Y) =
      .ok (Arr.of (withBlock ((emb k U)ᵀ * A * emb k U) j k s hs Y), Arr.of (C * emb k U), Arr.of ((emb k U)ᵀ * T)) := by
  have hnk : n - (n - k) = k := by omega
  have e1 := rows_update hk.le T U
  have e2 := cols_update hk.le A U
  have e3 := cols_update hk.le C U
  obtain ⟨x1, e1, e1'⟩ := bind_ok' e1
  obtain ⟨x2, e2, e2'⟩ := bind_ok' e2
  obtain ⟨x3, e3, e3'⟩ := bind_ok' e3
  have e4 : (Arr.of (A * emb k U)).setBlock k n j k (Arr.of Y) = .ok (Arr.of (withBlock (A * emb k U) j k s hs Y)) := by
    unfold Arr.setBlock
    rw [dif_pos ⟨hk.le, le_refl _, by omega, hk.le, rfl, by simp; omega⟩]
    congr 1
    refine Arr.of_inj.mpr ?_
    ext i c
    unfold withBlock
    rw [Matrix.of_apply, Matrix.of_apply]
    by_cases h : k ≤ (i : ℕ) ∧ j ≤ (c : ℕ) ∧ (c : ℕ) < k
    · rw [dif_pos h, dif_pos ⟨⟨h.1, i.2⟩, h.2⟩]
    · rw [dif_neg h, dif_neg (fun h' => h ⟨h'.1.1, h'.2⟩)]
  have e5 : ∃ x, (Arr.of U).T.matmul ((Arr.of (withBlock (A * emb k U) j k s hs Y)).slice k n k n) = .ok x ∧
      (Arr.of (withBlock (A * emb k U) j k s hs Y)).setBlock k n k n x = .ok (Arr.of (withBlock ((emb k U)ᵀ * A * emb k U) j k s hs Y)) := by
    rw [slice_corner, Arr.T_of, Arr.matmul_of]
    refine ⟨_, rfl, ?_⟩
    unfold Arr.setBlock
    rw [dif_pos ⟨hk.le, le_refl _, hk.le, le_refl _, rfl, rfl⟩]
    congr 1
    refine Arr.of_inj.mpr ?_
    ext i c
    rw [Matrix.of_apply]
    by_cases h : (k ≤ (i : ℕ) ∧ (i : ℕ) < n) ∧ (k ≤ (c : ℕ) ∧ (c : ℕ) < n)
    · rw [dif_pos h]
      obtain ⟨i, rfl⟩ := exists_shift (not_lt.mpr h.1.1)
      obtain ⟨c, rfl⟩ := exists_shift (not_lt.mpr h.2.1)
      unfold withBlock
      rw [Matrix.of_apply, dif_neg (by simp), Matrix.mul_assoc, emb_transpose, emb_mul_ge hk.le, Arr.of_m, Matrix.mul_apply]
      refine Finset.sum_congr rfl fun t _ => ?_
      simp
    · rw [dif_neg h]
      unfold withBlock
      simp only [Arr.of_m, Matrix.of_apply]
      by_cases h' : k ≤ (i : ℕ) ∧ j ≤ (c : ℕ) ∧ (c : ℕ) < k
      · rw [dif_pos h', dif_pos h']
      · rw [dif_neg h', dif_neg h', Matrix.mul_assoc, emb_transpose]
        by_cases hi : (i : ℕ) < k
        · rw [emb_mul_lt _ _ _ hi]
        · have hc : (c : ℕ) < j := by have := i.2; have := c.2; simp only [Arr.of_r, Arr.of_c] at *; omega
          obtain ⟨i, rfl⟩ := exists_shift hi
          rw [emb_mul_ge hk.le, mul_emb_lt _ _ _ (by omega), h0 _ _ (by simp) hc]
          symm
          refine Finset.sum_eq_zero fun t _ => ?_
          rw [mul_emb_lt _ _ _ (by omega), h0 _ _ (by simp) hc, mul_zero]
  obtain ⟨x5, e5, e5'⟩ := e5
  unfold stairUpdate
  simp only [Arr.of_r, Arr.of_c, hnk, e1, e1', e2, e2', e3, e3', e4, e5, e5', bind, Except.bind, emb_transpose]

end emb

end Harold
