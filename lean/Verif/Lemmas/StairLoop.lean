import Verif.Lemmas.Stair

/-!
# The loop of `staircase`
-/

namespace Harold

open Matrix Spec

variable {K : Type} [Field K] [LinearOrder K] {n m p q : ℕ}

/-- The norm of a matrix with one nonzero block. -/
theorem frobSq_withBlock {j k s : ℕ} (hs : j + s = k) (hk : k < n) (Y : Matrix (Fin (n - k)) (Fin s) K) :
    frobSq (withBlock (0 : Matrix (Fin n) (Fin n) K) j k s hs Y) = frobSq Y := by
  symm
  unfold frobSq
  refine Fintype.sum_of_injective (fun i : Fin (n - k) => (⟨k + i, Nat.add_lt_of_lt_sub' i.2⟩ : Fin n)) ?_ _ _ ?_ ?_
  · intro a b h
    have := congrArg Fin.val h
    simp at this
    exact Fin.ext this
  · intro i hi
    have hik : (i : ℕ) < k := by
      by_contra h
      obtain ⟨t, rfl⟩ := exists_shift h
      exact hi ⟨t, rfl⟩
    refine Finset.sum_eq_zero fun c _ => ?_
    unfold withBlock
    rw [Matrix.of_apply, dif_neg (by omega)]
    simp
  · intro i
    refine Fintype.sum_of_injective (fun c : Fin s => (⟨j + c, by omega⟩ : Fin n)) ?_ _ _ ?_ ?_
    · intro a b h
      have := congrArg Fin.val h
      simp at this
      exact Fin.ext this
    · intro c hc
      unfold withBlock
      rw [Matrix.of_apply, dif_neg]
      · simp
      · rintro ⟨-, h1, h2⟩
        exact hc ⟨⟨c - j, by omega⟩, by ext; simp; omega⟩
    · intro c
      unfold withBlock
      rw [Matrix.of_apply, dif_pos ⟨by simp, by simp, by simp; omega⟩]
      simp

/-- `A0, B0, C0, T` at the beginning of a sweep. -/
structure StairInv (A : Matrix (Fin n) (Fin n) K) (B : Matrix (Fin n) (Fin m) K) (C : Matrix (Fin p) (Fin n) K) (tol eb : K) (j s : ℕ)
    (A0 : Matrix (Fin n) (Fin n) K) (B0 : Matrix (Fin n) (Fin m) K) (C0 : Matrix (Fin p) (Fin n) K) (T : Matrix (Fin n) (Fin n) K) : Prop where
  le : j + s ≤ n
  orth : T * Tᵀ = 1
  zero : ∀ i c : Fin n, j + s ≤ (i : ℕ) → (c : ℕ) < j → A0 i c = 0
  zeroB : ∀ (i : Fin n) (c : Fin m), j + s ≤ (i : ℕ) → B0 i c = 0
  errCols : ∀ i c : Fin n, j ≤ (c : ℕ) → (A0 - T * A * Tᵀ) i c = 0
  err : frobSq (A0 - T * A * Tᵀ) ≤ (j : K) * tol ^ 2
  b : frobSq (B0 - T * B) ≤ eb
  c : C0 = C * Tᵀ

variable [IsStrictOrderedRing K]

/-- The invariant is preserved. -/
theorem StairInv.step {A : Matrix (Fin n) (Fin n) K} {B : Matrix (Fin n) (Fin m) K} {C : Matrix (Fin p) (Fin n) K} {tol eb : K} {j s k r : ℕ}
    {A0 : Matrix (Fin n) (Fin n) K} {B0 : Matrix (Fin n) (Fin m) K} {C0 : Matrix (Fin p) (Fin n) K} {T : Matrix (Fin n) (Fin n) K}
    (h : StairInv A B C tol eb j s A0 B0 C0 T) (hs : j + s = k) (hk : k < n) {U : Matrix (Fin (n - k)) (Fin (n - k)) K} (hU : Uᵀ * U = 1)
    {H Y : Matrix (Fin (n - k)) (Fin s) K} (hH : ∀ i c, H i c = A0 ⟨k + i, Nat.add_lt_of_lt_sub' i.2⟩ ⟨j + c, by omega⟩)
    (hY : ∀ (i : Fin (n - k)) (c : Fin s), r ≤ (i : ℕ) → Y i c = 0) (hr : r < n - k) (hd : frobSq (Y - Uᵀ * H) ≤ (s : K) * tol ^ 2) :
    StairInv A B C tol eb k r (withBlock ((emb k U)ᵀ * A0 * emb k U) j k s hs Y) B0 (C0 * emb k U) ((emb k U)ᵀ * T) := by
  have hE := emb_orth hk.le hU
  have hE' : emb k U * (emb k U)ᵀ = 1 := mul_eq_one_comm.mp hE
  set E := emb k U with hEdef
  have hX0 : ∀ i c : Fin n, k ≤ (i : ℕ) → (c : ℕ) < j → (Eᵀ * A0 * E) i c = 0 := by
    intro i c hi hc
    obtain ⟨i, rfl⟩ := exists_shift (not_lt.mpr hi)
    rw [Matrix.mul_assoc, hEdef, emb_transpose, emb_mul_ge hk.le]
    refine Finset.sum_eq_zero fun t _ => ?_
    rw [mul_emb_lt _ _ _ (by omega), h.zero _ _ (by simp; omega) hc, mul_zero]
  have hXb : ∀ (i : Fin (n - k)) (c : Fin s), (Eᵀ * A0 * E) ⟨k + i, Nat.add_lt_of_lt_sub' i.2⟩ ⟨j + c, by omega⟩ = (Uᵀ * H) i c := by
    intro i c
    rw [Matrix.mul_assoc, hEdef, emb_transpose, emb_mul_ge hk.le, Matrix.mul_apply]
    refine Finset.sum_congr rfl fun t _ => ?_
    rw [mul_emb_lt _ _ _ (by simp; omega), hH]
  set D := A0 - T * A * Tᵀ with hD
  have hDc : ∀ i c : Fin n, j ≤ (c : ℕ) → D i c = 0 := h.errCols
  have hDE : D * E = D := by
    ext i c
    by_cases hc : (c : ℕ) < k
    · rw [hEdef, mul_emb_lt _ _ _ hc]
    · obtain ⟨c, rfl⟩ := exists_shift hc
      rw [hEdef, mul_emb_ge hk.le, hDc _ _ (by simp; omega)]
      refine Finset.sum_eq_zero fun t _ => ?_
      rw [hDc _ _ (by simp; omega), zero_mul]
  have hdec : withBlock (Eᵀ * A0 * E) j k s hs Y - Eᵀ * T * A * (Eᵀ * T)ᵀ = Eᵀ * D + withBlock 0 j k s hs (Y - Uᵀ * H) := by
    have e1 : Eᵀ * T * A * (Eᵀ * T)ᵀ = Eᵀ * A0 * E - Eᵀ * D := by
      rw [← hDE, hD, transpose_mul, transpose_transpose]
      simp only [Matrix.mul_sub, Matrix.sub_mul, Matrix.mul_assoc]
      abel
    rw [e1]
    ext i c
    simp only [Matrix.sub_apply, Matrix.add_apply]
    unfold withBlock
    simp only [Matrix.of_apply]
    by_cases h' : k ≤ (i : ℕ) ∧ j ≤ (c : ℕ) ∧ (c : ℕ) < k
    · rw [dif_pos h', dif_pos h', Matrix.sub_apply, ← hXb]
      have e2 : (⟨k + ((⟨i - k, by omega⟩ : Fin (n - k)) : ℕ), by simp; omega⟩ : Fin n) = i := by ext; simp; omega
      have e3 : (⟨j + ((⟨c - j, by omega⟩ : Fin s) : ℕ), by simp; omega⟩ : Fin n) = c := by ext; simp; omega
      rw [e2, e3]
      abel
    · rw [dif_neg h', dif_neg h']
      simp
  have hcol1 : ∀ i c : Fin n, j ≤ (c : ℕ) → (Eᵀ * D) i c = 0 := by
    intro i c hc
    rw [Matrix.mul_apply]
    exact Finset.sum_eq_zero fun t _ => by rw [hDc _ _ hc, mul_zero]
  have hcol2 : ∀ i c : Fin n, ¬ (j ≤ (c : ℕ) ∧ (c : ℕ) < k) → withBlock (0 : Matrix (Fin n) (Fin n) K) j k s hs (Y - Uᵀ * H) i c = 0 := by
    intro i c hc
    unfold withBlock
    rw [Matrix.of_apply, dif_neg (fun h' => hc h'.2)]
    rfl
  refine ⟨by omega, ?_, ?_, ?_, ?_, ?_, ?_, ?_⟩
  · rw [transpose_mul, transpose_transpose, Matrix.mul_assoc, ← Matrix.mul_assoc T, h.orth, Matrix.one_mul, hE]
  · intro i c hi hc
    unfold withBlock
    rw [Matrix.of_apply]
    by_cases h' : k ≤ (i : ℕ) ∧ j ≤ (c : ℕ) ∧ (c : ℕ) < k
    · rw [dif_pos h']
      exact hY _ _ (by simp; omega)
    · rw [dif_neg h']
      exact hX0 i c (by omega) (by omega)
  · intro i c hi
    exact h.zeroB i c (by omega)
  · intro i c hc
    rw [hdec, Matrix.add_apply, hcol1 i c (by omega), hcol2 i c (by omega), add_zero]
  · rw [hdec, frobSq_add_disjoint, frobSq_mul_left (by rwa [transpose_transpose]), frobSq_withBlock hs hk]
    · have := add_le_add h.err hd
      rw [← add_mul, ← Nat.cast_add, hs] at this
      exact this
    · intro c
      by_cases hc : j ≤ (c : ℕ)
      · exact Or.inl fun i => hcol1 i c hc
      · exact Or.inr fun i => hcol2 i c (by omega)
  · have e : Eᵀ * B0 = B0 := by
      ext i c
      by_cases hi : (i : ℕ) < k
      · rw [hEdef, emb_transpose, emb_mul_lt _ _ _ hi]
      · obtain ⟨i, rfl⟩ := exists_shift hi
        rw [hEdef, emb_transpose, emb_mul_ge hk.le, h.zeroB _ _ (by simp; omega)]
        exact Finset.sum_eq_zero fun t _ => by rw [h.zeroB _ _ (by simp; omega), mul_zero]
    have e2 : B0 - Eᵀ * T * B = Eᵀ * (B0 - T * B) := by rw [Matrix.mul_sub, e, Matrix.mul_assoc]
    rw [e2, frobSq_mul_left (by rwa [transpose_transpose])]
    exact h.b
  · rw [h.c, transpose_mul, transpose_transpose, Matrix.mul_assoc]

omit [Field K] [LinearOrder K] [IsStrictOrderedRing K] in
/-- The block below the diagonal block. -/
theorem stair_h3 {j s k : ℕ} (hs : j + s = k) (hk : k ≤ n) (A0 : Matrix (Fin n) (Fin n) K) :
    ∃ h, matrixSlice ((Arr.of A0).slice j n j n) s s "nw" = .ok h ∧
      h.2.2.1 = Arr.of (Matrix.of fun (i : Fin (n - k)) (c : Fin s) => A0 ⟨k + i, Nat.add_lt_of_lt_sub' i.2⟩ ⟨j + c, by omega⟩) := by
  rw [slice_corner]
  unfold matrixSlice
  rw [if_neg (by simp), if_pos rfl]
  have hc : cutAt (n - j) (s : ℤ) = s := by unfold cutAt; rw [if_neg (by omega)]; omega
  refine ⟨_, rfl, ?_⟩
  unfold Arr.cut4 Arr.split4
  refine Arr.ext_cast ?_ ?_ ?_
  · simp only [Arr.of_r, hc]; omega
  · simp only [Arr.of_c, hc]
  · intro i c
    simp only [Arr.of_m, Matrix.submatrix_apply, Matrix.of_apply, Arr.of_r, Arr.of_c]
    congr 1
    · ext; simp [hc]; omega

/-- The loop keeps the invariant, for any number of sweeps. -/
theorem stairLoop_spec {S : SvdNum K} (hS : ∀ (a b : ℕ) (M : Matrix (Fin a) (Fin b) K), SvdOk S M) {tol : K} (ht : 0 ≤ tol)
    {A : Matrix (Fin n) (Fin n) K} {B : Matrix (Fin n) (Fin m) K} {C : Matrix (Fin p) (Fin n) K} {eb : K} (fuel : ℕ) :
    ∀ {j s : ℕ} {A0 : Matrix (Fin n) (Fin n) K} {B0 : Matrix (Fin n) (Fin m) K} {C0 : Matrix (Fin p) (Fin n) K} {T : Matrix (Fin n) (Fin n) K},
    StairInv A B C tol eb j s A0 B0 C0 T → ∃ j' s' A1 C1 T1, stairLoop S tol fuel j s (Arr.of A0) (Arr.of C0) (Arr.of T) = .ok (Arr.of A1, Arr.of C1, Arr.of T1) ∧
      StairInv A B C tol eb j' s' A1 B0 C1 T1 := by
  induction fuel with
  | zero => intro j s A0 B0 C0 T h; exact ⟨j, s, A0, C0, T, rfl, h⟩
  | succ fuel ih =>
    intro j s A0 B0 C0 T h
    obtain ⟨hh, hm, hm'⟩ := stair_h3 (k := j + s) rfl h.le A0
    set H : Matrix (Fin (n - (j + s))) (Fin s) K := Matrix.of fun i c => A0 ⟨j + s + i, Nat.add_lt_of_lt_sub' i.2⟩ ⟨j + c, by have := h.le; omega⟩ with hH
    unfold stairLoop
    simp only [Arr.of_r, Arr.of_c, hm, bind, Except.bind, hm']
    by_cases ha : (Arr.of H).any = false
    · rw [if_pos ha]
      exact ⟨j, s, A0, C0, T, rfl, h⟩
    · rw [if_neg ha]
      obtain ⟨U, sv, V, e1, e2⟩ := hS _ _ H
      have e3 : haroldsvdTol S tol (Arr.of H) = (Arr.of U, Arr.of (diagRect (n - (j + s)) s sv), Arr.of V, countAbove tol sv) := by
        unfold haroldsvdTol
        rw [e1]
      rw [e3]
      simp only
      by_cases hr : 0 < countAbove tol sv ∧ countAbove tol sv < n - (j + s)
      · rw [if_pos hr, zeroFrom_diag, Arr.matmul_of]
        simp only
        have hk : j + s < n := by omega
        rw [stairUpdate_of rfl hk A0 C0 T U _ h.zero]
        simp only
        refine ih (h.step rfl hk e2.u_orth (H := H) (r := countAbove tol sv) (fun i c => rfl) ?_ hr.2 ?_)
        · intro i c hi
          rw [Matrix.mul_apply]
          refine Finset.sum_eq_zero fun t _ => ?_
          unfold diagRect
          rw [Matrix.of_apply, List.getD_eq_default _ _ (by rw [List.length_take]; omega), ite_self, zero_mul]
        · refine (frobSq_drop e2 ht).trans ?_
          exact mul_le_mul_of_nonneg_right (by exact_mod_cast min_le_right _ _) (sq_nonneg _)
      · rw [if_neg hr]
        exact ⟨j, s, A0, C0, T, rfl, h⟩

end Harold
