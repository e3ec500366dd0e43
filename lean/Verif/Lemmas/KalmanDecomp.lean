import Verif.Props.Kalman
import Verif.Lemmas.TF
import Verif.Lemmas.StateTF

/-!
# The transformations of `kalman_decomposition`
-/

namespace Harold

open Matrix Spec

variable {K : Type} [Field K] [LinearOrder K] [IsStrictOrderedRing K] {n m p : ℕ}

theorem clean_of {thr : K} (h : thr ≤ 0) (M : Matrix (Fin n) (Fin m) K) : (Arr.of M).clean thr = Arr.of M := by
  unfold Arr.clean
  rw [Arr.of_inj]
  ext i j
  simp only [Matrix.map_apply, Arr.of_m]
  rw [if_neg (not_lt.mpr (h.trans (abs_nonneg _)))]

theorem kalmanApply_of {thr : K} (h : thr ≤ 0) {T A : Matrix (Fin n) (Fin n) K} (B : Matrix (Fin n) (Fin m) K)
    (C : Matrix (Fin p) (Fin n) K) (hT : Tᵀ * T = 1) :
    kalmanApply thr (Arr.of T) (Arr.of A) (Arr.of B) (Arr.of C) = .ok (Arr.of (Tᵀ * A * T), Arr.of (Tᵀ * B), Arr.of (C * T)) := by
  have hd : T.det ≠ 0 := ((isUnit_iff_isUnit_det _).mp (IsUnit.of_mul_eq_one_right _ hT)).ne_zero
  have hi : T⁻¹ = Tᵀ := inv_eq_left_inv hT
  unfold kalmanApply
  simp only [Arr.solve_of, if_neg hd, bind, Except.bind, Arr.matmul_of, clean_of h, hi]

/-- `Tc` is orthogonal; if the ranks are exact, its first `r` columns span the reachable space. -/
theorem kalmanTc_of {S : SvdNum K} (he : 0 ≤ S.eps) {A : Matrix (Fin n) (Fin n) K} {B : Matrix (Fin n) (Fin m) K}
    (hS : SvdOk S (ctrbM A B (n - 1))) (hn : 0 < n) (hm : 0 < m) :
    ∃ (T : Matrix (Fin n) (Fin n) K) (r : ℕ), kalmanTc S (Arr.of A) (Arr.of B) = .ok (Arr.of T, r) ∧ Tᵀ * T = 1 ∧ r ≤ n ∧
      (SvdExact S (ctrbM A B (n - 1)) → r = (ctrbM A B (n - 1)).rank ∧
        (∀ y ∈ krySpace A B (n - 1), ∀ i : Fin n, r ≤ i → (Tᵀ *ᵥ y) i = 0) ∧
        ∀ j : Fin n, (j : ℕ) < r → (fun i => T i j) ∈ krySpace A B (n - 1)) := by
  obtain ⟨U, s, V, h1, h2⟩ := hS
  obtain ⟨h3, h4⟩ := isKalmanControllable_eq h1 h2 hn hm
  have hle := countAbove_le_rank he h2
  have hrk := (ctrbM A B (n - 1)).rank_le_height
  by_cases hr : countAbove (rankTol S.eps n (krylovW m (n - 1)) s) s < n
  · refine ⟨U, countAbove (rankTol S.eps n (krylovW m (n - 1)) s) s, ?_, h2.u_orth, hr.le, ?_⟩
    · unfold kalmanTc
      simp only [h4, if_pos hr, bind, Except.bind, h3]
      rfl
    · rintro ⟨U', s', V', h5, h6, h7⟩
      have e : (Arr.of U, s, Arr.of V) = (Arr.of U', s', Arr.of V') := h1.symm.trans h5
      simp only [Prod.mk.injEq] at e
      obtain ⟨e1, rfl, e3⟩ := e
      have hrank := countAbove_eq_rank he h2 h7
      have hcount : countAbove (rankTol S.eps n (krylovW m (n - 1)) s) s = (s.filter fun t => decide (t ≠ 0)).length := by
        rw [hrank, svd_rank h2]
      -- descending: the first r are nonzero, the others zero
      have hsplit : ∀ i, (i < countAbove (rankTol S.eps n (krylovW m (n - 1)) s) s ↔ s.getD i 0 ≠ 0) := by
        rw [hcount]
        have hdesc := h2.desc
        have hnn := h2.nonneg
        clear h1 h2 h3 h4 hle hr h5 h6 h7 hrank hcount
        induction s with
        | nil => intro i; simp
        | cons a l ih =>
          intro i
          rw [List.pairwise_cons] at hdesc
          have ih' := ih hdesc.2 fun t ht => hnn t (by simp [ht])
          by_cases ha : a = 0
          · have hl : ∀ t ∈ l, t = 0 := fun t ht => le_antisymm (ha ▸ hdesc.1 t ht) (hnn t (by simp [ht]))
            have hf : (l.filter fun t => decide (t ≠ 0)) = [] := by
              rw [List.filter_eq_nil_iff]; intro t ht; simp [hl t ht]
            cases i with
            | zero => simp only [List.filter_cons, ha, hf]; simp
            | succ i =>
              have := ih' i
              simp only [hf, List.length_nil, not_lt_zero, false_iff] at this
              simp only [List.filter_cons, ha, hf]
              simpa using this
          · cases i with
            | zero => simp [List.filter_cons, ha]
            | succ i =>
              have := ih' i
              simp only [List.filter_cons, ha, ne_eq, not_false_eq_true, decide_true, if_true, List.length_cons, List.getD_cons_succ]
              simp only [ne_eq] at this
              rw [← this, Nat.add_lt_add_iff_right]
      refine ⟨hrank, ?_, ?_⟩
      · rintro y ⟨u, rfl⟩ i hi
        have e1 : Uᵀ *ᵥ ((ctrbM A B (n - 1)).mulVecLin u) = diagRect n (krylovW m (n - 1)) s *ᵥ (V *ᵥ u) := by
          rw [mulVecLin_apply]
          conv_lhs => rw [h2.eq]
          rw [mulVec_mulVec, mulVec_mulVec, ← Matrix.mul_assoc, ← Matrix.mul_assoc, h2.u_orth, Matrix.one_mul]
        rw [e1]
        have h0 : s.getD i 0 = 0 := by
          by_contra h0
          exact absurd ((hsplit i).mpr h0) (not_lt.mpr hi)
        simp only [mulVec, dotProduct, diagRect, Matrix.of_apply, h0, ite_self, zero_mul, Finset.sum_const_zero]
      · intro j hj
        have h0 := (hsplit j).mp hj
        have hjm : (j : ℕ) < krylovW m (n - 1) := by
          by_contra hjm
          exact h0 (List.getD_eq_default _ _ (by have := h2.len; omega))
        refine ⟨(s.getD j 0)⁻¹ • (Vᵀ *ᵥ Pi.single ⟨j, hjm⟩ 1), ?_⟩
        rw [mulVecLin_apply]
        conv_lhs => rw [h2.eq]
        rw [mulVec_smul, mulVec_mulVec, Matrix.mul_assoc, h2.v_orth, Matrix.mul_one]
        ext i
        simp only [Pi.smul_apply, smul_eq_mul, mulVec_single_one]
        rw [Matrix.col_apply, Matrix.mul_apply, Finset.sum_eq_single j]
        · simp only [diagRect, Matrix.of_apply, if_pos]
          rw [mul_comm (U i j), ← mul_assoc, inv_mul_cancel₀ h0, one_mul]
        · intro b _ hb
          simp only [diagRect, Matrix.of_apply]
          rw [if_neg (fun h => hb (Fin.ext h)), mul_zero]
        · simp
  · refine ⟨1, n, ?_, by simp, le_rfl, fun _ => ?_⟩
    · unfold kalmanTc
      simp only [h4, if_neg hr, bind, Except.bind, if_true]
      rfl
    · have hfull : (ctrbM A B (n - 1)).rank = n := by omega
      refine ⟨hfull.symm, fun y _ i hi => absurd i.2 (not_lt.mpr hi), fun j _ => ?_⟩
      unfold krySpace
      rw [(rank_eq_iff_range _).mp hfull]
      trivial

theorem slice_of {R C a b : ℕ} (M : Matrix (Fin R) (Fin C) K) (r0 r1 c0 c1 : ℕ) (ha : min r1 R - r0 = a) (hb : min c1 C - c0 = b) :
    (Arr.of M).slice r0 r1 c0 c1 =
      Arr.of (Matrix.of fun (i : Fin a) (j : Fin b) => M ⟨r0 + i, by omega⟩ ⟨c0 + j, by omega⟩) := by
  subst ha hb
  rfl

theorem obsv_of {S : SvdNum K} (hS : ∀ {p m : ℕ} (M : Matrix (Fin p) (Fin m) K), SvdOk S M) (A : Matrix (Fin n) (Fin n) K)
    (C : Matrix (Fin p) (Fin n) K) (hn : 0 < n) (hp : 0 < p) :
    ∃ (x : Arr K) (V : Matrix (Fin n) (Fin n) K) (r : ℕ), observabilityMatrix S (Arr.of A) (Arr.of C) = .ok (x, Arr.of V, r) ∧ Vᵀ * V = 1 ∧
      isKalmanObservable S (Arr.of A) (Arr.of C) = .ok (if r < n then false else true) := by
  obtain ⟨U, s, V, h1, h2⟩ := hS (obsvM A C (n - 1))
  obtain ⟨h3, h4⟩ := isKalmanObservable_eq h1 h2 hn hp
  exact ⟨_, V, _, h3, mul_eq_one_comm.mp h2.v_orth, h4⟩

/-- `To` is orthogonal and block diagonal. -/
theorem kalmanTo_of {S : SvdNum K} (hS : ∀ {p m : ℕ} (M : Matrix (Fin p) (Fin m) K), SvdOk S M) {r : ℕ} (hr : r ≤ n) (hr0 : 0 < r)
    (A : Matrix (Fin n) (Fin n) K) (C : Matrix (Fin p) (Fin n) K) (hp : 0 < p) :
    ∃ T : Matrix (Fin n) (Fin n) K, kalmanTo S r (Arr.of A) (Arr.of C) = .ok (Arr.of T) ∧ Tᵀ * T = 1 ∧
      ∀ i j : Fin n, ((i : ℕ) < r ∧ r ≤ j ∨ r ≤ i ∧ (j : ℕ) < r) → T i j = 0 := by
  rcases hr.eq_or_lt with rfl | hlt
  · obtain ⟨x, V, k, h1, h2, h3⟩ := obsv_of hS A C hr0 hp
    unfold kalmanTo
    rw [if_neg (by simp)]
    simp only [h3, bind, Except.bind]
    have hz : ∀ (T : Matrix (Fin r) (Fin r) K) (i j : Fin r), ((i : ℕ) < r ∧ r ≤ j ∨ r ≤ i ∧ (j : ℕ) < r) → T i j = 0 := by
      intro T i j h
      have := i.2; have := j.2
      omega
    by_cases hk : k < r
    · refine ⟨V, ?_, h2, hz V⟩
      simp only [if_pos hk, h1]
      rfl
    · refine ⟨1, ?_, by simp, hz 1⟩
      simp only [if_neg hk, if_true]
      rfl
  · obtain ⟨t, rfl⟩ := Nat.exists_eq_add_of_le hr
    unfold kalmanTo
    rw [if_pos (by simp; omega)]
    rw [slice_of A 0 r 0 r (a := r) (b := r) (by omega) (by omega), slice_of C 0 _ 0 r (a := p) (b := r) (by simp) (by omega),
      slice_of A r _ r _ (a := t) (b := t) (by simp) (by simp), slice_of C 0 _ r _ (a := p) (b := t) (by simp) (by simp)]
    obtain ⟨x, V, k, h1, h2, -⟩ := obsv_of hS (Matrix.of fun (i j : Fin r) => A ⟨0 + i, by omega⟩ ⟨0 + j, by omega⟩)
      (Matrix.of fun (i : Fin p) (j : Fin r) => C ⟨0 + i, by omega⟩ ⟨0 + j, by omega⟩) hr0 hp
    obtain ⟨y, W, l, h3, h4, -⟩ := obsv_of hS (Matrix.of fun (i j : Fin t) => A ⟨r + i, by omega⟩ ⟨r + j, by omega⟩)
      (Matrix.of fun (i : Fin p) (j : Fin t) => C ⟨0 + i, by omega⟩ ⟨r + j, by omega⟩) (by omega) hp
    refine ⟨blk V 0 0 W, ?_, ?_, ?_⟩
    · simp only [h1, h3, bind, Except.bind]
      rfl
    · unfold blk
      rw [transpose_submatrix, submatrix_mul_equiv, fromBlocks_transpose, fromBlocks_multiply]
      simp [h2, h4]
    · intro i j hij
      unfold blk
      rw [submatrix_apply]
      induction i using Fin.addCases with
      | left i =>
        induction j using Fin.addCases with
        | left j => simp at hij; omega
        | right j => simp
      | right i =>
        induction j using Fin.addCases with
        | left j => simp
        | right j => simp at hij

end Harold
