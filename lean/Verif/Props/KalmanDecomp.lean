import Verif.Lemmas.KalmanDecomp
import Mathlib.Data.Rat.Cast.Order
import Mathlib.Tactic.NormNum

/-!
# C49, C66: `kalman_decomposition`
-/

namespace Harold

open Matrix Spec

variable {K L : Type} [Field K] [LinearOrder K] [IsStrictOrderedRing K] [Field L] [Algebra K L] {n m p : ℕ}

/-- The result of `kalman_decomposition` on a dynamic model. -/
theorem kalman_core {S : SvdNum K} (he : 0 ≤ S.eps) (hS : ∀ {p m : ℕ} (M : Matrix (Fin p) (Fin m) K), SvdOk S M) {thr : K} (hthr : thr ≤ 0)
    {dt : Option K} (hdt : DtOk dt) (A : Matrix (Fin n) (Fin n) K) (B : Matrix (Fin n) (Fin m) K) (C : Matrix (Fin p) (Fin n) K)
    (D : Matrix (Fin p) (Fin m) K) (hn : 0 < n) (hm : 0 < m) (hp : 0 < p) :
    ∃ (T : Matrix (Fin n) (Fin n) K) (r : ℕ), Tᵀ * T = 1 ∧ r ≤ n ∧
      kalmanDecomposition S thr ⟨Arr.of A, Arr.of B, Arr.of C, Arr.of D, dt, false⟩ =
        (if r = 0 then .error .value else
          .ok (⟨Arr.of (Tᵀ * A * T), Arr.of (Tᵀ * B), Arr.of (C * T), Arr.of D, dt, false⟩, some (Arr.of T))) ∧
      (SvdExact S (ctrbM A B (n - 1)) → r = (ctrbM A B (n - 1)).rank ∧ (r ≠ 0 →
        (∀ y ∈ krySpace A B (n - 1), ∀ i : Fin n, r ≤ i → (Tᵀ *ᵥ y) i = 0) ∧
        ∀ j : Fin n, (j : ℕ) < r → (fun i => T i j) ∈ krySpace A B (n - 1))) := by
  obtain ⟨Tc, r, h1, h2, h3, h4⟩ := kalmanTc_of he (hS (ctrbM A B (n - 1))) hn hm
  rcases Nat.eq_zero_or_pos r with rfl | hr
  · refine ⟨1, 0, by simp, Nat.zero_le _, ?_, fun h => ⟨(h4 h).1, fun h0 => absurd rfl h0⟩⟩
    unfold kalmanDecomposition
    rw [if_neg (by simp)]
    simp only [h1, bind, Except.bind, kalmanApply_of hthr B C h2, if_true]
  · obtain ⟨To, h5, h6, h7⟩ := kalmanTo_of hS h3 hr (Tcᵀ * A * Tc) (C * Tc) hp
    have hT : (Tc * To)ᵀ * (Tc * To) = 1 := by
      rw [transpose_mul, Matrix.mul_assoc, ← Matrix.mul_assoc Tcᵀ, h2, Matrix.one_mul, h6]
    refine ⟨Tc * To, r, hT, h3, ?_, fun h => ⟨(h4 h).1, fun _ => ⟨fun y hy i hi => ?_, fun j hj => ?_⟩⟩⟩
    · unfold kalmanDecomposition
      rw [if_neg (by simp), if_neg hr.ne']
      simp only [h1, bind, Except.bind, kalmanApply_of hthr B C h2, if_neg hr.ne', h5,
        kalmanApply_of hthr (Tcᵀ * B) (C * Tc) h6, mkState_of hdt, Arr.matmul_of]
      simp only [transpose_mul, Matrix.mul_assoc]
    · rw [transpose_mul, ← mulVec_mulVec]
      simp only [mulVec, dotProduct, transpose_apply]
      refine Finset.sum_eq_zero fun k _ => ?_
      rcases Nat.lt_or_ge k r with hk | hk
      · rw [h7 k i (Or.inl ⟨hk, hi⟩), zero_mul]
      · have := (h4 h).2.1 y hy k hk
        simp only [mulVec, dotProduct, transpose_apply] at this
        rw [this, mul_zero]
    · have e : (fun i => (Tc * To) i j) = ∑ k, To k j • fun i => Tc i k := by
        ext i
        simp [Matrix.mul_apply, Finset.sum_apply, mul_comm]
      rw [e]
      refine Submodule.sum_mem _ fun k _ => ?_
      rcases Nat.lt_or_ge k r with hk | hk
      · exact Submodule.smul_mem _ _ ((h4 h).2.2 k hk)
      · rw [h7 k j (Or.inr ⟨hk, hj⟩), zero_smul]
        exact Submodule.zero_mem _

/-- **C49**: with `cleanup_threshold = 0`, whatever singular value decompositions the backend returns, the result has the transfer matrix, the
feedthrough and the sampling period of the argument, and it is `(T⁻¹ A T, T⁻¹ B, C T, D)` with the returned orthogonal `T`. -/
theorem C49_transfer {S : SvdNum K} (he : 0 ≤ S.eps) (hS : ∀ {p m : ℕ} (M : Matrix (Fin p) (Fin m) K), SvdOk S M) {thr : K} (hthr : thr ≤ 0)
    {G R : StateM K} {T : Option (Arr K)} (hdt : DtOk G.dt) (h : kalmanDecomposition S thr G = .ok (R, T)) {s : L}
    {M : Matrix (Fin p) (Fin m) L} (hp : 0 < p) (hm : 0 < m) (hn : G.isgain = false → 0 < G.a.r) (hG : HasTF G p m s M) :
    HasTF R p m s M ∧ R.dt = G.dt ∧ R.d = G.d := by
  rcases hG with ⟨hg, D, hD, rfl⟩ | ⟨hg, n, A, B, C, D, hA, hB, hC, hD, hM⟩
  · unfold kalmanDecomposition at h
    rw [if_pos hg] at h
    simp only [Except.ok.injEq, Prod.mk.injEq] at h
    obtain ⟨rfl, -⟩ := h
    exact ⟨Or.inl ⟨hg, D, hD, rfl⟩, rfl, rfl⟩
  · obtain ⟨a, b, c, d, dt, g⟩ := G
    simp only at hg hA hB hC hD hdt hn
    subst hg hA hB hC hD
    obtain ⟨T', r, h1, h2, h3, -⟩ := kalman_core he hS hthr hdt A B C D (hn rfl) hm hp
    rw [h3] at h
    by_cases hr : r = 0
    · rw [if_pos hr] at h; cases h
    · rw [if_neg hr] at h
      simp only [Except.ok.injEq, Prod.mk.injEq] at h
      obtain ⟨rfl, -⟩ := h
      refine ⟨Or.inr ⟨rfl, n, _, _, _, D, rfl, rfl, rfl, rfl, ?_⟩, rfl, rfl⟩
      have := IsTF.similar hM (T'.map (algebraMap K L)) (T'ᵀ.map (algebraMap K L)) (by
        rw [← Matrix.map_mul, h1, Matrix.map_one _ (map_zero _) (map_one _)])
      simpa only [Matrix.map_mul] using this

/-- **C49**: the returned `T` is the change of coordinates. -/
theorem C49_transformation {S : SvdNum K} (he : 0 ≤ S.eps) (hS : ∀ {p m : ℕ} (M : Matrix (Fin p) (Fin m) K), SvdOk S M) {thr : K}
    (hthr : thr ≤ 0) {dt : Option K} (hdt : DtOk dt) (A : Matrix (Fin n) (Fin n) K) (B : Matrix (Fin n) (Fin m) K)
    (C : Matrix (Fin p) (Fin n) K) (D : Matrix (Fin p) (Fin m) K) (hn : 0 < n) (hm : 0 < m) (hp : 0 < p) {R : StateM K} {T : Option (Arr K)}
    (h : kalmanDecomposition S thr ⟨Arr.of A, Arr.of B, Arr.of C, Arr.of D, dt, false⟩ = .ok (R, T)) :
    ∃ T' : Matrix (Fin n) (Fin n) K, T = some (Arr.of T') ∧ T'ᵀ * T' = 1 ∧
      R = ⟨Arr.of (T'⁻¹ * A * T'), Arr.of (T'⁻¹ * B), Arr.of (C * T'), Arr.of D, dt, false⟩ := by
  obtain ⟨T', r, h1, h2, h3, -⟩ := kalman_core he hS hthr hdt A B C D hn hm hp
  rw [h3] at h
  by_cases hr : r = 0
  · rw [if_pos hr] at h; cases h
  · rw [if_neg hr] at h
    simp only [Except.ok.injEq, Prod.mk.injEq] at h
    obtain ⟨rfl, rfl⟩ := h
    exact ⟨T', rfl, h1, by rw [inv_eq_left_inv h1]⟩

/-- **C49**: the decomposition succeeds for every model with a nonzero input matrix, and raises otherwise. -/
theorem C49_success {S : SvdNum K} (he : 0 ≤ S.eps) (hS : ∀ {p m : ℕ} (M : Matrix (Fin p) (Fin m) K), SvdExact S M) {thr : K}
    (hthr : thr ≤ 0) {dt : Option K} (hdt : DtOk dt) (A : Matrix (Fin n) (Fin n) K) (B : Matrix (Fin n) (Fin m) K)
    (C : Matrix (Fin p) (Fin n) K) (D : Matrix (Fin p) (Fin m) K) (hn : 0 < n) (hm : 0 < m) (hp : 0 < p) :
    (∃ R, kalmanDecomposition S thr ⟨Arr.of A, Arr.of B, Arr.of C, Arr.of D, dt, false⟩ = .ok R) ↔ B ≠ 0 := by
  have hS' : ∀ {p m : ℕ} (M : Matrix (Fin p) (Fin m) K), SvdOk S M := fun M => by
    obtain ⟨U, s, V, h1, h2, -⟩ := hS M
    exact ⟨U, s, V, h1, h2⟩
  obtain ⟨T', r, h1, h2, h3, h4⟩ := kalman_core he hS' hthr hdt A B C D hn hm hp
  have h5 := (h4 (hS _)).1
  have h6 : r = 0 ↔ B = 0 := by
    rw [h5]
    constructor
    · intro h
      rw [Matrix.rank, Submodule.finrank_eq_zero] at h
      refine Matrix.ext fun i j => ?_
      have := mem_krylov A B (Nat.zero_le (n - 1)) (Pi.single j 1)
      rw [krySpace, h, Submodule.mem_bot, pow_zero, Matrix.one_mul] at this
      have h7 := congrFun this i
      simpa [mulVec_single_one] using h7
    · intro h
      have : krySpace A B (n - 1) ≤ ⊥ := krylov_le fun i _ u => by rw [h]; simp
      rw [Matrix.rank, Submodule.finrank_eq_zero]
      exact le_bot_iff.mp this
  rw [h3, ne_eq, ← h6]
  by_cases hr : r = 0
  · rw [if_pos hr]; simp [hr]
  · rw [if_neg hr]; simp [hr]

/-- **C66**: the uncontrollable modes are isolated: with `r` the dimension of the reachable space, the last `n - r` rows of `B` vanish and so
does the lower left block of `A`. -/
theorem C66_uncontrollable {S : SvdNum K} (he : 0 ≤ S.eps) (hS : ∀ {p m : ℕ} (M : Matrix (Fin p) (Fin m) K), SvdOk S M) {thr : K}
    (hthr : thr ≤ 0) {dt : Option K} (hdt : DtOk dt) (A : Matrix (Fin n) (Fin n) K) (B : Matrix (Fin n) (Fin m) K)
    (C : Matrix (Fin p) (Fin n) K) (D : Matrix (Fin p) (Fin m) K) (hn : 0 < n) (hm : 0 < m) (hp : 0 < p)
    (hr : SvdExact S (ctrbM A B (n - 1))) {R : StateM K} {T : Option (Arr K)}
    (h : kalmanDecomposition S thr ⟨Arr.of A, Arr.of B, Arr.of C, Arr.of D, dt, false⟩ = .ok (R, T)) :
    ∃ (A' : Matrix (Fin n) (Fin n) K) (B' : Matrix (Fin n) (Fin m) K), R.a = Arr.of A' ∧ R.b = Arr.of B' ∧
      (∀ (i : Fin n) j, (ctrbM A B (n - 1)).rank ≤ i → B' i j = 0) ∧
      ∀ i j : Fin n, (ctrbM A B (n - 1)).rank ≤ i → (j : ℕ) < (ctrbM A B (n - 1)).rank → A' i j = 0 := by
  obtain ⟨T', r, h1, h2, h3, h4⟩ := kalman_core he hS hthr hdt A B C D hn hm hp
  obtain ⟨rfl, h6⟩ := h4 hr
  rw [h3] at h
  by_cases hr : (ctrbM A B (n - 1)).rank = 0
  · rw [if_pos hr] at h; cases h
  · rw [if_neg hr] at h
    simp only [Except.ok.injEq, Prod.mk.injEq] at h
    obtain ⟨rfl, rfl⟩ := h
    obtain ⟨h7, h8⟩ := h6 hr
    refine ⟨_, _, rfl, rfl, fun i j hi => ?_, fun i j hi hj => ?_⟩
    · have := h7 _ (mem_krylov A B (Nat.zero_le (n - 1)) (Pi.single j 1)) i hi
      rw [pow_zero, Matrix.one_mul, mulVec_mulVec, mulVec_single_one] at this
      exact this
    · have := h7 _ (krylov_invariant A B (h8 j hj)) i hi
      rw [mulVec_mulVec] at this
      rw [Matrix.mul_apply]
      exact this

/-- A backend that is exact on the two matrices of the next theorem. -/
def svdObs : SvdNum ℚ := ⟨fun x => if x.c = 4 then
    (Arr.of !![1, 0; 0, 1], [5 / 4, 5 / 4], Arr.of !![4 / 5, 0, 3 / 5, 0; 0, 4 / 5, 0, 3 / 5; -3 / 5, 0, 4 / 5, 0; 0, -3 / 5, 0, 4 / 5])
  else (Arr.of !![4 / 5, -3 / 5; 3 / 5, 4 / 5], [5 / 4, 0], Arr.of !![3 / 5, 4 / 5; -4 / 5, 3 / 5]), 0⟩

theorem svdObs_ctrb : ctrbM (!![3 / 4, 0; 0, 3 / 4] : Matrix (Fin 2) (Fin 2) ℚ) !![1, 0; 0, 1] (2 - 1) =
    (!![1, 0, 3 / 4, 0; 0, 1, 0, 3 / 4] : Matrix (Fin 2) (Fin 4) ℚ) := by
  show hcat _ _ = _
  refine Matrix.ext fun i j => ?_
  induction j using Fin.addCases with
  | left j => fin_cases i <;> fin_cases j <;> simp [hcat, ctrbM, krylovW] <;> rfl
  | right j => fin_cases i <;> fin_cases j <;> simp [hcat, ctrbM, krylovW] <;> rfl

theorem svdObs_obsv : obsvM (!![3 / 4, 0; 0, 3 / 4] : Matrix (Fin 2) (Fin 2) ℚ) !![3 / 5, 4 / 5] (2 - 1) =
    (!![3 / 5, 4 / 5; 9 / 20, 3 / 5] : Matrix (Fin 2) (Fin 2) ℚ) := by
  show vcat _ _ = _
  refine Matrix.ext fun i j => ?_
  induction i using Fin.addCases with
  | left i => fin_cases i; fin_cases j <;> simp [vcat, obsvM, krylovW] <;> rfl
  | right i => fin_cases i; fin_cases j <;> simp [vcat, obsvM, krylovW, Matrix.mul_apply, Fin.sum_univ_two] <;> norm_num <;> rfl

theorem svdObs_exact1 : SvdExact svdObs (!![1, 0, 3 / 4, 0; 0, 1, 0, 3 / 4] : Matrix (Fin 2) (Fin 4) ℚ) := by
  refine ⟨!![1, 0; 0, 1], [5 / 4, 5 / 4], !![4 / 5, 0, 3 / 5, 0; 0, 4 / 5, 0, 3 / 5; -3 / 5, 0, 4 / 5, 0; 0, -3 / 5, 0, 4 / 5], rfl,
    ⟨?_, ?_, rfl, ?_, ?_, ?_⟩, ?_⟩
  · ext i j; fin_cases i <;> fin_cases j <;> simp [Matrix.mul_apply, Fin.sum_univ_two]
  · ext i j; fin_cases i <;> fin_cases j <;> simp [Matrix.mul_apply, Fin.sum_univ_four] <;> norm_num
  · intro t ht; simp at ht; rw [ht]; norm_num
  · simp
  · ext i j
    fin_cases i <;> fin_cases j <;> simp [Matrix.mul_apply, Fin.sum_univ_two, Fin.sum_univ_four, diagRect, vecHead, vecTail] <;> norm_num
  · intro t ht _; simp at ht; rw [ht]; simp [rankTol, svdObs]

theorem svdObs_exact2 : SvdExact svdObs (!![3 / 5, 4 / 5; 9 / 20, 3 / 5] : Matrix (Fin 2) (Fin 2) ℚ) := by
  refine ⟨!![4 / 5, -3 / 5; 3 / 5, 4 / 5], [5 / 4, 0], !![3 / 5, 4 / 5; -4 / 5, 3 / 5], rfl,
    ⟨?_, ?_, rfl, ?_, ?_, ?_⟩, ?_⟩
  · ext i j; fin_cases i <;> fin_cases j <;> simp [Matrix.mul_apply, Fin.sum_univ_two] <;> norm_num
  · ext i j; fin_cases i <;> fin_cases j <;> simp [Matrix.mul_apply, Fin.sum_univ_two] <;> norm_num
  · intro t ht; simp at ht; rcases ht with rfl | rfl <;> norm_num
  · simp; norm_num
  · ext i j
    fin_cases i <;> fin_cases j <;> simp [Matrix.mul_apply, Fin.sum_univ_two, diagRect, vecHead, vecTail] <;> norm_num
  · intro t ht h0; simp at ht; rcases ht with rfl | rfl
    · simp [rankTol, svdObs]
    · exact absurd rfl h0

theorem svdObs_exact : SvdExact svdObs (ctrbM (!![3 / 4, 0; 0, 3 / 4] : Matrix (Fin 2) (Fin 2) ℚ) !![1, 0; 0, 1] (2 - 1)) ∧
    SvdExact svdObs (obsvM (!![3 / 4, 0; 0, 3 / 4] : Matrix (Fin 2) (Fin 2) ℚ) !![3 / 5, 4 / 5] (2 - 1)) := by
  rw [svdObs_ctrb, svdObs_obsv]
  exact ⟨svdObs_exact1, svdObs_exact2⟩

/-- **C66** fails for unobservable modes: the reachable model `A = 3/4 I`, `B = I`, `C = [3/5, 4/5]` has a one-dimensional unobservable space, but
the output matrix of the decomposition is `[-7/25, 24/25]`: the transformation uses `vh` where its transpose is needed, and no column
vanishes. -/
theorem C66_unobservable_violated :
    SvdExact svdObs (ctrbM (!![3 / 4, 0; 0, 3 / 4] : Matrix (Fin 2) (Fin 2) ℚ) !![1, 0; 0, 1] (2 - 1)) ∧
    SvdExact svdObs (obsvM (!![3 / 4, 0; 0, 3 / 4] : Matrix (Fin 2) (Fin 2) ℚ) !![3 / 5, 4 / 5] (2 - 1)) ∧
    ¬ Observable (!![3 / 4, 0; 0, 3 / 4] : Matrix (Fin 2) (Fin 2) ℚ) !![3 / 5, 4 / 5] ∧
    ∃ R T, kalmanDecomposition svdObs 0 ⟨Arr.of !![3 / 4, 0; 0, 3 / 4], Arr.of !![1, 0; 0, 1], Arr.of !![3 / 5, 4 / 5], Arr.of !![0, 0],
        none, false⟩ = .ok (R, T) ∧ R.c = Arr.of !![-7 / 25, 24 / 25] := by
  obtain ⟨⟨U, s, V, a1, a2, a3⟩, ⟨U', s', V', b1, b2, b3⟩⟩ := svdObs_exact
  refine ⟨svdObs_exact.1, svdObs_exact.2, fun h => ?_, ?_⟩
  · have := h ![-4, 3] fun k => by
      have : (!![3 / 4, 0; 0, 3 / 4] : Matrix (Fin 2) (Fin 2) ℚ) = (3 / 4 : ℚ) • 1 := by
        ext i j; fin_cases i <;> fin_cases j <;> simp
      rw [this, smul_pow, one_pow, smul_mulVec, one_mulVec, mulVec_smul]
      have h0 : (!![3 / 5, 4 / 5] : Matrix (Fin 1) (Fin 2) ℚ) *ᵥ ![-4, 3] = 0 := by
        ext i; fin_cases i; simp [mulVec, dotProduct, Fin.sum_univ_two]; norm_num
      rw [h0, smul_zero]
    simpa using congrFun this 0
  · have h0 : (0 : ℚ) ≤ svdObs.eps := le_rfl
    obtain ⟨c1, c2⟩ := isKalmanControllable_eq a1 a2 (by norm_num) (by norm_num)
    obtain ⟨d1, d2⟩ := isKalmanObservable_eq b1 b2 (by norm_num) (by norm_num)
    have es : svdObs.svd (Arr.of (ctrbM (!![3 / 4, 0; 0, 3 / 4] : Matrix (Fin 2) (Fin 2) ℚ) !![1, 0; 0, 1] (2 - 1))) =
      (Arr.of !![1, 0; 0, 1], [5 / 4, 5 / 4],
        Arr.of !![4 / 5, 0, 3 / 5, 0; 0, 4 / 5, 0, 3 / 5; -3 / 5, 0, 4 / 5, 0; 0, -3 / 5, 0, 4 / 5]) := rfl
    have es' : svdObs.svd (Arr.of (obsvM (!![3 / 4, 0; 0, 3 / 4] : Matrix (Fin 2) (Fin 2) ℚ) !![3 / 5, 4 / 5] (2 - 1))) =
      (Arr.of !![4 / 5, -3 / 5; 3 / 5, 4 / 5], [5 / 4, 0], Arr.of !![3 / 5, 4 / 5; -4 / 5, 3 / 5]) := rfl
    rw [a1] at es
    rw [b1] at es'
    simp only [Prod.mk.injEq] at es es'
    obtain ⟨-, rfl, -⟩ := es
    obtain ⟨-, rfl, e3⟩ := es'
    have r1 : countAbove (rankTol svdObs.eps 2 (krylovW 2 (2 - 1)) [5 / 4, 5 / 4]) [(5 : ℚ) / 4, 5 / 4] = 2 := by
      simp [countAbove, rankTol, svdObs]
    have r2 : countAbove (rankTol svdObs.eps (krylovW 1 (2 - 1)) 2 [5 / 4, 0]) [(5 : ℚ) / 4, 0] = 1 := by
      simp [countAbove, rankTol, svdObs]
    rw [r1, if_neg (by norm_num)] at c2
    rw [r2, if_pos (by norm_num)] at d2
    rw [r2, e3] at d1
    have t1 : kalmanTc svdObs (Arr.of !![3 / 4, 0; 0, 3 / 4]) (Arr.of !![1, 0; 0, 1]) = .ok (Arr.of (1 : Matrix (Fin 2) (Fin 2) ℚ), 2) := by
      unfold kalmanTc
      simp only [c2, bind, Except.bind, if_true]
      rfl
    have hT : (!![3 / 5, 4 / 5; -4 / 5, 3 / 5] : Matrix (Fin 2) (Fin 2) ℚ)ᵀ * !![3 / 5, 4 / 5; -4 / 5, 3 / 5] = 1 := by
      ext i j; fin_cases i <;> fin_cases j <;> simp [Matrix.mul_apply, Fin.sum_univ_two] <;> norm_num
    refine ⟨?R, ?T, ?h1, ?h2⟩
    case h1 =>
      unfold kalmanDecomposition
      rw [if_neg (by simp)]
      simp only [t1, bind, Except.bind]
      rw [kalmanApply_of le_rfl _ _ (by simp : (1 : Matrix (Fin 2) (Fin 2) ℚ)ᵀ * 1 = 1)]
      simp only [transpose_one, Matrix.one_mul, Matrix.mul_one]
      rw [if_neg (by norm_num)]
      unfold kalmanTo
      rw [if_neg (by simp)]
      simp only [d2, bind, Except.bind, Bool.false_eq_true, if_false, d1]
      rw [kalmanApply_of le_rfl _ _ hT]
      simp only [mkState_of (dt := (none : Option ℚ)) (fun t h => by cases h), Arr.matmul_of]
      rfl
    case h2 =>
      rw [Arr.of_inj]
      ext i j; fin_cases i; fin_cases j <;> simp [Matrix.mul_apply, Fin.sum_univ_two] <;> norm_num

/-- The hypotheses on the backend are met by exact numerics. -/
example : ∃ S : SvdNum ℝ, 0 ≤ S.eps ∧
    ∃ R, kalmanDecomposition S 0 ⟨Arr.of !![1, 0; 0, 2], Arr.of !![1; 0], Arr.of !![1, 1], Arr.of !![0], none, false⟩ = .ok R := by
  obtain ⟨S, h1, h2⟩ := exists_svdNum
  refine ⟨S, h1.ge, (C49_success h1.ge h2 le_rfl (fun t h => by cases h) _ _ _ _ (by norm_num) (by norm_num) (by norm_num)).mpr fun h => ?_⟩
  simpa using congrFun (congrFun h 0) 0

end Harold
