import Verif.Spec.Kalman
import Verif.Lemmas.Kalman
import Verif.Lemmas.SvdExists

/-!
# C48: the Kalman tests
-/

namespace Harold

open Matrix Spec

section
variable {K : Type} [Field K] {n m p : ℕ}

theorem finalState_concat (A : Matrix (Fin n) (Fin n) K) (B : Matrix (Fin n) (Fin m) K) (us : List (Fin m → K)) (u : Fin m → K) :
    finalState A B (us ++ [u]) = A *ᵥ finalState A B us + B *ᵥ u := by
  simp [finalState, List.foldl_append]

/-- Prepending an input adds `A^k B u`. -/
theorem finalState_cons (A : Matrix (Fin n) (Fin n) K) (B : Matrix (Fin n) (Fin m) K) (us : List (Fin m → K)) (u : Fin m → K) :
    finalState A B (u :: us) = (A ^ us.length * B) *ᵥ u + finalState A B us := by
  induction us using List.reverseRecOn with
  | nil => simp [finalState]
  | append_singleton us v ih =>
    rw [← List.cons_append, finalState_concat, ih, finalState_concat, List.length_append, List.length_singleton, pow_succ',
      Matrix.mul_assoc, mulVec_add, mulVec_mulVec, add_assoc]

theorem finalState_mem (A : Matrix (Fin n) (Fin n) K) (B : Matrix (Fin n) (Fin m) K) (us : List (Fin m → K)) :
    finalState A B us ∈ krySpace A B (n - 1) := by
  induction us with
  | nil => exact Submodule.zero_mem _
  | cons u us ih => rw [finalState_cons]; exact Submodule.add_mem _ (pow_mem_krylov A B _ u) ih

theorem krylov_reached (A : Matrix (Fin n) (Fin n) K) (B : Matrix (Fin n) (Fin m) K) (k : ℕ) {x : Fin n → K}
    (hx : x ∈ krySpace A B k) : ∃ us, us.length = k + 1 ∧ finalState A B us = x := by
  induction k generalizing x with
  | zero =>
    obtain ⟨u, rfl⟩ := hx
    refine ⟨[u], rfl, ?_⟩
    show A *ᵥ 0 + B *ᵥ u = B *ᵥ u
    rw [mulVec_zero, zero_add]
  | succ k ih =>
    rw [krylov_succ] at hx
    obtain ⟨y, hy, z, ⟨u, rfl⟩, rfl⟩ := Submodule.mem_sup.mp hx
    obtain ⟨us, h1, h2⟩ := ih hy
    refine ⟨u :: us, by simp [h1], ?_⟩
    rw [finalState_cons, h1, h2, add_comm]; rfl

theorem reachable_iff_rank (A : Matrix (Fin n) (Fin n) K) (B : Matrix (Fin n) (Fin m) K) :
    Reachable A B ↔ (ctrbM A B (n - 1)).rank = n := by
  rw [rank_eq_iff_range]
  constructor
  · intro h
    rw [eq_top_iff]
    rintro x -
    obtain ⟨us, rfl⟩ := h x
    exact finalState_mem A B us
  · intro h x
    obtain ⟨us, -, h1⟩ := krylov_reached A B (n - 1) (x := x) (by unfold krySpace; rw [h]; trivial)
    exact ⟨us, h1⟩

/-- Reachability does not depend on the coordinates. -/
theorem reachable_similar {A T : Matrix (Fin n) (Fin n) K} {B : Matrix (Fin n) (Fin m) K} (hT : IsUnit T.det) (h : Reachable A B) :
    Reachable (T⁻¹ * A * T) (T⁻¹ * B) := by
  have key : ∀ us, finalState (T⁻¹ * A * T) (T⁻¹ * B) us = T⁻¹ *ᵥ finalState A B us := by
    intro us
    induction us using List.reverseRecOn with
    | nil => simp [finalState]
    | append_singleton us v ih =>
      rw [finalState_concat, finalState_concat, ih, mulVec_add, mulVec_mulVec, mulVec_mulVec, mulVec_mulVec,
        Matrix.mul_assoc (T⁻¹ * A), mul_nonsing_inv _ hT, Matrix.mul_one]
  intro x
  obtain ⟨us, h1⟩ := h (T *ᵥ x)
  refine ⟨us, ?_⟩
  rw [key, h1, mulVec_mulVec, nonsing_inv_mul _ hT, one_mulVec]

/-- Duality of the specifications. -/
theorem observable_iff_rank (A : Matrix (Fin n) (Fin n) K) (C : Matrix (Fin p) (Fin n) K) :
    Observable A C ↔ (obsvM A C (n - 1)).rank = n := by
  have e : obsvM A C (n - 1) = (ctrbM Aᵀ Cᵀ (n - 1))ᵀ := by
    rw [ctrbM_transpose, transpose_transpose, transpose_transpose]
  have hzero : ∀ x : Fin n → K, (∀ k : ℕ, C *ᵥ ((A ^ k) *ᵥ x) = 0) ↔ ∀ y ∈ krySpace Aᵀ Cᵀ (n - 1), y ⬝ᵥ x = 0 := by
    intro x
    have e1 : ∀ (k : ℕ) (u : Fin p → K), ((Aᵀ ^ k * Cᵀ) *ᵥ u) ⬝ᵥ x = u ⬝ᵥ (C *ᵥ ((A ^ k) *ᵥ x)) := by
      intro k u
      rw [← transpose_pow, ← transpose_mul, mulVec_transpose, ← dotProduct_mulVec, mulVec_mulVec]
    constructor
    · intro h
      let W : Submodule K (Fin n → K) :=
        { carrier := {y | y ⬝ᵥ x = 0}
          add_mem' := fun {a b} ha hb => by simp only [Set.mem_setOf_eq] at *; rw [add_dotProduct, ha, hb, add_zero]
          zero_mem' := by simp
          smul_mem' := fun c y hy => by simp only [Set.mem_setOf_eq] at *; rw [smul_dotProduct, hy, smul_zero] }
      have : krySpace Aᵀ Cᵀ (n - 1) ≤ W := krylov_le fun i _ u => by
        show _ ⬝ᵥ x = 0
        rw [e1, h i, dotProduct_zero]
      exact fun y hy => this hy
    · intro h k
      refine dotProduct_eq_zero _ fun u => ?_
      rw [dotProduct_comm, ← e1]
      exact h _ (pow_mem_krylov _ _ k u)
  rw [e, rank_transpose]
  constructor
  · intro h
    by_contra hr
    have hr' : krySpace Aᵀ Cᵀ (n - 1) ≠ ⊤ := fun h1 => hr ((rank_eq_iff_range _).mpr h1)
    -- a nonzero vector orthogonal to a proper subspace
    obtain ⟨f, hf0, hf⟩ := Submodule.exists_le_ker_of_lt_top _ (lt_top_iff_ne_top.mpr hr')
    let x : Fin n → K := fun i => f (Pi.single i 1)
    have hfx : ∀ y, f y = y ⬝ᵥ x := fun y => by
      conv_lhs => rw [← Finset.univ_sum_single y]
      rw [map_sum, dotProduct]
      refine Finset.sum_congr rfl fun i _ => ?_
      rw [show (Pi.single i (y i) : Fin n → K) = y i • Pi.single i 1 by
        rw [← Pi.single_smul', smul_eq_mul, mul_one], map_smul, smul_eq_mul]
    have hx := h x ((hzero x).mpr fun y hy => by rw [← hfx]; exact hf hy)
    refine hf0 (LinearMap.ext fun y => ?_)
    rw [hfx, hx, dotProduct_zero]; rfl
  · intro hr x hx
    have h1 := (hzero x).mp hx
    have h2 := (rank_eq_iff_range _).mp hr
    refine dotProduct_eq_zero x fun y => ?_
    rw [dotProduct_comm]
    exact h1 y (by unfold krySpace; rw [h2]; trivial)

end

variable {K : Type} [Field K] [LinearOrder K] [IsStrictOrderedRing K] {n m p : ℕ}

theorem krylovW_pos (hm : 0 < m) (k : ℕ) : 0 < krylovW m k := by
  rw [krylovW_eq]; positivity

/-- What `is_kalman_controllable` computes. -/
theorem isKalmanControllable_eq {S : SvdNum K} {A : Matrix (Fin n) (Fin n) K} {B : Matrix (Fin n) (Fin m) K} {U s V}
    (h1 : S.svd (Arr.of (ctrbM A B (n - 1))) = (Arr.of U, s, Arr.of V)) (h2 : IsSvd (ctrbM A B (n - 1)) U s V) (hn : 0 < n)
    (hm : 0 < m) : controllabilityMatrix S (Arr.of A) (Arr.of B) =
      .ok (Arr.of (ctrbM A B (n - 1)), Arr.of U, countAbove (rankTol S.eps n (krylovW m (n - 1)) s) s) ∧
    isKalmanControllable S (Arr.of A) (Arr.of B) =
      .ok (if countAbove (rankTol S.eps n (krylovW m (n - 1)) s) s < n then false else true) := by
  have h : controllabilityMatrix S (Arr.of A) (Arr.of B) =
      .ok (Arr.of (ctrbM A B (n - 1)), Arr.of U, countAbove (rankTol S.eps n (krylovW m (n - 1)) s) s) := by
    unfold controllabilityMatrix checkAB
    rw [if_neg (by simp), if_neg (by simp)]
    simp only [bind, Except.bind, ctrbLoop_of, haroldsvd_eq h1 (svd_ne_nil h2 hn (krylovW_pos hm _))]
  refine ⟨h, ?_⟩
  unfold isKalmanControllable
  simp only [h, bind, Except.bind]

/-- What `is_kalman_observable` computes. -/
theorem isKalmanObservable_eq {S : SvdNum K} {A : Matrix (Fin n) (Fin n) K} {C : Matrix (Fin p) (Fin n) K} {U s V}
    (h1 : S.svd (Arr.of (obsvM A C (n - 1))) = (Arr.of U, s, Arr.of V)) (h2 : IsSvd (obsvM A C (n - 1)) U s V) (hn : 0 < n)
    (hp : 0 < p) : observabilityMatrix S (Arr.of A) (Arr.of C) =
      .ok (Arr.of (obsvM A C (n - 1)), Arr.of V, countAbove (rankTol S.eps (krylovW p (n - 1)) n s) s) ∧
    isKalmanObservable S (Arr.of A) (Arr.of C) =
      .ok (if countAbove (rankTol S.eps (krylovW p (n - 1)) n s) s < n then false else true) := by
  have h : observabilityMatrix S (Arr.of A) (Arr.of C) =
      .ok (Arr.of (obsvM A C (n - 1)), Arr.of V, countAbove (rankTol S.eps (krylovW p (n - 1)) n s) s) := by
    unfold observabilityMatrix checkAC
    rw [if_neg (by simp), if_neg (by simp)]
    simp only [bind, Except.bind, obsvLoop_of, haroldsvd_eq h1 (svd_ne_nil h2 (krylovW_pos hp _) hn)]
  refine ⟨h, ?_⟩
  unfold isKalmanObservable
  simp only [h, bind, Except.bind]

/-- **C48**: if the rank threshold separates the nonzero singular values of the controllability matrix from zero, the answer is `True`
exactly if every state is reached from the origin by some input sequence. -/
theorem C48_controllable {S : SvdNum K} (he : 0 ≤ S.eps) {A : Matrix (Fin n) (Fin n) K} {B : Matrix (Fin n) (Fin m) K}
    (h : SvdExact S (ctrbM A B (n - 1))) (hn : 0 < n) (hm : 0 < m) :
    ∃ t, isKalmanControllable S (Arr.of A) (Arr.of B) = .ok t ∧ (t = true ↔ Reachable A B) := by
  obtain ⟨U, s, V, h1, h2, h3⟩ := h
  refine ⟨_, (isKalmanControllable_eq h1 h2 hn hm).2, ?_⟩
  rw [countAbove_eq_rank he h2 h3, reachable_iff_rank]
  have := (ctrbM A B (n - 1)).rank_le_height
  split_ifs with h4
  · simp; omega
  · simp; omega

/-- **C48**: whatever the threshold, `True` is never wrong: every state is reached, in at most `n` steps. -/
theorem C48_sound {S : SvdNum K} (he : 0 ≤ S.eps) {A : Matrix (Fin n) (Fin n) K} {B : Matrix (Fin n) (Fin m) K}
    (h : SvdOk S (ctrbM A B (n - 1))) (hn : 0 < n) (hm : 0 < m) (ht : isKalmanControllable S (Arr.of A) (Arr.of B) = .ok true) :
    ∀ x, ∃ us, us.length = n ∧ finalState A B us = x := by
  obtain ⟨U, s, V, h1, h2⟩ := h
  rw [(isKalmanControllable_eq h1 h2 hn hm).2] at ht
  have h3 := countAbove_le_rank he h2
  have h4 := (ctrbM A B (n - 1)).rank_le_height
  have h5 : (ctrbM A B (n - 1)).rank = n := by
    by_contra h6
    rw [if_pos (by omega)] at ht
    simp at ht
  intro x
  obtain ⟨us, h6, h7⟩ := krylov_reached A B (n - 1) (x := x) (by unfold krySpace; rw [(rank_eq_iff_range _).mp h5]; trivial)
  exact ⟨us, by omega, h7⟩

/-- **C48**: the same for the observability test. -/
theorem C48_observable {S : SvdNum K} (he : 0 ≤ S.eps) {A : Matrix (Fin n) (Fin n) K} {C : Matrix (Fin p) (Fin n) K}
    (h : SvdExact S (obsvM A C (n - 1))) (hn : 0 < n) (hp : 0 < p) :
    ∃ t, isKalmanObservable S (Arr.of A) (Arr.of C) = .ok t ∧ (t = true ↔ Observable A C) := by
  obtain ⟨U, s, V, h1, h2, h3⟩ := h
  refine ⟨_, (isKalmanObservable_eq h1 h2 hn hp).2, ?_⟩
  rw [countAbove_eq_rank he h2 h3, observable_iff_rank]
  have := (obsvM A C (n - 1)).rank_le_width
  split_ifs with h4
  · simp; omega
  · simp; omega

/-- **C48**, duality: `(A, C)` passes the observability test exactly if `(A', C')` passes the controllability test. -/
theorem C48_dual {S : SvdNum K} (he : 0 ≤ S.eps) {A : Matrix (Fin n) (Fin n) K} {C : Matrix (Fin p) (Fin n) K}
    (h : SvdExact S (obsvM A C (n - 1))) (h' : SvdExact S (ctrbM Aᵀ Cᵀ (n - 1))) (hn : 0 < n) (hp : 0 < p) :
    isKalmanObservable S (Arr.of A) (Arr.of C) = isKalmanControllable S (Arr.of A).T (Arr.of C).T := by
  obtain ⟨t, h1, h2⟩ := C48_observable he h hn hp
  obtain ⟨t', h3, h4⟩ := C48_controllable he h' hn hp
  have e : Arr.T (Arr.of A) = Arr.of Aᵀ := rfl
  have e' : Arr.T (Arr.of C) = Arr.of Cᵀ := rfl
  rw [e, e', h1, h3]
  congr 1
  rw [Bool.eq_iff_iff, h2, h4, observable_iff_rank, reachable_iff_rank, ← rank_transpose (ctrbM Aᵀ Cᵀ (n - 1)), ctrbM_transpose,
    transpose_transpose, transpose_transpose]

/-- **C48**, invariance under state coordinate changes. -/
theorem C48_invariant {S : SvdNum K} (he : 0 ≤ S.eps) {A T : Matrix (Fin n) (Fin n) K} {B : Matrix (Fin n) (Fin m) K}
    (hT : IsUnit T.det) (h : SvdExact S (ctrbM A B (n - 1))) (h' : SvdExact S (ctrbM (T⁻¹ * A * T) (T⁻¹ * B) (n - 1)))
    (hn : 0 < n) (hm : 0 < m) :
    isKalmanControllable S (Arr.of (T⁻¹ * A * T)) (Arr.of (T⁻¹ * B)) = isKalmanControllable S (Arr.of A) (Arr.of B) := by
  obtain ⟨t, h1, h2⟩ := C48_controllable he h hn hm
  obtain ⟨t', h3, h4⟩ := C48_controllable he h' hn hm
  rw [h1, h3]
  congr 1
  rw [Bool.eq_iff_iff, h2, h4]
  refine ⟨fun h5 => ?_, reachable_similar hT⟩
  have h6 := reachable_similar (T := T⁻¹) (by rw [det_nonsing_inv]; exact hT.ringInverse) h5
  rw [nonsing_inv_nonsing_inv _ hT] at h6
  have e1 : T * (T⁻¹ * A * T) * T⁻¹ = A := by
    rw [Matrix.mul_assoc, Matrix.mul_assoc _ T, mul_nonsing_inv _ hT, Matrix.mul_one, ← Matrix.mul_assoc, mul_nonsing_inv _ hT,
      Matrix.one_mul]
  rwa [e1, ← Matrix.mul_assoc, mul_nonsing_inv _ hT, Matrix.one_mul] at h6

/-- A model without states (a static gain) or without inputs makes the test raise. -/
theorem C48_static_raises {S : SvdNum K} {A : Matrix (Fin n) (Fin n) K} {B : Matrix (Fin n) (Fin m) K}
    (h : SvdOk S (ctrbM A B (n - 1))) (h0 : n = 0 ∨ m = 0) : isKalmanControllable S (Arr.of A) (Arr.of B) = .error .value := by
  obtain ⟨U, s, V, h1, h2⟩ := h
  have hs : s = [] := by
    rw [← List.length_eq_zero_iff, h2.len]
    rcases h0 with rfl | rfl
    · simp
    · simp [krylovW_eq]
  unfold isKalmanControllable controllabilityMatrix checkAB
  rw [if_neg (by simp), if_neg (by simp)]
  simp only [bind, Except.bind, ctrbLoop_of, haroldsvd, h1, hs, if_true]

/-- The contract is met: with exact numerics the tests decide for all real matrices. -/
example : ∃ S : SvdNum ℝ, 0 ≤ S.eps ∧ ∀ (A : Matrix (Fin 2) (Fin 2) ℝ) (B : Matrix (Fin 2) (Fin 1) ℝ),
    ∃ t, isKalmanControllable S (Arr.of A) (Arr.of B) = .ok t ∧ (t = true ↔ Reachable A B) := by
  obtain ⟨S, h1, h2⟩ := exists_svdNum
  exact ⟨S, h1.ge, fun A B => C48_controllable h1.ge (h2 _) (by norm_num) (by norm_num)⟩

end Harold
