import Verif.Spec.KalmanArg
import Verif.Props.KalmanDecomp

/-!
# C77: `controllability_matrix` and `observability_matrix`
-/

namespace Harold

open Matrix Spec

section
variable {K : Type} [Field K] {n m p q : ℕ}

theorem isCtrb_aux (A : Matrix (Fin n) (Fin n) K) (B : Matrix (Fin n) (Fin m) K) (N : ℕ) (k : ℕ) (i : Fin n) (j : Fin m)
    (l : Fin (krylovW m N)) (h : (l : ℕ) = k * m + j) : ctrbM A B N i l = (A ^ k * B) i j := by
  induction N with
  | zero =>
    have hk : k = 0 := by
      rcases Nat.eq_zero_or_pos k with h0 | h0
      · exact h0
      · have h1 : (l : ℕ) < m := l.2
        have : m ≤ k * m := Nat.le_mul_of_pos_left m h0
        omega
    subst hk
    rw [pow_zero, Matrix.one_mul]
    show B i l = B i j
    congr 1
    exact Fin.ext (by simpa using h)
  | succ N ih =>
    show hcat (ctrbM A B N) (A ^ (N + 1) * B) i l = _
    induction l using Fin.addCases with
    | left l' =>
      have := ih l' (by simpa using h)
      rw [← this]
      simp [hcat]
    | right l' =>
      have hw := krylovW_eq m N
      simp only [Fin.val_natAdd] at h
      have hk : k = N + 1 := by
        rw [hw] at h
        have h1 := l'.2
        have h2 := j.2
        rcases lt_trichotomy k (N + 1) with h3 | h3 | h3
        · have : (k + 1) * m ≤ (N + 1) * m := Nat.mul_le_mul_right m h3
          rw [Nat.add_mul, Nat.one_mul] at this
          omega
        · exact h3
        · have : (N + 1 + 1) * m ≤ k * m := Nat.mul_le_mul_right m h3
          rw [Nat.add_mul (N + 1), Nat.one_mul] at this
          omega
      subst hk
      have : l' = j := Fin.ext (by rw [hw] at h; omega)
      subst this
      simp [hcat]

theorem isCtrb_ctrbM (A : Matrix (Fin n) (Fin n) K) (B : Matrix (Fin n) (Fin m) K) (hn : 0 < n) : IsCtrb A B (ctrbM A B (n - 1)) := by
  refine ⟨?_, fun k i j l h => isCtrb_aux A B _ k i j l h⟩
  rw [krylovW_eq]
  congr 1
  omega

theorem isObsv_obsvM (A : Matrix (Fin n) (Fin n) K) (C : Matrix (Fin p) (Fin n) K) (hn : 0 < n) : IsObsv A C (obsvM A C (n - 1)) := by
  have e : obsvM A C (n - 1) = (ctrbM Aᵀ Cᵀ (n - 1))ᵀ := by
    rw [ctrbM_transpose, transpose_transpose, transpose_transpose]
  obtain ⟨h1, h2⟩ := isCtrb_ctrbM Aᵀ Cᵀ hn
  refine ⟨h1, fun k i j l h => ?_⟩
  rw [e, transpose_apply, h2 k j i l h, ← transpose_pow, ← transpose_mul, transpose_apply]

/-- A state gives the zero output exactly if the observability matrix maps it to zero. -/
theorem unobservable_iff (A : Matrix (Fin n) (Fin n) K) (C : Matrix (Fin p) (Fin n) K) (x : Fin n → K) :
    (∀ k : ℕ, C *ᵥ ((A ^ k) *ᵥ x) = 0) ↔ obsvM A C (n - 1) *ᵥ x = 0 := by
  have e : obsvM A C (n - 1) = (ctrbM Aᵀ Cᵀ (n - 1))ᵀ := by
    rw [ctrbM_transpose, transpose_transpose, transpose_transpose]
  have e1 : ∀ (k : ℕ) (u : Fin p → K), ((Aᵀ ^ k * Cᵀ) *ᵥ u) ⬝ᵥ x = u ⬝ᵥ (C *ᵥ ((A ^ k) *ᵥ x)) := by
    intro k u
    rw [← transpose_pow, ← transpose_mul, mulVec_transpose, ← dotProduct_mulVec, mulVec_mulVec]
  have e2 : obsvM A C (n - 1) *ᵥ x = 0 ↔ ∀ y ∈ krySpace Aᵀ Cᵀ (n - 1), y ⬝ᵥ x = 0 := by
    rw [e]
    constructor
    · rintro h _ ⟨u, rfl⟩
      rw [mulVecLin_apply, dotProduct_comm, dotProduct_mulVec, ← mulVec_transpose, h, zero_dotProduct]
    · intro h
      refine dotProduct_eq_zero _ fun u => ?_
      rw [mulVec_transpose, ← dotProduct_mulVec, dotProduct_comm]
      exact h _ ⟨u, rfl⟩
  rw [e2]
  constructor
  · intro h
    let W : Submodule K (Fin n → K) :=
      { carrier := {y | y ⬝ᵥ x = 0}
        add_mem' := fun {a b} ha hb => by simp only [Set.mem_setOf_eq] at *; rw [add_dotProduct, ha, hb, add_zero]
        zero_mem' := by simp
        smul_mem' := fun c y hy => by simp only [Set.mem_setOf_eq] at *; rw [smul_dotProduct, hy, smul_zero] }
    have : krySpace Aᵀ Cᵀ (n - 1) ≤ W := krylov_le fun i _ u => by
      show _ ⬝ᵥ x = 0
      rw [e1, h i, dotProduct_zero]
    exact fun y hy => this hy
  · intro h k
    refine dotProduct_eq_zero _ fun u => ?_
    rw [dotProduct_comm, ← e1]
    exact h _ (pow_mem_krylov _ _ k u)

theorem reached_iff (A : Matrix (Fin n) (Fin n) K) (B : Matrix (Fin n) (Fin m) K) (x : Fin n → K) :
    (∃ us, finalState A B us = x) ↔ x ∈ krySpace A B (n - 1) :=
  ⟨fun ⟨us, h⟩ => h ▸ finalState_mem A B us, fun h => (krylov_reached A B _ h).imp fun _ h => h.2⟩

end

variable {K : Type} [Field K] [LinearOrder K] [IsStrictOrderedRing K] {n m p q : ℕ} {S : SvdNum K}

/-- Descending singular values: the first `rank` ones are nonzero, the others zero. -/
theorem singular_split {M : Matrix (Fin p) (Fin m) K} {U : Matrix (Fin p) (Fin p) K} {s : List K} {V : Matrix (Fin m) (Fin m) K}
    (h : IsSvd M U s V) (i : ℕ) : i < M.rank ↔ s.getD i 0 ≠ 0 := by
  rw [svd_rank h]
  have hdesc := h.desc
  have hnn := h.nonneg
  clear h
  induction s generalizing i with
  | nil => simp
  | cons a l ih =>
    rw [List.pairwise_cons] at hdesc
    have ih' := fun i => ih i hdesc.2 fun t ht => hnn t (by simp [ht])
    by_cases ha : a = 0
    · have hl : ∀ t ∈ l, t = 0 := fun t ht => le_antisymm (ha ▸ hdesc.1 t ht) (hnn t (by simp [ht]))
      have hf : (l.filter fun t => decide (t ≠ 0)) = [] := by
        rw [List.filter_eq_nil_iff]; intro t ht; simp [hl t ht]
      cases i with
      | zero => simp only [List.filter_cons, ha, hf]; simp
      | succ i =>
        have := ih' i
        simp only [hf, List.length_nil, not_lt_zero, false_iff] at this
        simp only [List.filter_cons, ha, hf]
        simpa using this
    · cases i with
      | zero => simp [List.filter_cons, ha]
      | succ i =>
        have := ih' i
        simp only [List.filter_cons, ha, ne_eq, not_false_eq_true, decide_true, if_true, List.length_cons, List.getD_cons_succ]
        simp only [ne_eq] at this
        exact Nat.add_lt_add_iff_right.trans this

/-- The range of a matrix in the coordinates of its left singular vectors. -/
theorem svd_range {M : Matrix (Fin p) (Fin m) K} {U : Matrix (Fin p) (Fin p) K} {s : List K} {V : Matrix (Fin m) (Fin m) K}
    (h : IsSvd M U s V) (x : Fin p → K) : x ∈ LinearMap.range M.mulVecLin ↔ ∀ i : Fin p, M.rank ≤ i → (Uᵀ *ᵥ x) i = 0 := by
  constructor
  · rintro ⟨u, rfl⟩ i hi
    have e1 : Uᵀ *ᵥ (M.mulVecLin u) = diagRect p m s *ᵥ (V *ᵥ u) := by
      rw [mulVecLin_apply]
      conv_lhs => rw [h.eq]
      rw [mulVec_mulVec, mulVec_mulVec, ← Matrix.mul_assoc, ← Matrix.mul_assoc, h.u_orth, Matrix.one_mul]
    have h0 : s.getD i 0 = 0 := by
      by_contra h0
      exact absurd ((singular_split h i).mpr h0) (not_lt.mpr hi)
    rw [e1]
    simp only [mulVec, dotProduct, diagRect, Matrix.of_apply, h0, ite_self, zero_mul, Finset.sum_const_zero]
  · intro hx
    have hUU : U * Uᵀ = 1 := mul_eq_one_comm.mp h.u_orth
    let w : Fin m → K := fun j => if hj : (j : ℕ) < p then (s.getD j 0)⁻¹ * (Uᵀ *ᵥ x) ⟨j, hj⟩ else 0
    refine ⟨Vᵀ *ᵥ w, ?_⟩
    rw [mulVecLin_apply]
    conv_lhs => rw [h.eq]
    rw [mulVec_mulVec, Matrix.mul_assoc, h.v_orth, Matrix.mul_one, ← mulVec_mulVec]
    have e : diagRect p m s *ᵥ w = Uᵀ *ᵥ x := by
      ext i
      rcases Nat.lt_or_ge i M.rank with hi | hi
      · have h0 := (singular_split h i).mp hi
        have him : (i : ℕ) < m := lt_of_lt_of_le hi (M.rank_le_width)
        rw [mulVec, dotProduct, Finset.sum_eq_single ⟨i, him⟩]
        · simp only [diagRect, Matrix.of_apply, if_true, w]
          rw [dif_pos i.2, ← mul_assoc, mul_inv_cancel₀ h0, one_mul]
        · intro j _ hj
          simp only [diagRect, Matrix.of_apply]
          rw [if_neg (fun h => hj (Fin.ext h.symm)), zero_mul]
        · simp
      · have h0 : s.getD i 0 = 0 := by
          by_contra h0
          exact absurd ((singular_split h i).mpr h0) (not_lt.mpr hi)
        rw [hx i hi]
        simp only [mulVec, dotProduct, diagRect, Matrix.of_apply, h0, ite_self, zero_mul, Finset.sum_const_zero]
    rw [e, mulVec_mulVec, hUU, one_mulVec]

/-- The kernel of a matrix in the coordinates of its right singular vectors. -/
theorem svd_kernel {M : Matrix (Fin p) (Fin m) K} {U : Matrix (Fin p) (Fin p) K} {s : List K} {V : Matrix (Fin m) (Fin m) K}
    (h : IsSvd M U s V) (x : Fin m → K) : M *ᵥ x = 0 ↔ ∀ j : Fin m, (j : ℕ) < M.rank → (V *ᵥ x) j = 0 := by
  have e1 : Uᵀ *ᵥ (M *ᵥ x) = diagRect p m s *ᵥ (V *ᵥ x) := by
    conv_lhs => rw [h.eq]
    rw [mulVec_mulVec, mulVec_mulVec, ← Matrix.mul_assoc, ← Matrix.mul_assoc, h.u_orth, Matrix.one_mul]
  constructor
  · intro h0 j hj
    rw [h0, mulVec_zero] at e1
    have hs := (singular_split h j).mp hj
    have hjp : (j : ℕ) < p := lt_of_lt_of_le hj (M.rank_le_height)
    have := congrFun e1 ⟨j, hjp⟩
    rw [mulVec, dotProduct, Finset.sum_eq_single j] at this
    · simp only [diagRect, Matrix.of_apply, if_true, Pi.zero_apply] at this
      exact (mul_eq_zero.mp this.symm).resolve_left hs
    · intro i _ hi
      simp only [diagRect, Matrix.of_apply]
      rw [if_neg (fun h => hi (Fin.ext h.symm)), zero_mul]
    · simp
  · intro h0
    have hUU : U * Uᵀ = 1 := mul_eq_one_comm.mp h.u_orth
    have e2 : diagRect p m s *ᵥ (V *ᵥ x) = 0 := by
      ext i
      rw [mulVec, dotProduct]
      refine Finset.sum_eq_zero fun j _ => ?_
      simp only [diagRect, Matrix.of_apply]
      split_ifs with hij
      · rcases Nat.lt_or_ge j M.rank with hj | hj
        · rw [h0 j hj, mul_zero]
        · have : s.getD i 0 = 0 := by
            by_contra hs
            exact absurd ((singular_split h i).mpr hs) (by omega)
          rw [this, zero_mul]
      · rw [zero_mul]
    rw [e2] at e1
    have := congrArg (fun y => U *ᵥ y) e1
    simpa only [mulVec_mulVec, hUU, one_mulVec, mulVec_zero, ← Matrix.mul_assoc, Matrix.one_mul] using this

theorem diagRect_row {M : Matrix (Fin p) (Fin m) K} {U : Matrix (Fin p) (Fin p) K} {s : List K} {V : Matrix (Fin m) (Fin m) K}
    (h : IsSvd M U s V) {i : Fin p} (hi : M.rank ≤ i) (j : Fin m) : diagRect p m s i j = 0 := by
  have h0 : s.getD i 0 = 0 := by
    by_contra h0
    exact absurd ((singular_split h i).mpr h0) (not_lt.mpr hi)
  rw [diagRect, Matrix.of_apply, h0, ite_self]

theorem diagRect_col {M : Matrix (Fin p) (Fin m) K} {U : Matrix (Fin p) (Fin p) K} {s : List K} {V : Matrix (Fin m) (Fin m) K}
    (h : IsSvd M U s V) (i : Fin p) {j : Fin m} (hj : M.rank ≤ j) : diagRect p m s i j = 0 := by
  by_cases hij : (i : ℕ) = j
  · exact diagRect_row h (by omega) j
  · simp [diagRect, hij]

theorem ab_of {A : Matrix (Fin n) (Fin n) K} {B : Matrix (Fin n) (Fin m) K} {G : ModelArg K} (h : GivesAB A B G) :
    G.ab = .ok (Arr.of A, Arr.of B) := by
  cases h with
  | state G h1 h2 => simp [ModelArg.ab, h1, h2]
  | tuple l => simp [ModelArg.ab, checkAB, bind, Except.bind]

theorem ac_of {A : Matrix (Fin n) (Fin n) K} {C : Matrix (Fin p) (Fin n) K} {G : ModelArg K} (h : GivesAC A C G) :
    G.ac = .ok (Arr.of A, Arr.of C) := by
  cases h with
  | state G h1 h2 => simp [ModelArg.ac, h1, h2]
  | tuple l => simp [ModelArg.ac, checkAC, bind, Except.bind]

/-- **C77**: `Cc, T, r = controllability_matrix(G)` for a `State` or a tuple: `Cc` is `[B, AB, ..., A^(n-1) B]`,
`T` is orthogonal, the rows of `Tᵀ Cc` from the `r`-th on are zero, and the first `r` columns of `T` span the
states that are reached from the origin. -/
theorem C77_controllability (he : 0 ≤ S.eps) {A : Matrix (Fin n) (Fin n) K} {B : Matrix (Fin n) (Fin m) K} {G : ModelArg K}
    (hG : GivesAB A B G) (hS : ∀ (k : ℕ) (M : Matrix (Fin n) (Fin k) K), SvdExact S M) (hn : 0 < n) (hm : 0 < m) :
    ∃ (q : ℕ) (Cc : Matrix (Fin n) (Fin q) K) (T : Matrix (Fin n) (Fin n) K) (r : ℕ),
      controllabilityMatrixArg S G false = .ok (Arr.of Cc, Arr.of T, r) ∧ IsCtrb A B Cc ∧ Tᵀ * T = 1 ∧ r = Cc.rank ∧
      (∀ (i : Fin n) j, r ≤ i → (Tᵀ * Cc) i j = 0) ∧
      ∀ x, (∃ us, finalState A B us = x) ↔ ∀ i : Fin n, r ≤ i → (Tᵀ *ᵥ x) i = 0 := by
  obtain ⟨U, s, V, h1, h2, h3⟩ := hS _ (ctrbM A B (n - 1))
  have hr := countAbove_eq_rank he h2 h3
  refine ⟨_, ctrbM A B (n - 1), U, (ctrbM A B (n - 1)).rank, ?_, isCtrb_ctrbM A B hn, h2.u_orth, rfl, fun i j hi => ?_, fun x => ?_⟩
  · unfold controllabilityMatrixArg ctrbReturn
    simp only [ab_of hG, bind, Except.bind, ctrbLoop_of, haroldsvd_eq h1 (svd_ne_nil h2 hn (krylovW_pos hm _)), hr, Bool.false_eq_true,
      if_false]
  · have e : Uᵀ * ctrbM A B (n - 1) = diagRect n (krylovW m (n - 1)) s * V := by
      conv_lhs => rw [h2.eq]
      rw [← Matrix.mul_assoc, ← Matrix.mul_assoc, h2.u_orth, Matrix.one_mul]
    rw [e, Matrix.mul_apply]
    exact Finset.sum_eq_zero fun k _ => by rw [diagRect_row h2 hi, zero_mul]
  · rw [reached_iff]
    exact svd_range h2 x

/-- **C77**, `compress=True`: `T` and `r` are the same as without, and the rows of the returned matrix from the
`r`-th on are zero. `_partial`: the returned matrix should be `Tᵀ Cc`, see `C77_compress_violated`. -/
theorem C77_compress_partial (he : 0 ≤ S.eps) {A : Matrix (Fin n) (Fin n) K} {B : Matrix (Fin n) (Fin m) K} {G : ModelArg K}
    (hG : GivesAB A B G) (hS : ∀ (k : ℕ) (M : Matrix (Fin n) (Fin k) K), SvdExact S M) (hn : 0 < n) (hm : 0 < m) :
    ∃ (q : ℕ) (Cc M : Matrix (Fin n) (Fin q) K) (T : Matrix (Fin n) (Fin n) K) (r : ℕ),
      controllabilityMatrixArg S G false = .ok (Arr.of Cc, Arr.of T, r) ∧
      controllabilityMatrixArg S G true = .ok (Arr.of M, Arr.of T, r) ∧
      (∀ (i : Fin n) j, r ≤ i → M i j = 0) ∧ M * Mᵀ = (Tᵀ * Cc) * (Tᵀ * Cc)ᵀ := by
  obtain ⟨U, s, V, h1, h2, h3⟩ := hS _ (ctrbM A B (n - 1))
  have hr := countAbove_eq_rank he h2 h3
  have hV : Vᵀ * V = 1 := mul_eq_one_comm.mp h2.v_orth
  refine ⟨_, ctrbM A B (n - 1), diagRect n (krylovW m (n - 1)) s * Vᵀ, U, (ctrbM A B (n - 1)).rank, ?_, ?_, fun i j hi => ?_, ?_⟩
  · unfold controllabilityMatrixArg ctrbReturn
    simp only [ab_of hG, bind, Except.bind, ctrbLoop_of, haroldsvd_eq h1 (svd_ne_nil h2 hn (krylovW_pos hm _)), hr, Bool.false_eq_true,
      if_false]
  · unfold controllabilityMatrixArg ctrbReturn
    simp only [ab_of hG, bind, Except.bind, ctrbLoop_of, haroldsvd_eq h1 (svd_ne_nil h2 hn (krylovW_pos hm _)), hr, if_true, Arr.T_of,
      Arr.matmul_of]
  · rw [Matrix.mul_apply]
    exact Finset.sum_eq_zero fun k _ => by rw [diagRect_row h2 hi, zero_mul]
  · have e : Uᵀ * ctrbM A B (n - 1) = diagRect n (krylovW m (n - 1)) s * V := by
      conv_lhs => rw [h2.eq]
      rw [← Matrix.mul_assoc, ← Matrix.mul_assoc, h2.u_orth, Matrix.one_mul]
    rw [e, transpose_mul, transpose_mul, transpose_transpose, Matrix.mul_assoc, ← Matrix.mul_assoc Vᵀ, hV, Matrix.one_mul, Matrix.mul_assoc,
      ← Matrix.mul_assoc V, h2.v_orth, Matrix.one_mul]

/-- **C77**: `Co, T, r = observability_matrix(G)`: `Co` is the block column of `C, CA, ..., CA^(n-1)` and `r` its
rank, `T` is orthogonal. With `compress=True` the matrix `M` in place of `Co` is `Co T'` with an orthogonal `T'`,
its columns from the `r`-th on are zero, and the last `n - r` columns of `T'` span the states that give the zero output.
`_partial`: without `compress` the transformation returned is `T'ᵀ` in place of `T'`, see `C77_transposed_violated`. -/
theorem C77_observability_partial (he : 0 ≤ S.eps) {A : Matrix (Fin n) (Fin n) K} {C : Matrix (Fin p) (Fin n) K} {G : ModelArg K}
    (hG : GivesAC A C G) (hS : ∀ (k : ℕ) (M : Matrix (Fin k) (Fin n) K), SvdExact S M) (hn : 0 < n) (hp : 0 < p) :
    ∃ (q : ℕ) (Co M : Matrix (Fin q) (Fin n) K) (T' : Matrix (Fin n) (Fin n) K) (r : ℕ),
      observabilityMatrixArg S G false = .ok (Arr.of Co, Arr.of T'ᵀ, r) ∧
      observabilityMatrixArg S G true = .ok (Arr.of M, Arr.of T', r) ∧ IsObsv A C Co ∧ T'ᵀ * T' = 1 ∧ r = Co.rank ∧ M = Co * T' ∧
      (∀ i (j : Fin n), r ≤ j → M i j = 0) ∧
      ∀ x, (∀ k : ℕ, C *ᵥ ((A ^ k) *ᵥ x) = 0) ↔ ∀ j : Fin n, (j : ℕ) < r → (T'ᵀ *ᵥ x) j = 0 := by
  obtain ⟨U, s, V, h1, h2, h3⟩ := hS _ (obsvM A C (n - 1))
  have hr := countAbove_eq_rank he h2 h3
  have hV : Vᵀ * V = 1 := mul_eq_one_comm.mp h2.v_orth
  have hM : U * diagRect (krylovW p (n - 1)) n s = obsvM A C (n - 1) * Vᵀ := by
    conv_rhs => rw [h2.eq]
    rw [Matrix.mul_assoc _ V, h2.v_orth, Matrix.mul_one]
  refine ⟨_, obsvM A C (n - 1), U * diagRect (krylovW p (n - 1)) n s, Vᵀ, (obsvM A C (n - 1)).rank, ?_, ?_, isObsv_obsvM A C hn, ?_, rfl, hM,
    fun i j hj => ?_, fun x => ?_⟩
  · unfold observabilityMatrixArg obsvReturn
    simp only [ac_of hG, bind, Except.bind, obsvLoop_of, haroldsvd_eq h1 (svd_ne_nil h2 (krylovW_pos hp _) hn), hr, Bool.false_eq_true,
      if_false, transpose_transpose]
  · unfold observabilityMatrixArg obsvReturn
    simp only [ac_of hG, bind, Except.bind, obsvLoop_of, haroldsvd_eq h1 (svd_ne_nil h2 (krylovW_pos hp _) hn), hr, if_true, Arr.T_of,
      Arr.matmul_of]
  · rw [transpose_transpose, h2.v_orth]
  · rw [Matrix.mul_apply]
    exact Finset.sum_eq_zero fun k _ => by rw [diagRect_col h2 k hj, mul_zero]
  · rw [unobservable_iff, transpose_transpose]
    exact svd_kernel h2 x

/-- **C77**: `is_kalman_controllable` and `is_kalman_observable` decide for a `State` and for a tuple whether all states are
reached, and whether only the zero state gives the zero output. -/
theorem C77_tests (he : 0 ≤ S.eps) {A : Matrix (Fin n) (Fin n) K} {B : Matrix (Fin n) (Fin m) K} {C : Matrix (Fin p) (Fin n) K}
    (hS : ∀ (k l : ℕ) (M : Matrix (Fin k) (Fin l) K), SvdExact S M) (hn : 0 < n) (hm : 0 < m) (hp : 0 < p) {G H : ModelArg K}
    (hG : GivesAB A B G) (hH : GivesAC A C H) :
    (∃ t, isKalmanControllableArg S G = .ok t ∧ (t = true ↔ Reachable A B)) ∧
    ∃ t, isKalmanObservableArg S H = .ok t ∧ (t = true ↔ Observable A C) := by
  constructor
  · obtain ⟨q, Cc, T, r, h1, -, hT, -, -, h5⟩ := C77_controllability (n := n) he (GivesAB.tuple (A := A) (B := B) []) (fun k M => hS _ _ M) hn hm
    refine ⟨_, by unfold isKalmanControllableArg; simp only [ab_of hG, bind, Except.bind, h1]; rfl, ?_⟩
    have hr : (¬ r < n) ↔ Reachable A B := by
      constructor
      · intro h x
        exact (h5 x).mpr fun i hi => absurd i.2 (by omega)
      · intro h hr
        have h6 := (h5 (fun i => T i ⟨r, hr⟩)).mp (h _) ⟨r, hr⟩ le_rfl
        have h7 : (Tᵀ * T) ⟨r, hr⟩ ⟨r, hr⟩ = 0 := h6
        rw [hT] at h7
        simp at h7
    rw [← hr]
    split_ifs with h <;> simp_all
  · obtain ⟨q, Co, M, T, r, h1, -, -, hT, -, -, -, h5⟩ :=
      C77_observability_partial (n := n) he (GivesAC.tuple (A := A) (C := C) []) (fun k M => hS _ _ M) hn hp
    refine ⟨_, by unfold isKalmanObservableArg; simp only [ac_of hH, bind, Except.bind, h1]; rfl, ?_⟩
    have hr : (¬ r < n) ↔ Observable A C := by
      have hT' : T * Tᵀ = 1 := mul_eq_one_comm.mp hT
      constructor
      · intro h x hx
        have h6 := (h5 x).mp hx
        have h7 : Tᵀ *ᵥ x = 0 := by
          ext j
          exact h6 j (by omega)
        have := congrArg (fun y => T *ᵥ y) h7
        simpa only [mulVec_mulVec, hT', one_mulVec, mulVec_zero] using this
      · intro h hr
        have h6 := h (fun i => T i ⟨r, hr⟩) ((h5 _).mpr fun j hj => by
          show (Tᵀ * T) j ⟨r, hr⟩ = 0
          rw [hT, Matrix.one_apply_ne (fun h => by rw [h] at hj; exact lt_irrefl _ hj)])
        have h7 : (Tᵀ * T) ⟨r, hr⟩ ⟨r, hr⟩ = 0 := by
          show (Tᵀ *ᵥ fun i => T i ⟨r, hr⟩) ⟨r, hr⟩ = 0
          rw [h6, mulVec_zero]; rfl
        rw [hT] at h7
        simp at h7
    rw [← hr]
    split_ifs with h <;> simp_all

/-- **C77**: what is rejected. Things other than `State` models and tuples raise `ValueError`, a first array that is not
square `LinAlgError`, and for `controllability_matrix` a second array with another number of rows `ValueError`.
`_partial`: for `observability_matrix` see `C77_message_violated`. -/
theorem C77_rejects_partial (c : Bool) :
    controllabilityMatrixArg S .other c = .error .value ∧ observabilityMatrixArg S .other c = .error .value ∧
    (∀ (a b : Arr K) l, a.r ≠ a.c → controllabilityMatrixArg S (.tuple (a :: b :: l)) c = .error .linAlg ∧
      observabilityMatrixArg S (.tuple (a :: b :: l)) c = .error .linAlg) ∧
    ∀ (a b : Arr K) l, a.r = a.c → b.r ≠ a.r → controllabilityMatrixArg S (.tuple (a :: b :: l)) c = .error .value := by
  refine ⟨rfl, rfl, fun a b l h => ⟨?_, ?_⟩, fun a b l h h' => ?_⟩
  · simp [controllabilityMatrixArg, ModelArg.ab, checkAB, h, bind, Except.bind]
  · simp [observabilityMatrixArg, ModelArg.ac, checkAC, h, bind, Except.bind]
  · have h2 : ¬ b.r = a.c := fun e => h' (e.trans h.symm)
    simp [controllabilityMatrixArg, ModelArg.ab, checkAB, h, h2, bind, Except.bind]

/-- **C77 violated**: `observability_matrix((A, C))` with a square `A` and a `C` with another number of columns raises
`UnboundLocalError` in place of the intended `ValueError`: the message of the error uses a name that is not defined in
that branch. -/
theorem C77_message_violated (c : Bool) (a b : Arr K) (l : List (Arr K)) (h : a.r = a.c) (h' : b.c ≠ a.r) :
    observabilityMatrixArg S (.tuple (a :: b :: l)) c = .error .unboundLocal := by
  have h2 : ¬ b.c = a.c := fun e => h' (e.trans h.symm)
  simp [observabilityMatrixArg, ModelArg.ac, checkAC, h, h2, bind, Except.bind]

/-- **C77 violated**: without `compress` the transformation returned by `observability_matrix` does not compress. For
`A = 3/4 I`, `C = [3/5, 4/5]` the rank is one, but no column of `Co T` is zero. -/
theorem C77_transposed_violated :
    ∃ (Co T : Matrix (Fin 2) (Fin 2) ℚ), SvdExact svdObs Co ∧
      observabilityMatrixArg svdObs (.tuple [Arr.of !![3 / 4, 0; 0, 3 / 4], Arr.of !![3 / 5, 4 / 5]]) false = .ok (Arr.of Co, Arr.of T, 1) ∧
      Co.rank = 1 ∧ ∀ i j, (Co * T) i j ≠ 0 := by
  obtain ⟨U, s, V, h1, h2, h3⟩ := svdObs_exact2
  have hr := countAbove_eq_rank (S := svdObs) le_rfl h2 h3
  have e : (Arr.of !![4 / 5, -3 / 5; 3 / 5, 4 / 5], [5 / 4, 0], Arr.of !![3 / 5, 4 / 5; -4 / 5, 3 / 5]) = (Arr.of U, s, Arr.of V) := h1
  simp only [Prod.mk.injEq, Arr.of_inj] at e
  obtain ⟨rfl, rfl, rfl⟩ := e
  have h5 : countAbove (rankTol svdObs.eps 2 2 [5 / 4, 0]) [5 / 4, 0] = 1 := by
    norm_num [countAbove, rankTol, svdObs]
  refine ⟨!![3 / 5, 4 / 5; 9 / 20, 3 / 5], !![3 / 5, 4 / 5; -4 / 5, 3 / 5], svdObs_exact2, ?_, hr.symm.trans h5, ?_⟩
  · unfold observabilityMatrixArg obsvReturn
    simp only [ac_of (GivesAC.tuple []), bind, Except.bind, obsvLoop_of, svdObs_obsv]
    have := haroldsvd_eq h1 (by simp)
    rw [h5] at this
    erw [this]
    simp only [Bool.false_eq_true, if_false]
    rfl
  · intro i j
    fin_cases i <;> fin_cases j <;> simp [Matrix.mul_apply, Fin.sum_univ_two] <;> norm_num

/-- A backend that is exact on the matrix of the next theorem. -/
def svdCtrb : SvdNum ℚ := ⟨fun _ => (Arr.of !![3 / 5, -4 / 5; 4 / 5, 3 / 5], [5 / 4, 0], Arr.of !![4 / 5, 3 / 5; -3 / 5, 4 / 5]), 0⟩

theorem svdCtrb_exact : SvdExact svdCtrb (!![3 / 5, 9 / 20; 4 / 5, 3 / 5] : Matrix (Fin 2) (Fin 2) ℚ) := by
  refine ⟨!![3 / 5, -4 / 5; 4 / 5, 3 / 5], [5 / 4, 0], !![4 / 5, 3 / 5; -3 / 5, 4 / 5], rfl, ⟨?_, ?_, rfl, ?_, ?_, ?_⟩, ?_⟩
  · ext i j; fin_cases i <;> fin_cases j <;> simp [Matrix.mul_apply, Fin.sum_univ_two] <;> norm_num
  · ext i j; fin_cases i <;> fin_cases j <;> simp [Matrix.mul_apply, Fin.sum_univ_two] <;> norm_num
  · intro t ht; simp at ht; rcases ht with rfl | rfl <;> norm_num
  · simp; norm_num
  · ext i j
    fin_cases i <;> fin_cases j <;> simp [Matrix.mul_apply, Fin.sum_univ_two, diagRect, vecHead, vecTail] <;> norm_num
  · intro t ht h0; simp at ht; rcases ht with rfl | rfl
    · simp [rankTol, svdCtrb]
    · exact absurd rfl h0

/-- **C77 violated**: the matrix returned by `controllability_matrix` with `compress=True` is not `Tᵀ Cc`. For `A = 3/4 I`,
`B = [3/5, 4/5]ᵀ` it is `[[1, -3/4], [0, 0]]`, while `Tᵀ Cc` is `[[1, 3/4], [0, 0]]`: the right factor of the decomposition is
transposed. -/
theorem C77_compress_violated :
    ∃ (Cc T : Matrix (Fin 2) (Fin 2) ℚ), SvdExact svdCtrb Cc ∧
      controllabilityMatrixArg svdCtrb (.tuple [Arr.of !![3 / 4, 0; 0, 3 / 4], Arr.of !![3 / 5; 4 / 5]]) false = .ok (Arr.of Cc, Arr.of T, 1) ∧
      controllabilityMatrixArg svdCtrb (.tuple [Arr.of !![3 / 4, 0; 0, 3 / 4], Arr.of !![3 / 5; 4 / 5]]) true =
        .ok (Arr.of !![1, -3 / 4; 0, 0], Arr.of T, 1) ∧
      Tᵀ * Cc = !![1, 3 / 4; 0, 0] := by
  obtain ⟨U, s, V, h1, h2, h3⟩ := svdCtrb_exact
  have e : (Arr.of !![3 / 5, -4 / 5; 4 / 5, 3 / 5], [5 / 4, 0], Arr.of !![4 / 5, 3 / 5; -3 / 5, 4 / 5]) = (Arr.of U, s, Arr.of V) := h1
  simp only [Prod.mk.injEq, Arr.of_inj] at e
  obtain ⟨rfl, rfl, rfl⟩ := e
  have h5 : countAbove (rankTol svdCtrb.eps 2 2 [5 / 4, 0]) [5 / 4, 0] = 1 := by
    norm_num [countAbove, rankTol, svdCtrb]
  have h6 : ctrbM (!![3 / 4, 0; 0, 3 / 4] : Matrix (Fin 2) (Fin 2) ℚ) !![3 / 5; 4 / 5] (2 - 1) =
      (!![3 / 5, 9 / 20; 4 / 5, 3 / 5] : Matrix (Fin 2) (Fin 2) ℚ) := by
    show hcat _ _ = _
    refine Matrix.ext fun i j => ?_
    induction j using Fin.addCases with
    | left j => fin_cases j; fin_cases i <;> simp [hcat, ctrbM, krylovW] <;> rfl
    | right j => fin_cases j; fin_cases i <;> simp [hcat, ctrbM, krylovW, Matrix.mul_apply, Fin.sum_univ_two] <;> norm_num <;> rfl
  have h7 := haroldsvd_eq h1 (by simp)
  rw [h5] at h7
  refine ⟨!![3 / 5, 9 / 20; 4 / 5, 3 / 5], !![3 / 5, -4 / 5; 4 / 5, 3 / 5], svdCtrb_exact, ?_, ?_, ?_⟩
  · unfold controllabilityMatrixArg ctrbReturn
    simp only [ab_of (GivesAB.tuple []), bind, Except.bind, ctrbLoop_of, h6]
    erw [h7]
    simp only [Bool.false_eq_true, if_false]
    rfl
  · unfold controllabilityMatrixArg ctrbReturn
    simp only [ab_of (GivesAB.tuple []), bind, Except.bind, ctrbLoop_of, h6]
    erw [h7]
    simp only [if_true, Arr.T_of, Arr.matmul_of, Except.ok.injEq, Prod.mk.injEq, Arr.of_inj, and_true]
    ext i j
    fin_cases i <;> fin_cases j <;> simp [Matrix.mul_apply, Fin.sum_univ_two, diagRect, vecHead, vecTail] <;> norm_num
  · ext i j
    fin_cases i <;> fin_cases j <;> simp [Matrix.mul_apply, Fin.sum_univ_two] <;> norm_num

/-- The hypotheses can be met: there is an exact backend over the reals, and both kinds of arguments occur. -/
example : ∃ S : SvdNum ℝ, 0 ≤ S.eps ∧ (∀ (k l : ℕ) (M : Matrix (Fin k) (Fin l) ℝ), SvdExact S M) ∧
    GivesAB !![-1] !![1] (.tuple [Arr.of !![(-1 : ℝ)], Arr.of !![1]]) ∧
    GivesAC !![-1] !![1] (.state ⟨Arr.of !![(-1 : ℝ)], Arr.of !![1], Arr.of !![1], Arr.of !![0], none, false⟩) := by
  obtain ⟨S, h1, h2⟩ := exists_svdNum
  exact ⟨S, h1.ge, fun k l M => h2 M, .tuple [], .state _ rfl rfl⟩

end Harold
