import Verif.Lemmas.Truncate
import Verif.Lemmas.KalmanDecomp
import Verif.Model.MinrealState

/-!
# `_minimal_realization_state` in exact arithmetic
-/

namespace Harold

open Matrix Spec

variable {K : Type} [Field K] [LinearOrder K] [IsStrictOrderedRing K] {n m p : ℕ}

theorem rankTol_zero (p m : ℕ) (s : List K) : rankTol 0 p m s = 0 := by simp [rankTol]

/-- The common part of both forms in exact arithmetic. -/
theorem stairCore_exact {S : SvdNum K} (hS : ∀ (a b : ℕ) (M : Matrix (Fin a) (Fin b) K), SvdOk S M) (he : S.eps = 0) (invert : Bool)
    (A : Matrix (Fin n) (Fin n) K) {B : Matrix (Fin n) (Fin m) K} (C : Matrix (Fin p) (Fin n) K) (hB : B ≠ 0) :
    ∃ Ah Bh Ch T b r, stairCore S invert (Arr.of A) (Arr.of B) (Arr.of C) = .ok (stairInvert invert (Arr.of Ah, Arr.of Bh, Arr.of Ch, Arr.of Tᵀ), b) ∧
      Tᵀ * T = 1 ∧ Ah = Tᵀ * A * T ∧ Bh = Tᵀ * B ∧ Ch = C * T ∧ 0 < r ∧ Lead r Ah Bh ∧ (b = true → B.rank = n) := by
  obtain ⟨U, s, V, h1, h2⟩ := hS _ _ B
  have hnm : 0 < n ∧ 0 < m := by
    constructor
    · rcases Nat.eq_zero_or_pos n with rfl | h
      · exact absurd (Subsingleton.elim _ _) hB
      · exact h
    · rcases Nat.eq_zero_or_pos m with rfl | h
      · exact absurd (Subsingleton.elim _ _) hB
      · exact h
  have hs := svd_ne_nil h2 hnm.1 hnm.2
  have hUU : U * Uᵀ = 1 := mul_eq_one_comm.mp h2.u_orth
  have hrk := countAbove_eq_rank (S := S) he.ge h2 (fun t ht h0 => by rw [he, rankTol_zero]; exact lt_of_le_of_ne (h2.nonneg t ht) (Ne.symm h0))
  have hc : rankTol S.eps n m s = 0 := by rw [he, rankTol_zero]
  rw [hc] at hrk
  set r := countAbove 0 s with hr
  have hrn : r ≤ n := by rw [hrk]; exact B.rank_le_height
  have hr0 : 0 < r := by
    rw [hrk]
    refine Nat.pos_of_ne_zero fun h => hB ?_
    rw [Matrix.rank, Submodule.finrank_eq_zero, LinearMap.range_eq_bot] at h
    ext i j
    have := congrFun (LinearMap.congr_fun h (Pi.single j 1)) i
    simpa using this
  have hlen : r ≤ s.length := List.length_filter_le _ _
  rw [h2.len] at hlen
  have hB0 : frobSq (diagRect n m (s.take r) * V - Uᵀ * B) ≤ 0 := by
    have := frobSq_drop h2 (le_refl (0 : K))
    simpa using this
  have inv0 : StairInv A B C 0 0 0 r (Uᵀ * A * U) (diagRect n m (s.take r) * V) (C * U) Uᵀ := by
    refine ⟨by omega, by rw [transpose_transpose]; exact h2.u_orth, fun i c _ h => by omega, ?_, ?_, ?_, hB0, by rw [transpose_transpose]⟩
    · intro i c hi
      rw [Matrix.mul_apply]
      refine Finset.sum_eq_zero fun t _ => ?_
      unfold diagRect
      rw [Matrix.of_apply, List.getD_eq_default _ _ (by rw [List.length_take]; omega), ite_self, zero_mul]
    · intro i c _
      rw [transpose_transpose, sub_self]
      rfl
    · rw [transpose_transpose, sub_self, frobSq_zero]
      simp
  have reach0 : ∀ i : Fin n, (i : ℕ) < 0 + r → Pi.single i 1 ∈ krySpace (Uᵀ * A * U) (diagRect n m (s.take r) * V) (n - 1) := by
    intro i hi
    refine col_span (fun i : Fin n => (Pi.single i 1 : Fin n → K)) (Y := diagRect n m (s.take r) * V) (sv := s.take r) rfl h2.v_orth (fun c => ?_) (by omega) ?_
    · have := input_mem_kry (Uᵀ * A * U) (diagRect n m (s.take r) * V) (Pi.single c 1)
      convert this using 1
      ext j
      rw [mulVec_single_one, col_apply]
      simp [Finset.sum_apply, Pi.single_apply]
    · rw [List.getD_eq_getElem?_getD, List.getElem?_take_of_lt (by omega), ← List.getD_eq_getElem?_getD]
      exact (desc_pos h2.desc (by omega)).ne'
  have hcore : stairCore S invert (Arr.of A) (Arr.of B) (Arr.of C) =
      (if n = r then .ok (stairInvert invert (Arr.of (Uᵀ * A * U), Arr.of (diagRect n m (s.take r) * V), Arr.of (C * U), Arr.of Uᵀ), true)
       else do
        let q ← stairLoop S 0 n 0 r (Arr.of (Uᵀ * A * U)) (Arr.of (C * U)) (Arr.of Uᵀ)
        .ok (stairInvert invert (q.1, Arr.of (diagRect n m (s.take r) * V), q.2.1, q.2.2), false)) := by
    unfold stairCore
    simp only [haroldsvd_eq h1 hs, Arr.T_of, Arr.matmul_of, zeroFrom_diag, bind, Except.bind, Arr.of_c, Arr.of_r, he, rankTol_zero, mul_zero]
    rw [eye_zero_blockDiag (by omega)]
  by_cases hn : n = r
  · rw [if_pos hn] at hcore
    have e2 := inv0.eqB
    refine ⟨_, _, _, U, true, n, hcore, h2.u_orth, rfl, e2, rfl, hnm.1, ⟨le_refl _, fun i _ hi => by omega, fun i _ hi => by omega, fun i _ => reach0 i (by omega)⟩, fun _ => by omega⟩
  · rw [if_neg hn] at hcore
    obtain ⟨r', A1, C1, T1, h3, h4, h5, h6, h7, h8, h9⟩ := stairLoop_exact hS n inv0 reach0 hr0 (by omega)
    rw [h3] at hcore
    refine ⟨A1, _, C1, T1ᵀ, false, r', by rw [transpose_transpose]; exact hcore, by rw [transpose_transpose]; exact h4, by rw [transpose_transpose]; exact h5,
      by rw [transpose_transpose]; exact h6, h7, h8, h9, by simp⟩

omit [IsStrictOrderedRing K] in
theorem any_of_ne {B : Matrix (Fin n) (Fin m) K} (hB : B ≠ 0) : ¬ (Arr.of B).any = false := by
  rw [Bool.not_eq_false, Arr.any_iff]
  by_contra h
  push Not at h
  exact hB (Matrix.ext fun i j => h i j)

/-- The controller form in exact arithmetic. -/
theorem stair_c_exact {S : SvdNum K} (hS : ∀ (a b : ℕ) (M : Matrix (Fin a) (Fin b) K), SvdOk S M) (he : S.eps = 0)
    (A : Matrix (Fin n) (Fin n) K) {B : Matrix (Fin n) (Fin m) K} (C : Matrix (Fin p) (Fin n) K) (hB : B ≠ 0) :
    ∃ Ah Bh Ch T r, staircase S "c" false (Arr.of A) (Arr.of B) (Arr.of C) = .ok (Arr.of Ah, Arr.of Bh, Arr.of Ch, Arr.of T) ∧
      Tᵀ * T = 1 ∧ Ah = Tᵀ * A * T ∧ Bh = Tᵀ * B ∧ Ch = C * T ∧ 0 < r ∧ Lead r Ah Bh := by
  obtain ⟨r, hr⟩ := validate_triple A B C
  obtain ⟨Ah, Bh, Ch, T, b, r, h1, h2, h3, h4, h5, h6, h7, -⟩ := stairCore_exact hS he false A C hB
  refine ⟨Ah, Bh, Ch, T, r, ?_, h2, h3, h4, h5, h6, h7⟩
  unfold staircase
  rw [if_neg (by simp), hr]
  simp only [bind, Except.bind]
  rw [if_neg (by decide), if_neg (any_of_ne hB), h1]
  rfl

/-- The observer form with `invert` in exact arithmetic. -/
theorem stair_o_exact {S : SvdNum K} (hS : ∀ (a b : ℕ) (M : Matrix (Fin a) (Fin b) K), SvdOk S M) (he : S.eps = 0)
    (A : Matrix (Fin n) (Fin n) K) (B : Matrix (Fin n) (Fin m) K) {C : Matrix (Fin p) (Fin n) K} (hC : C.rank < n) :
    ∃ Ah Bh Ch T q, staircase S "o" true (Arr.of A) (Arr.of B) (Arr.of C) = .ok (Arr.of Ah, Arr.of Bh, Arr.of Ch, Arr.of T) ∧
      Tᵀ * T = 1 ∧ Ah = Tᵀ * A * T ∧ Bh = Tᵀ * B ∧ Ch = C * T ∧ Tail q Ah Ch ∧ (q = 0 → Observable A C) := by
  obtain ⟨r, hr⟩ := validate_triple A B C
  unfold staircase
  rw [if_neg (by simp), hr]
  simp only [bind, Except.bind]
  rw [if_pos trivial]
  by_cases hC0 : Cᵀ = 0
  · have hB : (Arr.of C).T.any = false := by
      rw [Arr.T_of, hC0, Bool.eq_false_iff]
      intro h
      obtain ⟨i, j, h⟩ := (Arr.any_iff _).mp h
      exact h rfl
    rw [if_pos hB]
    have hC0' : C = 0 := by rw [← transpose_transpose C, hC0, transpose_zero]
    exact ⟨A, B, C, 1, n, rfl, by simp, by simp, by simp, by simp, ⟨le_refl _, fun i _ hi => by omega, fun i c _ => by rw [hC0']; rfl⟩, fun h => by omega⟩
  · have hB : ¬ (Arr.of C).T.any = false := any_of_ne hC0
    rw [if_neg hB]
    obtain ⟨Ah, Bh, Ch, T, b, r, h1, h2, h3, h4, h5, h6, h7, h8⟩ := stairCore_exact hS he true Aᵀ Bᵀ hC0
    have hb : b = false := by
      rw [rank_transpose] at h8
      cases b
      · rfl
      · have := h8 rfl
        omega
    subst hb
    rw [Arr.T_of, Arr.T_of, Arr.T_of, h1]
    refine ⟨(Ah.submatrix Fin.rev Fin.rev)ᵀ, (Ch.submatrix id Fin.rev)ᵀ, (Bh.submatrix Fin.rev id)ᵀ, T.submatrix id Fin.rev, n - r, rfl, ?_, ?_, ?_, ?_, ?_, ?_⟩
    · have : (T.submatrix id Fin.rev)ᵀ * T.submatrix id Fin.rev = (Tᵀ * T).submatrix Fin.rev Fin.rev := rfl
      rw [this, h2, submatrix_one _ Fin.rev_injective]
    · have : (T.submatrix id Fin.rev)ᵀ * A * T.submatrix id Fin.rev = (Tᵀ * A * T).submatrix Fin.rev Fin.rev := rfl
      rw [this, h3, transpose_submatrix]
      simp only [transpose_mul, transpose_transpose, Matrix.mul_assoc]
    · have : (T.submatrix id Fin.rev)ᵀ * B = (Tᵀ * B).submatrix Fin.rev id := rfl
      rw [this, h5, transpose_submatrix]
      simp only [transpose_mul, transpose_transpose]
    · have : C * T.submatrix id Fin.rev = (C * T).submatrix id Fin.rev := rfl
      rw [this, h4, transpose_submatrix]
      simp only [transpose_mul, transpose_transpose]
    · have := h7.le
      refine ⟨by omega, fun i c hi hc => ?_, fun i c hc => ?_⟩
      · rw [transpose_apply, submatrix_apply]
        exact h7.zeroA _ _ (by rw [Fin.val_rev]; omega) (by rw [Fin.val_rev]; omega)
      · rw [transpose_apply, submatrix_apply]
        exact h7.zeroB _ _ (by rw [Fin.val_rev]; omega)
    · intro hq
      have hrn : r = n := by have := h7.le; omega
      rw [observable_iff_dual, ← reachable_orth h2, ← h3, ← h4, reachable_iff_single]
      intro i
      exact h7.reach i (by omega)

/-- The distances decide whether a pair is reachable. -/
def Decides (N : MinNum K) (tol : K) : Prop :=
  ∀ (k : ℕ) {n m : ℕ} (F : Matrix (Fin n) (Fin n) K) (G : Matrix (Fin n) (Fin m) K), tol < N.dist k (Arr.of F) (Arr.of G) ↔ Reachable F G

omit [IsStrictOrderedRing K] in
theorem cancelDist_of (N : MinNum K) (k : ℕ) (F : Matrix (Fin n) (Fin n) K) (G : Matrix (Fin n) (Fin m) K) (hn : 0 < n) :
    cancelDist N k (Arr.of F) (Arr.of G) = .ok (N.dist k (Arr.of F) (Arr.of G)) := by
  unfold cancelDist
  simp [hn.ne']

/-- The loop removes the unreachable states. -/
theorem kcLoop_exact {N : MinNum K} {tol : K} (hN : Decides N tol) {A : Matrix (Fin n) (Fin n) K} {B : Matrix (Fin n) (Fin m) K} (C : Matrix (Fin p) (Fin n) K)
    {r : ℕ} (h : Lead r A B) (fuel : ℕ) : ∀ (k j : ℕ) (hk : k ≤ n) (kc : K), 0 < k → r ≤ k → k ≤ fuel →
      (tol < kc ↔ Reachable (A.submatrix (Fin.castLE hk) (Fin.castLE hk)) (B.submatrix (Fin.castLE hk) id)) →
      kcLoop N tol fuel j kc (Arr.of (A.submatrix (Fin.castLE hk) (Fin.castLE hk))) (Arr.of (B.submatrix (Fin.castLE hk) id))
        (Arr.of (C.submatrix id (Fin.castLE hk)))
      = .ok (Arr.of (A.submatrix (Fin.castLE h.le) (Fin.castLE h.le)), Arr.of (B.submatrix (Fin.castLE h.le) id), Arr.of (C.submatrix id (Fin.castLE h.le))) := by
  induction fuel with
  | zero => intro k j hk kc h0 h1 h2; omega
  | succ fuel ih =>
    intro k j hk kc h0 h1 h2 h3
    unfold kcLoop
    rcases Nat.eq_or_lt_of_le h1 with rfl | h4
    · rw [if_neg (not_le.mpr (h3.mpr h.reachable))]
    · have h5 : ¬ tol < kc := fun h6 => h.not_reachable hk h4 (h3.mp h6)
      rw [if_pos (not_lt.mp h5)]
      have hk' : k - 1 ≤ n := by omega
      have e1 : (Arr.of (A.submatrix (Fin.castLE hk) (Fin.castLE hk))).slice 0 (k - 1) 0 (k - 1) =
          Arr.of (A.submatrix (Fin.castLE hk') (Fin.castLE hk')) := by
        rw [slice_of (a := k - 1) (b := k - 1) _ _ _ _ _ (by omega) (by omega), Arr.of_inj]
        ext i c
        simp [Fin.castLE]
      have e2 : (Arr.of (B.submatrix (Fin.castLE hk) id)).slice 0 (k - 1) 0 m = Arr.of (B.submatrix (Fin.castLE hk') id) := by
        rw [slice_of (a := k - 1) (b := m) _ _ _ _ _ (by omega) (by omega), Arr.of_inj]
        ext i c
        simp [Fin.castLE]
      have e3 : (Arr.of (C.submatrix id (Fin.castLE hk))).slice 0 p 0 (k - 1) = Arr.of (C.submatrix id (Fin.castLE hk')) := by
        rw [slice_of (a := p) (b := k - 1) _ _ _ _ _ (by omega) (by omega), Arr.of_inj]
        ext i c
        simp [Fin.castLE]
      dsimp only [Arr.of_r, Arr.of_c]
      rw [e1, e2, e3, Arr.of_r]
      by_cases h8 : k - 1 = 0
      · rw [if_pos h8]
        obtain rfl : r = k - 1 := by omega
        rfl
      · rw [if_neg h8, cancelDist_of _ _ _ _ (by omega)]
        exact ih (k - 1) (j + 1) hk' _ (by omega) (by omega) (by omega) (hN _ _ _)

/-- The last `k` of `n` indices. -/
def lastE {k n : ℕ} (hk : k ≤ n) (i : Fin k) : Fin n := ⟨n - k + i, by omega⟩

theorem lastE_injective {k n : ℕ} (hk : k ≤ n) : Function.Injective (lastE hk) := fun a b h => by
  have := congrArg Fin.val h
  simp [lastE] at this
  exact Fin.ext this

theorem not_mem_lastE {k n : ℕ} (hk : k ≤ n) {i : Fin n} (h : i ∉ Set.range (lastE hk)) : (i : ℕ) < n - k := by
  by_contra h1
  exact h ⟨⟨i - (n - k), by omega⟩, by ext; simp [lastE]; omega⟩

omit [LinearOrder K] [IsStrictOrderedRing K] in
/-- The states seen by the output stay reachable. -/
theorem Tail.reachable {A : Matrix (Fin n) (Fin n) K} {B : Matrix (Fin n) (Fin m) K} {C : Matrix (Fin p) (Fin n) K} {q : ℕ} (h : Tail q A C)
    (hr : Reachable A B) : Reachable (A.submatrix (lastE (Nat.sub_le n q)) (lastE (Nat.sub_le n q))) (B.submatrix (lastE (Nat.sub_le n q)) id) := by
  have hf := lastE_injective (Nat.sub_le n q)
  have hq := h.le
  refine Reachable.map (sub_sub hf) ?_ (sub_mul_rows _ _) hr
  rw [sub_mul_rows]
  refine (mul_rows hf (X := A.submatrix _ id) fun i c hc => h.zeroA _ _ ?_ ?_).symm
  · simp only [lastE]; omega
  · have := not_mem_lastE _ hc
    simp only [id]
    omega

/-- The loop removes only unobservable states, and stops at the latest when these are gone. -/
theorem koLoop_exact {N : MinNum K} {tol : K} (hN : Decides N tol) {A : Matrix (Fin n) (Fin n) K} {B : Matrix (Fin n) (Fin m) K} {C : Matrix (Fin p) (Fin n) K}
    {q : ℕ} (h : Tail q A C) (hr : Reachable A B) (fuel : ℕ) : ∀ (k j : ℕ) (hk : k ≤ n) (ko : K), 0 < k → n - q ≤ k → k ≤ fuel → (ko ≤ tol → n - q < k) →
      (tol < ko → Reachable (A.submatrix (lastE hk) (lastE hk)) (B.submatrix (lastE hk) id)) →
      ∃ (k' : ℕ) (hk' : k' ≤ n), koLoop N tol fuel j ko (Arr.of (A.submatrix (lastE hk) (lastE hk))) (Arr.of (B.submatrix (lastE hk) id))
        (Arr.of (C.submatrix id (lastE hk)))
      = .ok (Arr.of (A.submatrix (lastE hk') (lastE hk')), Arr.of (B.submatrix (lastE hk') id), Arr.of (C.submatrix id (lastE hk'))) ∧ n - q ≤ k' ∧
        (k' = 0 ∨ Reachable (A.submatrix (lastE hk') (lastE hk')) (B.submatrix (lastE hk') id)) := by
  induction fuel with
  | zero => intro k j hk ko h1 h2 h3; omega
  | succ fuel ih =>
    intro k j hk ko h1 h2 h3 h4 h5
    unfold koLoop
    by_cases h6 : ko ≤ tol
    · rw [if_pos h6]
      have h7 := h4 h6
      have hk' : k - 1 ≤ n := by omega
      have e1 : (Arr.of (A.submatrix (lastE hk) (lastE hk))).slice 1 k 1 k = Arr.of (A.submatrix (lastE hk') (lastE hk')) := by
        rw [slice_of (a := k - 1) (b := k - 1) _ _ _ _ _ (by omega) (by omega), Arr.of_inj]
        ext i c
        simp only [Matrix.of_apply, submatrix_apply, lastE]
        congr 1 <;> ext <;> simp <;> omega
      have e2 : (Arr.of (B.submatrix (lastE hk) id)).slice 1 k 0 m = Arr.of (B.submatrix (lastE hk') id) := by
        rw [slice_of (a := k - 1) (b := m) _ _ _ _ _ (by omega) (by omega), Arr.of_inj]
        ext i c
        simp only [Matrix.of_apply, submatrix_apply, lastE]
        congr 1 <;> ext <;> simp
        omega
      have e3 : (Arr.of (C.submatrix id (lastE hk))).slice 0 p 1 k = Arr.of (C.submatrix id (lastE hk')) := by
        rw [slice_of (a := p) (b := k - 1) _ _ _ _ _ (by omega) (by omega), Arr.of_inj]
        ext i c
        simp only [Matrix.of_apply, submatrix_apply, lastE]
        congr 1 <;> ext <;> simp
        omega
      dsimp only [Arr.of_r, Arr.of_c]
      rw [e1, e2, e3, Arr.of_r]
      by_cases h8 : k - 1 = 0
      · rw [if_pos h8]
        exact ⟨k - 1, hk', rfl, by omega, Or.inl h8⟩
      · rw [if_neg h8, cancelDist_of _ _ _ _ (by omega)]
        have hdec := hN j (A.submatrix (lastE hk') (lastE hk')) (B.submatrix (lastE hk') id)
        refine ih (k - 1) (j + 1) hk' _ (by omega) (by omega) (by omega) (fun h9 => ?_) hdec.mp
        rcases Nat.lt_or_ge (n - q) (k - 1) with h10 | h10
        · exact h10
        · exfalso
          have h11 : k - 1 = n - q := by omega
          have h12 : Reachable (A.submatrix (lastE hk') (lastE hk')) (B.submatrix (lastE hk') id) := by
            have h13 := h.reachable hr
            have : ∀ (a b : ℕ) (ha : a ≤ n) (hb : b ≤ n), a = b → Reachable (A.submatrix (lastE ha) (lastE ha)) (B.submatrix (lastE ha) id) →
                Reachable (A.submatrix (lastE hb) (lastE hb)) (B.submatrix (lastE hb) id) := by
              intro a b ha hb e
              subst e
              exact id
            exact this _ _ _ _ h11.symm h13
          exact absurd (hdec.mpr h12) (not_lt.mpr h9)
    · rw [if_neg h6]
      exact ⟨k, hk, rfl, h2, Or.inr (h5 (not_le.mp h6))⟩

omit [LinearOrder K] [IsStrictOrderedRing K] in
/-- Coordinates in which the output matrix has full column rank are observable. -/
theorem observable_of_rank (A : Matrix (Fin n) (Fin n) K) {C : Matrix (Fin p) (Fin n) K} (hC : C.rank = n) : Observable A C := by
  rw [observable_iff_dual, reachable_iff_kry, eq_top_iff]
  have h1 : LinearMap.range (Cᵀ).mulVecLin = ⊤ := (rank_eq_iff_range _).mp (by rw [rank_transpose]; exact hC)
  rw [← h1]
  rintro _ ⟨u, rfl⟩
  exact input_mem_kry _ _ u

section
variable {L : Type} [Field L] [Algebra K L] {A : Matrix (Fin n) (Fin n) K} {B : Matrix (Fin n) (Fin m) K} {C : Matrix (Fin p) (Fin n) K}
  {D M : Matrix (Fin p) (Fin m) L} {s : L}

/-- The triple has the value `M` at `s`. -/
def TripleTF (A : Matrix (Fin n) (Fin n) K) (B : Matrix (Fin n) (Fin m) K) (C : Matrix (Fin p) (Fin n) K) (D : Matrix (Fin p) (Fin m) L) (s : L)
    (M : Matrix (Fin p) (Fin m) L) : Prop := IsTF (A.map (algebraMap K L)) (B.map (algebraMap K L)) (C.map (algebraMap K L)) D s M

omit [LinearOrder K] [IsStrictOrderedRing K] in
theorem TripleTF.coords {T P : Matrix (Fin n) (Fin n) K} (hP : P * T = 1) (h : TripleTF A B C D s M) : TripleTF (P * A * T) (P * B) (C * T) D s M := by
  have hT : T * P = 1 := mul_eq_one_comm.mp hP
  unfold TripleTF at h ⊢
  have h1 := h.restrict (J := T.map (algebraMap K L)) (P := P.map (algebraMap K L)) (A' := (P * A * T).map (algebraMap K L)) (B' := (P * B).map (algebraMap K L))
    (by rw [← Matrix.map_mul, hP, Matrix.map_one _ (map_zero _) (map_one _)])
    (by rw [← Matrix.map_mul, ← Matrix.map_mul, ← Matrix.mul_assoc, ← Matrix.mul_assoc, hT, Matrix.one_mul])
    (by rw [← Matrix.map_mul, ← Matrix.mul_assoc, hT, Matrix.one_mul])
  rwa [← Matrix.map_mul] at h1

omit [LinearOrder K] [IsStrictOrderedRing K] in
theorem TripleTF.lead {r : ℕ} (hl : Lead r A B) (h : TripleTF A B C D s M) :
    TripleTF (A.submatrix (Fin.castLE hl.le) (Fin.castLE hl.le)) (B.submatrix (Fin.castLE hl.le) id) (C.submatrix id (Fin.castLE hl.le)) D s M := by
  have hr : ∀ {i : Fin n}, i ∉ Set.range (Fin.castLE hl.le) → r ≤ (i : ℕ) := fun {i} hi => by
    by_contra h1
    exact hi ⟨⟨i, by omega⟩, by ext; simp⟩
  unfold TripleTF at h ⊢
  refine h.sub_ctrl (Fin.castLE_injective hl.le) (fun i c hi => ?_) fun i c hi => ?_
  · rw [map_apply, hl.zeroA _ _ (hr hi) (by simp), map_zero]
  · rw [map_apply, hl.zeroB _ _ (hr hi), map_zero]

omit [LinearOrder K] [IsStrictOrderedRing K] in
theorem TripleTF.tail {q k : ℕ} (ht : Tail q A C) (hk : k ≤ n) (hq : n - q = k) (h : TripleTF A B C D s M) :
    TripleTF (A.submatrix (lastE hk) (lastE hk)) (B.submatrix (lastE hk) id) (C.submatrix id (lastE hk)) D s M := by
  have := ht.le
  unfold TripleTF at h ⊢
  refine h.sub_obs (lastE_injective hk) (fun i c hc => ?_) fun i c hc => ?_
  · have := not_mem_lastE hk hc
    rw [map_apply, ht.zeroA _ _ (by simp only [lastE]; omega) (by omega), map_zero]
  · have := not_mem_lastE hk hc
    rw [map_apply, ht.zeroC _ _ (by omega), map_zero]

end

/-- Wherever the transfer matrix of the first model is defined, so is that of the second one, with the same value. -/
def KeepsTF {k : ℕ} (A : Matrix (Fin n) (Fin n) K) (B : Matrix (Fin n) (Fin m) K) (C : Matrix (Fin p) (Fin n) K) (A' : Matrix (Fin k) (Fin k) K)
    (B' : Matrix (Fin k) (Fin m) K) (C' : Matrix (Fin p) (Fin k) K) : Prop :=
  ∀ (L : Type) [Field L] [Algebra K L] (D : Matrix (Fin p) (Fin m) L) (s : L) (M : Matrix (Fin p) (Fin m) L), TripleTF A B C D s M → TripleTF A' B' C' D s M

/-- The removal of unobservable states. -/
theorem minrealO_exact {S : SvdNum K} (hS : ∀ (a b : ℕ) (M : Matrix (Fin a) (Fin b) K), SvdOk S M) (he : S.eps = 0) {N : MinNum K} {tol : K} (hN : Decides N tol)
    (A : Matrix (Fin n) (Fin n) K) {B : Matrix (Fin n) (Fin m) K} {C : Matrix (Fin p) (Fin n) K} (hn : 0 < n) (hr : Reachable A B) (j : ℕ) {ko : K}
    (hko : tol < ko ↔ Observable A C) :
    ∃ (k : ℕ) (A' : Matrix (Fin k) (Fin k) K) (B' : Matrix (Fin k) (Fin m) K) (C' : Matrix (Fin p) (Fin k) K),
      minrealO S N tol ko j (Arr.of A) (Arr.of B) (Arr.of C) = .ok (Arr.of A', Arr.of B', Arr.of C') ∧ k ≤ n ∧ (k = 0 ∨ Reachable A' B') ∧
      (Observable A C → Observable A' C' ∧ KeepsTF A B C A' B' C') ∧
      ∀ (L : Type) [Field L] [Algebra K L] (D : Matrix (Fin p) (Fin m) L) (s : L) (M M' : Matrix (Fin p) (Fin m) L),
        TripleTF A B C D s M → TripleTF A' B' C' D s M' → M = M' := by
  unfold minrealO
  by_cases h1 : ko ≤ tol
  · rw [if_pos h1]
    have hno : ¬ Observable A C := fun h => absurd (hko.mpr h) (not_lt.mpr h1)
    have hC : C.rank < n := lt_of_le_of_ne C.rank_le_width fun h => hno (observable_of_rank A h)
    obtain ⟨Ah, Bh, Ch, T, q, h2, h3, rfl, rfl, rfl, h4, h5⟩ := stair_o_exact hS he A B hC
    have hq : q ≠ 0 := fun h => hno (h5 h)
    have hqn := h4.le
    have e : lastE (le_refl n) = id := by
      ext i
      simp [lastE]
    obtain ⟨k, hk, h6, h7, h8⟩ := koLoop_exact hN h4 ((reachable_orth h3).mpr hr) n n j (le_refl n) ko hn (by omega) (le_refl n) (fun _ => by omega)
      (fun h => absurd h (not_lt.mpr h1))
    simp only [e, submatrix_id_id] at h6
    refine ⟨k, _, _, (C * T).submatrix id (lastE hk), ?_, hk, h8, fun h => absurd h hno, ?_⟩
    · rw [h2]
      exact h6
    · intro L _ _ D s M M' hM hM'
      have h9 := (hM.coords h3).tail h4 (Nat.sub_le n q) rfl
      have ht : Tail (k - (n - q)) ((Tᵀ * A * T).submatrix (lastE hk) (lastE hk)) ((C * T).submatrix id (lastE hk)) := by
        refine ⟨by omega, fun i c hi hc => ?_, fun i c hc => ?_⟩
        · exact h4.zeroA _ _ (by simp only [lastE]; omega) (by simp only [lastE]; omega)
        · exact h4.zeroC _ _ (by simp only [lastE]; omega)
      have h10 := hM'.tail ht h7 (by omega)
      have e2 : lastE hk ∘ lastE h7 = lastE (Nat.sub_le n q) := by
        ext i
        simp only [lastE, Function.comp]
        omega
      rw [submatrix_submatrix, submatrix_submatrix, submatrix_submatrix, e2] at h10
      exact h9.unique h10
  · rw [if_neg h1]
    refine ⟨n, A, B, C, rfl, le_refl n, Or.inr hr, fun h => ⟨h, fun L _ _ D s M => id⟩, ?_⟩
    intro L _ _ D s M M' hM hM'
    exact IsTF.unique hM hM'

omit [LinearOrder K] [IsStrictOrderedRing K] in
theorem reachable_coords {A : Matrix (Fin n) (Fin n) K} {B : Matrix (Fin n) (Fin m) K} {T P : Matrix (Fin n) (Fin n) K} (hP : P * T = 1) :
    Reachable (P * A * T) (P * B) ↔ Reachable A B := by
  have hT : T * P = 1 := mul_eq_one_comm.mp hP
  constructor
  · refine Reachable.map (P := T) (J := P) hT ?_ ?_
    · rw [← Matrix.mul_assoc, ← Matrix.mul_assoc, hT, Matrix.one_mul]
    · rw [← Matrix.mul_assoc, hT, Matrix.one_mul]
  · refine Reachable.map (P := P) (J := T) hP ?_ rfl
    rw [Matrix.mul_assoc (P * A), hT, Matrix.mul_one]

omit [LinearOrder K] [IsStrictOrderedRing K] in
theorem observable_coords {A : Matrix (Fin n) (Fin n) K} {C : Matrix (Fin p) (Fin n) K} {T P : Matrix (Fin n) (Fin n) K} (hP : P * T = 1) :
    Observable (P * A * T) (C * T) ↔ Observable A C := by
  rw [observable_iff_dual, observable_iff_dual, ← reachable_coords (A := Aᵀ) (B := Cᵀ) (T := Pᵀ) (P := Tᵀ) (by rw [← transpose_mul, hP, transpose_one])]
  simp only [transpose_mul, Matrix.mul_assoc]

omit [LinearOrder K] [IsStrictOrderedRing K] in
/-- The reachable part of an observable pair is observable. -/
theorem Lead.observable {A : Matrix (Fin n) (Fin n) K} {B : Matrix (Fin n) (Fin m) K} {C : Matrix (Fin p) (Fin n) K} {r : ℕ} (h : Lead r A B) (ho : Observable A C) :
    Observable (A.submatrix (Fin.castLE h.le) (Fin.castLE h.le)) (C.submatrix id (Fin.castLE h.le)) := by
  have hf : Function.Injective (Fin.castLE h.le) := Fin.castLE_injective h.le
  have hr : ∀ {i : Fin n}, i ∉ Set.range (Fin.castLE h.le) → r ≤ (i : ℕ) := fun {i} hi => by
    by_contra h1
    exact hi ⟨⟨i, by omega⟩, by ext; simp⟩
  rw [observable_iff_dual] at ho ⊢
  refine Reachable.map (P := (1 : Matrix (Fin n) (Fin n) K).submatrix (Fin.castLE h.le) id) (sub_sub hf) ?_ ?_ ho
  · rw [sub_mul_rows]
    refine (mul_rows hf (X := (Aᵀ).submatrix (Fin.castLE h.le) id) fun i c hc => ?_).symm
    exact h.zeroA _ _ (hr hc) (by simp)
  · rw [sub_mul_rows]
    rfl

/-- What `matrix_balance` returns: coordinates `T` and the matrix in these coordinates. -/
def Balances (N : MinNum K) : Prop :=
  ∀ {n : ℕ} (A : Matrix (Fin n) (Fin n) K), ∃ T : Matrix (Fin n) (Fin n) K, T.det ≠ 0 ∧ N.bal (Arr.of A) = (Arr.of (T⁻¹ * A * T), Arr.of T)

omit [IsStrictOrderedRing K] in
/-- The calls up to the comparison of the distances. -/
theorem minrealMatrices_eq {S : SvdNum K} {N : MinNum K} {tol : K} {A T Ac Ao Tc To : Matrix (Fin n) (Fin n) K} {B Bc : Matrix (Fin n) (Fin m) K}
    {C Cc : Matrix (Fin p) (Fin n) K} {bo co : Arr K} (hn : 0 < n) (hT : T.det ≠ 0) (hb : N.bal (Arr.of A) = (Arr.of (T⁻¹ * A * T), Arr.of T))
    (hc : staircase S "c" false (Arr.of (T⁻¹ * A * T)) (Arr.of (T⁻¹ * B)) (Arr.of (C * T)) = .ok (Arr.of Ac, Arr.of Bc, Arr.of Cc, Arr.of Tc))
    (ho : staircase S "o" true (Arr.of (T⁻¹ * A * T)) (Arr.of (T⁻¹ * B)) (Arr.of (C * T)) = .ok (Arr.of Ao, bo, co, Arr.of To)) :
    minrealMatrices S N tol (Arr.of A) (Arr.of B) (Arr.of C) = (do
      let ko ← cancelDist N 1 (Arr.of Aoᵀ) co.T
      if tol < min (N.dist 0 (Arr.of Ac) (Arr.of Bc)) ko then .ok (Arr.of (T⁻¹ * A * T), Arr.of (T⁻¹ * B), Arr.of (C * T))
      else do
        let q ← minrealC N tol (N.dist 0 (Arr.of Ac) (Arr.of Bc)) ko (Arr.of (T⁻¹ * A * T)) (Arr.of (T⁻¹ * B)) (Arr.of (C * T)) (Arr.of Ac) (Arr.of Bc) (Arr.of Cc)
        minrealO S N tol q.2 (3 + n) q.1.1 q.1.2.1 q.1.2.2) := by
  unfold minrealMatrices
  rw [Arr.of_r, Arr.of_c, if_neg (by omega), hb]
  simp only [Arr.solve_of, if_neg hT, Arr.matmul_of, bind, Except.bind]
  rw [hc]
  dsimp only
  rw [ho]
  dsimp only
  rw [cancelDist_of _ _ _ _ hn, Arr.T_of]

/-- `_minimal_realization_state` in exact arithmetic. -/
theorem minrealMatrices_exact {S : SvdNum K} (hS : ∀ (a b : ℕ) (M : Matrix (Fin a) (Fin b) K), SvdOk S M) (he : S.eps = 0) {N : MinNum K} {tol : K}
    (hN : Decides N tol) (hb : Balances N) (A : Matrix (Fin n) (Fin n) K) {B : Matrix (Fin n) (Fin m) K} {C : Matrix (Fin p) (Fin n) K} (hn : 0 < n)
    (hB : B ≠ 0) (hC : C.rank < n) :
    ∃ (k : ℕ) (A' : Matrix (Fin k) (Fin k) K) (B' : Matrix (Fin k) (Fin m) K) (C' : Matrix (Fin p) (Fin k) K),
      minrealMatrices S N tol (Arr.of A) (Arr.of B) (Arr.of C) = .ok (Arr.of A', Arr.of B', Arr.of C') ∧ k ≤ n ∧ (k = 0 ∨ Reachable A' B') ∧
      (Observable A C → Observable A' C' ∧ KeepsTF A B C A' B' C') ∧
      ∀ (L : Type) [Field L] [Algebra K L] (D : Matrix (Fin p) (Fin m) L) (s : L) (M M' : Matrix (Fin p) (Fin m) L),
        TripleTF A B C D s M → TripleTF A' B' C' D s M' → M = M' := by
  obtain ⟨T, hT, h1⟩ := hb A
  have hTT : T⁻¹ * T = 1 := nonsing_inv_mul T (isUnit_iff_ne_zero.mpr hT)
  have hTT' : T * T⁻¹ = 1 := mul_eq_one_comm.mp hTT
  have hB1 : T⁻¹ * B ≠ 0 := fun h => hB <| by
    rw [← Matrix.one_mul B, ← hTT', Matrix.mul_assoc, h, Matrix.mul_zero]
  have hC1 : (C * T).rank < n := lt_of_le_of_lt (rank_mul_le_left C T) hC
  obtain ⟨Ac, Bc, Cc, Tc, r, h2, h3, h4, h5, h6, h7, h8⟩ := stair_c_exact hS he (T⁻¹ * A * T) (C * T) hB1
  obtain ⟨Ao, Bo, Co, To, q, h9, h10, h11, h12, h13, -, -⟩ := stair_o_exact hS he (T⁻¹ * A * T) (T⁻¹ * B) hC1
  have hkc := hN 0 Ac Bc
  rw [h4, h5, reachable_coords h3, ← h4, ← h5] at hkc
  have hko := hN 1 Aoᵀ Coᵀ
  rw [← observable_iff_dual, h11, h13, observable_coords h10, ← h11, ← h13] at hko
  have hob : Observable (T⁻¹ * A * T) (C * T) ↔ Observable A C := observable_coords hTT
  rw [minrealMatrices_eq hn hT h1 h2 h9, Arr.T_of, cancelDist_of _ _ _ _ hn]
  simp only [bind, Except.bind]
  by_cases h14 : tol < min (N.dist 0 (Arr.of Ac) (Arr.of Bc)) (N.dist 1 (Arr.of Aoᵀ) (Arr.of Coᵀ))
  · rw [if_pos h14]
    obtain ⟨h15, h16⟩ := lt_min_iff.mp h14
    exact ⟨n, _, _, _, rfl, le_refl n, Or.inr (hkc.mp h15), fun h => ⟨hob.mpr h, fun L _ _ D s M hM => hM.coords hTT⟩, fun L _ _ D s M M' hM hM' => (hM.coords hTT).unique hM'⟩
  · rw [if_neg h14]
    unfold minrealC
    by_cases h15 : N.dist 0 (Arr.of Ac) (Arr.of Bc) ≤ tol
    · rw [if_pos h15]
      have h16 := kcLoop_exact hN Cc h8 n n 2 (le_refl n) (N.dist 0 (Arr.of Ac) (Arr.of Bc)) hn h8.le (le_refl n) (hN _ _ _)
      rw [show Fin.castLE (le_refl n) = id from rfl] at h16
      simp only [submatrix_id_id] at h16
      obtain ⟨k, A', B', C', h17, h18, h19, h20, h21⟩ := minrealO_exact hS he hN (Ac.submatrix (Fin.castLE h8.le) (Fin.castLE h8.le))
        (B := Bc.submatrix (Fin.castLE h8.le) id) (C := Cc.submatrix id (Fin.castLE h8.le)) h7 h8.reachable (3 + n)
        (ko := N.dist (2 + n) (Arr.of (Ac.submatrix (Fin.castLE h8.le) (Fin.castLE h8.le))ᵀ) (Arr.of (Cc.submatrix id (Fin.castLE h8.le))ᵀ))
        ((hN _ _ _).trans (observable_iff_dual _ _).symm)
      have h22 : KeepsTF A B C (Ac.submatrix (Fin.castLE h8.le) (Fin.castLE h8.le)) (Bc.submatrix (Fin.castLE h8.le) id) (Cc.submatrix id (Fin.castLE h8.le)) := by
        intro L _ _ D s M hM
        refine TripleTF.lead h8 ?_
        rw [h4, h5, h6]
        exact (hM.coords hTT).coords h3
      have h23 : Observable A C → Observable Ac Cc := fun h => by
        rw [h4, h6, observable_coords h3, hob]
        exact h
      refine ⟨k, A', B', C', ?_, h18.trans h8.le, h19, fun h => ?_, fun L _ _ D s M M' hM hM' => h21 L D s M M' (h22 L D s M hM) hM'⟩
      · simp only [bind, Except.bind, Arr.of_r]
        rw [h16]
        dsimp only
        rw [Arr.T_of, Arr.T_of, cancelDist_of _ _ _ _ h7]
        exact h17
      · obtain ⟨h24, h25⟩ := h20 (h8.observable (h23 h))
        exact ⟨h24, fun L _ _ D s M hM => h25 L D s M (h22 L D s M hM)⟩
    · rw [if_neg h15]
      obtain ⟨k, A', B', C', h17, h18, h19, h20, h21⟩ := minrealO_exact hS he hN (T⁻¹ * A * T) (B := T⁻¹ * B) (C := C * T) hn (hkc.mp (not_le.mp h15)) (3 + n) hko
      exact ⟨k, A', B', C', h17, h18, h19, fun h => ⟨(h20 (hob.mpr h)).1, fun L _ _ D s M hM => (h20 (hob.mpr h)).2 L D s M (hM.coords hTT)⟩, fun L _ _ D s M M' hM hM' => h21 L D s M M' (hM.coords hTT) hM'⟩

end Harold
