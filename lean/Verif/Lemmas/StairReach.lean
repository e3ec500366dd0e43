import Verif.Lemmas.StairLoop
import Verif.Props.Stair
import Verif.Props.Kalman

/-!
# `staircase` in exact arithmetic separates the reachable states
-/

namespace Harold

open Matrix Spec

variable {K : Type} [Field K] {n m p q : ℕ}

/-- The smallest invariant subspace that contains the inputs. -/
theorem kry_le {A : Matrix (Fin n) (Fin n) K} {B : Matrix (Fin n) (Fin m) K} {W : Submodule K (Fin n → K)} {k : ℕ} (h1 : ∀ u, B *ᵥ u ∈ W)
    (h2 : ∀ x ∈ W, A *ᵥ x ∈ W) : krySpace A B k ≤ W := by
  refine krylov_le fun i hi u => ?_
  clear hi
  induction i with
  | zero => simpa using h1 u
  | succ i ih =>
    rw [pow_succ', Matrix.mul_assoc, ← mulVec_mulVec]
    exact h2 _ ih

theorem input_mem_kry (A : Matrix (Fin n) (Fin n) K) (B : Matrix (Fin n) (Fin m) K) (u : Fin m → K) : B *ᵥ u ∈ krySpace A B (n - 1) := by
  have := mem_krylov A B (Nat.zero_le (n - 1)) u
  simpa using this

/-- Intertwined systems. -/
theorem kry_map {A : Matrix (Fin n) (Fin n) K} {B : Matrix (Fin n) (Fin m) K} {A' : Matrix (Fin q) (Fin q) K} {B' : Matrix (Fin q) (Fin m) K}
    {P : Matrix (Fin q) (Fin n) K} (hA : P * A = A' * P) (hB : P * B = B') {x : Fin n → K} (hx : x ∈ krySpace A B (n - 1)) :
    P *ᵥ x ∈ krySpace A' B' (q - 1) := by
  have h : krySpace A B (n - 1) ≤ (krySpace A' B' (q - 1)).comap P.mulVecLin := by
    refine kry_le (fun u => ?_) fun x hx => ?_
    · rw [Submodule.mem_comap, mulVecLin_apply, mulVec_mulVec, hB]
      exact input_mem_kry A' B' u
    · rw [Submodule.mem_comap, mulVecLin_apply] at hx ⊢
      rw [mulVec_mulVec, hA, ← mulVec_mulVec]
      exact krylov_invariant A' B' hx
  exact h hx

theorem reachable_iff_kry (A : Matrix (Fin n) (Fin n) K) (B : Matrix (Fin n) (Fin m) K) : Reachable A B ↔ krySpace A B (n - 1) = ⊤ := by
  rw [reachable_iff_rank, rank_eq_iff_range]
  rfl

/-- All unit vectors are reachable. -/
theorem reachable_iff_single (A : Matrix (Fin n) (Fin n) K) (B : Matrix (Fin n) (Fin m) K) :
    Reachable A B ↔ ∀ i : Fin n, Pi.single i 1 ∈ krySpace A B (n - 1) := by
  rw [reachable_iff_kry]
  constructor
  · intro h i
    rw [h]
    exact Submodule.mem_top
  · intro h
    rw [eq_top_iff]
    intro x _
    have : x = ∑ i, x i • (Pi.single i 1 : Fin n → K) := by
      ext j
      simp [Finset.sum_apply, Pi.single_apply]
    rw [this]
    exact Submodule.sum_mem _ fun i _ => Submodule.smul_mem _ _ (h i)

/-- The first `r` states are the reachable ones. -/
structure Lead (r : ℕ) (A : Matrix (Fin n) (Fin n) K) (B : Matrix (Fin n) (Fin m) K) : Prop where
  le : r ≤ n
  zeroA : ∀ i c : Fin n, r ≤ (i : ℕ) → (c : ℕ) < r → A i c = 0
  zeroB : ∀ (i : Fin n) (c : Fin m), r ≤ (i : ℕ) → B i c = 0
  reach : ∀ i : Fin n, (i : ℕ) < r → Pi.single i 1 ∈ krySpace A B (n - 1)

/-- Columns of a matrix with a known factorisation. -/
theorem col_span {X : Type} [AddCommGroup X] [Module K X] {a b : ℕ} {W : Submodule K X} (f : Fin a → X) {Y : Matrix (Fin a) (Fin b) K} {sv : List K}
    {V : Matrix (Fin b) (Fin b) K} (hY : Y = diagRect a b sv * V) (hV : V * Vᵀ = 1) (h : ∀ c, ∑ t, Y t c • f t ∈ W) {t : Fin a} (ht : (t : ℕ) < b)
    (hs : sv.getD t 0 ≠ 0) : f t ∈ W := by
  have h1 : ∑ c, V ⟨t, ht⟩ c • ∑ t', Y t' c • f t' = sv.getD t 0 • f t := by
    have h2 : ∀ t', ∑ c, V ⟨t, ht⟩ c * Y t' c = if t' = t then sv.getD t 0 else 0 := by
      intro t'
      have : ∑ c, V ⟨t, ht⟩ c * Y t' c = (Y * Vᵀ) t' ⟨t, ht⟩ := by
        rw [Matrix.mul_apply]
        exact Finset.sum_congr rfl fun c _ => by rw [transpose_apply, mul_comm]
      rw [this, hY, Matrix.mul_assoc, hV, Matrix.mul_one]
      unfold diagRect
      rw [Matrix.of_apply]
      by_cases h3 : t' = t
      · subst h3
        rw [if_pos rfl, if_pos rfl]
      · rw [if_neg h3, if_neg]
        exact fun h4 => h3 (Fin.ext h4)
    simp only [Finset.smul_sum, smul_smul]
    rw [Finset.sum_comm]
    simp only [← Finset.sum_smul, h2]
    simp
  have h2 := Submodule.sum_mem W fun c (_ : c ∈ Finset.univ) => Submodule.smul_mem W (V ⟨t, ht⟩ c) (h c)
  rw [h1] at h2
  have h3 := Submodule.smul_mem W (sv.getD t 0)⁻¹ h2
  rwa [smul_smul, inv_mul_cancel₀ hs, one_smul] at h3

/-- If a subspace contains the first unit vectors, it contains the tails of its elements. -/
theorem tail_mem {k : ℕ} (hk : k ≤ n) {W : Submodule K (Fin n → K)} (h : ∀ i : Fin n, (i : ℕ) < k → Pi.single i 1 ∈ W) {x : Fin n → K} (hx : x ∈ W) :
    ∑ t : Fin (n - k), x ⟨k + t, Nat.add_lt_of_lt_sub' t.2⟩ • (Pi.single ⟨k + t, Nat.add_lt_of_lt_sub' t.2⟩ 1 : Fin n → K) ∈ W := by
  have h1 : x = ∑ t : Fin k, x ⟨t, by omega⟩ • (Pi.single ⟨t, by omega⟩ 1 : Fin n → K) +
      ∑ t : Fin (n - k), x ⟨k + t, Nat.add_lt_of_lt_sub' t.2⟩ • (Pi.single ⟨k + t, Nat.add_lt_of_lt_sub' t.2⟩ 1 : Fin n → K) := by
    ext j
    have := sum_split hk fun t => x t * (Pi.single t 1 : Fin n → K) j
    simp only [Pi.add_apply, Finset.sum_apply, Pi.smul_apply, smul_eq_mul]
    rw [← this]
    simp [Pi.single_apply]
  have h2 : ∑ t : Fin k, x ⟨t, by omega⟩ • (Pi.single ⟨t, by omega⟩ 1 : Fin n → K) ∈ W :=
    Submodule.sum_mem _ fun t _ => Submodule.smul_mem _ _ (h _ t.2)
  have h3 := W.sub_mem hx h2
  rw [sub_eq_of_eq_add' h1] at h3
  exact h3

variable [LinearOrder K]

theorem desc_pos {s : List K} (hs : s.Pairwise (· ≥ ·)) : ∀ {i : ℕ}, i < countAbove 0 s → 0 < s.getD i 0 := by
  induction s with
  | nil => intro i h; simp [countAbove] at h
  | cons a l ih =>
    intro i h
    rw [List.pairwise_cons] at hs
    by_cases ha : 0 < a
    · cases i with
      | zero => simpa using ha
      | succ i =>
        have := @ih hs.2 i (by simp [countAbove, ha] at h; simpa [countAbove] using h)
        simpa using this
    · exfalso
      have : (a :: l).filter (fun t => decide (0 < t)) = [] := by
        rw [List.filter_eq_nil_iff]
        intro t ht
        rcases List.mem_cons.mp ht with rfl | ht
        · simpa using ha
        · have := hs.1 t ht
          simp only [decide_eq_true_eq]
          exact fun h => ha (lt_of_lt_of_le h this)
      rw [countAbove, this] at h
      simp at h

variable [IsStrictOrderedRing K]

section
variable {A : Matrix (Fin n) (Fin n) K} {B : Matrix (Fin n) (Fin m) K} {C : Matrix (Fin p) (Fin n) K} {j s : ℕ}
  {A0 : Matrix (Fin n) (Fin n) K} {B0 : Matrix (Fin n) (Fin m) K} {C0 : Matrix (Fin p) (Fin n) K} {T : Matrix (Fin n) (Fin n) K}

theorem StairInv.eqA (h : StairInv A B C 0 0 j s A0 B0 C0 T) : A0 = T * A * Tᵀ :=
  sub_eq_zero.mp (frobSq_eq_zero (by simpa using h.err))

theorem StairInv.eqB (h : StairInv A B C 0 0 j s A0 B0 C0 T) : B0 = T * B :=
  sub_eq_zero.mp (frobSq_eq_zero h.b)

/-- The columns of the block below the diagonal block are reachable. -/
theorem h3_mem (h : j + s ≤ n) (hr : ∀ i : Fin n, (i : ℕ) < j + s → Pi.single i 1 ∈ krySpace A0 B0 (n - 1)) (c : Fin s) :
    ∑ t : Fin (n - (j + s)), A0 ⟨j + s + t, Nat.add_lt_of_lt_sub' t.2⟩ ⟨j + c, by omega⟩ •
      (Pi.single ⟨j + s + t, Nat.add_lt_of_lt_sub' t.2⟩ 1 : Fin n → K) ∈ krySpace A0 B0 (n - 1) := by
  have h1 := krylov_invariant A0 B0 (hr ⟨j + c, by omega⟩ (by simp))
  have h2 := tail_mem h hr h1
  simpa using h2

/-- Reachability of the leading states is preserved by a sweep. -/
theorem StairInv.step_reach {k r : ℕ} (h : StairInv A B C 0 0 j s A0 B0 C0 T) (hs : j + s = k) (hk : k < n) {U : Matrix (Fin (n - k)) (Fin (n - k)) K}
    (hU : Uᵀ * U = 1) {Y : Matrix (Fin (n - k)) (Fin s) K}
    (h' : StairInv A B C 0 0 k r (withBlock ((emb k U)ᵀ * A0 * emb k U) j k s hs Y) B0 (C0 * emb k U) ((emb k U)ᵀ * T))
    (hr : ∀ i : Fin n, (i : ℕ) < j + s → Pi.single i 1 ∈ krySpace A0 B0 (n - 1)) {sv : List K} {V : Matrix (Fin s) (Fin s) K}
    (hY : Y = diagRect (n - k) s sv * V) (hV : V * Vᵀ = 1) (hrs : r ≤ s) (hsv : ∀ t, t < r → sv.getD t 0 ≠ 0) :
    ∀ i : Fin n, (i : ℕ) < k + r → Pi.single i 1 ∈ krySpace (withBlock ((emb k U)ᵀ * A0 * emb k U) j k s hs Y) B0 (n - 1) := by
  set E := emb k U with hE
  set A1 := withBlock (Eᵀ * A0 * E) j k s hs Y with hA1
  have hEo : Eᵀ * E = 1 := emb_orth hk.le hU
  have hEo' : E * Eᵀ = 1 := mul_eq_one_comm.mp hEo
  have e1 : A1 = Eᵀ * A0 * E := by
    rw [h'.eqA, h.eqA, transpose_mul, transpose_transpose]
    simp only [Matrix.mul_assoc]
  have e2 : Eᵀ * B0 = B0 := by
    conv_rhs => rw [h'.eqB]
    rw [Matrix.mul_assoc, ← h.eqB]
  have h1 : ∀ i : Fin n, (i : ℕ) < j + s → Pi.single i 1 ∈ krySpace A1 B0 (n - 1) := by
    intro i hi
    have h2 := kry_map (P := Eᵀ) (A' := A1) (B' := B0) (by rw [e1, Matrix.mul_assoc (Eᵀ * A0), hEo', Matrix.mul_one]) e2 (hr i hi)
    have h3 : Eᵀ *ᵥ (Pi.single i 1 : Fin n → K) = Pi.single i 1 := by
      ext t
      rw [mulVec_single_one, col_apply, transpose_apply, hE, emb_lt U (Or.inl (by omega)), Pi.single_apply]
      simp [eq_comm]
    rwa [h3] at h2
  intro i hi
  by_cases hik : (i : ℕ) < k
  · exact h1 i (by omega)
  · obtain ⟨t, rfl⟩ := exists_shift hik
    simp only at hi
    refine col_span (fun t : Fin (n - k) => (Pi.single ⟨k + t, Nat.add_lt_of_lt_sub' t.2⟩ 1 : Fin n → K)) hY hV (fun c => ?_) (by omega) (hsv t (by omega))
    subst hs
    have h4 := h3_mem hk.le h1 c
    convert h4 using 3 with t'
    rw [hA1]
    unfold withBlock
    rw [Matrix.of_apply, dif_pos ⟨by simp, by simp, by simp⟩]
    simp

end

/-- The loop in exact arithmetic ends with the reachable states in front. -/
theorem stairLoop_exact {S : SvdNum K} (hS : ∀ (a b : ℕ) (M : Matrix (Fin a) (Fin b) K), SvdOk S M)
    {A : Matrix (Fin n) (Fin n) K} {B : Matrix (Fin n) (Fin m) K} {C : Matrix (Fin p) (Fin n) K} (fuel : ℕ) :
    ∀ {j s : ℕ} {A0 : Matrix (Fin n) (Fin n) K} {B0 : Matrix (Fin n) (Fin m) K} {C0 : Matrix (Fin p) (Fin n) K} {T : Matrix (Fin n) (Fin n) K},
    StairInv A B C 0 0 j s A0 B0 C0 T → (∀ i : Fin n, (i : ℕ) < j + s → Pi.single i 1 ∈ krySpace A0 B0 (n - 1)) → 0 < s → n ≤ j + fuel →
      ∃ r A1 C1 T1, stairLoop S 0 fuel j s (Arr.of A0) (Arr.of C0) (Arr.of T) = .ok (Arr.of A1, Arr.of C1, Arr.of T1) ∧
      T1 * T1ᵀ = 1 ∧ A1 = T1 * A * T1ᵀ ∧ B0 = T1 * B ∧ C1 = C * T1ᵀ ∧ 0 < r ∧ Lead r A1 B0 := by
  induction fuel with
  | zero => intro j s A0 B0 C0 T h _ h2 h3; have := h.le; omega
  | succ fuel ih =>
    intro j s A0 B0 C0 T h hr h0 hf
    obtain ⟨hh, hm, hm'⟩ := stair_h3 (k := j + s) rfl h.le A0
    set H : Matrix (Fin (n - (j + s))) (Fin s) K := Matrix.of fun i c => A0 ⟨j + s + i, Nat.add_lt_of_lt_sub' i.2⟩ ⟨j + c, by have := h.le; omega⟩ with hH
    unfold stairLoop
    simp only [Arr.of_r, Arr.of_c, hm, bind, Except.bind, hm']
    by_cases ha : (Arr.of H).any = false
    · rw [if_pos ha]
      have hH0 : ∀ i c, H i c = 0 := fun i c => by
        by_contra h1
        rw [Bool.eq_false_iff] at ha
        exact ha ((Arr.any_iff _).mpr ⟨i, c, h1⟩)
      refine ⟨j + s, A0, C0, T, rfl, h.orth, h.eqA, h.eqB, h.c, by omega, h.le, fun i c hi hc => ?_, h.zeroB, hr⟩
      by_cases hcj : (c : ℕ) < j
      · exact h.zero i c hi hcj
      · obtain ⟨i, rfl⟩ := exists_shift (not_lt.mpr hi)
        have := hH0 i ⟨c - j, by omega⟩
        rw [hH, Matrix.of_apply] at this
        convert this using 2
        ext
        simp
        omega
    · rw [if_neg ha]
      obtain ⟨U, sv, V, e1, e2⟩ := hS _ _ H
      have e3 : haroldsvdTol S 0 (Arr.of H) = (Arr.of U, Arr.of (diagRect (n - (j + s)) s sv), Arr.of V, countAbove 0 sv) := by
        unfold haroldsvdTol
        rw [e1]
      rw [e3]
      simp only
      by_cases hc : 0 < countAbove 0 sv ∧ countAbove 0 sv < n - (j + s)
      · rw [if_pos hc, zeroFrom_diag, Arr.matmul_of]
        simp only
        have hk : j + s < n := by omega
        rw [stairUpdate_of rfl hk A0 C0 T U _ h.zero]
        simp only
        have hle : countAbove 0 sv ≤ s := by
          have : countAbove 0 sv ≤ sv.length := List.length_filter_le _ _
          rw [e2.len] at this
          omega
        have hinv := h.step rfl hk e2.u_orth (H := H) (r := countAbove 0 sv) (Y := diagRect (n - (j + s)) s (sv.take (countAbove 0 sv)) * V) (fun i c => rfl)
          (fun i c hi => by
            rw [Matrix.mul_apply]
            refine Finset.sum_eq_zero fun t _ => ?_
            unfold diagRect
            rw [Matrix.of_apply, List.getD_eq_default _ _ (by rw [List.length_take]; omega), ite_self, zero_mul]) hc.2
          (by
            refine (frobSq_drop e2 (le_refl 0)).trans ?_
            exact mul_le_mul_of_nonneg_right (by exact_mod_cast min_le_right _ _) (sq_nonneg _))
        refine ih hinv ?_ hc.1 (by omega)
        refine h.step_reach rfl hk e2.u_orth hinv hr rfl e2.v_orth hle fun t ht => ?_
        rw [List.getD_eq_getElem?_getD, List.getElem?_take_of_lt ht, ← List.getD_eq_getElem?_getD]
        exact (desc_pos e2.desc ht).ne'
      · rw [if_neg hc]
        have hpos : 0 < countAbove 0 sv := by
          by_contra h1
          apply ha
          have hz : ∀ t ∈ sv, t = 0 := fun t ht => by
            refine le_antisymm ?_ (e2.nonneg t ht)
            by_contra h2
            have : t ∈ sv.filter fun t => decide (0 < t) := List.mem_filter.mpr ⟨ht, by simpa using h2⟩
            exact h1 (List.length_pos_of_mem this)
          have : H = 0 := by
            have hd : diagRect (n - (j + s)) s sv = 0 := by
              ext i c
              unfold diagRect
              rw [Matrix.of_apply]
              by_cases h2 : (i : ℕ) = c
              · rw [if_pos h2]
                by_cases h3 : (i : ℕ) < sv.length
                · rw [List.getD_eq_getElem _ _ h3]
                  exact hz _ (List.getElem_mem _)
                · rw [List.getD_eq_default _ _ (by omega)]; rfl
              · rw [if_neg h2]; rfl
            rw [e2.eq, hd]
            simp
          rw [this, Bool.eq_false_iff]
          intro h2
          obtain ⟨i, c, h2⟩ := (Arr.any_iff _).mp h2
          exact h2 rfl
        have hfull : n - (j + s) ≤ countAbove 0 sv := by omega
        have hlen : countAbove 0 sv ≤ sv.length := List.length_filter_le _ _
        rw [e2.len] at hlen
        refine ⟨n, A0, C0, T, rfl, h.orth, h.eqA, h.eqB, h.c, by have := h.le; omega, le_refl _, fun i _ hi => by omega, fun i _ hi => by omega, fun i _ => ?_⟩
        by_cases hi : (i : ℕ) < j + s
        · exact hr i hi
        · obtain ⟨i, rfl⟩ := exists_shift hi
          set W := krySpace A0 B0 (n - 1)
          set g : Fin (n - (j + s)) → Fin n → K := fun t => ∑ t', U t' t • (Pi.single ⟨j + s + t', Nat.add_lt_of_lt_sub' t'.2⟩ 1 : Fin n → K) with hg
          have hcol : ∀ c, ∑ t, (diagRect (n - (j + s)) s sv * V) t c • g t ∈ W := fun c => by
            have h4 := h3_mem h.le hr c
            convert h4 using 1
            simp only [hg, Finset.smul_sum, smul_smul]
            rw [Finset.sum_comm]
            refine Finset.sum_congr rfl fun t' _ => ?_
            rw [← Finset.sum_smul]
            congr 1
            have : H t' c = (U * (diagRect (n - (j + s)) s sv * V)) t' c := by rw [← Matrix.mul_assoc, ← e2.eq]
            rw [hH, Matrix.of_apply] at this
            rw [this, Matrix.mul_apply]
            exact Finset.sum_congr rfl fun t _ => mul_comm _ _
          have hgm : ∀ t, g t ∈ W := fun t =>
            col_span g rfl e2.v_orth hcol (by omega) (desc_pos e2.desc (by omega)).ne'
          have hUU : U * Uᵀ = 1 := mul_eq_one_comm.mp e2.u_orth
          have : (Pi.single ⟨j + s + i, Nat.add_lt_of_lt_sub' i.2⟩ 1 : Fin n → K) = ∑ t, U i t • g t := by
            simp only [hg, Finset.smul_sum, smul_smul]
            rw [Finset.sum_comm]
            have h5 : ∀ t', ∑ t, U i t * U t' t = if i = t' then 1 else 0 := fun t' => by
              have := congrFun (congrFun hUU i) t'
              rw [Matrix.mul_apply, Matrix.one_apply] at this
              exact this
            simp only [← Finset.sum_smul, h5]
            simp
          rw [this]
          exact Submodule.sum_mem _ fun t _ => Submodule.smul_mem _ _ (hgm t)

end Harold
