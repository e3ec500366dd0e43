import Verif.Spec.Svd
import Mathlib.Data.List.GetD
import Mathlib.LinearAlgebra.Matrix.DotProduct

/-!
# Rank and singular values
-/

namespace Harold

open Matrix Spec

variable {K : Type} [Field K] [LinearOrder K] [IsStrictOrderedRing K] {p m : ℕ}

theorem rankTol_nonneg {eps : K} (h : 0 ≤ eps) {s : List K} (hs : ∀ t ∈ s, 0 ≤ t) : 0 ≤ rankTol eps p m s := by
  unfold rankTol
  refine mul_nonneg (mul_nonneg ?_ (Nat.cast_nonneg _)) h
  have h1 : 0 ≤ s.headD 0 := by
    cases s with
    | nil => simp
    | cons a l => simpa using hs a (by simp)
  have : ∀ l : List K, 0 ≤ l.foldr max (s.headD 0) := by
    intro l
    induction l with
    | nil => simpa using h1
    | cons a l ih => exact le_max_of_le_right ih
  exact this s

omit [LinearOrder K] [IsStrictOrderedRing K] in
theorem card_getD [DecidableEq K] (s : List K) : ∀ p : ℕ, s.length ≤ p →
    (Finset.univ.filter fun i : Fin p => s.getD i 0 ≠ 0).card = (s.filter fun t => decide (t ≠ 0)).length := by
  induction s with
  | nil => intro p _; simp
  | cons a l ih =>
    intro p hp
    obtain ⟨p, rfl⟩ : ∃ q, p = q + 1 := ⟨p - 1, by simp at hp; omega⟩
    rw [Fin.card_filter_univ_succ]
    simp only [Fin.val_zero, List.getD_cons_zero, Fin.val_succ, List.getD_cons_succ]
    have := ih p (by simpa using hp)
    by_cases ha : a = 0
    · simp [ha] at this ⊢; exact this
    · simp [ha] at this ⊢; omega

/-- The rank of a rectangular diagonal matrix. -/
theorem rank_diagRect {s : List K} (hl : s.length = min p m) :
    (diagRect p m s).rank = (s.filter fun t => decide (t ≠ 0)).length := by
  rw [← rank_self_mul_transpose]
  have h1 : diagRect p m s * (diagRect p m s)ᵀ = diagonal (fun i : Fin p => s.getD i 0 * s.getD i 0) := by
    ext i j
    rw [Matrix.mul_apply]
    simp only [transpose_apply, diagRect, Matrix.of_apply]
    by_cases him : (i : ℕ) < m
    · rw [Finset.sum_eq_single ⟨i, him⟩]
      · by_cases hij : i = j
        · subst hij; simp
        · rw [diagonal_apply_ne _ hij, if_neg (show ¬ ((j : ℕ) = i) from fun h => hij (Fin.ext h.symm))]
          simp
      · intro b _ hb
        rw [if_neg (fun h => hb (Fin.ext h.symm)), zero_mul]
      · simp
    · rw [Finset.sum_eq_zero]
      · by_cases hij : i = j
        · subst hij
          rw [diagonal_apply_eq, List.getD_eq_default _ _ (by omega), zero_mul]
        · rw [diagonal_apply_ne _ hij]
      · intro b _
        rw [if_neg (by have := b.2; omega), zero_mul]
  rw [h1, rank_diagonal]
  have h2 : ∀ i : Fin p, s.getD i 0 * s.getD i 0 ≠ 0 ↔ s.getD i 0 ≠ 0 := fun i => by simp
  rw [Fintype.card_congr (Equiv.subtypeEquivRight h2), Fintype.card_subtype]
  exact card_getD s p (by omega)

/-- Orthogonal factors do not change the rank. -/
theorem svd_rank {M : Matrix (Fin p) (Fin m) K} {U : Matrix (Fin p) (Fin p) K} {s : List K} {V : Matrix (Fin m) (Fin m) K}
    (h : IsSvd M U s V) : M.rank = (s.filter fun t => decide (t ≠ 0)).length := by
  have hU : IsUnit U.det := (isUnit_iff_isUnit_det _).mp (IsUnit.of_mul_eq_one_right _ h.u_orth)
  have hV : IsUnit V.det := (isUnit_iff_isUnit_det _).mp (IsUnit.of_mul_eq_one _ h.v_orth)
  rw [h.eq, rank_mul_eq_left_of_isUnit_det _ _ hV, rank_mul_eq_right_of_isUnit_det _ _ hU, rank_diagRect h.len]

/-- What `haroldsvd` returns. -/
theorem haroldsvd_eq {S : SvdNum K} {M : Matrix (Fin p) (Fin m) K} {U : Matrix (Fin p) (Fin p) K} {s : List K}
    {V : Matrix (Fin m) (Fin m) K} (h : S.svd (Arr.of M) = (Arr.of U, s, Arr.of V)) (hs : s ≠ []) :
    haroldsvd S (Arr.of M) = .ok (Arr.of U, Arr.of (diagRect p m s), Arr.of V, countAbove (rankTol S.eps p m s) s) := by
  unfold haroldsvd
  simp only [h, if_neg hs]

/-- The computed rank is never too large. -/
theorem countAbove_le_rank {S : SvdNum K} (he : 0 ≤ S.eps) {M : Matrix (Fin p) (Fin m) K} {U : Matrix (Fin p) (Fin p) K} {s : List K}
    {V : Matrix (Fin m) (Fin m) K} (h : IsSvd M U s V) : countAbove (rankTol S.eps p m s) s ≤ M.rank := by
  rw [svd_rank h, countAbove, ← List.countP_eq_length_filter, ← List.countP_eq_length_filter]
  refine List.countP_mono_left fun t ht h1 => ?_
  simp only [decide_eq_true_eq] at h1 ⊢
  exact (lt_of_le_of_lt (rankTol_nonneg he h.nonneg) h1).ne'

/-- The computed rank is the rank if the threshold separates the nonzero singular values from zero. -/
theorem countAbove_eq_rank {S : SvdNum K} (he : 0 ≤ S.eps) {M : Matrix (Fin p) (Fin m) K} {U : Matrix (Fin p) (Fin p) K} {s : List K}
    {V : Matrix (Fin m) (Fin m) K} (h : IsSvd M U s V) (ht : ∀ t ∈ s, t ≠ 0 → rankTol S.eps p m s < t) :
    countAbove (rankTol S.eps p m s) s = M.rank := by
  refine le_antisymm (countAbove_le_rank he h) ?_
  rw [svd_rank h, countAbove, ← List.countP_eq_length_filter, ← List.countP_eq_length_filter]
  refine List.countP_mono_left fun t h0 h1 => ?_
  simp only [decide_eq_true_eq] at h1 ⊢
  exact ht t h0 h1

theorem svd_ne_nil {M : Matrix (Fin p) (Fin m) K} {U : Matrix (Fin p) (Fin p) K} {s : List K} {V : Matrix (Fin m) (Fin m) K}
    (h : IsSvd M U s V) (hp : 0 < p) (hm : 0 < m) : s ≠ [] := by
  intro h1
  have := h.len
  rw [h1] at this
  simp at this
  omega

end Harold
