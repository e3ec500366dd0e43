import Verif.Spec.Gcd
import Mathlib.GroupTheory.Perm.Fin
import Mathlib.Algebra.BigOperators.Fin
import Mathlib.Tactic.FieldSimp

/-!
# Every array has a triangular factor
-/

namespace Harold

open Spec

variable {K : Type} [Field K]

theorem exists_lu_aux : ∀ (M N k : ℕ), k = min M N → ∀ S : Matrix (Fin M) (Fin N) K,
    ∃ U : Matrix (Fin k) (Fin N) K, (∀ i j, j.val < i.val → U i j = 0) ∧
      ∃ (σ : Equiv.Perm (Fin M)) (L : Matrix (Fin M) (Fin k) K),
        (∀ i j, i.val < j.val → L i j = 0) ∧ (∀ i j, i.val = j.val → L i j = 1) ∧
        S.submatrix σ id = L * U := by
  intro M
  induction M with
  | zero =>
    intro N k hk S
    obtain rfl : k = 0 := by simpa using hk
    exact ⟨0, fun i => i.elim0, Equiv.refl _, 0, fun i => i.elim0, fun i => i.elim0,
      by ext i; exact i.elim0⟩
  | succ M ih =>
    intro N k hk S
    rcases N with _ | N
    · obtain rfl : k = 0 := by simpa using hk
      exact ⟨0, fun i => i.elim0, Equiv.refl _, 0, fun i j => j.elim0, fun i j => j.elim0,
        by ext i j; exact j.elim0⟩
    obtain ⟨k', rfl⟩ : ∃ k', k = k' + 1 := ⟨min M N, by omega⟩
    have hk' : k' = min M N := by omega
    obtain ⟨τ, l, hl⟩ : ∃ (τ : Equiv.Perm (Fin (M + 1))) (l : Fin M → K),
        ∀ i : Fin M, S (τ i.succ) 0 = l i * S (τ 0) 0 := by
      by_cases h : ∃ i0, S i0 0 ≠ 0
      · obtain ⟨i0, h0⟩ := h
        refine ⟨Equiv.swap 0 i0, fun i => S (Equiv.swap 0 i0 i.succ) 0 / S i0 0, fun i => ?_⟩
        rw [Equiv.swap_apply_left]
        field_simp
      · push Not at h
        exact ⟨Equiv.refl _, 0, fun i => by simp [h]⟩
    obtain ⟨U', hup, σ', L', hlow, hone, hLU⟩ := ih N k' hk'
      (Matrix.of fun i j => S (τ i.succ) j.succ - l i * S (τ 0) j.succ)
    refine ⟨Matrix.of (Fin.cons (S (τ 0)) (fun i => Fin.cons 0 (U' i))), ?_,
      (Equiv.Perm.decomposeFin.symm (0, σ')).trans τ,
      Matrix.of (Fin.cons (Fin.cons 1 0) (fun i => Fin.cons (l (σ' i)) (L' i))), ?_, ?_, ?_⟩
    · intro i j hij
      induction i using Fin.cases with
      | zero => simp at hij
      | succ i =>
        induction j using Fin.cases with
        | zero => simp
        | succ j => simpa using hup i j (by simpa using hij)
    · intro i j hij
      induction j using Fin.cases with
      | zero => simp at hij
      | succ j =>
        induction i using Fin.cases with
        | zero => simp
        | succ i => simpa using hlow i j (by simpa using hij)
    · intro i j hij
      induction j using Fin.cases with
      | zero =>
        induction i using Fin.cases with
        | zero => simp
        | succ i => simp at hij
      | succ j =>
        induction i using Fin.cases with
        | zero => simp at hij
        | succ i => simpa using hone i j (by simpa using hij)
    · ext i j
      rw [Matrix.submatrix_apply, Matrix.mul_apply, Fin.sum_univ_succ]
      induction i using Fin.cases with
      | zero => simp
      | succ i =>
        have h2 := fun j => congrFun (congrFun hLU i) j
        induction j using Fin.cases with
        | zero =>
          simp [hl]
        | succ j =>
          have := h2 j
          rw [Matrix.submatrix_apply, Matrix.mul_apply] at this
          simp only [id, Matrix.of_apply] at this
          simp only [Equiv.trans_apply, Equiv.Perm.decomposeFin_symm_apply_succ, Equiv.swap_self,
            Equiv.refl_apply, id, Fin.cons_succ, Fin.cons_zero, Matrix.of_apply]
          rw [← this]
          ring

/-- Every array has a triangular factor. -/
theorem exists_lu {M N : ℕ} (S : Matrix (Fin M) (Fin N) K) : ∃ U, IsLuFactor S U :=
  exists_lu_aux M N _ rfl S

end Harold
