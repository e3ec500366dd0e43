import Mathlib.LinearAlgebra.Matrix.Charpoly.Basic
import Mathlib.LinearAlgebra.Matrix.Adjugate
import Mathlib.LinearAlgebra.Matrix.Block
import Mathlib.LinearAlgebra.Matrix.NonsingularInverse
import Mathlib.Tactic.LinearCombination

/-!
# Companion matrices

`compM a` is the bottom-row companion matrix of `xⁿ + a (n-1) xⁿ⁻¹ + ... + a 0`.
-/

namespace Harold

open Matrix

section
variable {R : Type} [CommRing R] {n : ℕ}

/-- Ones above the diagonal, `-a` in the last row. -/
def compM (a : Fin n → R) : Matrix (Fin n) (Fin n) R :=
  Matrix.of fun i j => if i.val + 1 = n then -a j else if j.val = i.val + 1 then 1 else 0

/-- `xⁿ + ∑ aᵢ xⁱ`. -/
def monicVal (a : Fin n → R) (x : R) : R := x ^ n + ∑ i, a i * x ^ i.val

theorem compM_mulVec (a : Fin n → R) (x : R) :
    (x • (1 : Matrix (Fin n) (Fin n) R) - compM a) *ᵥ (fun i => x ^ i.val)
      = fun i => if i.val + 1 = n then monicVal a x else 0 := by
  ext i
  rw [sub_mulVec, Pi.sub_apply, smul_mulVec, one_mulVec]
  by_cases h : i.val + 1 = n
  · simp only [Pi.smul_apply, smul_eq_mul, compM, mulVec, dotProduct, of_apply, h, if_true,
      neg_mul, Finset.sum_neg_distrib, monicVal]
    rw [← pow_succ', h]; ring
  · simp only [Pi.smul_apply, smul_eq_mul, compM, mulVec, dotProduct, of_apply, h, if_false]
    have hi : i.val + 1 < n := by omega
    rw [Finset.sum_eq_single ⟨i.val + 1, hi⟩]
    · simp [← pow_succ']
    · intro j _ hj
      have : ¬ j.val = i.val + 1 := fun e => hj (Fin.ext e)
      simp [this]
    · simp

theorem det_compM (a : Fin n → R) (x : R) :
    (x • (1 : Matrix (Fin n) (Fin n) R) - compM a).det = monicVal a x := by
  cases n with
  | zero => simp [monicVal]
  | succ m =>
    set M := x • (1 : Matrix (Fin (m + 1)) (Fin (m + 1)) R) - compM a with hM
    set v : Fin (m + 1) → R := fun i => x ^ i.val with hv
    have h1 : (M.updateCol 0 (M *ᵥ v)).det = M.det := by
      rw [← cramer_apply, cramer_eq_adjugate_mulVec, mulVec_mulVec, adjugate_mul, smul_mulVec,
        one_mulVec]
      simp [hv]
    rw [← h1, compM_mulVec, det_succ_column_zero, Finset.sum_eq_single (Fin.last m)]
    · have h2 : ((M.updateCol 0 fun i => if i.val + 1 = m + 1 then monicVal a x else 0).submatrix
          (Fin.last m).succAbove Fin.succ).det = (-1) ^ m := by
        rw [det_of_lowerTriangular]
        · rw [Finset.prod_congr rfl (g := fun _ => (-1 : R))]
          · simp
          · intro i _
            simp only [Fin.succAbove_last, submatrix_apply, updateCol_apply, Fin.succ_ne_zero,
              if_false, hM, Matrix.sub_apply, Matrix.smul_apply, compM, of_apply, Fin.val_castSucc,
              Fin.val_succ]
            have : ¬ (i.val = m) := by omega
            have h3 : ¬ (i.castSucc = i.succ) := by
              intro e; have := congrArg Fin.val e; simp at this
            simp [this, Matrix.one_apply, h3]
        · intro i j hij
          have hij : i < j := hij
          simp only [Fin.succAbove_last, submatrix_apply, updateCol_apply, Fin.succ_ne_zero,
            if_false, hM, Matrix.sub_apply, Matrix.smul_apply, compM, of_apply, Fin.val_castSucc, Fin.val_succ]
          have h4 : ¬ (i.val = m) := by omega
          have h5 : ¬ (i.castSucc = j.succ) := by
            intro e; have := congrArg Fin.val e; simp at this; omega
          have h6 : ¬ (j.val = i.val) := by omega
          simp [h4, Matrix.one_apply, h5, h6]
      rw [h2]
      simp [updateCol_self]
      rw [mul_comm, ← mul_assoc, ← mul_pow]; simp
    · intro i _ hi
      have : ¬ (i.val = m) := by
        intro e; apply hi; ext; simp; omega
      simp [updateCol_self, this]
    · simp

open Polynomial in
theorem charpoly_compM (a : Fin n → R) :
    (compM a).charpoly = X ^ n + ∑ i, C (a i) * X ^ i.val := by
  have h := det_compM (fun i => C (a i)) (X : R[X])
  rw [monicVal] at h
  rw [← h, Matrix.charpoly, charmatrix]
  congr 1
  refine Matrix.ext fun i j => ?_
  simp only [Matrix.sub_apply, scalar_apply, Matrix.smul_apply, RingHom.mapMatrix_apply, map_apply, compM,
    of_apply, Matrix.one_apply, diagonal_apply]
  split_ifs <;> simp

end

end Harold
