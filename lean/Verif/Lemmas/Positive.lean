import Verif.Spec.Positive
import Verif.Lemmas.Duality
import Verif.Lemmas.Motion
import Verif.Lemmas.LogUniq
import Verif.Lemmas.LqrLoop
import Verif.Props.Refine

/-!
# Matrices without negative entries
-/

namespace Harold

open Matrix Spec NormedSpace Filter Topology

variable {n m p k r c : ℕ}

theorem Spec.NoNeg.mul {X : Matrix (Fin r) (Fin n) ℝ} {Y : Matrix (Fin n) (Fin c) ℝ} (hX : NoNeg X) (hY : NoNeg Y) : NoNeg (X * Y) := fun i j => by
  rw [Matrix.mul_apply]
  exact Finset.sum_nonneg fun l _ => mul_nonneg (hX i l) (hY l j)

theorem Spec.NoNeg.add {X Y : Matrix (Fin r) (Fin c) ℝ} (hX : NoNeg X) (hY : NoNeg Y) : NoNeg (X + Y) := fun i j => add_nonneg (hX i j) (hY i j)

theorem Spec.NoNeg.smul {X : Matrix (Fin r) (Fin c) ℝ} (hX : NoNeg X) {t : ℝ} (ht : 0 ≤ t) : NoNeg (t • X) := fun i j => mul_nonneg ht (hX i j)

theorem noNeg_one : NoNeg (1 : Matrix (Fin n) (Fin n) ℝ) := fun i j => by
  rw [Matrix.one_apply]; split_ifs <;> norm_num

theorem noNeg_zero : NoNeg (0 : Matrix (Fin r) (Fin c) ℝ) := fun _ _ => le_rfl

theorem Spec.NoNeg.pow {X : Matrix (Fin n) (Fin n) ℝ} (hX : NoNeg X) (i : ℕ) : NoNeg (X ^ i) := by
  induction i with
  | zero => rw [pow_zero]; exact noNeg_one
  | succ i ih => rw [pow_succ]; exact ih.mul hX

theorem Spec.NoNeg.sum {ι : Type} {s : Finset ι} {F : ι → Matrix (Fin r) (Fin c) ℝ} (h : ∀ l ∈ s, NoNeg (F l)) : NoNeg (∑ l ∈ s, F l) := fun i j => by
  rw [Matrix.sum_apply]
  exact Finset.sum_nonneg fun l hl => h l hl i j

theorem Spec.NoNeg.mulVec {X : Matrix (Fin r) (Fin c) ℝ} (hX : NoNeg X) {v : Fin c → ℝ} (hv : ∀ j, 0 ≤ v j) (i : Fin r) : 0 ≤ (X *ᵥ v) i := by
  simp only [Matrix.mulVec, dotProduct]
  exact Finset.sum_nonneg fun j _ => mul_nonneg (hX i j) (hv j)

theorem Spec.NoNeg.off {X : Matrix (Fin n) (Fin n) ℝ} (h : NoNeg X) : NoNegOff X := fun i j _ => h i j

theorem Spec.NoNegOff.smul {X : Matrix (Fin n) (Fin n) ℝ} (hX : NoNegOff X) {t : ℝ} (ht : 0 ≤ t) : NoNegOff (t • X) := fun i j h => mul_nonneg ht (hX i j h)

theorem Spec.NoNeg.exp {X : Matrix (Fin n) (Fin n) ℝ} (hX : NoNeg X) : NoNeg (exp X) := fun i j =>
  (hasSum_exp_entry X i j).nonneg fun l => mul_nonneg (by positivity) (hX.pow l i j)

/-- A shift makes the diagonal nonnegative. -/
theorem Spec.NoNegOff.shift {X : Matrix (Fin n) (Fin n) ℝ} (hX : NoNegOff X) : ∃ t : ℝ, 0 ≤ t ∧ NoNeg (X + t • (1 : Matrix (Fin n) (Fin n) ℝ)) := by
  refine ⟨∑ i, |X i i|, Finset.sum_nonneg fun i _ => abs_nonneg _, fun i j => ?_⟩
  rw [Matrix.add_apply, Matrix.smul_apply, Matrix.one_apply]
  split_ifs with h
  · subst h
    have h1 := Finset.single_le_sum (f := fun i => |X i i|) (fun i _ => abs_nonneg _) (Finset.mem_univ i)
    have h2 := neg_abs_le (X i i)
    simp only [smul_eq_mul, mul_one] at h1 ⊢
    linarith
  · simpa using hX i j h

theorem Spec.NoNegOff.exp {X : Matrix (Fin n) (Fin n) ℝ} (hX : NoNegOff X) : NoNeg (exp X) := by
  obtain ⟨t, -, h⟩ := hX.shift
  have h1 : X = (X + t • (1 : Matrix (Fin n) (Fin n) ℝ)) + (-t) • (1 : Matrix (Fin n) (Fin n) ℝ) := by
    rw [add_assoc, ← add_smul, add_neg_cancel, zero_smul, add_zero]
  rw [h1, Matrix.exp_add_of_commute _ _ ((Commute.one_right _).smul_right _)]
  refine h.exp.mul ?_
  rw [smul_one_eq_diagonal, exp_diagonal]
  intro i j
  rw [Matrix.diagonal_apply]
  split_ifs
  · rw [Pi.coe_exp, ← Real.exp_eq_exp_ℝ]
    exact (Real.exp_pos _).le
  · exact le_rfl

theorem noNegOff_blk {A : Matrix (Fin n) (Fin n) ℝ} {B : Matrix (Fin n) (Fin m) ℝ} {A' : Matrix (Fin m) (Fin m) ℝ} (hA : NoNegOff A) (hB : NoNeg B) (hA' : NoNegOff A') : NoNegOff (blk A B 0 A') := by
  intro i j
  refine Fin.addCases (fun i => ?_) (fun i => ?_) i <;> refine Fin.addCases (fun j => ?_) (fun j => ?_) j <;> intro h <;> simp only [blk, submatrix_apply, finSumFinEquiv_symm_apply_castAdd, finSumFinEquiv_symm_apply_natAdd, fromBlocks_apply₁₁, fromBlocks_apply₁₂, fromBlocks_apply₂₁, fromBlocks_apply₂₂]
  · exact hA i j fun e => h (by rw [e])
  · exact hB i j
  · exact le_rfl
  · exact hA' i j fun e => h (by rw [e])

theorem noNeg_gam {A : Matrix (Fin n) (Fin n) ℝ} {B : Matrix (Fin n) (Fin m) ℝ} (hA : NoNegOff A) (hB : NoNeg B) : NoNeg (gam A B 0) := fun i j =>
  (noNegOff_blk hA hB (A' := 0) fun _ _ _ => le_rfl).exp _ _

theorem runStates_nonneg {A : Matrix (Fin n) (Fin n) ℝ} {B : Matrix (Fin n) (Fin m) ℝ} (hA : NoNeg A) (hB : NoNeg B) {w : ℕ → Fin m → ℝ} {x : Fin n → ℝ} (hw : ∀ i j, 0 ≤ w i j) (hx : ∀ j, 0 ≤ x j) (i : ℕ) (j : Fin n) :
    0 ≤ runStates A B w x i j := by
  induction i generalizing j with
  | zero => exact hx j
  | succ i ih => exact add_nonneg (hA.mulVec ih j) (hB.mulVec (hw i) j)

theorem runStates_sub {A : Matrix (Fin n) (Fin n) ℝ} {B : Matrix (Fin n) (Fin m) ℝ} (w w' : ℕ → Fin m → ℝ) (x x' : Fin n → ℝ) (i : ℕ) :
    runStates A B (w' - w) (x' - x) i = runStates A B w' x' i - runStates A B w x i := by
  induction i with
  | zero => rfl
  | succ i ih => simp only [runStates, ih, Pi.sub_apply, mulVec_sub]; abel

/-- If `R - R F` and `F` have no negative entry and the powers of `F` go to zero then `R` has no negative entry. -/
theorem noNeg_of_schur {F : Matrix (Fin n) (Fin n) ℝ} {R : Matrix (Fin r) (Fin n) ℝ} (hF : NoNeg F) (hs : Schur F) (h : NoNeg (R - R * F)) : NoNeg R := by
  have h1 : ∀ i : ℕ, NoNeg (R - R * F ^ i) := by
    intro i
    induction i with
    | zero => simpa using noNeg_zero
    | succ i ih =>
      have e : R - R * F ^ (i + 1) = (R - R * F ^ i) + (R - R * F) * F ^ i := by
        rw [pow_succ', Matrix.sub_mul, Matrix.mul_assoc]; abel
      rw [e]
      exact ih.add (h.mul (hF.pow i))
  intro i j
  have h2 : Tendsto (fun q : ℕ => (R - R * F ^ q) i j) atTop (𝓝 (R i j - ∑ l, R i l * 0)) := by
    simp only [Matrix.sub_apply, Matrix.mul_apply]
    exact tendsto_const_nhds.sub (tendsto_finsetSum _ fun l _ => (schur_pow_tendsto hs l j).const_mul _)
  have h3 := ge_of_tendsto' h2 fun q => h1 q i j
  simpa using h3

/-- The absolute values of the entries. -/
noncomputable def mabs (X : Matrix (Fin r) (Fin c) ℂ) : Matrix (Fin r) (Fin c) ℝ := Matrix.of fun i j => ‖X i j‖

theorem mabs_mul (X : Matrix (Fin r) (Fin n) ℂ) (Y : Matrix (Fin n) (Fin c) ℂ) : NoNeg (mabs X * mabs Y - mabs (X * Y)) := fun i j => by
  rw [Matrix.sub_apply, sub_nonneg, Matrix.mul_apply]
  simp only [mabs, of_apply, Matrix.mul_apply]
  refine (norm_sum_le _ _).trans (Finset.sum_le_sum fun l _ => ?_)
  rw [norm_mul]

theorem mabs_add (X Y : Matrix (Fin r) (Fin c) ℂ) : NoNeg (mabs X + mabs Y - mabs (X + Y)) := fun i j => by
  rw [Matrix.sub_apply, sub_nonneg]
  exact norm_add_le (X i j) (Y i j)

theorem mabs_map {X : Matrix (Fin r) (Fin c) ℝ} (h : NoNeg X) : mabs (X.map (algebraMap ℝ ℂ)) = X := by
  ext i j
  simp [mabs, abs_of_nonneg (h i j)]

/-- The absolute values of the entries of the resolvent at a point `s` with `t ≤ |s + t|` where `A + t` has no negative entry. -/
theorem resolvent_le {A R : Matrix (Fin n) (Fin n) ℝ} {t u : ℝ} (hA : NoNeg (A + t • (1 : Matrix (Fin n) (Fin n) ℝ))) (hR : NoNeg R) (hRA : R * (u • (1 : Matrix (Fin n) (Fin n) ℝ) - A) = 1) {s : ℂ} (hs : u + t ≤ ‖s + t‖)
    {X : Matrix (Fin n) (Fin n) ℂ} (hX : (s • (1 : Matrix (Fin n) (Fin n) ℂ) - A.map (algebraMap ℝ ℂ)) * X = 1) : NoNeg (R - mabs X) := by
  have e1 : (s + t) • X = 1 + (A + t • (1 : Matrix (Fin n) (Fin n) ℝ)).map (algebraMap ℝ ℂ) * X := by
    have : (A + t • (1 : Matrix (Fin n) (Fin n) ℝ)).map (algebraMap ℝ ℂ) = A.map (algebraMap ℝ ℂ) + (t : ℂ) • 1 := by
      ext i j
      by_cases h : i = j <;> simp [Matrix.one_apply, h]
    rw [this, Matrix.add_mul, Matrix.smul_mul, Matrix.one_mul, add_smul, ← hX, Matrix.sub_mul, Matrix.smul_mul, Matrix.one_mul]
    abel
  have e2 : NoNeg (1 - (u • (1 : Matrix (Fin n) (Fin n) ℝ) - A) * mabs X) := by
    intro i j
    have h1 := mabs_add 1 ((A + t • (1 : Matrix (Fin n) (Fin n) ℝ)).map (algebraMap ℝ ℂ) * X) i j
    rw [← e1] at h1
    have h2 := mabs_mul ((A + t • (1 : Matrix (Fin n) (Fin n) ℝ)).map (algebraMap ℝ ℂ)) X i j
    rw [mabs_map hA] at h2
    have h3 : mabs ((s + t) • X) i j = ‖s + t‖ * mabs X i j := by simp [mabs]
    have h4 : (u + t) * mabs X i j ≤ ‖s + t‖ * mabs X i j := mul_le_mul_of_nonneg_right hs (norm_nonneg (X i j))
    have h5 : mabs (1 : Matrix (Fin n) (Fin n) ℂ) i j = (1 : Matrix (Fin n) (Fin n) ℝ) i j := by
      simp only [mabs, of_apply, Matrix.one_apply]; split_ifs <;> simp
    rw [Matrix.sub_mul, Matrix.smul_mul, Matrix.one_mul]
    rw [Matrix.add_mul, Matrix.smul_mul, Matrix.one_mul] at h2
    simp only [Matrix.sub_apply, Matrix.add_apply, Matrix.smul_apply, smul_eq_mul] at h1 h2 ⊢
    linarith
  have h6 := hR.mul e2
  rwa [Matrix.mul_sub, Matrix.mul_one, ← Matrix.mul_assoc, hRA, Matrix.one_mul] at h6

end Harold
