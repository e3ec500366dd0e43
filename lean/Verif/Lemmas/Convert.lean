import Verif.Spec.Transfer
import Verif.Lemmas.TF
import Verif.Props.Lcm
import Mathlib.Algebra.Polynomial.Eval.Degree

/-!
# Realizations by companion matrices
-/

namespace Harold

open Matrix Spec

section
variable {α : Type}

theorem finM_ok {n : ℕ} {f : Fin n → Res α} {g : Fin n → α} : finM f = .ok g ↔ ∀ i, f i = .ok (g i) := by
  induction n with
  | zero => simp [finM]; exact Subsingleton.elim _ _
  | succ n ih =>
    simp only [finM, bind, Except.bind]
    cases h0 : f 0 with
    | error e =>
      simp only [reduceCtorEq, false_iff]
      intro h; rw [h 0] at h0; cases h0
    | ok a =>
      simp only
      cases h1 : finM (fun i : Fin n => f i.succ) with
      | error e =>
        simp only [reduceCtorEq, false_iff]
        intro h
        have := (ih (f := fun i => f i.succ) (g := fun i => g i.succ)).mpr fun i => h i.succ
        rw [this] at h1; cases h1
      | ok r =>
        simp only [Except.ok.injEq]
        constructor
        · rintro rfl i
          refine Fin.cases ?_ ?_ i
          · simpa using h0
          · intro i; simpa using ih.mp h1 i
        · intro h
          funext i
          refine Fin.cases ?_ ?_ i
          · have := h 0; rw [h0] at this; simpa using this
          · intro i
            have := h i.succ
            rw [ih.mp h1 i] at this
            simpa using this

theorem matM_ok {p m : ℕ} {f : Fin p → Fin m → Res α} {g : Fin p → Fin m → α} :
    matM f = .ok g ↔ ∀ i j, f i j = .ok (g i j) := by
  simp only [matM, finM_ok]

theorem matM_exists {p m : ℕ} {f : Fin p → Fin m → Res α} (h : ∀ i j, ∃ a, f i j = .ok a) :
    ∃ g, matM f = .ok g := by
  choose g hg using h
  exact ⟨g, matM_ok.mpr hg⟩

theorem finM_exists {p : ℕ} {f : Fin p → Res α} (h : ∀ i, ∃ a, f i = .ok a) :
    ∃ g, finM f = .ok g := by
  choose g hg using h
  exact ⟨g, finM_ok.mpr hg⟩
end

section
open Polynomial
variable {K L : Type} [Field K] [Field L] [Algebra K L]

@[simp] theorem polyAt_nil (s : L) : polyAt s ([] : List K) = 0 := by simp [polyAt]

theorem polyAt_const (s : L) (a : K) : polyAt s [a] = algebraMap K L a := by simp [polyAt]

theorem polyAt_map_mul (s : L) (c : K) (l : List K) :
    polyAt s (l.map fun x => c * x) = algebraMap K L c * polyAt s l := by
  simp [polyAt, toPoly_map_mul]

/-- Evaluation through the coefficients in increasing powers. -/
theorem sum_reverse (s : L) (l : List K) (n : ℕ) (h : (toPoly l).degree < n) :
    ∑ j : Fin n, algebraMap K L (l.reverse.getD j 0) * s ^ (j : ℕ) = polyAt s l := by
  by_cases h0 : toPoly l = 0
  · have : ∀ j : ℕ, l.reverse.getD j 0 = 0 := fun j => by rw [← coeff_toPoly, h0, coeff_zero]
    simp only [this]
    simp [polyAt, h0]
  · have hn : (toPoly l).natDegree < n := (natDegree_lt_iff_degree_lt h0).mpr h
    rw [polyAt, aeval_def, eval₂_eq_sum_range' _ hn, Finset.sum_range]
    simp only [coeff_toPoly]

theorem monicVal_eq (s : L) (l : List K) (h0 : l.getD 0 0 ≠ 0) :
    polyAt s l = algebraMap K L (l.getD 0 0) * monicVal (fun j => algebraMap K L (mc l j)) s := by
  rw [polyAt, toPoly_mc l h0]
  simp [monicPoly, monicVal]

theorem compM_map {n : ℕ} (a : Fin n → K) :
    (compM a).map (algebraMap K L) = compM fun j => algebraMap K L (a j) := by
  ext i j
  simp only [compM, map_apply, of_apply]
  split_ifs <;> simp

theorem sum_div' {ι : Type} (t : Finset ι) (f : ι → L) (a : L) :
    ∑ i ∈ t, f i / a = (∑ i ∈ t, f i) / a := by
  simp only [div_eq_mul_inv, Finset.sum_mul]

/-- The blocks of the realization over the index (column, position). -/
theorem isTF_blocks {p m : ℕ} (num : Fin p → Fin m → List K) (den : Fin m → List K)
    (h0 : ∀ y, (den y).getD 0 0 ≠ 0)
    (hdeg : ∀ x y, (toPoly (num x y)).degree < ((den y).length - 1 : ℕ)) (s : L)
    (hs : ∀ y, polyAt s (den y) ≠ 0) :
    IsTF ((blockDiagonal' fun y => compM (mc (den y))).map (algebraMap K L))
      ((Matrix.of fun (i : Σ y : Fin m, Fin ((den y).length - 1)) (y : Fin m) =>
        if i.1 = y ∧ (i.2 : ℕ) + 1 = (den i.1).length - 1 then (1 : K) else 0).map (algebraMap K L))
      ((Matrix.of fun (x : Fin p) (i : Σ y : Fin m, Fin ((den y).length - 1)) =>
        (num x i.1).reverse.getD i.2 0).map (algebraMap K L))
      0 s (Matrix.of fun x y => algebraMap K L ((den y).getD 0 0) * polyAt s (num x y) / polyAt s (den y)) := by
  set a : ∀ y, Fin ((den y).length - 1) → L := fun y j => algebraMap K L (mc (den y) j) with ha
  have hv : ∀ y, monicVal (a y) s ≠ 0 := by
    intro y hy
    apply hs y
    rw [monicVal_eq s _ (h0 y)]
    rw [show monicVal (fun j => algebraMap K L (mc (den y) j)) s = monicVal (a y) s from rfl, hy]
    simp
  have hA : (blockDiagonal' fun y => compM (mc (den y))).map (algebraMap K L)
      = blockDiagonal' fun y => compM (a y) := by
    rw [blockDiagonal'_map _ _ (map_zero _)]
    simp only [compM_map, ha]
  have hsA : s • (1 : Matrix (Σ y : Fin m, Fin ((den y).length - 1)) (Σ y : Fin m, Fin ((den y).length - 1)) L)
      - blockDiagonal' (fun y => compM (a y))
      = blockDiagonal' fun y => s • (1 : Matrix (Fin ((den y).length - 1)) (Fin ((den y).length - 1)) L) - compM (a y) := by
    rw [← blockDiagonal'_one, ← blockDiagonal'_smul, ← blockDiagonal'_sub]
    rfl
  rw [hA]
  refine isTF_iff_sol.mpr ⟨?_, Matrix.of fun i y => if i.1 = y then s ^ (i.2 : ℕ) / monicVal (a i.1) s else 0, ?_, ?_⟩
  · rw [hsA]
    apply det_ne_zero_of_right_inverse (B := blockDiagonal' fun y =>
      (s • (1 : Matrix (Fin ((den y).length - 1)) (Fin ((den y).length - 1)) L) - compM (a y))⁻¹)
    rw [← blockDiagonal'_mul, ← blockDiagonal'_one]
    congr 1
    funext y
    exact mul_nonsing_inv _ (isUnit_iff_ne_zero.mpr (by rw [det_compM]; exact hv y))
  · rw [hsA]
    ext ⟨y, i⟩ y'
    rw [mul_apply, Fintype.sum_sigma, Finset.sum_eq_single y]
    · simp only [blockDiagonal'_apply_eq, of_apply, map_apply]
      by_cases hy : y = y'
      · subst hy
        have := congrFun (compM_mulVec (a y) s) i
        simp only [mulVec, dotProduct] at this
        simp only [if_true, true_and]
        rw [Finset.sum_congr rfl (fun j _ => (mul_div_assoc _ _ _).symm), sum_div', this]
        split_ifs
        · rw [div_self (hv y), map_one]
        · simp
      · simp [hy]
    · intro y'' _ hne
      simp [blockDiagonal'_apply_ne _ _ _ (Ne.symm hne)]
    · simp
  · ext x y
    rw [add_zero, mul_apply, Fintype.sum_sigma, Finset.sum_eq_single y]
    · simp only [of_apply, map_apply, if_true]
      rw [Finset.sum_congr rfl (fun j _ => (mul_div_assoc _ _ _).symm), sum_div',
        sum_reverse s _ _ (hdeg x y), monicVal_eq s _ (h0 y)]
      have h1 : algebraMap K L ((den y).getD 0 0) ≠ 0 := by simpa using h0 y
      rw [mul_div_mul_left _ _ h1]
    · intro y'' _ hne
      simp [hne]
    · simp

end

section
variable {K L : Type} [Field K] [LinearOrder K] [Field L] [Algebra K L]

theorem compBlock_eq (l : List K) (h0 : l.getD 0 0 ≠ 0) : compBlock l = .ok (compM (mc l)) := by
  unfold compBlock
  split_ifs with h
  · congr 1
    have : IsEmpty (Fin (l.length - 1)) := by
      have : l.length - 1 = 0 := by omega
      rw [this]; infer_instance
    ext i; exact isEmptyElim i
  · rw [companionSq_eq l h0 (by omega)]

theorem realize_ok {p m : ℕ} (num : Fin p → Fin m → List K) (den : Fin m → List K)
    (h0 : ∀ y, (den y).getD 0 0 ≠ 0)
    (hdeg : ∀ x y, (toPoly (num x y)).degree < ((den y).length - 1 : ℕ)) :
    ∃ (n : ℕ) (A : Matrix (Fin n) (Fin n) K) (B : Matrix (Fin n) (Fin m) K) (C : Matrix (Fin p) (Fin n) K),
      realize num den = .ok (Arr.of A, Arr.of B, Arr.of C) ∧ n = ∑ y, ((den y).length - 1) ∧
      ∀ (s : L), (∀ y, polyAt s (den y) ≠ 0) →
        IsTF (A.map (algebraMap K L)) (B.map (algebraMap K L)) (C.map (algebraMap K L)) 0 s
          (Matrix.of fun x y => algebraMap K L ((den y).getD 0 0) * polyAt s (num x y) / polyAt s (den y)) := by
  have h : ∀ y, (compBlock (den y)).toOption.isSome := by
    intro y; rw [compBlock_eq _ (h0 y)]; rfl
  have hg : ∀ y, (compBlock (den y)).toOption.get (h y) = compM (mc (den y)) := by
    intro y
    apply Option.some_injective
    rw [Option.some_get, compBlock_eq _ (h0 y)]; rfl
  unfold realize
  rw [dif_pos h]
  refine ⟨_, _, _, _, rfl, rfl, ?_⟩
  intro s hs
  simp only [hg]
  exact (isTF_blocks num den h0 hdeg s hs).reindex finSigmaFinEquiv.symm

end

end Harold
