import Verif.Lemmas.ToTransfer
import Verif.Lemmas.Convert2
import Verif.Props.Convert
import Mathlib.Algebra.Polynomial.Roots

/-!
# Lemmas for C91: common denominators of realizations
-/

namespace Harold

open Polynomial Matrix Spec

variable {K : Type} [Field K] [LinearOrder K] [IsStrictOrderedRing K] {p m n : ℕ}

omit [LinearOrder K] [IsStrictOrderedRing K] in
/-- An entry of the transfer matrix as a quotient of polynomials. -/
theorem isTF_entry {A : Matrix (Fin n) (Fin n) K} {B : Matrix (Fin n) (Fin m) K} {C' : Matrix (Fin p) (Fin n) K} {D : Matrix (Fin p) (Fin m) K}
    {s : K} {M : Matrix (Fin p) (Fin m) K} (h : IsTF A B C' D s M) (i : Fin p) (j : Fin m) :
    M i j = (numPoly A (fun k => B k j) (C' i) + C (D i j) * A.charpoly).eval s / A.charpoly.eval s := by
  obtain ⟨h1, rfl⟩ := h
  have e : A.map (algebraMap K K) = A := by ext; simp
  have h2 := resolvent_entry A (fun k => B k j) (C' i) s (by rw [e]; exact h1)
  have h3 : A.charpoly.eval s ≠ 0 := by
    rw [eval_charpoly, scalar_apply, ← smul_one_eq_diagonal]
    exact h1
  rw [e] at h2
  simp only [Algebra.algebraMap_self, RingHom.id_apply, coe_aeval_eq_eval] at h2
  rw [eval_add, eval_mul, eval_C, add_div, mul_div_assoc, div_self h3, mul_one, ← h2, Matrix.add_apply, Matrix.mul_assoc]
  simp only [Matrix.mul_apply, mulVec, dotProduct]

/-- The denominators divide the product of the numerators with the characteristic polynomial of the realization. -/
theorem realization_eq {A : Matrix (Fin n) (Fin n) K} {B : Matrix (Fin n) (Fin m) K} {C' : Matrix (Fin p) (Fin n) K} {D : Matrix (Fin p) (Fin m) K}
    {num den : Fin p → Fin m → K[X]} (h0 : ∀ i j, den i j ≠ 0)
    (h : ∀ s : K, (∀ i j, (den i j).eval s ≠ 0) → IsTF A B C' D s (Matrix.of fun i j => (num i j).eval s / (den i j).eval s)) (i : Fin p) (j : Fin m) :
    num i j * A.charpoly = den i j * (numPoly A (fun k => B k j) (C' i) + C (D i j) * A.charpoly) := by
  have hne : (∏ x : Fin p × Fin m, den x.1 x.2) ≠ 0 := Finset.prod_ne_zero_iff.mpr fun x _ => h0 x.1 x.2
  refine eq_of_infinite_eval_eq _ _ (Set.Infinite.mono (s := {s | (∏ x : Fin p × Fin m, den x.1 x.2).eval s ≠ 0}) ?_ ?_)
  · intro s hs
    have hs' : ∀ i j, (den i j).eval s ≠ 0 := fun i j e => hs (by
      rw [eval_prod]
      exact Finset.prod_eq_zero (Finset.mem_univ (i, j)) e)
    have h1 := isTF_entry (h s hs') i j
    have h3 : A.charpoly.eval s ≠ 0 := by
      rw [eval_charpoly, scalar_apply, ← smul_one_eq_diagonal]
      exact (h s hs').1
    rw [of_apply, div_eq_div_iff (hs' i j) h3] at h1
    simp only [Set.mem_ofPred_eq, eval_mul]
    rw [h1, mul_comm]
  · have hinf : Set.Infinite ((rootSet (∏ x : Fin p × Fin m, den x.1 x.2) K)ᶜ : Set K) := (rootSet_finite _ K).infinite_compl
    refine hinf.mono fun s hs => ?_
    intro e
    exact hs (mem_rootSet.mpr ⟨hne, by rw [coe_aeval_eq_eval]; exact e⟩)

theorem realization_dvd {A : Matrix (Fin n) (Fin n) K} {B : Matrix (Fin n) (Fin m) K} {C' : Matrix (Fin p) (Fin n) K} {D : Matrix (Fin p) (Fin m) K}
    {num den : Fin p → Fin m → K[X]} (h0 : ∀ i j, den i j ≠ 0)
    (h : ∀ s : K, (∀ i j, (den i j).eval s ≠ 0) → IsTF A B C' D s (Matrix.of fun i j => (num i j).eval s / (den i j).eval s)) (i : Fin p) (j : Fin m) :
    den i j ∣ num i j * A.charpoly :=
  ⟨_, realization_eq h0 h i j⟩

end Harold
