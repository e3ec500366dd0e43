import Verif.Lemmas.LyapBlock
import Mathlib.LinearAlgebra.FiniteDimensional.Lemmas
import Mathlib.LinearAlgebra.Matrix.ToLin
import Mathlib.LinearAlgebra.Dimension.Constructions

/-!
# A uniquely solvable equation has nonsingular diagonal blocks
-/

namespace Harold

variable {K : Type} [Field K] {κ : Kern K} {bnd : ℕ → Prop} {n r0 r1 c0 c1 : ℕ}

/-- A matrix as a work array. -/
def toWk (X : Fin n → Fin n → K) : Wk K := fun i j => if h : i < n ∧ j < n then X ⟨i, h.1⟩ ⟨j, h.2⟩ else 0

theorem toWk_fin (X : Fin n → Fin n → K) (i j : Fin n) : toWk X i j = X i j := by simp [toWk]

theorem kS_fin (κ : Kern K) (X : Wk K) (i j : ℕ) :
    kS κ X (Finset.range n) (Finset.range n) i j = ∑ k : Fin n, ∑ l : Fin n, κ k i l j * X k l := by
  unfold kS
  rw [Finset.sum_range]
  exact Finset.sum_congr rfl fun k _ => Finset.sum_range _

/-- The operator. -/
def kL (κ : Kern K) (n : ℕ) : (Fin n → Fin n → K) →ₗ[K] (Fin n → Fin n → K) where
  toFun X i j := ∑ k : Fin n, ∑ l : Fin n, κ k i l j * X k l
  map_add' X Y := by
    funext i j
    simp only [Pi.add_apply, mul_add, Finset.sum_add_distrib]
  map_smul' a X := by
    funext i j
    simp only [Pi.smul_apply, smul_eq_mul, RingHom.id_apply, Finset.mul_sum]
    exact Finset.sum_congr rfl fun k _ => Finset.sum_congr rfl fun l _ => by ring

theorem kL_apply (X : Fin n → Fin n → K) (i j : Fin n) : kL κ n X i j = ∑ k : Fin n, ∑ l : Fin n, κ k i l j * X k l := rfl

/-- The matrices that vanish above and left of the block, and on it. -/
def kW (K : Type) [Field K] (n r0 r1 c0 c1 : ℕ) : Submodule K (Fin n → Fin n → K) where
  carrier := {X | ∀ i j : Fin n, (i : ℕ) < r0 ∨ (j : ℕ) < c0 ∨ ((i : ℕ) < r1 ∧ (j : ℕ) < c1) → X i j = 0}
  add_mem' {X Y} hX hY i j h := by simp [hX i j h, hY i j h]
  zero_mem' i j _ := rfl
  smul_mem' a X hX i j h := by simp [hX i j h]

theorem block_kernel (h : KTri κ bnd) (h0 : bnd r0) (h1 : bnd r1) (hc0 : bnd c0) (hc1 : bnd c1) (hn : r1 ≤ n) (hcn : c1 ≤ n)
    (inj : Function.Injective (kL κ n)) {x : Wk K}
    (hx : ∀ i j, r0 ≤ i → i < r1 → c0 ≤ j → j < c1 → kS κ x (Finset.Ico r0 r1) (Finset.Ico c0 c1) i j = 0) {i j : ℕ}
    (hi : r0 ≤ i) (hi' : i < r1) (hj : c0 ≤ j) (hj' : j < c1) : x i j = 0 := by
  have hW : ∀ X ∈ kW K n r0 r1 c0 c1, kL κ n X ∈ kW K n r0 r1 c0 c1 := by
    intro X hX i j hij
    rw [kL_apply]
    refine Finset.sum_eq_zero fun k _ => Finset.sum_eq_zero fun l _ => ?_
    by_cases hz : X k l = 0
    · rw [hz, mul_zero]
    · have hk : ¬ ((k : ℕ) < r0 ∨ (l : ℕ) < c0 ∨ ((k : ℕ) < r1 ∧ (l : ℕ) < c1)) := fun hc => hz (hX k l hc)
      rcases hij with hij | hij | hij
      · rw [h.tri r0 h0 _ _ _ _ hij (by omega), zero_mul]
      · rw [h.tri' hc0 _ _ _ _ hij (by omega), zero_mul]
      · rcases Nat.lt_or_ge k r1 with h2 | h2
        · rw [h.tri' hc1 _ _ _ _ hij.2 (by omega), zero_mul]
        · rw [h.tri r1 h1 _ _ _ _ hij.1 h2, zero_mul]
  let L : kW K n r0 r1 c0 c1 →ₗ[K] kW K n r0 r1 c0 c1 := (kL κ n).restrict hW
  have hL : Function.Surjective L := by
    rw [← LinearMap.injective_iff_surjective]
    intro X Y hXY
    exact Subtype.ext (inj (congrArg Subtype.val hXY))
  let x0 : Fin n → Fin n → K := fun i j => if (r0 ≤ (i : ℕ) ∧ (i : ℕ) < r1) ∧ (c0 ≤ (j : ℕ) ∧ (j : ℕ) < c1) then x i j else 0
  have hx0 : kL κ n x0 ∈ kW K n r0 r1 c0 c1 := by
    intro i j hij
    by_cases hb : (r0 ≤ (i : ℕ) ∧ (i : ℕ) < r1) ∧ (c0 ≤ (j : ℕ) ∧ (j : ℕ) < c1)
    · rw [← hx i j hb.1.1 hb.1.2 hb.2.1 hb.2.2, kL_apply]
      refine (kS_fin (n := n) κ (fun k l : ℕ => if (r0 ≤ k ∧ k < r1) ∧ (c0 ≤ l ∧ l < c1) then x k l else 0) i j).symm.trans ?_
      unfold kS
      rw [← Finset.sum_subset (s₁ := Finset.Ico r0 r1) (s₂ := Finset.range n)]
      · refine Finset.sum_congr rfl fun k hk => ?_
        rw [← Finset.sum_subset (s₁ := Finset.Ico c0 c1)]
        · refine Finset.sum_congr rfl fun l hl => ?_
          beta_reduce
          rw [if_pos ⟨by simpa using hk, by simpa using hl⟩]
        · intro l hl; simp at hl ⊢; omega
        · intro l _ hl
          beta_reduce; rw [if_neg (by simp at hl; omega), mul_zero]
      · intro k hk; simp at hk ⊢; omega
      · intro k _ hk
        refine Finset.sum_eq_zero fun l _ => ?_
        beta_reduce; rw [if_neg (by simp at hk; omega), mul_zero]
    · rw [kL_apply]
      refine Finset.sum_eq_zero fun k _ => Finset.sum_eq_zero fun l _ => ?_
      by_cases hz : (r0 ≤ (k : ℕ) ∧ (k : ℕ) < r1) ∧ (c0 ≤ (l : ℕ) ∧ (l : ℕ) < c1)
      · have : (i : ℕ) < r0 ∨ (j : ℕ) < c0 := by omega
        rcases this with h2 | h2
        · rw [h.tri r0 h0 _ _ _ _ h2 hz.1.1, zero_mul]
        · rw [h.tri' hc0 _ _ _ _ h2 hz.2.1, zero_mul]
      · simp only [x0]; rw [if_neg hz, mul_zero]
  obtain ⟨w, hw⟩ := hL ⟨_, hx0⟩
  have hw' : w.val = x0 := inj (congrArg Subtype.val hw)
  have := w.2 ⟨i, by omega⟩ ⟨j, by omega⟩ (Or.inr (Or.inr ⟨hi', hj'⟩))
  rw [hw'] at this
  simp only [x0] at this
  rwa [if_pos ⟨⟨hi, hi'⟩, hj, hj'⟩] at this

end Harold
