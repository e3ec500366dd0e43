import Verif.Model.Lcm
import Verif.Lemmas.Poly
import Verif.Lemmas.Companion
import Mathlib.LinearAlgebra.Matrix.Charpoly.Coeff
import Mathlib.LinearAlgebra.Matrix.Charpoly.LinearMap
import Mathlib.LinearAlgebra.Matrix.ToLinearEquiv
import Mathlib.LinearAlgebra.FiniteDimensional.Lemmas
import Mathlib.LinearAlgebra.LinearIndependent.Lemmas
import Mathlib.Algebra.Polynomial.Div
import Mathlib.LinearAlgebra.Dimension.OrzechProperty
import Mathlib.Tactic.LinearCombination

/-!
# Krylov sequences and annihilating polynomials
-/

namespace Harold

open Matrix Polynomial

section
variable {K : Type} [Field K] {ι : Type} [Fintype ι] [DecidableEq ι]

/-- `A^j b`. -/
def kv (A : Matrix ι ι K) (b : ι → K) (j : ℕ) : ι → K := (A ^ j) *ᵥ b

theorem kv_zero (A : Matrix ι ι K) (b : ι → K) : kv A b 0 = b := by simp [kv]

theorem kv_succ (A : Matrix ι ι K) (b : ι → K) (j : ℕ) : kv A b (j + 1) = A *ᵥ kv A b j := by
  rw [kv, kv, pow_succ', mulVec_mulVec]

theorem aeval_mulVec (A : Matrix ι ι K) (b : ι → K) (M : K[X]) :
    aeval A M *ᵥ b = ∑ k ∈ Finset.range (M.natDegree + 1), M.coeff k • kv A b k := by
  rw [aeval_eq_sum_range, sum_mulVec]
  simp only [smul_mulVec, kv]

theorem aeval_mulVec_of_lt (A : Matrix ι ι K) (b : ι → K) (M : K[X]) {r : ℕ}
    (h : M.degree < r) : aeval A M *ᵥ b = ∑ k : Fin r, M.coeff k • kv A b k := by
  rw [aeval_mulVec, Fin.sum_univ_eq_sum_range (fun k => M.coeff k • kv A b k) r]
  by_cases h0 : M = 0
  · simp [h0]
  · have hd : M.natDegree < r := (natDegree_lt_iff_degree_lt h0).mpr h
    apply Finset.sum_subset_zero_on_sdiff (s₁ := Finset.range (M.natDegree + 1))
    · intro x; simp; omega
    · intro x hx
      simp only [Finset.mem_sdiff, Finset.mem_range] at hx
      rw [coeff_eq_zero_of_natDegree_lt (by omega), zero_smul]
    · intro _ _; rfl

/-- The monic polynomial `X^r + ∑ xⱼ X^j`. -/
noncomputable def monicPoly {r : ℕ} (x : Fin r → K) : K[X] := X ^ r + ∑ j, C (x j) * X ^ j.val

theorem monicPoly_sum_degree {r : ℕ} (x : Fin r → K) :
    (∑ j, C (x j) * X ^ j.val : K[X]).degree < r := by
  rcases Nat.eq_zero_or_pos r with rfl | hr
  · simp
  · refine lt_of_le_of_lt (degree_sum_le _ _) ?_
    rw [Finset.sup_lt_iff (by exact WithBot.bot_lt_coe _)]
    intro j _
    exact lt_of_le_of_lt (degree_C_mul_X_pow_le _ _) (by exact_mod_cast j.2)

theorem monicPoly_monic {r : ℕ} (x : Fin r → K) : (monicPoly x).Monic :=
  monic_X_pow_add (monicPoly_sum_degree x)

theorem monicPoly_degree {r : ℕ} (x : Fin r → K) : (monicPoly x).degree = r := by
  rw [monicPoly, degree_add_eq_left_of_degree_lt]
  · simp
  · rw [degree_X_pow]; exact monicPoly_sum_degree x

theorem aeval_monicPoly (A : Matrix ι ι K) (b : ι → K) {r : ℕ} (x : Fin r → K) :
    aeval A (monicPoly x) *ᵥ b = kv A b r + ∑ j, x j • kv A b j := by
  simp only [monicPoly, map_add, map_pow, aeval_X, map_sum, map_mul, aeval_C, add_mulVec,
    sum_mulVec, kv]
  congr 1
  apply Finset.sum_congr rfl
  intro j _
  rw [← Algebra.smul_def, smul_mulVec]

/-- A monic annihilator of degree `r` divides every annihilator if the first `r` vectors are
independent. -/
theorem monicPoly_dvd (A : Matrix ι ι K) (b : ι → K) {r : ℕ} (x : Fin r → K)
    (hx : aeval A (monicPoly x) *ᵥ b = 0)
    (hind : LinearIndependent K fun j : Fin r => kv A b j) {M : K[X]}
    (hM : aeval A M *ᵥ b = 0) : monicPoly x ∣ M := by
  rw [← modByMonic_eq_zero_iff_dvd (monicPoly_monic x)]
  have hdeg : (M %ₘ monicPoly x).degree < r := by
    rw [← monicPoly_degree x]; exact degree_modByMonic_lt _ (monicPoly_monic x)
  have h1 : aeval A (M %ₘ monicPoly x) *ᵥ b = 0 := by
    have := modByMonic_add_div M (q := monicPoly x)
    have h2 : aeval A M *ᵥ b = aeval A (M %ₘ monicPoly x) *ᵥ b := by
      conv_lhs => rw [← this]
      rw [map_add, map_mul, add_mulVec, (Commute.all _ _ : Commute (monicPoly x) _).map (aeval A)
        |>.eq, ← mulVec_mulVec, hx, mulVec_zero, add_zero]
    rw [← h2, hM]
  rw [aeval_mulVec_of_lt A b _ hdeg] at h1
  have h3 := Fintype.linearIndependent_iff.mp hind _ h1
  ext k
  by_cases hk : k < r
  · simpa using h3 ⟨k, hk⟩
  · rw [coeff_eq_zero_of_degree_lt (lt_of_lt_of_le hdeg (by exact_mod_cast not_lt.mp hk)), coeff_zero]

/-! ## The loop -/

theorem set_range_map (f : ℕ → ι → K) (m : ℕ) :
    {v | v ∈ (List.range m).map f} = Set.range (fun j : Fin m => f j) := by
  ext v
  simp only [List.mem_map, List.mem_range, Set.mem_setOf_eq, Set.mem_range]
  constructor
  · rintro ⟨a, ha, rfl⟩; exact ⟨⟨a, ha⟩, rfl⟩
  · rintro ⟨a, rfl⟩; exact ⟨a, a.2, rfl⟩

/-- What the loop returns: the vectors up to the first dependent one. -/
def IsKrylovStop (A : Matrix ι ι K) (b : ι → K) (C : List (ι → K)) : Prop :=
  ∃ r, C = (List.range (r + 1)).map (kv A b) ∧
    LinearIndependent K (fun j : Fin r => kv A b j) ∧
    kv A b r ∈ Submodule.span K (Set.range fun j : Fin r => kv A b j)

theorem krylovLoop_stop (A : Matrix ι ι K) (b : ι → K) (f : ℕ) : ∀ k : ℕ,
    k + 1 + f = Fintype.card ι → LinearIndependent K (fun j : Fin (k + 1) => kv A b j) →
    IsKrylovStop A b (krylovLoop A f ((List.range (k + 1)).map (kv A b)) (kv A b k)) := by
  induction f with
  | zero =>
    intro k hk hind
    refine ⟨k + 1, ?_, hind, ?_⟩
    · rw [krylovLoop, List.range_succ, List.map_append, List.range_succ (n := k + 1),
        List.map_append, List.range_succ, List.map_append]
      simp [kv_succ]
    · have : Submodule.span K (Set.range fun j : Fin (k + 1) => kv A b j) = ⊤ := by
        apply hind.span_eq_top_of_card_eq_finrank'
        simp; omega
      rw [this]; trivial
  | succ f ih =>
    intro k hk hind
    have hC : (List.range (k + 1)).map (kv A b) ++ [A *ᵥ kv A b k]
        = (List.range (k + 1 + 1)).map (kv A b) := by
      rw [List.range_succ (n := k + 1), List.map_append]
      simp [kv_succ]
    rw [krylovLoop]
    simp only [hC]
    rw [set_range_map]
    split_ifs with h
    · refine ⟨k + 1, rfl, hind, ?_⟩
      by_contra hns
      apply h
      have h2 : LinearIndependent K (fun j : Fin (k + 1 + 1) => kv A b j) := by
        rw [linearIndependent_fin_succ']
        exact ⟨hind, hns⟩
      rw [linearIndependent_iff_card_eq_finrank_span] at h2
      rw [← h2]; simp
    · have h2 : LinearIndependent K (fun j : Fin (k + 1 + 1) => kv A b j) := by
        rw [linearIndependent_iff_card_eq_finrank_span]
        push Not at h
        rw [h]; simp
      rw [← kv_succ]
      exact ih (k + 1) (by omega) h2

theorem krylov_stop (A : Matrix ι ι K) (b : ι → K) (hb : b ≠ 0) :
    IsKrylovStop A b (krylov A b) := by
  have hpos : 0 < Fintype.card ι := by
    rw [Fintype.card_pos_iff]
    by_contra h
    rw [not_nonempty_iff] at h
    exact hb (Subsingleton.elim _ _)
  have h := krylovLoop_stop A b (Fintype.card ι - 1) 0 (by omega) (by
    have : LinearIndependent K (fun j : Fin 1 => kv A b j) := by
      rw [linearIndependent_unique_iff]
      simpa [kv] using hb
    exact this)
  simpa [krylov, kv_zero] using h

end

/-! ## Scaling, blocks and multipliers -/

section scaling
variable {K : Type} [Field K] {ι : Type} [Fintype ι] [DecidableEq ι]

theorem kv_scale (A : Matrix ι ι K) (b : ι → K) (d : ι → K) (hd : ∀ i, d i ≠ 0) (j : ℕ) :
    kv (Matrix.of fun i k => (d i)⁻¹ * A i k * d k) (fun i => b i * (d i)⁻¹) j
      = fun i => (d i)⁻¹ * kv A b j i := by
  induction j with
  | zero => ext i; simp [kv, mul_comm]
  | succ j ih =>
    rw [kv_succ, ih, kv_succ]
    ext i
    simp only [mulVec, dotProduct, of_apply, Finset.mul_sum]
    apply Finset.sum_congr rfl
    intro k _
    have := hd k
    field_simp

end scaling

section blocks
variable {K : Type} [Field K] {o : Type} [Fintype o] [DecidableEq o] {ν : o → Type}
  [∀ i, Fintype (ν i)] [∀ i, DecidableEq (ν i)]

theorem blockDiagonal'_mulVec (M : ∀ i, Matrix (ν i) (ν i) K) (v : (Σ i, ν i) → K) (i : o)
    (j : ν i) : (blockDiagonal' M *ᵥ v) ⟨i, j⟩ = (M i *ᵥ fun k => v ⟨i, k⟩) j := by
  simp only [mulVec, dotProduct, Fintype.sum_sigma]
  rw [Finset.sum_eq_single i]
  · simp [blockDiagonal'_apply]
  · intro k _ hk
    apply Finset.sum_eq_zero
    intro l _
    rw [blockDiagonal'_apply, dif_neg (fun e => hk e.symm), zero_mul]
  · simp

theorem kv_block (M : ∀ i, Matrix (ν i) (ν i) K) (b : (Σ i, ν i) → K) (k : ℕ) (i : o) (j : ν i) :
    kv (blockDiagonal' M) b k ⟨i, j⟩ = kv (M i) (fun l => b ⟨i, l⟩) k j := by
  induction k generalizing j with
  | zero => simp [kv]
  | succ k ih =>
    rw [kv_succ, blockDiagonal'_mulVec, kv_succ]
    congr 1
    ext l
    exact ih l

theorem aeval_block (M : ∀ i, Matrix (ν i) (ν i) K) (b : (Σ i, ν i) → K) (P : K[X]) (i : o)
    (j : ν i) :
    (aeval (blockDiagonal' M) P *ᵥ b) ⟨i, j⟩ = (aeval (M i) P *ᵥ fun l => b ⟨i, l⟩) j := by
  rw [aeval_mulVec, aeval_mulVec, Finset.sum_apply, Finset.sum_apply]
  simp only [Pi.smul_apply, kv_block]

end blocks

section multiplier
variable {K : Type} [Field K] {n : ℕ}

/-- `L` divided by `X^(k+1)`, i.e. `X^(r-1-k) + x_(r-1) X^(r-2-k) + ... + x_(k+1)`. -/
noncomputable def hornerQ {r : ℕ} (x : Fin r → K) (k : ℕ) : K[X] :=
  ∑ j ∈ Finset.range (r - k), C ((monicPoly x).coeff (k + 1 + j)) * X ^ j

theorem hornerQ_last {r : ℕ} (x : Fin r → K) (h : 0 < r) : hornerQ x (r - 1) = 1 := by
  have h1 : r - (r - 1) = 1 := by omega
  have h2 : r - 1 + 1 = r := by omega
  have h3 : (monicPoly x).natDegree = r := natDegree_eq_of_degree_eq_some (monicPoly_degree x)
  have h4 := (monicPoly_monic x).coeff_natDegree
  rw [h3] at h4
  simp [hornerQ, h1, h2, h4]

theorem hornerQ_step {r : ℕ} (x : Fin r → K) (k : ℕ) (hk : k + 1 < r) :
    X * hornerQ x (k + 1) + C ((monicPoly x).coeff (k + 1)) = hornerQ x k := by
  rw [hornerQ, hornerQ, show r - k = r - (k + 1) + 1 by omega, Finset.sum_range_succ',
    Finset.mul_sum]
  congr 1
  · apply Finset.sum_congr rfl
    intro j _
    rw [show k + 1 + 1 + j = k + 1 + (j + 1) by ring, pow_succ]; ring
  · simp

theorem hornerQ_zero {r : ℕ} (x : Fin r → K) (hr : 0 < r) :
    X * hornerQ x 0 + C ((monicPoly x).coeff 0) = monicPoly x := by
  have h3 : (monicPoly x).natDegree = r := natDegree_eq_of_degree_eq_some (monicPoly_degree x)
  conv_rhs => rw [as_sum_range_C_mul_X_pow (monicPoly x), h3]
  rw [hornerQ, Finset.sum_range_succ', Finset.mul_sum]
  congr 1
  · apply Finset.sum_congr rfl
    intro j _
    rw [show 0 + 1 + j = j + 1 by ring, pow_succ]; ring
  · simp

theorem monicPoly_coeff {r : ℕ} (x : Fin r → K) (j : Fin r) : (monicPoly x).coeff j = x j := by
  rw [monicPoly, coeff_add, coeff_X_pow, if_neg (by omega), zero_add, finset_sum_coeff,
    Finset.sum_eq_single j]
  · simp
  · intro k _ hk
    rw [coeff_C_mul, coeff_X_pow, if_neg (fun e => hk (Fin.ext e.symm)), mul_zero]
  · simp

/-- The polynomial vector `∑ₖ (L div X^(k+1)) A^k b`. -/
noncomputable def wvec {ι : Type} [Fintype ι] [DecidableEq ι] (A : Matrix ι ι K) (b : ι → K) {r : ℕ}
    (x : Fin r → K) : ι → K[X] :=
  fun i => ∑ k ∈ Finset.range r, C (kv A b k i) * hornerQ x k

theorem C_mulVec {ι : Type} [Fintype ι] (A : Matrix ι ι K) (v : ι → K) :
    (A.map (C : K →+* K[X]) *ᵥ fun i => (C (v i) : K[X])) = fun i => (C ((A *ᵥ v) i) : K[X]) := by
  ext1 i
  simp [mulVec, dotProduct, map_sum]

theorem wvec_eq {ι : Type} [Fintype ι] [DecidableEq ι] (A : Matrix ι ι K) (b : ι → K) {r : ℕ}
    (hr : 0 < r) (x : Fin r → K) (hx : aeval A (monicPoly x) *ᵥ b = 0) :
    ((X : K[X]) • (1 : Matrix ι ι K[X]) - A.map (C : K →+* K[X])) *ᵥ wvec A b x = fun i => C (b i) * monicPoly x := by
  have hA : A.map (C : K →+* K[X]) *ᵥ wvec A b x
      = fun i => ∑ k ∈ Finset.range r, C (kv A b (k + 1) i) * hornerQ x k := by
    ext1 i
    have : wvec A b x = ∑ k ∈ Finset.range r, hornerQ x k • fun i => C (kv A b k i) := by
      ext1 j; simp [wvec, mul_comm]
    rw [this, mulVec_sum, Finset.sum_apply]
    apply Finset.sum_congr rfl
    intro k _
    rw [mulVec_smul, C_mulVec, ← kv_succ, Pi.smul_apply, smul_eq_mul, mul_comm]
  rw [sub_mulVec, smul_mulVec, one_mulVec, hA]
  ext1 i
  simp only [Pi.sub_apply, Pi.smul_apply, smul_eq_mul, wvec]
  obtain ⟨m, rfl⟩ : ∃ m, r = m + 1 := ⟨r - 1, by omega⟩
  rw [aeval_monicPoly] at hx
  have hxi := congrFun hx i
  simp only [Pi.add_apply, Finset.sum_apply, Pi.smul_apply, smul_eq_mul, Pi.zero_apply] at hxi
  have hsum : ∑ j : Fin (m + 1), x j * kv A b j i
      = ∑ k ∈ Finset.range (m + 1), (monicPoly x).coeff k * kv A b k i := by
    rw [← Fin.sum_univ_eq_sum_range (fun k => (monicPoly x).coeff k * kv A b k i)]
    simp only [monicPoly_coeff]
  rw [hsum] at hxi
  have h0 := hornerQ_zero x (by omega)
  have hl := hornerQ_last x (by omega)
  rw [Nat.add_sub_cancel] at hl
  rw [Finset.sum_range_succ', Finset.sum_range_succ (fun k => C (kv A b (k + 1) i) * _), hl]
  rw [Finset.sum_range_succ'] at hxi
  have hmid : X * ∑ k ∈ Finset.range m, C (kv A b (k + 1) i) * hornerQ x (k + 1)
      - ∑ k ∈ Finset.range m, C (kv A b (k + 1) i) * hornerQ x k
      = - ∑ k ∈ Finset.range m, C ((monicPoly x).coeff (k + 1) * kv A b (k + 1) i) := by
    rw [Finset.mul_sum, ← Finset.sum_sub_distrib, ← Finset.sum_neg_distrib]
    apply Finset.sum_congr rfl
    intro k hk
    rw [← hornerQ_step x k (by have := Finset.mem_range.mp hk; omega), C_mul]
    ring
  have hC := congrArg (C : K → K[X]) hxi
  simp only [map_add, map_sum, C_mul, map_zero] at hC hmid
  have hk0 : kv A b 0 i = b i := by simp [kv]
  rw [hk0] at hC ⊢
  linear_combination hmid - hC + C (b i) * h0

end multiplier

end Harold
