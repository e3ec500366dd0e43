import Verif.Model.Kalman
import Verif.Lemmas.Svd
import Mathlib.LinearAlgebra.Matrix.Charpoly.Coeff
import Mathlib.LinearAlgebra.Matrix.Charpoly.LinearMap
import Mathlib.LinearAlgebra.FiniteDimensional.Lemmas

/-!
# The Kalman controllability matrix
-/

namespace Harold

open Matrix Spec

variable {K : Type} [Field K] {n m p q : ℕ}

/-- Number of columns after `k` sweeps. -/
def krylovW (m : ℕ) : ℕ → ℕ
  | 0 => m
  | k + 1 => krylovW m k + m

theorem krylovW_eq (m k : ℕ) : krylovW m k = (k + 1) * m := by
  induction k with
  | zero => simp [krylovW]
  | succ k ih => rw [krylovW, ih]; ring

/-- `[B, A B, ..., A^k B]`. -/
def ctrbM (A : Matrix (Fin n) (Fin n) K) (B : Matrix (Fin n) (Fin m) K) : (k : ℕ) → Matrix (Fin n) (Fin (krylovW m k)) K
  | 0 => B
  | k + 1 => hcat (ctrbM A B k) (A ^ (k + 1) * B)

/-- `[C; C A; ...; C A^k]`. -/
def obsvM (A : Matrix (Fin n) (Fin n) K) (C : Matrix (Fin p) (Fin n) K) : (k : ℕ) → Matrix (Fin (krylovW p k)) (Fin n) K
  | 0 => C
  | k + 1 => vcat (obsvM A C k) (C * A ^ (k + 1))

theorem hcat_transpose (A : Matrix (Fin n) (Fin p) K) (B : Matrix (Fin n) (Fin q) K) : (hcat A B)ᵀ = vcat Aᵀ Bᵀ := by
  unfold hcat vcat
  rw [transpose_submatrix, transpose_fromCols]

theorem ctrbM_transpose (A : Matrix (Fin n) (Fin n) K) (B : Matrix (Fin n) (Fin m) K) (k : ℕ) :
    (ctrbM A B k)ᵀ = obsvM Aᵀ Bᵀ k := by
  induction k with
  | zero => rfl
  | succ k ih =>
    show (hcat _ _)ᵀ = vcat _ _
    rw [hcat_transpose, ih, transpose_mul, transpose_pow]

/-- The column space of `[X Y]`. -/
theorem range_hcat (X : Matrix (Fin n) (Fin p) K) (Y : Matrix (Fin n) (Fin q) K) :
    LinearMap.range (hcat X Y).mulVecLin = LinearMap.range X.mulVecLin ⊔ LinearMap.range Y.mulVecLin := by
  have key : ∀ u : Fin (p + q) → K, hcat X Y *ᵥ u = X *ᵥ (fun i => u (Fin.castAdd q i)) + Y *ᵥ (fun i => u (Fin.natAdd p i)) := by
    intro u
    ext i
    simp only [mulVec, dotProduct, Pi.add_apply]
    rw [Fin.sum_univ_add]
    simp [hcat]
  apply le_antisymm
  · rintro _ ⟨u, rfl⟩
    rw [mulVecLin_apply, key]
    exact Submodule.add_mem_sup ⟨_, rfl⟩ ⟨_, rfl⟩
  · rw [sup_le_iff]
    constructor
    · rintro _ ⟨u, rfl⟩
      refine ⟨Fin.append u 0, ?_⟩
      rw [mulVecLin_apply, key]
      simp [mulVecLin_apply]
      rw [show (fun _ : Fin q => (0 : K)) = 0 from rfl, mulVec_zero]
    · rintro _ ⟨u, rfl⟩
      refine ⟨Fin.append 0 u, ?_⟩
      rw [mulVecLin_apply, key]
      simp [mulVecLin_apply]
      rw [show (fun _ : Fin p => (0 : K)) = 0 from rfl, mulVec_zero]

/-- The Krylov space. -/
def krySpace (A : Matrix (Fin n) (Fin n) K) (B : Matrix (Fin n) (Fin m) K) (k : ℕ) : Submodule K (Fin n → K) :=
  LinearMap.range (ctrbM A B k).mulVecLin

theorem krylov_succ (A : Matrix (Fin n) (Fin n) K) (B : Matrix (Fin n) (Fin m) K) (k : ℕ) :
    krySpace A B (k + 1) = krySpace A B k ⊔ LinearMap.range (A ^ (k + 1) * B).mulVecLin := range_hcat _ _

theorem mem_krylov (A : Matrix (Fin n) (Fin n) K) (B : Matrix (Fin n) (Fin m) K) {i k : ℕ} (h : i ≤ k) (u : Fin m → K) :
    (A ^ i * B) *ᵥ u ∈ krySpace A B k := by
  induction k with
  | zero =>
    obtain rfl : i = 0 := by omega
    exact ⟨u, by rw [pow_zero, Matrix.one_mul]; rfl⟩
  | succ k ih =>
    rw [krylov_succ]
    rcases Nat.lt_or_ge k i with h1 | h1
    · obtain rfl : i = k + 1 := by omega
      exact Submodule.mem_sup_right ⟨u, rfl⟩
    · exact Submodule.mem_sup_left (ih h1)

theorem krylov_le {A : Matrix (Fin n) (Fin n) K} {B : Matrix (Fin n) (Fin m) K} {W : Submodule K (Fin n → K)} {k : ℕ}
    (h : ∀ i ≤ k, ∀ u, (A ^ i * B) *ᵥ u ∈ W) : krySpace A B k ≤ W := by
  induction k with
  | zero =>
    rintro _ ⟨u, rfl⟩
    have := h 0 le_rfl u
    rw [pow_zero, Matrix.one_mul] at this
    exact this
  | succ k ih =>
    rw [krylov_succ, sup_le_iff]
    refine ⟨ih fun i hi => h i (by omega), ?_⟩
    rintro _ ⟨u, rfl⟩
    exact h (k + 1) le_rfl u

/-- Cayley-Hamilton: all powers stay in the Krylov space of `n` blocks. -/
theorem pow_mem_krylov (A : Matrix (Fin n) (Fin n) K) (B : Matrix (Fin n) (Fin m) K) (k : ℕ) (u : Fin m → K) :
    (A ^ k * B) *ᵥ u ∈ krySpace A B (n - 1) := by
  rcases Nat.eq_zero_or_pos n with rfl | hn
  · have : (A ^ k * B) *ᵥ u = 0 := by ext i; exact i.elim0
    rw [this]; exact Submodule.zero_mem _
  induction k using Nat.strong_induction_on with
  | _ k ih =>
    rcases Nat.lt_or_ge k n with h | h
    · exact mem_krylov A B (by omega) u
    · obtain ⟨j, rfl⟩ := Nat.exists_eq_add_of_le h
      have h1 := aeval_self_charpoly A
      have hd : A.charpoly.natDegree = n := by rw [charpoly_natDegree_eq_dim, Fintype.card_fin]
      rw [Polynomial.aeval_eq_sum_range, hd, Finset.sum_range_succ] at h1
      have hlead : A.charpoly.coeff n = 1 := by
        have := A.charpoly_monic.coeff_natDegree
        rwa [hd] at this
      rw [hlead, one_smul] at h1
      have h2 : A ^ n = - ∑ i ∈ Finset.range n, A.charpoly.coeff i • A ^ i := by
        rw [eq_neg_iff_add_eq_zero, add_comm]; exact h1
      rw [pow_add, h2, Matrix.neg_mul, Matrix.neg_mul, neg_mulVec]
      refine Submodule.neg_mem _ ?_
      rw [Finset.sum_mul, Matrix.sum_mul, sum_mulVec]
      refine Submodule.sum_mem _ fun i hi => ?_
      rw [smul_mul_assoc, Matrix.smul_mul, ← pow_add, smul_mulVec]
      refine Submodule.smul_mem _ _ (ih _ ?_)
      have := Finset.mem_range.mp hi
      omega

/-- The Krylov space is invariant. -/
theorem krylov_invariant (A : Matrix (Fin n) (Fin n) K) (B : Matrix (Fin n) (Fin m) K) {x : Fin n → K}
    (hx : x ∈ krySpace A B (n - 1)) : A *ᵥ x ∈ krySpace A B (n - 1) := by
  have h : krySpace A B (n - 1) ≤ (krySpace A B (n - 1)).comap A.mulVecLin := by
    refine krylov_le fun i _ u => ?_
    rw [Submodule.mem_comap, mulVecLin_apply, mulVec_mulVec, ← Matrix.mul_assoc, ← pow_succ']
    exact pow_mem_krylov A B (i + 1) u
  exact h hx

theorem rank_eq_iff_range (M : Matrix (Fin n) (Fin m) K) : M.rank = n ↔ LinearMap.range M.mulVecLin = ⊤ := by
  rw [Matrix.rank]
  constructor
  · intro h
    exact Submodule.eq_top_of_finrank_eq (by rw [h]; simp)
  · intro h
    rw [h]; simp

/-! ## The loops -/

section
variable [LinearOrder K]

theorem pow_of (A : Matrix (Fin n) (Fin n) K) (k : ℕ) : (Arr.of A).pow k = .ok (Arr.of (A ^ k)) := by
  induction k with
  | zero => simp [Arr.pow, Arr.eye]
  | succ k ih => simp only [Arr.pow, ih, bind, Except.bind, Arr.matmul_of, pow_succ]

theorem ctrbLoop_of (A : Matrix (Fin n) (Fin n) K) (B : Matrix (Fin n) (Fin m) K) :
    ctrbLoop (Arr.of A) (Arr.of B) = .ok (Arr.of (ctrbM A B (n - 1))) := by
  unfold ctrbLoop
  rw [Arr.of_r]
  generalize n - 1 = k
  induction k with
  | zero => rfl
  | succ k ih =>
    rw [List.range'_concat, List.foldlM_append, ih]
    simp only [bind, Except.bind, List.foldlM_cons, List.foldlM_nil, pow_of, Arr.matmul_of, Arr.hstack_of, mul_one, pure, Except.pure]
    rw [show 1 + 1 * k = k + 1 from by omega]
    rfl

theorem obsvLoop_of (A : Matrix (Fin n) (Fin n) K) (C : Matrix (Fin p) (Fin n) K) :
    obsvLoop (Arr.of A) (Arr.of C) = .ok (Arr.of (obsvM A C (n - 1))) := by
  unfold obsvLoop
  rw [Arr.of_r]
  generalize n - 1 = k
  induction k with
  | zero => rfl
  | succ k ih =>
    rw [List.range'_concat, List.foldlM_append, ih]
    simp only [bind, Except.bind, List.foldlM_cons, List.foldlM_nil, pow_of, Arr.matmul_of, Arr.vstack_of, mul_one, pure, Except.pure]
    rw [show 1 + 1 * k = k + 1 from by omega]
    rfl

end

end Harold
