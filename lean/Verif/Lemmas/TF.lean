import Verif.Spec.TF
import Mathlib.LinearAlgebra.Matrix.Kronecker
import Mathlib.LinearAlgebra.Matrix.SchurComplement

/-!
# Resolvent identities
-/

namespace Harold.Spec

open Matrix

section IsTF
variable {L : Type} [Field L]
variable {n n' n₁ n₂ m m' p p' q k : Type}
variable [Fintype n] [DecidableEq n] [Fintype n'] [DecidableEq n'] [Fintype n₁] [DecidableEq n₁]
  [Fintype n₂] [DecidableEq n₂] [Fintype m] [Fintype m'] [Fintype p] [Fintype p']
  [Fintype q] [Fintype k] [DecidableEq k]

theorem isTF_iff_sol {A : Matrix n n L} {B : Matrix n m L} {C : Matrix p n L} {D : Matrix p m L}
    {s : L} {M : Matrix p m L} :
    IsTF A B C D s M ↔ (s • (1 : Matrix n n L) - A).det ≠ 0 ∧
      ∃ X : Matrix n m L, (s • (1 : Matrix n n L) - A) * X = B ∧ M = C * X + D := by
  constructor
  · rintro ⟨h, rfl⟩
    refine ⟨h, (s • (1 : Matrix n n L) - A)⁻¹ * B, ?_, ?_⟩
    · rw [← Matrix.mul_assoc, Matrix.mul_nonsing_inv _ (isUnit_iff_ne_zero.mpr h), Matrix.one_mul]
    · rw [Matrix.mul_assoc]
  · rintro ⟨h, X, hX, rfl⟩
    refine ⟨h, ?_⟩
    rw [← hX, Matrix.mul_assoc, ← Matrix.mul_assoc _ _ X,
      Matrix.nonsing_inv_mul _ (isUnit_iff_ne_zero.mpr h), Matrix.one_mul]

theorem IsTF.unique {A : Matrix n n L} {B : Matrix n m L} {C : Matrix p n L} {D : Matrix p m L}
    {s : L} {M N : Matrix p m L} (h : IsTF A B C D s M) (h' : IsTF A B C D s N) : M = N :=
  h.2.trans h'.2.symm

theorem IsTF.reindex {A : Matrix n n L} {B : Matrix n m L} {C : Matrix p n L} {D : Matrix p m L}
    {s : L} {M : Matrix p m L} (e : n' ≃ n) (h : IsTF A B C D s M) :
    IsTF (A.submatrix e e) (B.submatrix e id) (C.submatrix id e) D s M := by
  have key : s • (1 : Matrix n' n' L) - A.submatrix e e
      = (s • (1 : Matrix n n L) - A).submatrix e e := by
    ext i j
    simp [Matrix.one_apply]
  obtain ⟨hd, X, hX, hM⟩ := isTF_iff_sol.mp h
  refine isTF_iff_sol.mpr ⟨?_, X.submatrix e id, ?_, ?_⟩
  · rwa [key, Matrix.det_submatrix_equiv_self]
  · rw [key, Matrix.submatrix_mul_equiv, hX]
  · rw [Matrix.submatrix_mul_equiv, hM]; rfl

theorem IsTF.parallel {A₁ : Matrix n₁ n₁ L} {B₁ : Matrix n₁ m L} {C₁ : Matrix p n₁ L}
    {D₁ : Matrix p m L} {A₂ : Matrix n₂ n₂ L} {B₂ : Matrix n₂ m L} {C₂ : Matrix p n₂ L}
    {D₂ : Matrix p m L} {s : L} {M₁ M₂ : Matrix p m L}
    (h₁ : IsTF A₁ B₁ C₁ D₁ s M₁) (h₂ : IsTF A₂ B₂ C₂ D₂ s M₂) :
    IsTF (fromBlocks A₁ 0 0 A₂) (fromRows B₁ B₂) (fromCols C₁ C₂) (D₁ + D₂) s (M₁ + M₂) := by
  have key : s • (1 : Matrix (n₁ ⊕ n₂) (n₁ ⊕ n₂) L) - fromBlocks A₁ 0 0 A₂
      = fromBlocks (s • 1 - A₁) 0 0 (s • 1 - A₂) := by
    rw [← fromBlocks_one, fromBlocks_smul, sub_eq_add_neg, fromBlocks_neg, fromBlocks_add]
    simp [sub_eq_add_neg]
  obtain ⟨hd₁, X₁, hX₁, rfl⟩ := isTF_iff_sol.mp h₁
  obtain ⟨hd₂, X₂, hX₂, rfl⟩ := isTF_iff_sol.mp h₂
  refine isTF_iff_sol.mpr ⟨?_, fromRows X₁ X₂, ?_, ?_⟩
  · rw [key, det_fromBlocks_zero₂₁]; exact mul_ne_zero hd₁ hd₂
  · rw [key, fromBlocks_mul_fromRows, hX₁, hX₂]; simp
  · rw [fromCols_mul_fromRows]; abel

theorem IsTF.series {A₁ : Matrix n₁ n₁ L} {B₁ : Matrix n₁ q L} {C₁ : Matrix p n₁ L}
    {D₁ : Matrix p q L} {A₂ : Matrix n₂ n₂ L} {B₂ : Matrix n₂ m L} {C₂ : Matrix q n₂ L}
    {D₂ : Matrix q m L} {s : L} {M₁ : Matrix p q L} {M₂ : Matrix q m L}
    (h₁ : IsTF A₁ B₁ C₁ D₁ s M₁) (h₂ : IsTF A₂ B₂ C₂ D₂ s M₂) :
    IsTF (fromBlocks A₁ (B₁ * C₂) 0 A₂) (fromRows (B₁ * D₂) B₂) (fromCols C₁ (D₁ * C₂))
      (D₁ * D₂) s (M₁ * M₂) := by
  have key : s • (1 : Matrix (n₁ ⊕ n₂) (n₁ ⊕ n₂) L) - fromBlocks A₁ (B₁ * C₂) 0 A₂
      = fromBlocks (s • 1 - A₁) (-(B₁ * C₂)) 0 (s • 1 - A₂) := by
    rw [← fromBlocks_one, fromBlocks_smul, sub_eq_add_neg, fromBlocks_neg, fromBlocks_add]
    simp [sub_eq_add_neg]
  obtain ⟨hd₁, X₁, hX₁, rfl⟩ := isTF_iff_sol.mp h₁
  obtain ⟨hd₂, X₂, hX₂, rfl⟩ := isTF_iff_sol.mp h₂
  refine isTF_iff_sol.mpr ⟨?_, fromRows (X₁ * (C₂ * X₂ + D₂)) X₂, ?_, ?_⟩
  · rw [key, det_fromBlocks_zero₂₁]; exact mul_ne_zero hd₁ hd₂
  · rw [key, fromBlocks_mul_fromRows, hX₂, ← Matrix.mul_assoc, hX₁]
    congr 1
    · rw [Matrix.mul_add, Matrix.neg_mul, Matrix.mul_assoc]; abel
    · simp
  · rw [fromCols_mul_fromRows]
    simp only [Matrix.mul_add, Matrix.add_mul, Matrix.mul_assoc]
    abel

theorem IsTF.mul_right {A : Matrix n n L} {B : Matrix n m L} {C : Matrix p n L} {D : Matrix p m L}
    {s : L} {M : Matrix p m L} (h : IsTF A B C D s M) (S : Matrix m m' L) :
    IsTF A (B * S) C (D * S) s (M * S) := by
  obtain ⟨hd, rfl⟩ := h
  exact ⟨hd, by simp only [Matrix.add_mul, Matrix.mul_assoc]⟩

theorem IsTF.mul_left {A : Matrix n n L} {B : Matrix n m L} {C : Matrix p n L} {D : Matrix p m L}
    {s : L} {M : Matrix p m L} (h : IsTF A B C D s M) (S : Matrix p' p L) :
    IsTF A B (S * C) (S * D) s (S * M) := by
  obtain ⟨hd, rfl⟩ := h
  exact ⟨hd, by simp only [Matrix.mul_add, Matrix.mul_assoc]⟩

theorem IsTF.add_const {A : Matrix n n L} {B : Matrix n m L} {C : Matrix p n L} {D : Matrix p m L}
    {s : L} {M : Matrix p m L} (h : IsTF A B C D s M) (S : Matrix p m L) :
    IsTF A B C (D + S) s (M + S) := by
  obtain ⟨hd, rfl⟩ := h
  exact ⟨hd, by rw [add_assoc]⟩

theorem IsTF.neg {A : Matrix n n L} {B : Matrix n m L} {C : Matrix p n L} {D : Matrix p m L}
    {s : L} {M : Matrix p m L} (h : IsTF A B C D s M) : IsTF A B (-C) (-D) s (-M) := by
  obtain ⟨hd, rfl⟩ := h
  exact ⟨hd, by simp only [Matrix.neg_mul, neg_add]⟩

theorem IsTF.submatrix {A : Matrix n n L} {B : Matrix n m L} {C : Matrix p n L} {D : Matrix p m L}
    {s : L} {M : Matrix p m L} (h : IsTF A B C D s M) (f : p' → p) (g : m' → m) :
    IsTF A (B.submatrix id g) (C.submatrix f id) (D.submatrix f g) s (M.submatrix f g) := by
  obtain ⟨hd, X, hX, rfl⟩ := isTF_iff_sol.mp h
  refine isTF_iff_sol.mpr ⟨hd, X.submatrix id g, ?_, ?_⟩
  · rw [← hX]; ext i j; simp [Matrix.mul_apply]
  · ext i j; simp [Matrix.mul_apply]

theorem IsTF.similar {A : Matrix n n L} {B : Matrix n m L} {C : Matrix p n L} {D : Matrix p m L}
    {s : L} {M : Matrix p m L} (h : IsTF A B C D s M) (T S : Matrix n n L) (hTS : S * T = 1) :
    IsTF (S * A * T) (S * B) (C * T) D s M := by
  have hST : T * S = 1 := mul_eq_one_comm.mp hTS
  have key : s • (1 : Matrix n n L) - S * A * T = S * (s • 1 - A) * T := by
    rw [Matrix.mul_sub, Matrix.sub_mul, Matrix.mul_smul, Matrix.smul_mul, Matrix.mul_one, hTS]
  obtain ⟨hd, X, hX, rfl⟩ := isTF_iff_sol.mp h
  refine isTF_iff_sol.mpr ⟨?_, S * X, ?_, ?_⟩
  · have hd' : S.det * T.det = 1 := by rw [← det_mul, hTS, det_one]
    rw [key, det_mul, det_mul, mul_right_comm, hd', one_mul]; exact hd
  · rw [key, Matrix.mul_assoc, ← Matrix.mul_assoc T S X, hST, Matrix.one_mul, Matrix.mul_assoc, hX]
  · rw [Matrix.mul_assoc, ← Matrix.mul_assoc T S X, hST, Matrix.one_mul]

open scoped Kronecker in
/-- `k` copies of a system side by side. -/
theorem IsTF.kron_right [DecidableEq m] {A : Matrix n n L} {B : Matrix n m L} {C : Matrix p n L}
    {D : Matrix p m L} {s : L} {M : Matrix p m L} (h : IsTF A B C D s M) (S : Matrix k q L) :
    IsTF ((1 : Matrix k k L) ⊗ₖ A) (S ⊗ₖ B) ((1 : Matrix k k L) ⊗ₖ C) (S ⊗ₖ D) s (S ⊗ₖ M) := by
  have key : s • (1 : Matrix (k × n) (k × n) L) - (1 : Matrix k k L) ⊗ₖ A
      = (1 : Matrix k k L) ⊗ₖ (s • 1 - A) := by
    rw [← one_kronecker_one, ← kronecker_smul]
    ext ⟨i, j⟩ ⟨i', j'⟩
    simp [mul_sub]
  obtain ⟨hd, X, hX, rfl⟩ := isTF_iff_sol.mp h
  refine isTF_iff_sol.mpr ⟨?_, S ⊗ₖ X, ?_, ?_⟩
  · rw [key, det_kronecker]
    simpa using pow_ne_zero _ hd
  · rw [key, ← mul_kronecker_mul, hX, Matrix.one_mul]
  · rw [← mul_kronecker_mul, Matrix.one_mul, kronecker_add]

open scoped Kronecker in
theorem IsTF.kron_left [DecidableEq m] {A : Matrix n n L} {B : Matrix n m L} {C : Matrix p n L}
    {D : Matrix p m L} {s : L} {M : Matrix p m L} (h : IsTF A B C D s M) (S : Matrix q k L) :
    IsTF ((1 : Matrix k k L) ⊗ₖ A) ((1 : Matrix k k L) ⊗ₖ B) (S ⊗ₖ C) (S ⊗ₖ D) s (S ⊗ₖ M) := by
  have key : s • (1 : Matrix (k × n) (k × n) L) - (1 : Matrix k k L) ⊗ₖ A
      = (1 : Matrix k k L) ⊗ₖ (s • 1 - A) := by
    rw [← one_kronecker_one, ← kronecker_smul]
    ext ⟨i, j⟩ ⟨i', j'⟩
    simp [mul_sub]
  obtain ⟨hd, X, hX, rfl⟩ := isTF_iff_sol.mp h
  refine isTF_iff_sol.mpr ⟨?_, (1 : Matrix k k L) ⊗ₖ X, ?_, ?_⟩
  · rw [key, det_kronecker]
    simpa using pow_ne_zero _ hd
  · rw [key, ← mul_kronecker_mul, hX, Matrix.one_mul]
  · rw [← mul_kronecker_mul, Matrix.mul_one, kronecker_add]

/-- The inverse system. -/
theorem IsTF.inv [DecidableEq m] {A : Matrix n n L} {B : Matrix n m L} {C : Matrix m n L}
    {D E : Matrix m m L} {s : L} {M : Matrix m m L} (h : IsTF A B C D s M)
    (hE : E * D = 1) (hs : (s • (1 : Matrix n n L) - (A - B * (E * C))).det ≠ 0) :
    ∃ N, IsTF (A - B * (E * C)) (B * E) (-(E * C)) E s N ∧ N * M = 1 ∧ M * N = 1 := by
  obtain ⟨hd, X, hX, rfl⟩ := isTF_iff_sol.mp h
  set R := s • (1 : Matrix n n L) - (A - B * (E * C)) with hR
  have hR' : R = (s • 1 - A) + B * (E * C) := by rw [hR]; abel
  set Y := R⁻¹ * (B * E) with hY
  have hRY : R * Y = B * E := by
    rw [hY, ← Matrix.mul_assoc, Matrix.mul_nonsing_inv _ (isUnit_iff_ne_zero.mpr hs), Matrix.one_mul]
  have hRX : R * X = B * E * (C * X + D) := by
    rw [hR', Matrix.add_mul, hX, Matrix.mul_add, Matrix.mul_assoc B E D, hE, Matrix.mul_one,
      Matrix.mul_assoc B (E * C) X, Matrix.mul_assoc E C X, Matrix.mul_assoc B E (C * X), add_comm]
  have hXY : X = Y * (C * X + D) := by
    have : R * X = R * (Y * (C * X + D)) := by rw [hRX, ← Matrix.mul_assoc R Y, hRY]
    have h2 := congrArg (fun Z => R⁻¹ * Z) this
    simpa only [← Matrix.mul_assoc, Matrix.nonsing_inv_mul _ (isUnit_iff_ne_zero.mpr hs),
      Matrix.one_mul] using h2
  have hNM : (-(E * C) * Y + E) * (C * X + D) = 1 := by
    rw [Matrix.add_mul, Matrix.mul_assoc, ← hXY, Matrix.mul_add, hE, Matrix.neg_mul,
      Matrix.mul_assoc]
    abel
  exact ⟨-(E * C) * Y + E, isTF_iff_sol.mpr ⟨hs, Y, hRY, rfl⟩, hNM,
    mul_eq_one_comm.mp hNM⟩

end IsTF

end Harold.Spec
