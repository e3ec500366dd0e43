import Verif.Lemmas.StateTF
import Verif.Spec.Hess

/-!
# Lemmas on `hessenberg_realization`
-/

namespace Harold

open Matrix Spec

variable {K : Type} [Field K] [LinearOrder K] {n m p : ℕ}

theorem Arr.flipud_of (M : Matrix (Fin n) (Fin m) K) : (Arr.of M).flipud = Arr.of (M.submatrix Fin.rev id) := rfl
theorem Arr.fliplr_of (M : Matrix (Fin n) (Fin m) K) : (Arr.of M).fliplr = Arr.of (M.submatrix id Fin.rev) := rfl

/-- What the decompositions return for one input. -/
theorem hessCore_of {N : HessNum K} (A : Matrix (Fin n) (Fin n) K) (B : Matrix (Fin n) (Fin 1) K) (C : Matrix (Fin p) (Fin n) K)
    (hq : QrOk N B) (hh : ∀ M : Matrix (Fin n) (Fin n) K, HessOk N M) :
    ∃ T : Matrix (Fin n) (Fin n) K, hessCore N (Arr.of A) (Arr.of B) (Arr.of C) =
      .ok (Arr.of (Tᵀ * A * T), Arr.of (Tᵀ * B), Arr.of (C * T), Arr.of T) ∧ Tᵀ * T = 1 ∧ IsHess (Tᵀ * A * T) ∧
      ∀ (i : Fin n) (j : Fin 1), (j : ℕ) < i → (Tᵀ * B) i j = 0 := by
  obtain ⟨Q, R, h1, h2, h3, h4⟩ := hq
  obtain ⟨H, P, g1, g2, g3, g4, g5⟩ := hh (Qᵀ * A * Q)
  have hPR : Pᵀ * R = R := by
    ext i j
    rcases Nat.eq_zero_or_pos n with rfl | hn
    · exact i.elim0
    rw [Matrix.mul_apply, Finset.sum_eq_single (⟨0, hn⟩ : Fin n)]
    · have e : Pᵀ i ⟨0, hn⟩ = if i = ⟨0, hn⟩ then 1 else 0 := by
        have := congrFun (congrFun g2 i) ⟨0, hn⟩
        rw [Matrix.mul_apply, Finset.sum_eq_single (⟨0, hn⟩ : Fin n), g5 ⟨0, hn⟩ ⟨0, hn⟩ rfl, if_pos rfl, mul_one, Matrix.one_apply] at this
        · exact this
        · intro b _ hb
          rw [g5 b ⟨0, hn⟩ rfl, if_neg hb, mul_zero]
        · simp
      rw [e]
      split_ifs with hi
      · rw [hi, one_mul]
      · rw [zero_mul, h4 i j]
        have : (i : ℕ) ≠ 0 := fun h => hi (Fin.ext h)
        have := j.2
        omega
    · intro b _ hb
      rw [h4 b j, mul_zero]
      have : (b : ℕ) ≠ 0 := fun h => hb (Fin.ext h)
      have := j.2
      omega
    · simp
  have e1 : (Q * P)ᵀ * A * (Q * P) = H := by
    rw [transpose_mul]
    calc Pᵀ * Qᵀ * A * (Q * P) = Pᵀ * (Qᵀ * A * Q) * P := by simp only [Matrix.mul_assoc]
      _ = (Pᵀ * P) * H * (Pᵀ * P) := by rw [g3]; simp only [Matrix.mul_assoc]
      _ = H := by rw [g2, Matrix.one_mul, Matrix.mul_one]
  have e2 : (Q * P)ᵀ * B = R := by
    rw [transpose_mul]
    conv_lhs => rw [h3]
    rw [Matrix.mul_assoc, ← Matrix.mul_assoc Qᵀ, h2, Matrix.one_mul, hPR]
  refine ⟨Q * P, ?_, ?_, ?_, ?_⟩
  · unfold hessCore
    rw [h1]
    dsimp only
    rw [Arr.T_of, Arr.matmul_of]
    simp only [bind, Except.bind]
    rw [Arr.matmul_of]
    simp only
    rw [Arr.matmul_of]
    simp only
    rw [g1]
    simp only
    rw [Arr.matmul_of, Arr.matmul_of]
    simp only
    rw [e1, e2, Matrix.mul_assoc]
  · rw [transpose_mul, Matrix.mul_assoc, ← Matrix.mul_assoc Qᵀ, h2, Matrix.one_mul, g2]
  · rw [e1]; exact g4
  · rw [e2]; exact h4

/-- The observer form with one output, inverted: what `frequency_response` uses. -/
theorem hessMatrices_o {N : HessNum K} (A : Matrix (Fin n) (Fin n) K) (B : Matrix (Fin n) (Fin m) K) (C : Matrix (Fin 1) (Fin n) K)
    (hq : QrOk N Cᵀ) (hh : ∀ M : Matrix (Fin n) (Fin n) K, HessOk N M) (invert : Bool) :
    ∃ T : Matrix (Fin n) (Fin n) K, Tᵀ * T = 1 ∧ IsHess (Tᵀ * A * T)ᵀ ∧ (∀ (i : Fin 1) (j : Fin n), (j : ℕ) ≠ 0 → (C * T) i j = 0) ∧
      hessMatrices N "o" invert (Arr.of A) (Arr.of B) (Arr.of C) = .ok (if invert then
        (Arr.of ((Tᵀ * A * T).submatrix Fin.rev Fin.rev), Arr.of ((Tᵀ * B).submatrix Fin.rev id), Arr.of ((C * T).submatrix id Fin.rev),
          Arr.of (T.submatrix Fin.rev id))
        else (Arr.of (Tᵀ * A * T), Arr.of (Tᵀ * B), Arr.of (C * T), Arr.of T)) := by
  obtain ⟨T, h1, h2, h3, h4⟩ := hessCore_of Aᵀ Cᵀ Bᵀ hq hh
  have e1 : (Tᵀ * Aᵀ * T)ᵀ = Tᵀ * A * T := by simp only [transpose_mul, transpose_transpose, Matrix.mul_assoc]
  have e2 : (Bᵀ * T)ᵀ = Tᵀ * B := by simp only [transpose_mul, transpose_transpose]
  have e3 : (Tᵀ * Cᵀ)ᵀ = C * T := by simp only [transpose_mul, transpose_transpose]
  refine ⟨T, h2, ?_, ?_, ?_⟩
  · rw [← e1, transpose_transpose]; exact h3
  · intro i j hj
    rw [← e3]
    exact h4 j i (by have := i.2; omega)
  · unfold hessMatrices
    rw [if_pos rfl, Arr.T_of, Arr.T_of, Arr.T_of, h1]
    simp only [bind, Except.bind]
    unfold hessInvert
    cases invert
    · simp only [Bool.false_eq_true, if_false]
      rw [Arr.T_of, Arr.T_of, Arr.T_of, e1, e2, e3]
    · simp only [if_true, Arr.flipud_of, Arr.fliplr_of, Arr.T_of]
      rw [transpose_submatrix, transpose_submatrix, transpose_submatrix, submatrix_submatrix, ← e1, ← e2, ← e3, ]
      rfl

/-- The controller form with one input. -/
theorem hessMatrices_c {N : HessNum K} {form : String} (hf : form ≠ "o") (A : Matrix (Fin n) (Fin n) K) (B : Matrix (Fin n) (Fin 1) K)
    (C : Matrix (Fin p) (Fin n) K) (hq : QrOk N B) (hh : ∀ M : Matrix (Fin n) (Fin n) K, HessOk N M) (invert : Bool) :
    ∃ T : Matrix (Fin n) (Fin n) K, Tᵀ * T = 1 ∧ IsHess (Tᵀ * A * T) ∧ (∀ (i : Fin n) (j : Fin 1), (i : ℕ) ≠ 0 → (Tᵀ * B) i j = 0) ∧
      hessMatrices N form invert (Arr.of A) (Arr.of B) (Arr.of C) = .ok (if invert then
        (Arr.of ((Tᵀ * A * T).submatrix Fin.rev Fin.rev), Arr.of ((Tᵀ * B).submatrix Fin.rev id), Arr.of ((C * T).submatrix id Fin.rev),
          Arr.of (T.submatrix Fin.rev id))
        else (Arr.of (Tᵀ * A * T), Arr.of (Tᵀ * B), Arr.of (C * T), Arr.of T)) := by
  obtain ⟨T, h1, h2, h3, h4⟩ := hessCore_of A B C hq hh
  refine ⟨T, h2, h3, ?_, ?_⟩
  · intro i j hi
    exact h4 i j (by have := j.2; omega)
  · unfold hessMatrices
    rw [if_neg hf, h1]
    simp only [bind, Except.bind]
    unfold hessInvert
    cases invert
    · simp only [Bool.false_eq_true, if_false]
    · simp only [if_true, Arr.flipud_of, Arr.fliplr_of]
      rw [submatrix_submatrix]
      rfl

end Harold
