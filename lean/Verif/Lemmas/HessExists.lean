import Verif.Spec.Hess
import Verif.Lemmas.SvdExists
import Mathlib.Data.Real.Basic

/-!
# QR factorisations and Hessenberg forms exist over the real numbers
-/

namespace Harold

open Matrix Spec

variable {n m : ℕ}

/-- `diag(1, X)`. -/
def grow (X : Matrix (Fin n) (Fin m) ℝ) : Matrix (Fin (n + 1)) (Fin (m + 1)) ℝ :=
  Matrix.of (Fin.cons (Fin.cons 1 fun _ => 0) fun i => Fin.cons 0 (X i))

@[simp] theorem grow_zero_zero (X : Matrix (Fin n) (Fin m) ℝ) : grow X 0 0 = 1 := rfl
@[simp] theorem grow_zero_succ (X : Matrix (Fin n) (Fin m) ℝ) (j : Fin m) : grow X 0 j.succ = 0 := rfl
@[simp] theorem grow_succ_zero (X : Matrix (Fin n) (Fin m) ℝ) (i : Fin n) : grow X i.succ 0 = 0 := rfl
@[simp] theorem grow_succ_succ (X : Matrix (Fin n) (Fin m) ℝ) (i : Fin n) (j : Fin m) : grow X i.succ j.succ = X i j := rfl

theorem grow_mul {k : ℕ} (X : Matrix (Fin n) (Fin m) ℝ) (Y : Matrix (Fin m) (Fin k) ℝ) : grow X * grow Y = grow (X * Y) := by
  ext i j
  refine Fin.cases ?_ (fun i => ?_) i <;> refine Fin.cases ?_ (fun j => ?_) j <;> simp [Matrix.mul_apply, Fin.sum_univ_succ]

theorem grow_transpose (X : Matrix (Fin n) (Fin m) ℝ) : (grow X)ᵀ = grow Xᵀ := by
  ext i j
  refine Fin.cases ?_ (fun i => ?_) i <;> refine Fin.cases ?_ (fun j => ?_) j <;> simp

theorem grow_one : grow (1 : Matrix (Fin n) (Fin n) ℝ) = 1 := by
  ext i j
  refine Fin.cases ?_ (fun i => ?_) i <;> refine Fin.cases ?_ (fun j => ?_) j <;> simp [Matrix.one_apply, Fin.succ_ne_zero, (Fin.succ_ne_zero _).symm]

theorem grow_orth {X : Matrix (Fin n) (Fin n) ℝ} (h : Xᵀ * X = 1) : (grow X)ᵀ * grow X = 1 := by
  rw [grow_transpose, grow_mul, h, grow_one]

theorem orth_mul {X Y : Matrix (Fin n) (Fin n) ℝ} (hX : Xᵀ * X = 1) (hY : Yᵀ * Y = 1) : (X * Y)ᵀ * (X * Y) = 1 := by
  rw [transpose_mul, Matrix.mul_assoc, ← Matrix.mul_assoc Xᵀ, hX, Matrix.one_mul, hY]

/-- A reflector: some orthogonal matrix maps a given vector to a multiple of the first unit vector. -/
theorem exists_reflector (b : Fin n → ℝ) : ∃ Q : Matrix (Fin n) (Fin n) ℝ, Qᵀ * Q = 1 ∧ ∀ i : Fin n, (i : ℕ) ≠ 0 → (Qᵀ *ᵥ b) i = 0 := by
  obtain ⟨U, s, V, h⟩ := exists_isSvd (Matrix.of fun (i : Fin n) (_ : Fin 1) => b i)
  refine ⟨U, h.u_orth, fun i hi => ?_⟩
  have h1 : Uᵀ * (Matrix.of fun (i : Fin n) (_ : Fin 1) => b i) = diagRect n 1 s * V := by
    rw [h.eq, Matrix.mul_assoc, ← Matrix.mul_assoc, h.u_orth, Matrix.one_mul]
  have h2 : (Uᵀ *ᵥ b) i = (Uᵀ * (Matrix.of fun (i : Fin n) (_ : Fin 1) => b i)) i 0 := rfl
  rw [h2, h1, Matrix.mul_apply]
  refine Finset.sum_eq_zero fun k _ => ?_
  rw [Subsingleton.elim k 0]
  simp [diagRect, hi]

theorem exists_qr : ∀ {n m : ℕ} (B : Matrix (Fin n) (Fin m) ℝ), ∃ (Q : Matrix (Fin n) (Fin n) ℝ) (R : Matrix (Fin n) (Fin m) ℝ), Qᵀ * Q = 1 ∧ B = Q * R ∧
    ∀ (i : Fin n) (j : Fin m), (j : ℕ) < i → R i j = 0 := by
  intro n
  induction n with
  | zero => exact fun B => ⟨1, B, by simp, by simp, fun i => i.elim0⟩
  | succ n ih =>
    intro m B
    cases m with
    | zero => exact ⟨1, B, by simp, by simp, fun _ j => j.elim0⟩
    | succ m =>
      obtain ⟨P, hP, h1⟩ := exists_reflector fun i => B i 0
      obtain ⟨Q, R, hQ, h2, h3⟩ := ih (Matrix.of fun (i : Fin n) (j : Fin m) => (Pᵀ * B) i.succ j.succ)
      have hP' : P * Pᵀ = 1 := mul_eq_one_comm.mp hP
      have hG := grow_orth hQ
      have hG' : grow Q * (grow Q)ᵀ = 1 := mul_eq_one_comm.mp hG
      refine ⟨P * grow Q, (grow Q)ᵀ * (Pᵀ * B), orth_mul hP hG, ?_, fun i j => ?_⟩
      · rw [Matrix.mul_assoc, ← Matrix.mul_assoc (grow Q), hG', Matrix.one_mul, ← Matrix.mul_assoc, hP', Matrix.one_mul]
      · have hcol : ∀ k : Fin n, (Pᵀ * B) k.succ 0 = 0 := fun k => h1 k.succ (by simp)
        refine Fin.cases ?_ (fun i => ?_) i
        · intro h; simp at h
        · refine Fin.cases ?_ (fun j => ?_) j
          · intro _
            rw [grow_transpose, Matrix.mul_apply, Fin.sum_univ_succ]
            simp [hcol]
          · intro h
            have h4 : R = Qᵀ * (Matrix.of fun (i : Fin n) (j : Fin m) => (Pᵀ * B) i.succ j.succ) := by
              rw [h2, ← Matrix.mul_assoc, hQ, Matrix.one_mul]
            have h5 := h3 i j (by simpa using h)
            rw [h4, Matrix.mul_apply] at h5
            rw [grow_transpose, Matrix.mul_apply, Fin.sum_univ_succ]
            simpa using h5

theorem exists_hess : ∀ {n : ℕ} (A : Matrix (Fin n) (Fin n) ℝ), ∃ H Q : Matrix (Fin n) (Fin n) ℝ, Qᵀ * Q = 1 ∧ A = Q * H * Qᵀ ∧ IsHess H ∧
    ∀ i j : Fin n, (j : ℕ) = 0 → Q i j = if i = j then 1 else 0 := by
  intro n
  induction n with
  | zero => exact fun A => ⟨A, 1, by simp, by simp, fun i => i.elim0, fun i => i.elim0⟩
  | succ n ih =>
    intro A
    obtain ⟨P, hP, h1⟩ := exists_reflector fun i : Fin n => A i.succ 0
    obtain ⟨H, Q, hQ, h2, h3, h4⟩ := ih (Pᵀ * (Matrix.of fun i j : Fin n => A i.succ j.succ) * P)
    have hO : (P * Q)ᵀ * (P * Q) = 1 := orth_mul hP hQ
    have hG := grow_orth hO
    have hG' := mul_eq_one_comm.mp hG
    refine ⟨(grow (P * Q))ᵀ * A * grow (P * Q), grow (P * Q), hG, ?_, fun i j => ?_, fun i j => ?_⟩
    · simp only [Matrix.mul_assoc]
      rw [hG', Matrix.mul_one, ← Matrix.mul_assoc, hG', Matrix.one_mul]
    · have hH : H = (P * Q)ᵀ * (Matrix.of fun i j : Fin n => A i.succ j.succ) * (P * Q) := by
        have : Qᵀ * (Pᵀ * (Matrix.of fun i j : Fin n => A i.succ j.succ) * P) * Q = H := by
          rw [h2]
          simp only [Matrix.mul_assoc]
          rw [hQ, Matrix.mul_one, ← Matrix.mul_assoc, hQ, Matrix.one_mul]
        rw [← this, transpose_mul]
        simp only [Matrix.mul_assoc]
      rw [grow_transpose]
      refine Fin.cases ?_ (fun i => ?_) i
      · intro h; simp at h
      · refine Fin.cases ?_ (fun j => ?_) j
        · intro h
          have h5 : ((P * Q)ᵀ *ᵥ fun k : Fin n => A k.succ 0) i = 0 := by
            rw [transpose_mul, ← Matrix.mulVec_mulVec, Matrix.mulVec, dotProduct]
            refine Finset.sum_eq_zero fun k _ => ?_
            by_cases hk : (k : ℕ) = 0
            · have h6 := congrFun (congrFun hQ k) i
              rw [Matrix.mul_apply, Finset.sum_eq_single k, transpose_apply, h4 k k hk, if_pos rfl, one_mul, Matrix.one_apply, if_neg] at h6
              · rw [transpose_apply, h6, zero_mul]
              · rintro rfl
                simp at h
                omega
              · intro l _ hl
                rw [transpose_apply, h4 l k hk, if_neg hl, zero_mul]
              · simp
            · rw [h1 k hk, mul_zero]
          rw [Matrix.mul_apply, Fin.sum_univ_succ]
          simp only [grow_zero_zero, grow_succ_zero, mul_zero, Finset.sum_const_zero, add_zero, mul_one]
          rw [Matrix.mul_apply, Fin.sum_univ_succ]
          simpa [Matrix.mulVec, dotProduct, -transpose_mul] using h5
        · intro h
          have h5 := h3 i j (by simpa using h)
          rw [hH] at h5
          rw [Matrix.mul_apply, Fin.sum_univ_succ]
          simp only [grow_zero_succ, mul_zero, zero_add, grow_succ_succ]
          rw [Matrix.mul_apply] at h5
          rw [← h5]
          refine Finset.sum_congr rfl fun k _ => ?_
          rw [Matrix.mul_apply, Matrix.mul_apply, Fin.sum_univ_succ]
          simp only [grow_succ_zero, grow_succ_succ, zero_mul, zero_add]
          rfl
    · intro h
      obtain rfl : j = 0 := Fin.ext h
      refine Fin.cases ?_ (fun i => ?_) i
      · simp
      · simp [Fin.succ_ne_zero]

/-- Routines for `qr` and `hessenberg` as required exist. -/
theorem exists_hessNum : ∃ N : HessNum ℝ, (∀ {n m : ℕ} (B : Matrix (Fin n) (Fin m) ℝ), QrOk N B) ∧ ∀ {n : ℕ} (A : Matrix (Fin n) (Fin n) ℝ), HessOk N A := by
  classical
  choose Q R hQ using fun (x : Arr ℝ) => exists_qr x.m
  choose H P hP using fun (x : Arr ℝ) (h : x.r = x.c) => exists_hess (x.m.submatrix id (Fin.cast h))
  exact ⟨⟨fun x => (Arr.of (Q x), Arr.of (R x)), fun x => if h : x.r = x.c then (Arr.of (H x h), Arr.of (P x h)) else (x, x)⟩,
    fun {n m} B => ⟨Q (Arr.of B), R (Arr.of B), rfl, hQ (Arr.of B)⟩,
    fun {n} A => ⟨H (Arr.of A) rfl, P (Arr.of A) rfl, by simp, hP (Arr.of A) rfl⟩⟩

end Harold
