import Verif.Lemmas.HessExists
import Verif.Spec.Lyap
import Mathlib.LinearAlgebra.Eigenspace.Triangularizable
import Mathlib.LinearAlgebra.Matrix.Block
import Mathlib.Analysis.Complex.Polynomial.Basic

/-!
# Real Schur decompositions exist

The contracts `SchurOk` and `QzOk` of `scipy.linalg.schur` and `scipy.linalg.qz` can be met for all real matrices (for `qz`: with invertible second
argument).
-/

namespace Harold

open Matrix Harold.Spec

variable {n : ℕ}

/-- A matrix whose first column vanishes below the first entry, conjugated with `grow P`. -/
theorem grow_conj {T : Matrix (Fin (n + 1)) (Fin (n + 1)) ℝ} (h0 : ∀ i : Fin n, T i.succ 0 = 0) (P : Matrix (Fin n) (Fin n) ℝ) :
    (∀ i : Fin n, ((grow P)ᵀ * T * grow P) i.succ 0 = 0) ∧
    ∀ i j : Fin n, ((grow P)ᵀ * T * grow P) i.succ j.succ = (Pᵀ * T.submatrix Fin.succ Fin.succ * P) i j := by
  constructor
  · intro i
    rw [grow_transpose, Matrix.mul_apply, Fin.sum_univ_succ]
    simp [Matrix.mul_apply, Fin.sum_univ_succ, h0]
  · intro i j
    rw [grow_transpose, Matrix.mul_apply, Fin.sum_univ_succ]
    simp [Matrix.mul_apply, Fin.sum_univ_succ]

theorem quasiTri_grow {T : Matrix (Fin (n + 1)) (Fin (n + 1)) ℝ} (h0 : ∀ i : Fin n, T i.succ 0 = 0) (h : QuasiTri 0 (T.submatrix Fin.succ Fin.succ)) : QuasiTri 0 T := by
  refine ⟨fun i j hij => ?_, fun i j _ h => abs_pos.mpr h, fun i j k hj hk hp => ?_⟩
  · induction i using Fin.cases with
    | zero => simp at hij
    | succ i =>
      induction j using Fin.cases with
      | zero => exact h0 i
      | succ j => exact h.below i j (by simpa using hij)
  · induction k using Fin.cases with
    | zero => simp at hk
    | succ k =>
      induction j using Fin.cases with
      | zero => simp at hj
      | succ j =>
        induction i using Fin.cases with
        | zero => rw [h0] at hp; simp at hp
        | succ i => exact h.isolated i j k (by simpa using hj) (by simpa using hk) hp

theorem quasiTri_grow2 {T : Matrix (Fin (n + 1 + 1)) (Fin (n + 1 + 1)) ℝ} (h0 : ∀ i : Fin n, T i.succ.succ 0 = 0) (h1 : ∀ i : Fin n, T i.succ.succ (Fin.succ 0) = 0)
    (h : QuasiTri 0 (T.submatrix (fun i : Fin n => i.succ.succ) (fun i : Fin n => i.succ.succ))) : QuasiTri 0 T := by
  refine ⟨fun i j hij => ?_, fun i j _ h => abs_pos.mpr h, fun i j k hj hk hp => ?_⟩
  · induction i using Fin.cases with
    | zero => simp at hij
    | succ i =>
      induction i using Fin.cases with
      | zero => simp at hij
      | succ i =>
        induction j using Fin.cases with
        | zero => exact h0 i
        | succ j =>
          induction j using Fin.cases with
          | zero => exact h1 i
          | succ j => exact h.below i j (by simpa using hij)
  · induction k using Fin.cases with
    | zero => simp at hk
    | succ k =>
      induction k using Fin.cases with
      | zero =>
        have hk' : (0 : ℕ) + 1 = (j : ℕ) + 1 := by simpa using hk
        have : (j : ℕ) = 0 := by omega
        omega
      | succ k =>
        induction j using Fin.cases with
        | zero => simp at hj
        | succ j =>
          induction j using Fin.cases with
          | zero => rw [h1]; simp
          | succ j =>
            induction i using Fin.cases with
            | zero => rw [h0] at hp; simp at hp
            | succ i =>
              induction i using Fin.cases with
              | zero => rw [h1] at hp; simp at hp
              | succ i => exact h.isolated i j k (by simpa using hj) (by simpa using hk) hp

/-- Conjugating back. -/
theorem conj_back {A Q T P : Matrix (Fin n) (Fin n) ℝ} (hQ : Qᵀ * Q = 1) (hP : Pᵀ * P = 1) (hT : T = Qᵀ * A * Q) :
    A = (Q * P) * (Pᵀ * T * P) * (Q * P)ᵀ := by
  have hQ' : Q * Qᵀ = 1 := mul_eq_one_comm.mp hQ
  have hP' : P * Pᵀ = 1 := mul_eq_one_comm.mp hP
  rw [hT, transpose_mul]
  calc A = (Q * Qᵀ) * A * (Q * Qᵀ) := by rw [hQ', Matrix.one_mul, Matrix.mul_one]
    _ = Q * (P * Pᵀ) * (Qᵀ * A * Q) * (P * Pᵀ) * Qᵀ := by rw [hP', Matrix.mul_one, Matrix.mul_one]; simp only [Matrix.mul_assoc]
    _ = _ := by simp only [Matrix.mul_assoc]

/-- Deflation with a real eigenvector. -/
theorem deflate1 (A : Matrix (Fin (n + 1)) (Fin (n + 1)) ℝ) {x : Fin (n + 1) → ℝ} {μ : ℝ} (hx : x ≠ 0) (h : A *ᵥ x = μ • x) :
    ∃ Q : Matrix (Fin (n + 1)) (Fin (n + 1)) ℝ, Qᵀ * Q = 1 ∧ ∀ i : Fin n, (Qᵀ * A * Q) i.succ 0 = 0 := by
  obtain ⟨Q, hQ, hr⟩ := exists_reflector x
  have hQ' : Q * Qᵀ = 1 := mul_eq_one_comm.mp hQ
  refine ⟨Q, hQ, fun i => ?_⟩
  have hc : (Qᵀ *ᵥ x) 0 ≠ 0 := by
    intro h0
    apply hx
    have : Qᵀ *ᵥ x = 0 := by
      funext i
      induction i using Fin.cases with
      | zero => exact h0
      | succ i => exact hr i.succ (by simp)
    rw [← Matrix.one_mulVec x, ← hQ', ← Matrix.mulVec_mulVec, this, Matrix.mulVec_zero]
  have h1 : (Qᵀ * A * Q) *ᵥ (Qᵀ *ᵥ x) = μ • (Qᵀ *ᵥ x) := by
    rw [Matrix.mulVec_mulVec, Matrix.mul_assoc, hQ', Matrix.mul_one, ← Matrix.mulVec_mulVec, h, Matrix.mulVec_smul]
  have h2 := congrFun h1 i.succ
  rw [Pi.smul_apply, hr i.succ (by simp), smul_zero, Matrix.mulVec, dotProduct, Fin.sum_univ_succ, Finset.sum_eq_zero (fun j _ => by rw [hr j.succ (by simp), mul_zero]), add_zero] at h2
  exact (mul_eq_zero.mp h2).resolve_right hc

/-- Deflation with the real and imaginary part of a complex eigenvector. -/
theorem deflate2 (A : Matrix (Fin (n + 1 + 1)) (Fin (n + 1 + 1)) ℝ) {x y : Fin (n + 1 + 1) → ℝ} {a b : ℝ} (hx : A *ᵥ x = a • x - b • y) (hy : A *ᵥ y = b • x + a • y)
    (hx0 : x ≠ 0) (hxy : ∀ c : ℝ, y ≠ c • x) :
    ∃ Q : Matrix (Fin (n + 1 + 1)) (Fin (n + 1 + 1)) ℝ, Qᵀ * Q = 1 ∧ (∀ i : Fin n, (Qᵀ * A * Q) i.succ.succ 0 = 0) ∧ ∀ i : Fin n, (Qᵀ * A * Q) i.succ.succ (Fin.succ 0) = 0 := by
  obtain ⟨Q, R, hQ, hB, hR⟩ := exists_qr (Matrix.of fun (i : Fin (n + 1 + 1)) (j : Fin 2) => if j = 0 then x i else y i)
  have hQ' : Q * Qᵀ = 1 := mul_eq_one_comm.mp hQ
  have hRe : R = Qᵀ * (Matrix.of fun (i : Fin (n + 1 + 1)) (j : Fin 2) => if j = 0 then x i else y i) := by
    rw [hB, ← Matrix.mul_assoc, hQ, Matrix.one_mul]
  have h0 : ∀ i, (Qᵀ *ᵥ x) i = R i 0 := fun i => by rw [hRe]; simp [Matrix.mulVec, dotProduct, Matrix.mul_apply]
  have h1 : ∀ i, (Qᵀ *ᵥ y) i = R i 1 := fun i => by rw [hRe]; simp [Matrix.mulVec, dotProduct, Matrix.mul_apply]
  have back : ∀ v, Q *ᵥ (Qᵀ *ᵥ v) = v := fun v => by rw [Matrix.mulVec_mulVec, hQ', Matrix.one_mulVec]
  have r0 : ∀ i : Fin (n + 1), R i.succ 0 = 0 := fun i => hR _ _ (by simp)
  have r1 : ∀ i : Fin n, R i.succ.succ 1 = 0 := fun i => hR _ _ (by simp)
  have hc0 : R 0 0 ≠ 0 := by
    intro hz
    apply hx0
    rw [← back x]
    have : Qᵀ *ᵥ x = 0 := by
      funext i
      rw [h0]
      induction i using Fin.cases with
      | zero => exact hz
      | succ i => exact r0 i
    rw [this, Matrix.mulVec_zero]
  have hc1 : R (Fin.succ 0) 1 ≠ 0 := by
    intro hz
    apply hxy (R 0 1 / R 0 0)
    rw [← back x, ← back y, ← Matrix.mulVec_smul]
    congr 1
    funext i
    rw [h1, Pi.smul_apply, h0, smul_eq_mul]
    induction i using Fin.cases with
    | zero => field_simp
    | succ i =>
      rw [r0, mul_zero]
      induction i using Fin.cases with
      | zero => exact hz
      | succ i => exact r1 i
  have mv : ∀ v, (Qᵀ * A * Q) *ᵥ (Qᵀ *ᵥ v) = Qᵀ *ᵥ (A *ᵥ v) := fun v => by
    rw [Matrix.mulVec_mulVec, Matrix.mul_assoc, hQ', Matrix.mul_one, ← Matrix.mulVec_mulVec]
  have e0 : ∀ i : Fin n, (Qᵀ * A * Q) i.succ.succ 0 = 0 := by
    intro i
    have h2 := congrFun (mv x) i.succ.succ
    rw [hx, Matrix.mulVec_sub, Matrix.mulVec_smul, Matrix.mulVec_smul, Pi.sub_apply, Pi.smul_apply, Pi.smul_apply, h0, h1, r0, r1, smul_zero, smul_zero, sub_zero, Matrix.mulVec, dotProduct,
      Fin.sum_univ_succ, Finset.sum_eq_zero (fun j _ => by rw [h0, r0, mul_zero]), add_zero, h0] at h2
    exact (mul_eq_zero.mp h2).resolve_right hc0
  refine ⟨Q, hQ, e0, fun i => ?_⟩
  have h2 := congrFun (mv y) i.succ.succ
  rw [hy, Matrix.mulVec_add, Matrix.mulVec_smul, Matrix.mulVec_smul, Pi.add_apply, Pi.smul_apply, Pi.smul_apply, h0, h1, r0, r1, smul_zero, smul_zero, add_zero, Matrix.mulVec, dotProduct,
    Fin.sum_univ_succ, Fin.sum_univ_succ, Finset.sum_eq_zero (fun j _ => by rw [h1, r1, mul_zero]), add_zero, e0, zero_mul, zero_add, h1] at h2
  exact (mul_eq_zero.mp h2).resolve_right hc1

/-- A real matrix has a real eigenvector or a pair of independent real vectors spanning an invariant plane. -/
theorem exists_invariant (A : Matrix (Fin (n + 1)) (Fin (n + 1)) ℝ) : (∃ (x : Fin (n + 1) → ℝ) (μ : ℝ), x ≠ 0 ∧ A *ᵥ x = μ • x) ∨
    ∃ (x y : Fin (n + 1) → ℝ) (a b : ℝ), A *ᵥ x = a • x - b • y ∧ A *ᵥ y = b • x + a • y ∧ x ≠ 0 ∧ ∀ c : ℝ, y ≠ c • x := by
  by_cases hre : ∃ (x : Fin (n + 1) → ℝ) (μ : ℝ), x ≠ 0 ∧ A *ᵥ x = μ • x
  · exact .inl hre
  refine .inr ?_
  obtain ⟨l, hl⟩ := Module.End.exists_eigenvalue (Matrix.toLin' (A.map Complex.ofReal))
  obtain ⟨v, hv⟩ := hl.exists_hasEigenvector
  have hv1 : (A.map Complex.ofReal) *ᵥ v = l • v := by simpa using hv.apply_eq_smul
  have hv2 : v ≠ 0 := hv.2
  have key : ∀ i, ∑ j, (A i j : ℂ) * v j = l * v i := fun i => by simpa [Matrix.mulVec, dotProduct] using congrFun hv1 i
  have hx : A *ᵥ (fun i => (v i).re) = l.re • (fun i => (v i).re) - l.im • (fun i => (v i).im) := by
    funext i
    have := congrArg Complex.re (key i)
    simpa [Matrix.mulVec, dotProduct] using this
  have hy : A *ᵥ (fun i => (v i).im) = l.im • (fun i => (v i).re) + l.re • (fun i => (v i).im) := by
    funext i
    have := congrArg Complex.im (key i)
    simp [Matrix.mulVec, dotProduct] at this ⊢
    linarith
  have hx0 : (fun i => (v i).re) ≠ 0 := by
    intro h0
    apply hre
    refine ⟨fun i => (v i).im, l.re, fun h => hv2 ?_, ?_⟩
    · funext i
      exact Complex.ext (congrFun h0 i) (congrFun h i)
    · rw [hy, h0, smul_zero, zero_add]
  refine ⟨_, _, _, _, hx, hy, hx0, fun c hc => hre ⟨_, l.re - l.im * c, hx0, ?_⟩⟩
  rw [hx, hc, sub_smul, smul_smul]

/-- Every real square matrix has a real Schur decomposition. -/
theorem exists_schur (n : ℕ) (A : Matrix (Fin n) (Fin n) ℝ) : ∃ As S : Matrix (Fin n) (Fin n) ℝ, Sᵀ * S = 1 ∧ A = S * As * Sᵀ ∧ QuasiTri 0 As := by
  induction n using Nat.strong_induction_on with
  | _ n ih =>
    rcases n with _ | n
    · exact ⟨A, 1, by simp, by simp, ⟨fun i => i.elim0, fun i => i.elim0, fun i => i.elim0⟩⟩
    rcases exists_invariant A with ⟨x, μ, hx, h⟩ | ⟨x, y, a, b, hx, hy, hx0, hxy⟩
    · obtain ⟨Q, hQ, h0⟩ := deflate1 A hx h
      obtain ⟨As, P, hP, hA, hT⟩ := ih n (by omega) ((Qᵀ * A * Q).submatrix Fin.succ Fin.succ)
      obtain ⟨g0, g1⟩ := grow_conj h0 P
      refine ⟨(grow P)ᵀ * (Qᵀ * A * Q) * grow P, Q * grow P, orth_mul hQ (grow_orth hP), conj_back hQ (grow_orth hP) rfl, quasiTri_grow g0 ?_⟩
      have : ((grow P)ᵀ * (Qᵀ * A * Q) * grow P).submatrix Fin.succ Fin.succ = As := by
        ext i j
        rw [Matrix.submatrix_apply, g1, hA]
        rw [show Pᵀ * (P * As * Pᵀ) * P = (Pᵀ * P) * As * (Pᵀ * P) by simp only [Matrix.mul_assoc], hP, Matrix.one_mul, Matrix.mul_one]
      rw [this]
      exact hT
    · rcases n with _ | n
      · exfalso
        refine hxy (y 0 / x 0) ?_
        have : x 0 ≠ 0 := fun h => hx0 (funext fun i => by rw [Fin.eq_zero i, h]; rfl)
        funext i
        rw [Fin.eq_zero i, Pi.smul_apply, smul_eq_mul]
        field_simp
      obtain ⟨Q, hQ, h0, h1⟩ := deflate2 A hx hy hx0 hxy
      obtain ⟨As, P, hP, hA, hT⟩ := ih n (by omega) ((Qᵀ * A * Q).submatrix (fun i : Fin n => i.succ.succ) (fun i : Fin n => i.succ.succ))
      set T := Qᵀ * A * Q with hTdef
      have ent : ∀ (i : Fin n) (j : Fin (n + 1 + 1)), ((grow (grow P))ᵀ * T * grow (grow P)) i.succ.succ j =
          ∑ k, (∑ l, P l i * T l.succ.succ k) * grow (grow P) k j := by
        intro i j
        rw [grow_transpose, grow_transpose, Matrix.mul_apply]
        refine Finset.sum_congr rfl fun k _ => ?_
        rw [Matrix.mul_apply, Fin.sum_univ_succ, Fin.sum_univ_succ]
        simp only [grow_zero_zero, grow_zero_succ, grow_succ_zero, grow_succ_succ, transpose_apply, mul_zero, zero_mul, zero_add, add_zero, Finset.sum_const_zero]
      refine ⟨(grow (grow P))ᵀ * T * grow (grow P), Q * grow (grow P), orth_mul hQ (grow_orth (grow_orth hP)), conj_back hQ (grow_orth (grow_orth hP)) rfl, quasiTri_grow2 ?_ ?_ ?_⟩
      · intro i
        rw [ent, Fin.sum_univ_succ, Fin.sum_univ_succ]
        simp only [h0, grow_zero_zero, grow_zero_succ, grow_succ_zero, grow_succ_succ, transpose_apply, mul_zero, zero_mul, zero_add, add_zero, Finset.sum_const_zero]
      · intro i
        rw [ent, Fin.sum_univ_succ, Fin.sum_univ_succ]
        simp only [h1, h0]
        simp only [grow_zero_zero, grow_zero_succ, grow_succ_zero, grow_succ_succ, transpose_apply, mul_zero, zero_mul, zero_add, add_zero, Finset.sum_const_zero]
      · have : ((grow (grow P))ᵀ * T * grow (grow P)).submatrix (fun i : Fin n => i.succ.succ) (fun i : Fin n => i.succ.succ) = As := by
          ext i j
          have h3 : As = Pᵀ * (T.submatrix (fun i : Fin n => i.succ.succ) (fun i : Fin n => i.succ.succ)) * P := by
            rw [hA, show Pᵀ * (P * As * Pᵀ) * P = (Pᵀ * P) * As * (Pᵀ * P) by simp only [Matrix.mul_assoc], hP, Matrix.one_mul, Matrix.mul_one]
          rw [Matrix.submatrix_apply, ent, Fin.sum_univ_succ, Fin.sum_univ_succ, h3]
          simp only [Matrix.mul_apply, Matrix.submatrix_apply, grow_zero_zero, grow_zero_succ, grow_succ_zero, grow_succ_succ, transpose_apply, mul_zero, zero_mul, zero_add, add_zero, Finset.sum_const_zero]
        rw [this]
        exact hT

/-- Every pair of real square matrices, the second one invertible, has a generalised real Schur decomposition. -/
theorem exists_qz_real (n : ℕ) (A E : Matrix (Fin n) (Fin n) ℝ) (hE : E.det ≠ 0) : ∃ As Es Q Z : Matrix (Fin n) (Fin n) ℝ,
    Qᵀ * Q = 1 ∧ Zᵀ * Z = 1 ∧ A = Q * As * Zᵀ ∧ E = Q * Es * Zᵀ ∧ QuasiTri 0 As ∧ ∀ i j : Fin n, j < i → Es i j = 0 := by
  obtain ⟨T, Q, hQ, hA, hT⟩ := exists_schur n (A * E⁻¹)
  obtain ⟨Z, R, hZ, hR, hu⟩ := exists_qr (E⁻¹ * Q)
  have hEu : IsUnit E.det := isUnit_iff_ne_zero.mpr hE
  have hQ' : Q * Qᵀ = 1 := mul_eq_one_comm.mp hQ
  have hZ' : Z * Zᵀ = 1 := mul_eq_one_comm.mp hZ
  have hRe : R = Zᵀ * (E⁻¹ * Q) := by rw [hR, ← Matrix.mul_assoc, hZ, Matrix.one_mul]
  have hRS : R * (Qᵀ * E * Z) = 1 := by
    rw [hRe]
    calc Zᵀ * (E⁻¹ * Q) * (Qᵀ * E * Z) = Zᵀ * (E⁻¹ * (Q * Qᵀ) * E) * Z := by simp only [Matrix.mul_assoc]
      _ = 1 := by rw [hQ', Matrix.mul_one, Matrix.nonsing_inv_mul _ hEu, Matrix.mul_one, hZ]
  have hinv : R⁻¹ = Qᵀ * E * Z := Matrix.inv_eq_right_inv hRS
  have hSu : ∀ i j : Fin n, j < i → (Qᵀ * E * Z) i j = 0 := by
    have : Matrix.BlockTriangular R id := fun i j h => hu i j h
    have hr : Invertible R := invertibleOfRightInverse _ _ hRS
    have := Matrix.blockTriangular_inv_of_blockTriangular this
    rw [hinv] at this
    exact fun i j h => this h
  refine ⟨T * (Qᵀ * E * Z), Qᵀ * E * Z, Q, Z, hQ, hZ, ?_, ?_, ⟨?_, fun i j _ h => abs_pos.mpr h, ?_⟩, hSu⟩
  · calc A = (A * E⁻¹) * E * (Z * Zᵀ) := by rw [hZ', Matrix.mul_one, Matrix.mul_assoc, Matrix.nonsing_inv_mul _ hEu, Matrix.mul_one]
      _ = _ := by rw [hA]; simp only [Matrix.mul_assoc]
  · calc E = (Q * Qᵀ) * E * (Z * Zᵀ) := by rw [hZ', hQ', Matrix.mul_one, Matrix.one_mul]
      _ = _ := by simp only [Matrix.mul_assoc]
  · intro i j hij
    rw [Matrix.mul_apply]
    refine Finset.sum_eq_zero fun k _ => ?_
    by_cases hk : (k : ℕ) + 1 < i
    · rw [hT.below i k hk, zero_mul]
    · rw [hSu k j (by rw [Fin.lt_def]; omega), mul_zero]
  · have sub : ∀ i j : Fin n, (i : ℕ) = j + 1 → (T * (Qᵀ * E * Z)) i j = T i j * (Qᵀ * E * Z) j j := by
      intro i j hij
      rw [Matrix.mul_apply]
      refine Finset.sum_eq_single j (fun k _ hk => ?_) (fun h => absurd (Finset.mem_univ _) h)
      by_cases hk2 : (k : ℕ) + 1 < i
      · rw [hT.below i k hk2, zero_mul]
      · have : (k : ℕ) ≠ j := fun h => hk (Fin.ext h)
        rw [hSu k j (by rw [Fin.lt_def]; omega), mul_zero]
    intro i j k hj hk hp
    rw [sub j i hj] at hp
    rw [sub k j hk]
    have h1 := hT.isolated i j k hj hk (abs_pos.mpr fun h => by rw [h, zero_mul, abs_zero] at hp; exact lt_irrefl _ hp)
    have h2 : T k j = 0 := by
      by_contra h
      exact h1 (abs_pos.mpr h)
    rw [h2, zero_mul, abs_zero]
    exact lt_irrefl _

/-- The contracts of `schur` and `qz` can be met for all matrices at the same time. -/
theorem exists_lyapNum : ∃ N : LyapNum ℝ, N.tol = 0 ∧ (∀ {n : ℕ} (A : Matrix (Fin n) (Fin n) ℝ), SchurOk N A) ∧
    ∀ {n : ℕ} (A E : Matrix (Fin n) (Fin n) ℝ), E.det ≠ 0 → QzOk N A E := by
  classical
  choose As S hS using fun (x : Arr ℝ) (h : x.r = x.c) => exists_schur x.r (x.m.submatrix id (Fin.cast h))
  choose Aq Eq Q Z hQ using fun (n : ℕ) (A E : Matrix (Fin n) (Fin n) ℝ) (h : E.det ≠ 0) => exists_qz_real n A E h
  refine ⟨⟨fun x => if h : x.r = x.c then (Arr.of (As x h), Arr.of (S x h)) else (x, x),
    fun x y => if h : (x.r = x.c ∧ y.r = x.r ∧ y.c = x.r) then
      if hd : (y.m.submatrix (Fin.cast h.2.1.symm) (Fin.cast h.2.2.symm)).det ≠ 0 then
        (Arr.of (Aq x.r (x.m.submatrix id (Fin.cast h.1)) _ hd), Arr.of (Eq x.r (x.m.submatrix id (Fin.cast h.1)) _ hd),
          Arr.of (Q x.r (x.m.submatrix id (Fin.cast h.1)) _ hd), Arr.of (Z x.r (x.m.submatrix id (Fin.cast h.1)) _ hd))
      else (x, x, x, x) else (x, x, x, x), 0⟩, rfl, fun {n} A => ?_, fun {n} A E hE => ?_⟩
  · exact ⟨As (Arr.of A) rfl, S (Arr.of A) rfl, by simp, hS (Arr.of A) rfl⟩
  · refine ⟨Aq n A E hE, Eq n A E hE, Q n A E hE, Z n A E hE, ?_, hQ n A E hE⟩
    have hE' : (Matrix.submatrix (Arr.of E).m (Fin.cast rfl) (Fin.cast rfl)).det ≠ 0 := hE
    simp only [Arr.of_r, Arr.of_c, and_self, dite_true]
    rw [dif_pos hE']
    rfl

end Harold
