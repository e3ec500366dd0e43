import Verif.Spec.TransZeros
import Verif.Lemmas.SvdExists
import Mathlib.LinearAlgebra.Eigenspace.Triangularizable
import Mathlib.Analysis.Complex.Polynomial.Basic

/-!
# Every pair of square matrices has a QZ factorization

The contract of `scipy.linalg.qz(…, output='complex')` is satisfiable.
-/

namespace Harold

open Matrix Spec

/-- A unit vector is the first column of a unitary matrix. -/
theorem exists_unitary_first {n : ℕ} (x : Fin (n + 1) → ℂ) (hx : x ≠ 0) :
    ∃ (U : Matrix (Fin (n + 1)) (Fin (n + 1)) ℂ) (c : ℂ), Uᴴ * U = 1 ∧ c ≠ 0 ∧ ∀ i, x i = c * U i 0 := by
  set x' : EuclideanSpace ℂ (Fin (n + 1)) := WithLp.toLp 2 x with hx'
  have hx0 : x' ≠ 0 := fun h => hx (by simpa [hx'] using h)
  have hn : ‖x'‖ ≠ 0 := norm_ne_zero_iff.mpr hx0
  let v : Fin (n + 1) → EuclideanSpace ℂ (Fin (n + 1)) := fun _ => ((‖x'‖ : ℂ)⁻¹) • x'
  have ho : Orthonormal ℂ (({0} : Set (Fin (n + 1))).domRestrict v) := by
    rw [orthonormal_iff_ite]
    rintro ⟨i, hi⟩ ⟨j, hj⟩
    obtain rfl := Set.mem_singleton_iff.mp hi
    obtain rfl := Set.mem_singleton_iff.mp hj
    simp only [Set.domRestrict_apply, if_true, v]
    rw [inner_smul_left, inner_smul_right, inner_self_eq_norm_sq_to_K]
    simp only [map_inv₀, Complex.conj_ofReal, Complex.coe_algebraMap]
    have : (‖x'‖ : ℂ) ≠ 0 := by exact_mod_cast hn
    field_simp
  obtain ⟨b, hb⟩ := ho.exists_orthonormalBasis_extension_of_card_eq (by simp)
  refine ⟨Matrix.of fun i j => b j i, ‖x'‖, ?_, by exact_mod_cast hn, fun i => ?_⟩
  · ext i j
    have := orthonormal_iff_ite.mp b.orthonormal i j
    rw [EuclideanSpace.inner_eq_star_dotProduct] at this
    simp only [Matrix.mul_apply, conjTranspose_apply, Matrix.of_apply]
    rw [Matrix.one_apply, ← this, dotProduct]
    exact Finset.sum_congr rfl fun k _ => by simp [mul_comm]
  · have h0 : (b 0) = ((‖x'‖ : ℂ)⁻¹) • x' := hb 0 rfl
    have : (‖x'‖ : ℂ) ≠ 0 := by exact_mod_cast hn
    simp only [Matrix.of_apply, h0, PiLp.smul_apply, smul_eq_mul, hx']
    rw [← mul_assoc, mul_inv_cancel₀ this, one_mul]

/-- A common deflating direction. -/
theorem exists_deflating {n : ℕ} (E F : Matrix (Fin (n + 1)) (Fin (n + 1)) ℂ) :
    ∃ (x y : Fin (n + 1) → ℂ) (α β : ℂ), x ≠ 0 ∧ y ≠ 0 ∧ E *ᵥ x = α • y ∧ F *ᵥ x = β • y := by
  by_cases hE : E.det = 0
  · obtain ⟨x, hx, hEx⟩ := exists_mulVec_eq_zero_iff.mpr hE
    by_cases hF : F *ᵥ x = 0
    · exact ⟨x, x, 0, 0, hx, hx, by rw [hEx, zero_smul], by rw [hF, zero_smul]⟩
    · exact ⟨x, F *ᵥ x, 0, 1, hx, hF, by rw [hEx, zero_smul], by rw [one_smul]⟩
  · obtain ⟨μ, hμ⟩ := Module.End.exists_eigenvalue (toLin' (E⁻¹ * F))
    obtain ⟨x, hx⟩ := hμ.exists_hasEigenvector
    have h1 : (E⁻¹ * F) *ᵥ x = μ • x := by
      have := hx.apply_eq_smul
      rwa [toLin'_apply] at this
    have hEx : E *ᵥ x ≠ 0 := fun h => hE (exists_mulVec_eq_zero_iff.mp ⟨x, hx.2, h⟩)
    refine ⟨x, E *ᵥ x, 1, μ, hx.2, hEx, by rw [one_smul], ?_⟩
    have h2 := congrArg (fun v => E *ᵥ v) h1
    simp only [mulVec_mulVec, mulVec_smul, ← Matrix.mul_assoc] at h2
    rw [mul_nonsing_inv _ (isUnit_iff_ne_zero.mpr hE), Matrix.one_mul] at h2
    exact h2

/-- `[1, 0; 0, M]`. -/
def oneBlock {n : ℕ} (M : Matrix (Fin n) (Fin n) ℂ) : Matrix (Fin (n + 1)) (Fin (n + 1)) ℂ :=
  Matrix.of fun i j => Fin.cases (Fin.cases 1 (fun _ => 0) j) (fun i' => Fin.cases 0 (fun j' => M i' j') j) i

section
variable {n : ℕ} (M : Matrix (Fin n) (Fin n) ℂ)

@[simp] theorem oneBlock_00 : oneBlock M 0 0 = 1 := rfl
@[simp] theorem oneBlock_0s (j : Fin n) : oneBlock M 0 j.succ = 0 := rfl
@[simp] theorem oneBlock_s0 (i : Fin n) : oneBlock M i.succ 0 = 0 := rfl
@[simp] theorem oneBlock_ss (i j : Fin n) : oneBlock M i.succ j.succ = M i j := rfl

theorem oneBlock_H : (oneBlock M)ᴴ = oneBlock Mᴴ := by
  ext i j
  refine Fin.cases ?_ (fun i => ?_) i <;> refine Fin.cases ?_ (fun j => ?_) j <;> simp [conjTranspose_apply]

theorem oneBlock_unitary (h : Mᴴ * M = 1) : (oneBlock M)ᴴ * oneBlock M = 1 := by
  rw [oneBlock_H]
  ext i j
  rw [Matrix.mul_apply, Fin.sum_univ_succ]
  refine Fin.cases ?_ (fun i => ?_) i <;> refine Fin.cases ?_ (fun j => ?_) j
  · simp
  · simp [Matrix.one_apply, Fin.ext_iff]
  · simp [Matrix.one_apply, Fin.ext_iff]
  · have := congrFun (congrFun h i) j
    rw [Matrix.mul_apply, Matrix.one_apply] at this
    simp only [oneBlock_s0, oneBlock_0s, oneBlock_ss, mul_zero, zero_add, this, Matrix.one_apply, Fin.succ_inj]

end

/-- A product that is upper triangular. -/
theorem triangular_block {n : ℕ} {E : Matrix (Fin (n + 1)) (Fin (n + 1)) ℂ} (h0 : ∀ i : Fin n, E i.succ 0 = 0) {P R a : Matrix (Fin n) (Fin n) ℂ}
    (h : P * E.submatrix Fin.succ Fin.succ * R = a) (ha : a.BlockTriangular id) : (oneBlock P * E * oneBlock R).BlockTriangular id := by
  have e1 : ∀ (i : Fin n) (j : Fin (n + 1)), (oneBlock P * E) i.succ j = ∑ k, P i k * E k.succ j := by
    intro i j
    rw [Matrix.mul_apply, Fin.sum_univ_succ]
    simp
  intro i j hij
  simp only [id] at hij
  obtain ⟨i, rfl⟩ : ∃ i' : Fin n, i = i'.succ := Fin.exists_succ_eq.mpr (fun h => by subst h; exact absurd hij (Fin.not_lt_zero _)) |>.imp fun _ h => h.symm
  rw [Matrix.mul_apply, Fin.sum_univ_succ, e1]
  have z : ∑ k, P i k * E k.succ 0 = 0 := Finset.sum_eq_zero fun k _ => by rw [h0, mul_zero]
  rw [z, zero_mul, zero_add]
  refine Fin.cases (fun _ => ?_) (fun j hij => ?_) j hij
  · exact Finset.sum_eq_zero fun k _ => by rw [oneBlock_s0, mul_zero]
  · have h1 := ha (Fin.succ_lt_succ_iff.mp hij)
    rw [← h, Matrix.mul_apply] at h1
    rw [← h1]
    refine Finset.sum_congr rfl fun k _ => ?_
    rw [e1, oneBlock_ss, Matrix.mul_apply]
    rfl

theorem exists_qz {n : ℕ} (E F : Matrix (Fin n) (Fin n) ℂ) : ∃ Q Z a b : Matrix (Fin n) (Fin n) ℂ, Qᴴ * Q = 1 ∧ Zᴴ * Z = 1 ∧
    a.BlockTriangular id ∧ b.BlockTriangular id ∧ E = Q * a * Z ∧ F = Q * b * Z := by
  induction n with
  | zero => exact ⟨1, 1, E, F, by simp, by simp, fun i => i.elim0, fun i => i.elim0, by simp, by simp⟩
  | succ n ih =>
    obtain ⟨x, y, α, β, hx, hy, hE, hF⟩ := exists_deflating E F
    obtain ⟨Z, c, hZ, hc, hZx⟩ := exists_unitary_first x hx
    obtain ⟨Q, d, hQ, hd, hQy⟩ := exists_unitary_first y hy
    have hcol : ∀ (M : Matrix (Fin (n + 1)) (Fin (n + 1)) ℂ) (γ : ℂ), M *ᵥ x = γ • y → ∀ i : Fin n, (Qᴴ * M * Z) i.succ 0 = 0 := by
      intro M γ hM i
      have h1 : Z *ᵥ Pi.single 0 1 = c⁻¹ • x := by
        ext k
        rw [mulVec_single_one, Pi.smul_apply, hZx, smul_eq_mul, ← mul_assoc, inv_mul_cancel₀ hc, one_mul]
        rfl
      have h2 : Q *ᵥ Pi.single 0 1 = d⁻¹ • y := by
        ext k
        rw [mulVec_single_one, Pi.smul_apply, hQy, smul_eq_mul, ← mul_assoc, inv_mul_cancel₀ hd, one_mul]
        rfl
      have h3 : y = d • Q *ᵥ Pi.single 0 1 := by rw [h2, smul_smul, mul_inv_cancel₀ hd, one_smul]
      have h4 : (Qᴴ * M * Z) *ᵥ Pi.single 0 1 = (c⁻¹ * γ * d) • Pi.single 0 1 := by
        rw [← mulVec_mulVec, ← mulVec_mulVec, h1, mulVec_smul, hM, h3, mulVec_smul, mulVec_smul, mulVec_smul, mulVec_mulVec, hQ, one_mulVec, smul_smul, smul_smul]
      have h5 := congrFun h4 i.succ
      rw [mulVec_single_one, Pi.smul_apply, Pi.single_eq_of_ne (Fin.succ_ne_zero i), smul_zero] at h5
      exact h5
    obtain ⟨Q₂, Z₂, a, b, hQ₂, hZ₂, ha, hb, h1, h2⟩ := ih ((Qᴴ * E * Z).submatrix Fin.succ Fin.succ) ((Qᴴ * F * Z).submatrix Fin.succ Fin.succ)
    have hZ₂' : Z₂ * Z₂ᴴ = 1 := mul_eq_one_comm.mp hZ₂
    have hQ' : Q * Qᴴ = 1 := mul_eq_one_comm.mp hQ
    have hZ' : Z * Zᴴ = 1 := mul_eq_one_comm.mp hZ
    have hO := oneBlock_unitary Q₂ hQ₂
    have hO' := mul_eq_one_comm.mp hO
    have hP := oneBlock_unitary Z₂ hZ₂
    have hP' := mul_eq_one_comm.mp hP
    have hfac : ∀ M : Matrix (Fin (n + 1)) (Fin (n + 1)) ℂ, M = Q * oneBlock Q₂ * (oneBlock Q₂ᴴ * (Qᴴ * M * Z) * oneBlock Z₂ᴴ) * (oneBlock Z₂ * Zᴴ) := by
      intro M
      rw [← oneBlock_H, ← oneBlock_H]
      calc M = (Q * (oneBlock Q₂ * (oneBlock Q₂)ᴴ) * Qᴴ) * M * (Z * ((oneBlock Z₂)ᴴ * oneBlock Z₂) * Zᴴ) := by
            rw [hO', hP, Matrix.mul_one, Matrix.mul_one, hQ', hZ', Matrix.one_mul, Matrix.mul_one]
        _ = _ := by simp only [Matrix.mul_assoc]
    refine ⟨Q * oneBlock Q₂, oneBlock Z₂ * Zᴴ, _, _, ?_, ?_, ?_, ?_, hfac E, hfac F⟩
    · rw [conjTranspose_mul, Matrix.mul_assoc, ← Matrix.mul_assoc Qᴴ, hQ, Matrix.one_mul, hO]
    · rw [conjTranspose_mul, conjTranspose_conjTranspose, Matrix.mul_assoc, ← Matrix.mul_assoc _ (oneBlock Z₂), hP, Matrix.one_mul, hZ']
    · refine triangular_block (hcol E α hE) (a := a) ?_ ha
      rw [h1]
      simp only [Matrix.mul_assoc, hZ₂', Matrix.mul_one]
      rw [← Matrix.mul_assoc, hQ₂, Matrix.one_mul]
    · refine triangular_block (hcol F β hF) (a := b) ?_ hb
      rw [h2]
      simp only [Matrix.mul_assoc, hZ₂', Matrix.mul_one]
      rw [← Matrix.mul_assoc, hQ₂, Matrix.one_mul]

/-- Exact routines exist. -/
theorem exists_tzExact : ∃ N : TzNum, TzExact N := by
  classical
  obtain ⟨S, hS, h⟩ := exists_svdNum
  have hq : ∀ x y : Arr ℝ, ∃ a b : Arr ℂ, ∀ {n : ℕ} (E F : Matrix (Fin n) (Fin n) ℝ), x = Arr.of E → y = Arr.of F →
      ∃ a' b', a = Arr.of a' ∧ b = Arr.of b' ∧ IsQz E F a' b' := by
    intro x y
    by_cases hxy : ∃ (n : ℕ) (E F : Matrix (Fin n) (Fin n) ℝ), x = Arr.of E ∧ y = Arr.of F
    · obtain ⟨n, E, F, rfl, rfl⟩ := hxy
      obtain ⟨Q, Z, a, b, hQ, hZ, ha, hb, hE, hF⟩ := exists_qz (E.map Complex.ofReal) (F.map Complex.ofReal)
      refine ⟨Arr.of a, Arr.of b, fun {n'} E' F' h1 h2 => ?_⟩
      have hn : n = n' := congrArg Arr.r h1
      subst hn
      obtain rfl := Arr.of_inj.mp h1
      obtain rfl := Arr.of_inj.mp h2
      exact ⟨a, b, rfl, rfl, ha, hb, Q, Z, hQ, hZ, hE, hF⟩
    · exact ⟨Arr.empty, Arr.empty, fun {n} E F h1 h2 => absurd ⟨n, E, F, h1, h2⟩ hxy⟩
  choose qa qb hqz using hq
  refine ⟨⟨S, fun _ => 0, fun x y => (qa x y, qb x y)⟩, fun {p m} M => ?_, hS, fun _ => rfl, fun {n} E F => ?_⟩
  · obtain ⟨u, s, v, h1, h2, -⟩ := h M
    exact ⟨u, s, v, h1, h2⟩
  · obtain ⟨a, b, h1, h2, h3⟩ := hqz (Arr.of E) (Arr.of F) E F rfl rfl
    exact ⟨a, b, by rw [← h1, ← h2], h3⟩

end Harold
