import Verif.Lemmas.QzExists
import Verif.Lemmas.LogExists
import Verif.Lemmas.ToTransfer
import Verif.Spec.ToTransfer

/-!
# Eigenvalues, with multiplicities, of functions of a matrix

Every complex matrix is similar to an upper triangular one. The exponential, and a fractional linear function, of an upper triangular matrix is
upper triangular with the function applied to the diagonal.
-/

namespace Harold

open Matrix NormedSpace Harold.Spec Polynomial

variable {n : ℕ}

theorem exists_triangular (A : Matrix (Fin n) (Fin n) ℂ) :
    ∃ U V T : Matrix (Fin n) (Fin n) ℂ, U * V = 1 ∧ V * U = 1 ∧ T.BlockTriangular id ∧ A = U * T * V := by
  obtain ⟨Q, Z, a, b, hQ, hZ, ha, hb, hA, h1⟩ := exists_qz A 1
  have hQ' : Q * Qᴴ = 1 := mul_eq_one_comm.mp hQ
  have hZ' : Z * Zᴴ = 1 := mul_eq_one_comm.mp hZ
  have hb1 : b * (Z * Q) = 1 := by
    have : Qᴴ * (Q * b * Z) * Q = 1 := by rw [← h1, Matrix.mul_one, hQ]
    rw [← this]
    simp only [← Matrix.mul_assoc]
    rw [hQ, Matrix.one_mul]
  let _ : Invertible b := invertibleOfRightInverse b (Z * Q) hb1
  have hb2 : b⁻¹ = Z * Q := inv_eq_right_inv hb1
  refine ⟨Q, Qᴴ, a * b⁻¹, hQ', hQ, ha.mul (blockTriangular_inv_of_blockTriangular hb), ?_⟩
  rw [hA, hb2]
  simp only [Matrix.mul_assoc]
  rw [hQ', Matrix.mul_one]

theorem tri_mul_diag {S T : Matrix (Fin n) (Fin n) ℂ} (hS : S.BlockTriangular id) (hT : T.BlockTriangular id) (i : Fin n) :
    (S * T) i i = S i i * T i i := by
  rw [Matrix.mul_apply]
  refine Finset.sum_eq_single i (fun j _ hj => ?_) (by simp)
  rcases lt_or_gt_of_ne hj with h | h
  · rw [hS h, zero_mul]
  · rw [hT h, mul_zero]

theorem tri_smul {T : Matrix (Fin n) (Fin n) ℂ} (hT : T.BlockTriangular id) (c : ℂ) : (c • T).BlockTriangular id := by
  intro i j hij
  rw [Matrix.smul_apply, hT hij, smul_zero]

theorem tri_pow {T : Matrix (Fin n) (Fin n) ℂ} (hT : T.BlockTriangular id) (k : ℕ) :
    (T ^ k).BlockTriangular id ∧ ∀ i, (T ^ k) i i = T i i ^ k := by
  induction k with
  | zero => exact ⟨by rw [pow_zero]; exact blockTriangular_one, fun i => by simp⟩
  | succ k ih =>
    rw [pow_succ]
    exact ⟨ih.1.mul hT, fun i => by rw [tri_mul_diag ih.1 hT, ih.2, pow_succ]⟩

theorem tri_exp {T : Matrix (Fin n) (Fin n) ℂ} (hT : T.BlockTriangular id) :
    (exp T).BlockTriangular id ∧ ∀ i, (exp T) i i = Complex.exp (T i i) := by
  constructor
  · intro i j hij
    refine (hasSum_exp_entry T i j).unique ?_
    simp only [(tri_pow hT _).1 hij, mul_zero]
    exact hasSum_zero
  · intro i
    refine (hasSum_exp_entry T i i).unique ?_
    simp only [(tri_pow hT _).2]
    have := NormedSpace.expSeries_div_hasSum_exp (𝔸 := ℂ) (T i i)
    rw [← Complex.exp_eq_exp_ℂ] at this
    convert this using 2
    rw [div_eq_inv_mul]

theorem charpoly_similar {U V T : Matrix (Fin n) (Fin n) ℂ} (hVU : V * U = 1) : (U * T * V).charpoly = T.charpoly := by
  rw [Matrix.charpoly_mul_comm, ← Matrix.mul_assoc, hVU, Matrix.one_mul]

theorem roots_tri {T : Matrix (Fin n) (Fin n) ℂ} (hT : T.BlockTriangular id) :
    T.charpoly.roots = Finset.univ.val.map fun i => T i i := by
  rw [charpoly_of_isUpperTriangular T hT]
  exact Polynomial.roots_multiset_prod_X_sub_C (Finset.univ.val.map fun i => T i i) ▸ by
    rw [Multiset.map_map]; rfl

theorem roots_exp (A : Matrix (Fin n) (Fin n) ℂ) : (exp A).charpoly.roots = A.charpoly.roots.map Complex.exp := by
  obtain ⟨U, V, T, hUV, hVU, hT, rfl⟩ := exists_triangular A
  have e : exp (U * T * V) = U * exp T * V := by
    have hV : V = U⁻¹ := (inv_eq_right_inv hUV).symm
    rw [hV]
    exact Matrix.exp_conj U T ((isUnit_iff_isUnit_det U).mpr (IsUnit.of_mul_eq_one V.det (by rw [← det_mul, hUV, det_one])))
  rw [e, charpoly_similar hVU, charpoly_similar hVU, roots_tri (tri_exp hT).1, roots_tri hT, Multiset.map_map]
  simp [(tri_exp hT).2]

/-- `x + y s / (1 - w s)`. -/
noncomputable def fracLin (x y w : ℂ) (s : ℂ) : ℂ := x + y * (s / (1 - w * s))

theorem roots_fracLin {A : Matrix (Fin n) (Fin n) ℂ} {x y w : ℂ} (h : (1 - w • A).det ≠ 0) :
    (x • 1 + y • (A * (1 - w • A)⁻¹)).charpoly.roots = A.charpoly.roots.map (fracLin x y w) := by
  obtain ⟨U, V, T, hUV, hVU, hT, rfl⟩ := exists_triangular A
  have e1 : 1 - w • (U * T * V) = U * (1 - w • T) * V := by
    rw [Matrix.mul_sub, Matrix.sub_mul, Matrix.mul_one, hUV, Matrix.mul_smul, Matrix.smul_mul]
  have h1 : (1 - w • T).det ≠ 0 := by
    intro h0
    apply h
    rw [e1, det_mul, det_mul, h0, mul_zero, zero_mul]
  have hR : (1 - w • T).BlockTriangular id := blockTriangular_one.sub (tri_smul hT w)
  let _ : Invertible (1 - w • T) := Matrix.invertibleOfIsUnitDet _ (Ne.isUnit h1)
  have hI := blockTriangular_inv_of_blockTriangular hR
  have e2 : (1 - w • (U * T * V))⁻¹ = U * (1 - w • T)⁻¹ * V := by
    rw [e1]
    refine inv_eq_right_inv ?_
    calc U * (1 - w • T) * V * (U * (1 - w • T)⁻¹ * V) = U * (1 - w • T) * (V * U) * (1 - w • T)⁻¹ * V := by simp only [Matrix.mul_assoc]
      _ = 1 := by rw [hVU, Matrix.mul_one, Matrix.mul_assoc U, mul_nonsing_inv _ (Ne.isUnit h1), Matrix.mul_one, hUV]
  have e3 : x • 1 + y • (U * T * V * (1 - w • (U * T * V))⁻¹) = U * (x • 1 + y • (T * (1 - w • T)⁻¹)) * V := by
    rw [e2, Matrix.mul_add, Matrix.add_mul, Matrix.mul_smul, Matrix.mul_one, Matrix.smul_mul, hUV, Matrix.mul_smul, Matrix.smul_mul]
    congr 2
    calc U * T * V * (U * (1 - w • T)⁻¹ * V) = U * T * (V * U) * (1 - w • T)⁻¹ * V := by simp only [Matrix.mul_assoc]
      _ = _ := by rw [hVU, Matrix.mul_one]; simp only [Matrix.mul_assoc]
  have hX : (x • 1 + y • (T * (1 - w • T)⁻¹)).BlockTriangular id := (tri_smul blockTriangular_one x).add (tri_smul (hT.mul hI) y)
  rw [e3, charpoly_similar hVU, charpoly_similar hVU, roots_tri hX, roots_tri hT, Multiset.map_map]
  refine Multiset.map_congr rfl fun i _ => ?_
  have hd : (1 - w * T i i) * (1 - w • T)⁻¹ i i = 1 := by
    have := congrFun (congrFun (mul_nonsing_inv (1 - w • T) (Ne.isUnit h1)) i) i
    rw [tri_mul_diag hR hI] at this
    simpa using this
  have hd' : 1 - w * T i i ≠ 0 := left_ne_zero_of_mul_eq_one hd
  rw [Function.comp_apply, fracLin, Matrix.add_apply, Matrix.smul_apply, Matrix.smul_apply, tri_mul_diag hT hI, Matrix.one_apply_eq]
  have : (1 - w • T)⁻¹ i i = 1 / (1 - w * T i i) := by rw [eq_div_iff hd', mul_comm, hd]
  rw [this]
  simp only [smul_eq_mul]
  field_simp

/-- An exact eigenvalue routine returns the roots of the characteristic polynomial. -/
theorem eig_roots {N : Numerics ℝ ℂ} (hN : EigExact N) (A : Matrix (Fin n) (Fin n) ℝ) :
    (N.eig (Arr.of A) : Multiset ℂ) = (A.map (algebraMap ℝ ℂ)).charpoly.roots := by
  have h1 := hN A
  rw [← charpoly_map] at h1
  rw [show A.map (algebraMap ℝ ℂ) = A.map ⇑(algebraMap ℝ ℂ) from rfl, h1]
  have := Polynomial.roots_multiset_prod_X_sub_C (N.eig (Arr.of A) : Multiset ℂ)
  rw [Multiset.map_coe, Multiset.prod_coe] at this
  exact this.symm

theorem eig_exp {N : Numerics ℝ ℂ} (hN : EigExact N) (A : Matrix (Fin n) (Fin n) ℝ) (t : ℝ) :
    (N.eig (Arr.of (exp (t • A)))).Perm ((N.eig (Arr.of A)).map fun s => Complex.exp (s * t)) := by
  rw [← Multiset.coe_eq_coe, ← Multiset.map_coe, eig_roots hN, eig_roots hN, ← exp_map_ofReal, roots_exp]
  have e : (t • A).map (algebraMap ℝ ℂ) = (t : ℂ) • A.map (algebraMap ℝ ℂ) := by ext; simp
  rw [e]
  obtain ⟨U, V, T, hUV, hVU, hT, hA⟩ := exists_triangular (A.map (algebraMap ℝ ℂ))
  have e2 : (t : ℂ) • (U * T * V) = U * ((t : ℂ) • T) * V := by rw [Matrix.mul_smul, Matrix.smul_mul]
  rw [hA, e2, charpoly_similar hVU, charpoly_similar hVU, roots_tri (tri_smul hT _), roots_tri hT, Multiset.map_map, Multiset.map_map]
  refine Multiset.map_congr rfl fun i _ => ?_
  simp [mul_comm]

theorem eig_fracLin {N : Numerics ℝ ℂ} (hN : EigExact N) {A : Matrix (Fin n) (Fin n) ℝ} {x y w : ℝ} (h : (1 - w • A).det ≠ 0) :
    (N.eig (Arr.of (x • 1 + y • (A * (1 - w • A)⁻¹)))).Perm ((N.eig (Arr.of A)).map (fracLin x y w)) := by
  rw [← Multiset.coe_eq_coe, ← Multiset.map_coe, eig_roots hN, eig_roots hN]
  have e0 : (1 - w • A).map (algebraMap ℝ ℂ) = 1 - (w : ℂ) • A.map (algebraMap ℝ ℂ) := by
    rw [map_sub', map_smul', Matrix.map_one _ (map_zero _) (map_one _)]; rfl
  have h' : (1 - (w : ℂ) • A.map (algebraMap ℝ ℂ)).det ≠ 0 := by
    rw [← e0]
    have := RingHom.map_det (algebraMap ℝ ℂ) (1 - w • A)
    rw [RingHom.mapMatrix_apply] at this
    rw [← this]
    simpa using h
  rw [← roots_fracLin h']
  have hinv : ((1 - w • A)⁻¹).map (algebraMap ℝ ℂ) = (1 - (w : ℂ) • A.map (algebraMap ℝ ℂ))⁻¹ := by
    refine (inv_eq_right_inv ?_).symm
    rw [← e0, ← map_mul', mul_nonsing_inv _ (Ne.isUnit h), Matrix.map_one _ (map_zero _) (map_one _)]
  rw [map_add', map_smul', map_smul', map_mul', hinv, Matrix.map_one _ (map_zero _) (map_one _)]
  rfl

end Harold
