import Verif.Spec.Stable
import Mathlib.LinearAlgebra.Matrix.Charpoly.Eigs
import Mathlib.FieldTheory.IsAlgClosed.Spectrum
import Mathlib.Analysis.Complex.Polynomial.Basic
import Mathlib.Tactic.FieldSimp

/-!
# Uniqueness of the solution of Lyapunov equations of stable matrices
-/

namespace Harold

open Matrix Spec Polynomial

variable {n : ℕ}

theorem isEig_iff_mem {A : Matrix (Fin n) (Fin n) ℝ} {z : ℂ} : IsEig A z ↔ z ∈ spectrum ℂ (A.map (algebraMap ℝ ℂ)) := by
  rw [Matrix.mem_spectrum_iff_isRoot_charpoly, IsRoot, Matrix.eval_charpoly, IsEig, Matrix.scalar_apply, Matrix.smul_one_eq_diagonal]

/-- If `X q(M) = 0` and no eigenvalue of `M` is a root of `q`, then `X = 0`. -/
theorem zero_of_mul_aeval {M X : Matrix (Fin n) (Fin n) ℂ} {q : ℂ[X]} (h : X * aeval M q = 0) (hq : ∀ z ∈ spectrum ℂ M, q.eval z ≠ 0) :
    X = 0 := by
  rcases Nat.eq_zero_or_pos n with rfl | hn
  · exact Subsingleton.elim _ _
  haveI : Nonempty (Fin n) := ⟨⟨0, hn⟩⟩
  have hu : IsUnit (aeval M q) := by
    rw [← spectrum.zero_notMem_iff ℂ, spectrum.map_polynomial_aeval_of_nonempty M q
      (spectrum.nonempty_of_isAlgClosed_of_finiteDimensional ℂ M)]
    rintro ⟨z, hz, h0⟩
    exact hq z hz h0
  obtain ⟨u, hu⟩ := hu
  rw [← hu] at h
  have := congrArg (· * (↑u⁻¹ : Matrix (Fin n) (Fin n) ℂ)) h
  simpa [mul_assoc] using this

theorem map_zero_of {X : Matrix (Fin n) (Fin n) ℝ} (h : X.map (algebraMap ℝ ℂ) = 0) : X = 0 := by
  ext i j
  have := congrFun (congrFun h i) j
  simpa using this

theorem lyap_unique_cont {A X : Matrix (Fin n) (Fin n) ℝ} (hA : Hurwitz A) (h : Aᵀ * X + X * A = 0) : X = 0 := by
  set M : Matrix (Fin n) (Fin n) ℂ := A.map (algebraMap ℝ ℂ) with hM
  set Z : Matrix (Fin n) (Fin n) ℂ := X.map (algebraMap ℝ ℂ) with hZ
  have hMZ : Mᵀ * Z = Z * -M := by
    have := congrArg (fun Y => (algebraMap ℝ ℂ).mapMatrix Y) h
    simp only [map_add, map_mul, map_zero, RingHom.mapMatrix_apply, ← hM, ← hZ, transpose_map] at this
    rw [eq_neg_of_add_eq_zero_left this, mul_neg]
  have hpow : ∀ k, Mᵀ ^ k * Z = Z * (-M) ^ k := by
    intro k
    induction k with
    | zero => simp
    | succ k ih => rw [pow_succ, mul_assoc, hMZ, ← mul_assoc, ih, mul_assoc, ← pow_succ]
  have hp : ∀ q : ℂ[X], aeval Mᵀ q * Z = Z * aeval (-M) q := by
    intro q
    rw [aeval_eq_sum_range, aeval_eq_sum_range, Finset.sum_mul, Finset.mul_sum]
    exact Finset.sum_congr rfl fun k _ => by rw [smul_mul_assoc, hpow, mul_smul_comm]
  have h0 := hp M.charpoly
  have h1 := Matrix.aeval_self_charpoly Mᵀ
  rw [Matrix.charpoly_transpose] at h1
  rw [h1, zero_mul] at h0
  refine map_zero_of (zero_of_mul_aeval h0.symm fun z hz hr => ?_)
  have e1 := hA z (isEig_iff_mem.mpr (Matrix.mem_spectrum_iff_isRoot_charpoly.mpr hr))
  have e2 := hA (-z) (isEig_iff_mem.mpr (by
    rw [← hM, ← neg_neg M, ← spectrum.neg_eq]
    simpa using hz))
  simp only [Complex.neg_re] at e2
  linarith

theorem lyap_unique_disc {A X : Matrix (Fin n) (Fin n) ℝ} (hA : Schur A) (h : Aᵀ * X * A - X = 0) : X = 0 := by
  set M : Matrix (Fin n) (Fin n) ℂ := A.map (algebraMap ℝ ℂ) with hM
  set Z : Matrix (Fin n) (Fin n) ℂ := X.map (algebraMap ℝ ℂ) with hZ
  have hMZ : Mᵀ * Z * M = Z := by
    have := congrArg (fun Y => (algebraMap ℝ ℂ).mapMatrix Y) h
    simp only [map_sub, map_mul, map_zero, RingHom.mapMatrix_apply, ← hM, ← hZ, transpose_map] at this
    exact sub_eq_zero.mp this
  have hpow : ∀ k, Mᵀ ^ k * Z * M ^ k = Z := by
    intro k
    induction k with
    | zero => simp
    | succ k ih =>
      rw [pow_succ, pow_succ', show Mᵀ ^ k * Mᵀ * Z * (M * M ^ k) = Mᵀ ^ k * (Mᵀ * Z * M) * M ^ k by simp only [mul_assoc], hMZ, ih]
  set p := M.charpoly with hp
  have hdeg : p.natDegree = n := by simp [hp, Matrix.charpoly_natDegree_eq_dim]
  set q : ℂ[X] := ∑ k ∈ Finset.range (n + 1), C (p.coeff k) * Polynomial.X ^ (n - k) with hq
  have h0 : Z * aeval M q = 0 := by
    have h1 := Matrix.aeval_self_charpoly Mᵀ
    rw [Matrix.charpoly_transpose, ← hp, aeval_eq_sum_range, hdeg] at h1
    have h2 := congrArg (fun Y => Y * Z * M ^ n) h1
    simp only [zero_mul, Finset.sum_mul] at h2
    rw [hq, map_sum, Finset.mul_sum, ← h2]
    refine Finset.sum_congr rfl fun k hk => ?_
    have hk' : k ≤ n := by simpa [Nat.lt_succ_iff] using hk
    rw [map_mul, map_pow, aeval_C, aeval_X, ← Algebra.smul_def, smul_mul_assoc, smul_mul_assoc, mul_smul_comm]
    congr 1
    conv_lhs => rw [← hpow k]
    rw [mul_assoc, ← pow_add, show k + (n - k) = n by omega]
  refine map_zero_of (zero_of_mul_aeval h0 fun z hz hr => ?_)
  have e1 := hA z (isEig_iff_mem.mpr hz)
  rw [hq, eval_finset_sum] at hr
  simp only [eval_mul, eval_C, eval_pow, eval_X] at hr
  by_cases hz0 : z = 0
  · subst hz0
    rw [Finset.sum_range_succ, Finset.sum_eq_zero] at hr
    · have hm : p.Monic := Matrix.charpoly_monic M
      have : p.coeff n = 1 := by rw [← hdeg]; exact hm
      simp [this] at hr
    · intro k hk
      rw [zero_pow (by simp at hk; omega), mul_zero]
  · have hroot : p.eval z⁻¹ = 0 := by
      rw [eval_eq_sum_range, hdeg]
      have : z ^ n * ∑ k ∈ Finset.range (n + 1), p.coeff k * z⁻¹ ^ k = 0 := by
        rw [← hr, Finset.mul_sum]
        refine Finset.sum_congr rfl fun k hk => ?_
        have hk' : k ≤ n := by simpa [Nat.lt_succ_iff] using hk
        rw [pow_sub₀ z hz0 hk', inv_pow]
        ring
      exact (mul_eq_zero.mp this).resolve_left (pow_ne_zero _ hz0)
    have e2 := hA z⁻¹ (isEig_iff_mem.mpr (Matrix.mem_spectrum_iff_isRoot_charpoly.mpr hroot))
    rw [norm_inv] at e2
    have e3 : 0 < ‖z‖ := norm_pos_iff.mpr hz0
    exact absurd e2 (not_lt.mpr ((one_le_inv₀ e3).mpr e1.le))

end Harold
