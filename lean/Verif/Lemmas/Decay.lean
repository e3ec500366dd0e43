import Verif.Lemmas.LyapUniq
import Verif.Lemmas.Expm
import Mathlib.Analysis.Normed.Algebra.GelfandFormula
import Mathlib.Analysis.SpecificLimits.Normed

/-!
# Powers and exponentials of stable matrices tend to zero
-/

namespace Harold

open Matrix Spec Filter Topology NormedSpace

variable {n : ℕ}

theorem linear_pow_tendsto {B : Type} [NormedRing B] [NormedAlgebra ℂ B] [FiniteDimensional ℂ B] [Nontrivial B] {M : B} (h : ∀ z ∈ spectrum ℂ M, ‖z‖ < 1)
    (e : B →ₗ[ℂ] ℂ) : Tendsto (fun k : ℕ => e (M ^ k)) atTop (𝓝 0) := by
  haveI : CompleteSpace B := FiniteDimensional.complete ℂ _
  have hr : spectralRadius ℂ M < (1 : NNReal) := spectrum.spectralRadius_lt_of_forall_lt M fun z hz => by
    have := h z hz
    exact_mod_cast this
  have hn : Tendsto (fun k : ℕ => M ^ k) atTop (𝓝 0) := by
    rw [tendsto_zero_iff_norm_tendsto_zero]
    have hg := spectrum.pow_nnnorm_pow_one_div_tendsto_nhds_spectralRadius M
    obtain ⟨s, hs1, hs2⟩ := ENNReal.lt_iff_exists_nnreal_btwn.1 hr
    have hs2' : s < 1 := by exact_mod_cast hs2
    have hev : ∀ᶠ k : ℕ in atTop, ‖M ^ k‖ ≤ (s : ℝ) ^ k := by
      filter_upwards [hg.eventually (gt_mem_nhds hs1), eventually_gt_atTop 0] with k hk hk0
      have hk' : ((‖M ^ k‖₊ : ENNReal) ^ (1 / k : ℝ)) ^ (k : ℝ) ≤ (s : ENNReal) ^ (k : ℝ) := ENNReal.rpow_le_rpow hk.le (by positivity)
      rw [← ENNReal.rpow_mul, one_div, inv_mul_cancel₀ (by exact_mod_cast hk0.ne'), ENNReal.rpow_one, ENNReal.rpow_natCast] at hk'
      exact_mod_cast hk'
    refine squeeze_zero' (Eventually.of_forall fun k => norm_nonneg _) hev ?_
    exact tendsto_pow_atTop_nhds_zero_of_lt_one s.2 (by exact_mod_cast hs2')
  have := (LinearMap.continuous_of_finiteDimensional e).tendsto 0
  rw [map_zero] at this
  exact this.comp hn

/-- An entry of a matrix. -/
def entryL {R : Type} [CommSemiring R] (i j : Fin n) : Matrix (Fin n) (Fin n) R →ₗ[R] R where
  toFun X := X i j
  map_add' _ _ := rfl
  map_smul' _ _ := rfl

theorem pow_tendsto_of_spectrum {M : Matrix (Fin n) (Fin n) ℂ} (h : ∀ z ∈ spectrum ℂ M, ‖z‖ < 1) (i j : Fin n) :
    Tendsto (fun k : ℕ => (M ^ k) i j) atTop (𝓝 0) := by
  haveI : Nonempty (Fin n) := ⟨i⟩
  exact @linear_pow_tendsto (Matrix (Fin n) (Fin n) ℂ) Matrix.linftyOpNormedRing Matrix.linftyOpNormedAlgebra inferInstance inferInstance M h (entryL i j)

theorem map_pow' (A : Matrix (Fin n) (Fin n) ℝ) (k : ℕ) : (A ^ k).map (algebraMap ℝ ℂ) = A.map (algebraMap ℝ ℂ) ^ k :=
  map_pow (algebraMap ℝ ℂ).mapMatrix A k

theorem schur_pow_tendsto {A : Matrix (Fin n) (Fin n) ℝ} (h : Schur A) (i j : Fin n) : Tendsto (fun k : ℕ => (A ^ k) i j) atTop (𝓝 0) := by
  have h1 := pow_tendsto_of_spectrum (M := A.map (algebraMap ℝ ℂ)) (fun z hz => h z (isEig_iff_mem.mpr hz)) i j
  have h2 : Tendsto (fun k : ℕ => (((A ^ k) i j : ℝ) : ℂ)) atTop (𝓝 ((0 : ℝ) : ℂ)) := by
    refine (Tendsto.congr (fun k => ?_) h1)
    rw [← map_pow']; rfl
  exact (Complex.continuous_re.tendsto _).comp h2

theorem linear_exp_eigen {B : Type} [NormedRing B] [NormedAlgebra ℂ B] [FiniteDimensional ℂ B] {M : B} {z w : ℂ} (e : B →ₗ[ℂ] ℂ) (h : ∀ k : ℕ, e (M ^ k) = z ^ k * w) :
    e (exp M) = Complex.exp z * w := by
  haveI : CompleteSpace B := FiniteDimensional.complete ℂ _
  have h1 := (exp_series_hasSum_exp' (𝕂 := ℂ) M).mapL (LinearMap.toContinuousLinearMap e)
  have h2 := (exp_series_hasSum_exp' (𝕂 := ℂ) z).mul_right w
  rw [← Complex.exp_eq_exp_ℂ] at h2
  refine h1.unique (h2.congr_fun fun k => ?_)
  simp [h k, mul_assoc]

theorem exp_eq_aeval {B : Type} [NormedRing B] [NormedAlgebra ℂ B] [FiniteDimensional ℂ B] (M : B) : ∃ q : Polynomial ℂ, exp M = Polynomial.aeval M q := by
  haveI : CompleteSpace B := FiniteDimensional.complete ℂ _
  have hc : IsClosed ((Algebra.adjoin ℂ {M} : Subalgebra ℂ B) : Set B) := Submodule.closed_of_finiteDimensional (Subalgebra.toSubmodule (Algebra.adjoin ℂ {M}))
  letI : NormedAlgebra ℚ B := NormedAlgebra.restrictScalars ℚ ℂ B
  have h : exp M ∈ Algebra.adjoin ℂ {M} := exp_mem (R := ℂ) hc (Algebra.self_mem_adjoin_singleton ℂ M)
  rw [Algebra.adjoin_singleton_eq_range_aeval] at h
  obtain ⟨q, hq⟩ := h
  exact ⟨q, hq.symm⟩

theorem exp_mulVec_eigen {M : Matrix (Fin n) (Fin n) ℂ} {v : Fin n → ℂ} {z : ℂ} (h : M *ᵥ v = z • v) : exp M *ᵥ v = Complex.exp z • v := by
  have hk : ∀ k : ℕ, M ^ k *ᵥ v = z ^ k • v := by
    intro k
    induction k with
    | zero => simp
    | succ k ih => rw [pow_succ', ← mulVec_mulVec, ih, mulVec_smul, h, smul_smul, ← pow_succ]
  ext i
  let e : Matrix (Fin n) (Fin n) ℂ →ₗ[ℂ] ℂ :=
    { toFun := fun X => (X *ᵥ v) i
      map_add' := fun X Y => by rw [add_mulVec]; rfl
      map_smul' := fun c X => by rw [smul_mulVec]; rfl }
  exact @linear_exp_eigen (Matrix (Fin n) (Fin n) ℂ) Matrix.linftyOpNormedRing Matrix.linftyOpNormedAlgebra inferInstance M z (v i) e
    fun k => congrFun (hk k) i

theorem exists_eigenvector {M : Matrix (Fin n) (Fin n) ℂ} {z : ℂ} (h : z ∈ spectrum ℂ M) : ∃ v, v ≠ 0 ∧ M *ᵥ v = z • v := by
  rw [Matrix.mem_spectrum_iff_isRoot_charpoly, Polynomial.IsRoot, Matrix.eval_charpoly] at h
  obtain ⟨v, hv, hv'⟩ := Matrix.exists_mulVec_eq_zero_iff.mpr h
  refine ⟨v, hv, ?_⟩
  rw [sub_mulVec, sub_eq_zero] at hv'
  rw [← hv', Matrix.scalar_apply, ← Matrix.smul_one_eq_diagonal, smul_mulVec, one_mulVec]

/-- The eigenvalues of the exponential are the exponentials of the eigenvalues. -/
theorem spectrum_exp {M : Matrix (Fin n) (Fin n) ℂ} {μ : ℂ} (h : μ ∈ spectrum ℂ (exp M)) : ∃ z ∈ spectrum ℂ M, μ = Complex.exp z := by
  obtain ⟨q, hq⟩ := @exp_eq_aeval (Matrix (Fin n) (Fin n) ℂ) Matrix.linftyOpNormedRing Matrix.linftyOpNormedAlgebra inferInstance M
  have hq' : exp M = Polynomial.aeval M q := hq
  rw [hq'] at h
  rcases Nat.eq_zero_or_pos n with rfl | hn
  · obtain ⟨v, hv, -⟩ := exists_eigenvector h
    exact absurd (Subsingleton.elim _ _) hv
  haveI : Nonempty (Fin n) := ⟨⟨0, hn⟩⟩
  rw [spectrum.map_polynomial_aeval_of_nonempty M q (spectrum.nonempty_of_isAlgClosed_of_finiteDimensional ℂ M)] at h
  obtain ⟨z, hz, rfl⟩ := h
  refine ⟨z, hz, ?_⟩
  obtain ⟨v, hv, hMv⟩ := exists_eigenvector hz
  have e1 := exp_mulVec_eigen hMv
  rw [hq'] at e1
  have e2 : Polynomial.aeval M q *ᵥ v = q.eval z • v := by
    have hk : ∀ k : ℕ, M ^ k *ᵥ v = z ^ k • v := by
      intro k
      induction k with
      | zero => simp
      | succ k ih => rw [pow_succ', ← mulVec_mulVec, ih, mulVec_smul, hMv, smul_smul, ← pow_succ]
    rw [Polynomial.aeval_eq_sum_range, Polynomial.eval_eq_sum_range, Finset.sum_smul, sum_mulVec]
    exact Finset.sum_congr rfl fun k _ => by rw [smul_mulVec, hk, smul_smul]
  rw [e2] at e1
  by_contra hne
  exact hv ((smul_eq_zero.mp (show (q.eval z - Complex.exp z) • v = 0 by rw [sub_smul, e1, sub_self])).resolve_left (sub_ne_zero.mpr hne))

theorem linear_exp_map {B B' : Type} [NormedRing B] [NormedAlgebra ℝ B] [FiniteDimensional ℝ B] [NormedRing B'] [NormedAlgebra ℝ B'] [FiniteDimensional ℝ B']
    (f : B →ₐ[ℝ] B') (M : B) : f (exp M) = exp (f M) := by
  haveI : CompleteSpace B := FiniteDimensional.complete ℝ _
  haveI : CompleteSpace B' := FiniteDimensional.complete ℝ _
  have h1 := (exp_series_hasSum_exp' (𝕂 := ℝ) M).mapL (LinearMap.toContinuousLinearMap f.toLinearMap)
  have h2 := exp_series_hasSum_exp' (𝕂 := ℝ) (f M)
  refine h1.unique (h2.congr_fun fun k => ?_)
  simp

theorem exp_map_complex (A : Matrix (Fin n) (Fin n) ℝ) : (exp A).map (algebraMap ℝ ℂ) = exp (A.map (algebraMap ℝ ℂ)) :=
  @linear_exp_map (Matrix (Fin n) (Fin n) ℝ) (Matrix (Fin n) (Fin n) ℂ) Matrix.linftyOpNormedRing Matrix.linftyOpNormedAlgebra inferInstance
    Matrix.linftyOpNormedRing Matrix.linftyOpNormedAlgebra inferInstance (Algebra.ofId ℝ ℂ).mapMatrix A

theorem hurwitz_exp_schur {A : Matrix (Fin n) (Fin n) ℝ} (h : Hurwitz A) : Schur (exp A) := by
  intro μ hμ
  rw [isEig_iff_mem, exp_map_complex] at hμ
  obtain ⟨z, hz, rfl⟩ := spectrum_exp hμ
  rw [Complex.norm_exp, Real.exp_lt_one_iff]
  exact h z (isEig_iff_mem.mpr hz)

theorem hurwitz_exp_tendsto {A : Matrix (Fin n) (Fin n) ℝ} (h : Hurwitz A) (i j : Fin n) : Tendsto (fun t : ℝ => (exp (t • A)) i j) atTop (𝓝 0) := by
  have e : ∀ t : ℝ, exp (t • A) = exp A ^ ⌊t⌋₊ * exp ((t - ⌊t⌋₊) • A) := by
    intro t
    rw [← Matrix.exp_nsmul, ← Matrix.exp_add_of_commute, ← Nat.cast_smul_eq_nsmul ℝ, ← add_smul, add_sub_cancel]
    rw [← Nat.cast_smul_eq_nsmul ℝ]
    exact ((Commute.refl A).smul_left _).smul_right _
  have hcont : ∀ l j, Continuous fun t : ℝ => (exp (t • A)) l j := fun l j =>
    continuous_iff_continuousAt.mpr fun t => (hasDerivAt_exp_entry A t l j).continuousAt
  have hb : ∀ l j, ∃ C, ∀ t : ℝ, 0 ≤ t → ‖(exp ((t - ⌊t⌋₊) • A)) l j‖ ≤ C := by
    intro l j
    obtain ⟨C, hC⟩ := isCompact_Icc.exists_bound_of_continuousOn (s := Set.Icc (0 : ℝ) 1) (hcont l j).continuousOn
    refine ⟨C, fun t ht => hC _ ⟨sub_nonneg.mpr (Nat.floor_le ht), ?_⟩⟩
    linarith [Nat.lt_floor_add_one t]
  have hp := fun i l => (schur_pow_tendsto (hurwitz_exp_schur h) i l).comp (tendsto_nat_floor_atTop (α := ℝ))
  have hs : Tendsto (fun t : ℝ => ∑ l, (exp A ^ ⌊t⌋₊) i l * (exp ((t - ⌊t⌋₊) • A)) l j) atTop (𝓝 (∑ l : Fin n, 0)) := by
    refine tendsto_finset_sum _ fun l _ => ?_
    refine (hp i l).zero_mul_isBoundedUnder_le ?_
    obtain ⟨C, hC⟩ := hb l j
    refine ⟨C, ?_⟩
    rw [eventually_map]
    filter_upwards [eventually_ge_atTop 0] with t ht using hC t ht
  rw [Finset.sum_const_zero] at hs
  refine hs.congr fun t => ?_
  rw [e t, Matrix.mul_apply]

end Harold
