import Verif.Lemmas.StripKrylov
import Verif.Lemmas.HoldInverse
import Mathlib.LinearAlgebra.JordanChevalley
import Mathlib.LinearAlgebra.Eigenspace.Semisimple
import Mathlib.LinearAlgebra.Eigenspace.Minpoly
import Mathlib.LinearAlgebra.Lagrange
import Mathlib.Analysis.SpecialFunctions.Complex.Arg

/-!
# Existence of the principal logarithm

A real matrix without eigenvalues on the closed negative real axis has a real logarithm with eigenvalues in the strip `|Im| < π`.
-/

namespace Harold

open Matrix NormedSpace Harold.Spec Polynomial

section complex
variable {k : Type} [Fintype k] [DecidableEq k]

/-- The exponential of a nilpotent matrix. -/
theorem exp_nilpotent {A : Matrix k k ℂ} (hA : IsNilpotent A) : ∃ w : ℂ[X], exp A = 1 + A + A ^ 2 * aeval A w := by
  obtain ⟨d, hd⟩ := hA
  refine ⟨∑ i ∈ Finset.range d, C (((i + 2).factorial : ℂ)⁻¹) * X ^ i, ?_⟩
  have hz : ∀ j, d ≤ j → A ^ j = 0 := fun j hj => by
    obtain ⟨s, rfl⟩ := Nat.exists_eq_add_of_le hj
    rw [pow_add, hd, zero_mul]
  have e1 : A ^ 2 * aeval A (∑ i ∈ Finset.range d, C (((i + 2).factorial : ℂ)⁻¹) * X ^ i) = ∑ i ∈ Finset.range d, ((i + 2).factorial : ℂ)⁻¹ • A ^ (i + 2) := by
    rw [map_sum, Finset.mul_sum]
    refine Finset.sum_congr rfl fun i _ => ?_
    rw [map_mul, aeval_C, map_pow, aeval_X, Algebra.algebraMap_eq_smul_one, smul_mul_assoc, one_mul, mul_smul_comm, ← pow_add, add_comm]
  rw [e1]
  ext a b
  have h1 := hasSum_exp_entry A a b
  have h2 := hasSum_sum_of_ne_finset_zero (L := SummationFilter.unconditional ℕ) (f := fun n : ℕ => (n.factorial : ℂ)⁻¹ * (A ^ n) a b) (s := Finset.range (d + 2)) (by
    intro j hj
    have : d ≤ j := by
      have : d + 2 ≤ j := by simpa using hj
      omega
    rw [hz j this]
    simp)
  rw [h1.unique h2, Finset.sum_range_succ', Finset.sum_range_succ', Matrix.add_apply, Matrix.add_apply, Matrix.sum_apply]
  simp
  ring

theorem aeval_commute (N : Matrix k k ℂ) (p q : ℂ[X]) : Commute (aeval N p) (aeval N q) := by
  rw [Commute, SemiconjBy, ← map_mul, ← map_mul, mul_comm]

/-- A logarithm of a unipotent matrix that is a polynomial in the nilpotent part. -/
theorem unipotent_log {N : Matrix k k ℂ} (hN : IsNilpotent N) : ∃ q : ℂ[X], exp (aeval N (X * q)) = 1 + N ∧ IsNilpotent (aeval N (X * q)) := by
  obtain ⟨d, hd⟩ := hN
  have hnil : ∀ p : ℂ[X], IsNilpotent (aeval N (X * p)) := fun p => ⟨d, by
    rw [← map_pow, mul_pow, map_mul, map_pow, aeval_X, hd, zero_mul]⟩
  have key : ∀ j : ℕ, ∃ q z : ℂ[X], exp (aeval N (X * q)) = aeval N (1 + X + X ^ (j + 1) * z) := by
    intro j
    induction j with
    | zero => exact ⟨0, -1, by simp⟩
    | succ j ih =>
      obtain ⟨q, z, h⟩ := ih
      obtain ⟨w, hw⟩ := exp_nilpotent (hnil (-C (z.coeff 0) * X ^ j))
      set c := C (z.coeff 0) with hc
      have hz := divX_mul_X_add z
      set z1 := divX z
      set w' := w.comp (X * (-c * X ^ j)) with hw'
      have hw2 : exp (aeval N (X * (-c * X ^ j))) = aeval N (1 + X * (-c * X ^ j) + (X * (-c * X ^ j)) ^ 2 * w') := by
        rw [hw, hw']
        simp only [map_add, map_one, map_pow, aeval_comp, map_mul]
      refine ⟨q + -c * X ^ j, z1 - c - c * X ^ j * z + (1 + X + X ^ (j + 1) * z) * c ^ 2 * X ^ j * w', ?_⟩
      rw [mul_add, map_add, Matrix.exp_add_of_commute _ _ (aeval_commute N _ _), h, hw2, ← map_mul]
      congr 1
      rw [← hz, ← hc]
      ring
  obtain ⟨q, z, h⟩ := key d
  refine ⟨q, ?_, hnil q⟩
  rw [h, map_add, map_add, map_mul, map_pow, aeval_X, pow_succ, hd, zero_mul, zero_mul, add_zero, map_one]

theorem exp_eig_vec {X : Matrix k k ℂ} {v : k → ℂ} {a : ℂ} (h : X *ᵥ v = a • v) : exp X *ᵥ v = Complex.exp a • v := by
  have h1 := exp_eig (X := X) (Z := replicateCol Unit v) (a := a) (by rw [← replicateCol_mulVec, h, replicateCol_smul])
  rw [← replicateCol_mulVec, ← replicateCol_smul] at h1
  exact replicateCol_injective h1

theorem pow_mulVec_eig {Y : Matrix k k ℂ} {v : k → ℂ} {a : ℂ} (h : Y *ᵥ v = a • v) (r : ℕ) : Y ^ r *ᵥ v = a ^ r • v := by
  induction r with
  | zero => simp
  | succ r ih => rw [pow_succ', ← mulVec_mulVec, ih, mulVec_smul, h, smul_smul, pow_succ]

theorem nilpotent_eig {Y : Matrix k k ℂ} (hY : IsNilpotent Y) {v : k → ℂ} (hv : v ≠ 0) {a : ℂ} (h : Y *ᵥ v = a • v) : a = 0 := by
  obtain ⟨d, hd⟩ := hY
  have := pow_mulVec_eig h d
  rw [hd, zero_mulVec] at this
  exact eq_zero_of_pow_eq_zero ((smul_eq_zero.mp this.symm).resolve_right hv)

/-- Commuting matrices have a common eigenvector in each eigenspace. -/
theorem common_eig {X Y : Matrix k k ℂ} (hc : Commute X Y) {v : k → ℂ} (hv : v ≠ 0) {a : ℂ} (h : X *ᵥ v = a • v) :
    ∃ (w : k → ℂ) (b : ℂ), w ≠ 0 ∧ X *ᵥ w = a • w ∧ Y *ᵥ w = b • w := by
  let W : Submodule ℂ (k → ℂ) := LinearMap.ker (toLin' (X - a • 1))
  have hW : ∀ w, w ∈ W ↔ X *ᵥ w = a • w := fun w => by
    rw [LinearMap.mem_ker, toLin'_apply, sub_mulVec, smul_mulVec, one_mulVec, sub_eq_zero]
  let f : W →ₗ[ℂ] W := (toLin' Y).restrict (fun w hw => by
    rw [hW] at hw ⊢
    rw [toLin'_apply, mulVec_mulVec, hc.eq, ← mulVec_mulVec, hw, mulVec_smul])
  haveI : Nontrivial W := ⟨⟨v, (hW v).mpr h⟩, 0, fun e => hv (congrArg Subtype.val e)⟩
  obtain ⟨b, hb⟩ := Module.End.exists_eigenvalue f
  obtain ⟨w, hw⟩ := hb.exists_hasEigenvector
  refine ⟨w.1, b, fun e => hw.2 (Subtype.ext e), (hW _).mp w.2, ?_⟩
  exact congrArg Subtype.val hw.apply_eq_smul

/-- Two matrices that agree on the eigenvectors of a semisimple endomorphism are equal. -/
theorem ext_semisimple {sl : Module.End ℂ (k → ℂ)} (hss : sl.IsSemisimple) {F G : Matrix k k ℂ}
    (h : ∀ (z : ℂ) (v : k → ℂ), v ≠ 0 → sl v = z • v → F *ᵥ v = G *ᵥ v) : F = G := by
  have h1 : ∀ v : k → ℂ, F *ᵥ v = G *ᵥ v := by
    intro v
    have hv : v ∈ ⨆ μ, sl.eigenspace μ := by rw [hss.iSup_eigenspace_eq_top]; trivial
    induction hv using Submodule.iSup_induction' with
    | mem μ x hx =>
      by_cases h0 : x = 0
      · rw [h0, mulVec_zero, mulVec_zero]
      · exact h μ x h0 (Module.End.mem_eigenspace_iff.mp hx)
    | zero => rw [mulVec_zero, mulVec_zero]
    | add x y _ _ hx hy => rw [mulVec_add, mulVec_add, hx, hy]
  exact Matrix.ext_of_mulVec_single fun i => h1 _

theorem jordan_chevalley_gen {K V : Type} [Field K] [PerfectField K] [AddCommGroup V] [Module K V] [FiniteDimensional K V] (f : Module.End K V) :
    ∃ nl sl : Module.End K V, f = nl + sl ∧ nl * sl = sl * nl ∧ (∃ d : ℕ, nl ^ d = 0) ∧ sl.IsSemisimple := by
  obtain ⟨nl, hnl, sl, hsl, hnil, hss, hsum⟩ := Module.End.exists_isNilpotent_isSemisimple (f := f)
  exact ⟨nl, sl, hsum, Algebra.commute_of_mem_adjoin_singleton_of_commute hsl (Algebra.commute_of_mem_adjoin_self hnl).symm, hnil, hss⟩

omit [DecidableEq k] in
theorem jordan_chevalley_end (f : Module.End ℂ (k → ℂ)) :
    ∃ nl sl : Module.End ℂ (k → ℂ), f = nl + sl ∧ nl * sl = sl * nl ∧ (∃ d : ℕ, nl ^ d = 0) ∧ sl.IsSemisimple :=
  jordan_chevalley_gen f

theorem toMatrix_pow (f : Module.End ℂ (k → ℂ)) (r : ℕ) (v : k → ℂ) : LinearMap.toMatrix' f ^ r *ᵥ v = (f ^ r) v := by
  induction r generalizing v with
  | zero => simp
  | succ r ih => rw [pow_succ', ← mulVec_mulVec, ih, LinearMap.toMatrix'_mulVec, pow_succ', Module.End.mul_apply]

/-- The Jordan-Chevalley decomposition of a matrix. -/
theorem jordan_chevalley (M : Matrix k k ℂ) : ∃ N S : Matrix k k ℂ, M = N + S ∧ Commute N S ∧ IsNilpotent N ∧
    ∀ F G : Matrix k k ℂ, (∀ (z : ℂ) (v : k → ℂ), v ≠ 0 → S *ᵥ v = z • v → F *ᵥ v = G *ᵥ v) → F = G := by
  obtain ⟨nl, sl, hsum, hcomm, ⟨d, hd⟩, hss⟩ := jordan_chevalley_end (toLin' M)
  refine ⟨LinearMap.toMatrix' nl, LinearMap.toMatrix' sl, ?_, ?_, ⟨d, ?_⟩, ?_⟩
  · rw [← map_add, ← hsum, LinearMap.toMatrix'_toLin']
  · rw [Commute, SemiconjBy, ← LinearMap.toMatrix'_mul, ← LinearMap.toMatrix'_mul, hcomm]
  · refine Matrix.ext_of_mulVec_single fun i => ?_
    rw [toMatrix_pow, hd, zero_mulVec, LinearMap.zero_apply]
  · intro F G h
    exact ext_semisimple hss fun z v hv hz => h z v hv ((LinearMap.toMatrix'_mulVec sl v).trans hz)

theorem eig_finite (S : Matrix k k ℂ) : ∃ Λ : Finset ℂ, ∀ (z : ℂ) (v : k → ℂ), v ≠ 0 → S *ᵥ v = z • v → z ∈ Λ := by
  refine ⟨S.charpoly.roots.toFinset, fun z v hv h => ?_⟩
  rw [Multiset.mem_toFinset, Polynomial.mem_roots (Matrix.charpoly_monic S).ne_zero, Polynomial.IsRoot.def, Matrix.eval_charpoly]
  refine exists_mulVec_eq_zero_iff.mp ⟨v, hv, ?_⟩
  rw [Matrix.scalar_apply, ← smul_one_eq_diagonal, sub_mulVec, h, smul_mulVec, one_mulVec, sub_self]

theorem aeval_eig (S : Matrix k k ℂ) {v : k → ℂ} {z : ℂ} (h : S *ᵥ v = z • v) (p : ℂ[X]) : aeval S p *ᵥ v = p.eval z • v := by
  induction p using Polynomial.induction_on' with
  | add p q hp hq => rw [map_add, add_mulVec, hp, hq, eval_add, add_smul]
  | monomial r a =>
    rw [aeval_monomial, eval_monomial, Algebra.algebraMap_eq_smul_one, smul_mul_assoc, one_mul, smul_mulVec, pow_mulVec_eig h, smul_smul]

/-- **Existence** of the principal logarithm of a complex matrix. -/
theorem exists_strip_log {M : Matrix k k ℂ} (hM : ∀ (z : ℂ) (v : k → ℂ), v ≠ 0 → M *ᵥ v = z • v → z ∈ Complex.slitPlane) :
    ∃ L : Matrix k k ℂ, exp L = M ∧ InStrip L := by
  obtain ⟨N, S, hMS, hcNS, hNnil, hext⟩ := jordan_chevalley M
  obtain ⟨Λ, hΛ⟩ := eig_finite S
  -- eigenvalues of the semisimple part
  have hSeig : ∀ (z : ℂ) (v : k → ℂ), v ≠ 0 → S *ᵥ v = z • v → z ∈ Complex.slitPlane := by
    intro z v hv h
    obtain ⟨w, b, hw, h1, h2⟩ := common_eig hcNS.symm hv h
    obtain rfl := nilpotent_eig hNnil hw h2
    exact hM z w hw (by rw [hMS, add_mulVec, h1, h2, zero_smul, zero_add])
  -- its logarithm
  obtain ⟨Q, hQ, hQeig⟩ : ∃ Q : Matrix k k ℂ, (∃ p, Q = aeval S p) ∧ ∀ (z : ℂ) (v : k → ℂ), v ≠ 0 → S *ᵥ v = z • v → Q *ᵥ v = Complex.log z • v := by
    refine ⟨aeval S (Lagrange.interpolate Λ id Complex.log), ⟨_, rfl⟩, fun z v hv h => ?_⟩
    have h3 : (Lagrange.interpolate Λ id Complex.log).eval z = Complex.log z :=
      Lagrange.eval_interpolate_at_node (v := id) (i := z) Complex.log Function.injective_id.injOn (hΛ z v hv h)
    rw [aeval_eig S h, h3]
  have hexpQ : exp Q = S := hext _ _ fun z v hv h => by
    rw [exp_eig_vec (hQeig z v hv h), h, Complex.exp_log (Complex.slitPlane_ne_zero (hSeig z v hv h))]
  have hcQN : Commute Q N := by
    obtain ⟨p, rfl⟩ := hQ
    exact (Algebra.commute_of_mem_adjoin_singleton_of_commute (aeval_mem_adjoin_singleton ℂ S) hcNS).symm
  -- the unipotent factor
  have hcE : Commute (exp (-Q)) N := (hcQN.neg_left).exp_left
  obtain ⟨N', hN'⟩ : ∃ N', N' = exp (-Q) * N := ⟨_, rfl⟩
  have hN'nil : IsNilpotent N' := by rw [hN']; exact Commute.isNilpotent_mul_left hcE hNnil
  obtain ⟨q, hq1, hq2⟩ := unipotent_log hN'nil
  have hcQN' : Commute Q N' := by rw [hN']; exact ((Commute.refl Q).neg_right.exp_right).mul_right hcQN
  have hcQY : Commute Q (aeval N' (X * q)) :=
    Algebra.commute_of_mem_adjoin_singleton_of_commute (aeval_mem_adjoin_singleton ℂ N') hcQN'
  generalize aeval N' (X * q) = Y at hq1 hq2 hcQY
  refine ⟨Q + Y, ?_, ?_⟩
  · rw [Matrix.exp_add_of_commute _ _ hcQY, hq1, mul_add, mul_one, hN', ← mul_assoc, ← Matrix.exp_add_of_commute _ _ (Commute.refl Q).neg_right,
      add_neg_cancel, exp_zero, one_mul, hexpQ, hMS, add_comm]
  · intro z v hv h
    obtain ⟨w, b, hw, h1, h2⟩ := common_eig (Y := Q) ((Commute.refl Q).add_left hcQY.symm) hv h
    have h3 : Y *ᵥ w = (z - b) • w := by
      rw [add_mulVec, h2] at h1
      rw [sub_smul, ← h1, add_sub_cancel_left]
    have h4 : z = b := sub_eq_zero.mp (nilpotent_eig hq2 hw h3)
    have h5 : S *ᵥ w = Complex.exp b • w := by rw [← hexpQ]; exact exp_eig_vec h2
    have h6 := hQeig _ w hw h5
    rw [h2] at h6
    have h7 : b = Complex.log (Complex.exp b) := smul_left_injective ℂ hw h6
    have h8 := hSeig _ w hw h5
    rw [h4, h7, Complex.log_im]
    rw [Complex.mem_slitPlane_iff_arg] at h8
    exact abs_lt.mpr ⟨Complex.neg_pi_lt_arg _, lt_of_le_of_ne (Complex.arg_le_pi _) h8.1⟩

end complex

section real
variable {n : ℕ}

/-- The eigenvalues avoid the closed negative real axis. -/
def OffNegAxis (M : Matrix (Fin n) (Fin n) ℝ) : Prop := ∀ z : ℂ, IsEig M z → z ∈ Complex.slitPlane

theorem isEig_of_vec {M : Matrix (Fin n) (Fin n) ℝ} {z : ℂ} {v : Fin n → ℂ} (hv : v ≠ 0) (h : M.map (algebraMap ℝ ℂ) *ᵥ v = z • v) : IsEig M z := by
  unfold IsEig
  refine exists_mulVec_eq_zero_iff.mp ⟨v, hv, ?_⟩
  rw [sub_mulVec, h, smul_mulVec, one_mulVec, sub_self]

theorem vec_of_isEig {M : Matrix (Fin n) (Fin n) ℝ} {z : ℂ} (h : IsEig M z) : ∃ v : Fin n → ℂ, v ≠ 0 ∧ M.map (algebraMap ℝ ℂ) *ᵥ v = z • v := by
  obtain ⟨v, hv, h1⟩ := exists_mulVec_eq_zero_iff.mpr h
  refine ⟨v, hv, ?_⟩
  rw [sub_mulVec, smul_mulVec, one_mulVec, sub_eq_zero] at h1
  exact h1.symm

/-- A real matrix has a (real) principal logarithm if and only if its eigenvalues avoid the closed negative real axis. -/
theorem principalLog_iff {M : Matrix (Fin n) (Fin n) ℝ} : (∃ X, IsPrincipalLog X M) ↔ OffNegAxis M := by
  constructor
  · rintro ⟨X, hX, hs⟩ z hz
    obtain ⟨v, hv, h⟩ := vec_of_isEig hz
    obtain ⟨w, b, hw, h1, h2⟩ := common_eig (Y := X.map (algebraMap ℝ ℂ)) (by
      rw [← hX, ← exp_map_ofReal]
      exact (Commute.refl _).exp_left) hv h
    have h3 := exp_eig_vec h2
    rw [exp_map_ofReal, hX, h1] at h3
    have h4 : z = Complex.exp b := smul_left_injective ℂ hw h3
    have h5 := abs_lt.mp (hs b (isEig_of_vec hw h2))
    rw [Complex.mem_slitPlane_iff_arg, h4]
    refine ⟨?_, Complex.exp_ne_zero b⟩
    rw [← Complex.log_im, Complex.log_exp h5.1 h5.2.le]
    exact h5.2.ne
  · intro h
    obtain ⟨L, hL, hs⟩ := exists_strip_log (M := M.map (algebraMap ℝ ℂ)) fun z v hv hz => h z (isEig_of_vec hv hz)
    have hconj : ∀ Z : Matrix (Fin n) (Fin n) ℂ, Z.map (starRingEnd ℂ) = (Zᴴ)ᵀ := fun Z => by ext; simp
    have h1 : exp (L.map (starRingEnd ℂ)) = M.map (algebraMap ℝ ℂ) := by
      rw [hconj, Matrix.exp_transpose, Matrix.exp_conjTranspose, hL]
      ext i j
      simp
    have h2 : InStrip (L.map (starRingEnd ℂ)) := by
      intro z v hv hz
      have h3 : L *ᵥ (star v) = (starRingEnd ℂ z) • star v := by
        funext i
        have := congrArg (starRingEnd ℂ) (congrFun hz i)
        simp only [mulVec, dotProduct, map_sum, map_mul, Matrix.map_apply, Complex.conj_conj, Pi.smul_apply, smul_eq_mul] at this
        simpa [mulVec, dotProduct] using this
      have h4 := hs _ _ (star_ne_zero.mpr hv) h3
      rwa [Complex.conj_im, abs_neg] at h4
    have h3 := strip_intertwine (Z := 1) hs h2 (by rw [hL, h1, Matrix.mul_one, Matrix.one_mul])
    rw [Matrix.mul_one, Matrix.one_mul] at h3
    have h4 : (L.map Complex.re).map (algebraMap ℝ ℂ) = L := by
      ext i j
      have := congrFun (congrFun h3 i) j
      exact Complex.conj_eq_iff_re.mp this.symm
    refine ⟨L.map Complex.re, ?_, ?_⟩
    · refine Matrix.map_injective (algebraMap ℝ ℂ).injective ?_
      beta_reduce
      rw [← exp_map_ofReal, h4, hL]
    · intro z hz
      obtain ⟨v, hv, h5⟩ := vec_of_isEig hz
      rw [h4] at h5
      exact hs z v hv h5

end real

end Harold
