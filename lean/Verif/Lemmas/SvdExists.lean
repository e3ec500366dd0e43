import Verif.Lemmas.Svd
import Mathlib.Analysis.Matrix.Spectrum
import Mathlib.Analysis.Matrix.PosDef
import Mathlib.Data.Fin.Tuple.Sort

/-!
# Every real matrix has a singular value decomposition

The contract of `np.linalg.svd` is satisfiable.
-/

namespace Harold

open Matrix Spec

/-- Orthonormal columns extend to an orthogonal matrix. -/
theorem exists_orth_extension {p : ℕ} (w : Fin p → Fin p → ℝ) (s : Set (Fin p))
    (h : ∀ i ∈ s, ∀ j ∈ s, w i ⬝ᵥ w j = if i = j then 1 else 0) :
    ∃ U : Matrix (Fin p) (Fin p) ℝ, Uᵀ * U = 1 ∧ ∀ j ∈ s, ∀ i, U i j = w j i := by
  have ho : Orthonormal ℝ (s.domRestrict fun i => (WithLp.toLp 2 (w i) : EuclideanSpace ℝ (Fin p))) := by
    rw [orthonormal_iff_ite]
    rintro ⟨i, hi⟩ ⟨j, hj⟩
    simp only [Set.domRestrict_apply, EuclideanSpace.inner_toLp_toLp, star_trivial, Subtype.mk.injEq]
    rw [dotProduct_comm, h i hi j hj]
  obtain ⟨b, hb⟩ := ho.exists_orthonormalBasis_extension_of_card_eq (by simp)
  refine ⟨Matrix.of fun i j => b j i, ?_, fun j hj i => ?_⟩
  · ext i j
    have := orthonormal_iff_ite.mp b.orthonormal i j
    rw [EuclideanSpace.inner_eq_star_dotProduct] at this
    simp only [Matrix.mul_apply, transpose_apply, Matrix.of_apply]
    rw [Matrix.one_apply, ← this, dotProduct]
    exact Finset.sum_congr rfl fun k _ => by simp [mul_comm]
  · simp [hb j hj]

theorem exists_isSvd {p m : ℕ} (M : Matrix (Fin p) (Fin m) ℝ) : ∃ U s V, IsSvd M U s V := by
  have hA : (Mᵀ * M).IsHermitian := by
    rw [IsHermitian, conjTranspose_eq_transpose_of_trivial, transpose_mul, transpose_transpose]
  -- sorted eigenvalues
  let τ : Equiv.Perm (Fin m) := Tuple.sort fun i => - hA.eigenvalues i
  let lam : Fin m → ℝ := fun i => hA.eigenvalues (τ i)
  let v : Fin m → Fin m → ℝ := fun i => (hA.eigenvectorBasis (τ i)).ofLp
  have hanti : Antitone lam := fun i j hij => by
    have := Tuple.monotone_sort (fun i => - hA.eigenvalues i) hij
    simpa [lam, τ] using this
  have hv : ∀ i j, v i ⬝ᵥ v j = if i = j then 1 else 0 := fun i j => by
    have := orthonormal_iff_ite.mp hA.eigenvectorBasis.orthonormal (τ j) (τ i)
    rw [EuclideanSpace.inner_eq_star_dotProduct] at this
    simp only [v, star_trivial] at this ⊢
    rw [this]
    simp [eq_comm]
  have hAv : ∀ j, (Mᵀ * M) *ᵥ v j = lam j • v j := fun j => hA.mulVec_eigenvectorBasis (τ j)
  have hw : ∀ i j, (M *ᵥ v i) ⬝ᵥ (M *ᵥ v j) = if i = j then lam j else 0 := fun i j => by
    rw [dotProduct_mulVec, vecMul_mulVec, ← dotProduct_mulVec, hAv, dotProduct_smul, hv]
    simp
  have hlam : ∀ i, 0 ≤ lam i := fun i => by
    have := hw i i
    rw [if_pos rfl] at this
    rw [← this]
    exact Finset.sum_nonneg fun k _ => mul_self_nonneg _
  have hlt : ∀ i : Fin m, 0 < lam i → (i : ℕ) < p := by
    intro i hi
    have hli : LinearIndependent ℝ (fun k : Fin (i + 1) => M *ᵥ v ⟨k, by omega⟩) := by
      rw [Fintype.linearIndependent_iff]
      intro g hg k
      have h1 := congrArg (fun x => x ⬝ᵥ (M *ᵥ v ⟨k, by omega⟩)) hg
      simp only [sum_dotProduct, smul_dotProduct, hw, zero_dotProduct] at h1
      rw [Finset.sum_eq_single k] at h1
      · rw [if_pos rfl, smul_eq_mul] at h1
        have : 0 < lam ⟨k, by omega⟩ := lt_of_lt_of_le hi (hanti (by
          rw [Fin.le_def]; have := k.2; simp; omega))
        exact (mul_eq_zero.mp h1).resolve_right this.ne'
      · intro b _ hb
        rw [if_neg (fun h => hb (Fin.ext (by simpa using h))), smul_zero]
      · simp
    have := hli.fintype_card_le_finrank
    simp at this
    omega
  -- the left factor
  let w : Fin p → Fin p → ℝ := fun j => if h : (j : ℕ) < m then (1 / Real.sqrt (lam ⟨j, h⟩)) • (M *ᵥ v ⟨j, h⟩) else 0
  let S : Set (Fin p) := {j | ∃ h : (j : ℕ) < m, 0 < lam ⟨j, h⟩}
  obtain ⟨U, hU, hUw⟩ := exists_orth_extension w S (by
    rintro i ⟨hi, hi'⟩ j ⟨hj, hj'⟩
    simp only [w, dif_pos hi, dif_pos hj, smul_dotProduct, dotProduct_smul, hw, smul_eq_mul, Fin.mk.injEq]
    by_cases hij : i = j
    · subst hij
      rw [if_pos rfl, if_pos rfl]
      have := Real.mul_self_sqrt hi'.le
      have h2 := (Real.sqrt_pos.mpr hi').ne'
      field_simp
      rw [sq]; exact this.symm
    · rw [if_neg (fun h => hij (Fin.ext h)), if_neg hij]; simp)
  let s : List ℝ := List.ofFn fun i : Fin (min p m) => Real.sqrt (lam ⟨i, by omega⟩)
  let V : Matrix (Fin m) (Fin m) ℝ := Matrix.of v
  have hV : V * Vᵀ = 1 := by
    ext i j
    rw [Matrix.one_apply, ← hv i j]
    rfl
  refine ⟨U, s, V, hU, hV, by simp [s], ?_, ?_, ?_⟩
  · intro t ht
    simp only [s, List.mem_ofFn] at ht
    obtain ⟨i, rfl⟩ := ht
    exact Real.sqrt_nonneg _
  · simp only [s]
    rw [List.pairwise_ofFn]
    intro i j hij
    exact Real.sqrt_le_sqrt (hanti (by rw [Fin.le_def]; exact (Fin.lt_def.mp hij).le))
  · have key : M * Vᵀ = U * diagRect p m s := by
      ext i j
      have h1 : (M * Vᵀ) i j = (M *ᵥ v j) i := rfl
      rw [h1, Matrix.mul_apply]
      by_cases hj : (j : ℕ) < p
      · rw [Finset.sum_eq_single ⟨j, hj⟩]
        · have h2 : s.getD j 0 = Real.sqrt (lam j) := by
            rw [List.getD_eq_getElem _ _ (by simp [s]; exact hj)]
            simp [s]
          simp only [diagRect, Matrix.of_apply, if_pos, h2]
          rcases (hlam j).eq_or_lt with h0 | h0
          · have h3 : M *ᵥ v j = 0 := by
              have := hw j j
              rw [if_pos rfl, ← h0] at this
              exact dotProduct_self_eq_zero.mp this
            simp [h3, ← h0]
          · rw [hUw ⟨j, hj⟩ ⟨j.2, h0⟩]
            simp only [w, dif_pos j.2, Pi.smul_apply, smul_eq_mul]
            have := (Real.sqrt_pos.mpr h0).ne'
            field_simp
        · intro b _ hb
          simp only [diagRect, Matrix.of_apply]
          rw [if_neg (fun h => hb (Fin.ext h)), mul_zero]
        · simp
      · rw [Finset.sum_eq_zero]
        · have h0 : lam j = 0 := le_antisymm (not_lt.mp fun h => hj (hlt j h)) (hlam j)
          have := hw j j
          rw [if_pos rfl, h0] at this
          rw [dotProduct_self_eq_zero.mp this]; rfl
        · intro b _
          simp only [diagRect, Matrix.of_apply]
          rw [if_neg (by have := b.2; omega), mul_zero]
    rw [← key, Matrix.mul_assoc, mul_eq_one_comm.mp hV, Matrix.mul_one]

/-- An exact backend. -/
theorem exists_svdNum : ∃ S : SvdNum ℝ, S.eps = 0 ∧ ∀ {p m : ℕ} (M : Matrix (Fin p) (Fin m) ℝ), SvdExact S M := by
  choose U s V h using fun (x : Arr ℝ) => exists_isSvd x.m
  refine ⟨⟨fun x => (Arr.of (U x), s x, Arr.of (V x)), 0⟩, rfl, fun {p m} M => ⟨U (Arr.of M), s (Arr.of M), V (Arr.of M), rfl, h (Arr.of M), ?_⟩⟩
  intro t ht h0
  simp only [rankTol, mul_zero]
  exact lt_of_le_of_ne ((h (Arr.of M)).nonneg t ht) (Ne.symm h0)

end Harold
