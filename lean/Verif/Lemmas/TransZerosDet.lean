import Verif.Lemmas.TransZeros
import Mathlib.LinearAlgebra.Matrix.Determinant.Basic

/-!
# The determinant of the system pencil in one step of the deflation
-/

namespace Harold

open Matrix Spec

variable {n m ν : ℕ}

/-- Selecting rows and columns multiplies determinants by a constant. -/
theorem det_select {α β : Type} [Fintype α] [DecidableEq α] [Fintype β] [DecidableEq β] (hc : Fintype.card α = Fintype.card β) (g f : α → β) :
    ∃ c : ℂ, ∀ N : Matrix β β ℂ, (N.submatrix g f).det = c * N.det := by
  let e : α ≃ β := Fintype.equivOfCardEq hc
  refine ⟨((1 : Matrix β β ℂ).submatrix (g ∘ e.symm) id).det * ((1 : Matrix β β ℂ).submatrix id (f ∘ e.symm)).det, fun N => ?_⟩
  rw [← det_submatrix_equiv_self e.symm, submatrix_submatrix]
  have h : N.submatrix (g ∘ e.symm) (f ∘ e.symm) =
      (1 : Matrix β β ℂ).submatrix (g ∘ e.symm) id * N * (1 : Matrix β β ℂ).submatrix id (f ∘ e.symm) := by
    ext i j
    simp [Matrix.mul_apply, Matrix.one_apply]
  rw [h, det_mul, det_mul]
  ring

section
variable {A : Matrix (Fin n) (Fin n) ℝ} {B : Matrix (Fin n) (Fin m) ℝ} {C : Matrix (Fin m) (Fin n) ℝ} {D : Matrix (Fin m) (Fin m) ℝ}
  {A' : Matrix (Fin ν) (Fin ν) ℝ} {B' : Matrix (Fin ν) (Fin m) ℝ} {C' : Matrix (Fin m) (Fin ν) ℝ} {D' : Matrix (Fin m) (Fin m) ℝ}
  {Q : Matrix (Fin n) (Fin n) ℝ} {U : Matrix (Fin m) (Fin m) ℝ} {σ : ℕ}

/-- The pencil in the coordinates of a step. -/
theorem sysPencil_coords (hQ : Qᵀ * Q = 1) (s : ℂ) :
    (fromBlocks ((Qᵀ).map Complex.ofReal) 0 0 ((Uᵀ).map Complex.ofReal) * sysPencil A B C D s * fromBlocks (Q.map Complex.ofReal) 0 0 1 :
      Matrix (Fin n ⊕ Fin m) (Fin n ⊕ Fin m) ℂ) =
      fromBlocks ((Qᵀ * A * Q).map Complex.ofReal - s • 1) ((Qᵀ * B).map Complex.ofReal) ((Uᵀ * C * Q).map Complex.ofReal) ((Uᵀ * D).map Complex.ofReal) := by
  have hQ : (Qᵀ).map Complex.ofReal * Q.map Complex.ofReal = 1 := by rw [← map_mulC, hQ, map_oneC]
  unfold sysPencil
  rw [fromBlocks_multiply, fromBlocks_multiply]
  simp only [Matrix.zero_mul, Matrix.mul_zero, add_zero, zero_add, Matrix.mul_one, map_mulC, Matrix.mul_sub, Matrix.sub_mul, Matrix.mul_smul, Matrix.smul_mul, hQ, smul_zero, sub_zero]

/-- The determinants of the two pencils differ by a constant factor. -/
theorem DeflStep.det (h : DeflStep A B C D A' B' C' D' Q U σ) (hne : ∃ s, (sysPencil A B C D s).det ≠ 0) :
    ∃ k : ℂ, k ≠ 0 ∧ ∀ s, (sysPencil A B C D s).det = k * (sysPencil A' B' C' D' s).det := by
  have hcard := h.card
  have hle := h.le
  have hσ := h.σle
  let f : (Fin ν ⊕ Fin m) ⊕ Fin (n - ν) → Fin n ⊕ Fin m :=
    Sum.elim (Sum.elim (fun i => Sum.inl (i.castLE hle)) fun l => Sum.inr l) fun k => Sum.inl ⟨ν + k, by omega⟩
  let g : (Fin ν ⊕ Fin m) ⊕ Fin (n - ν) → Fin n ⊕ Fin m :=
    Sum.elim (Sum.elim (fun i => Sum.inl (i.castLE hle)) fun k => if hk : ν + (k : ℕ) < n then Sum.inl ⟨ν + k, hk⟩ else Sum.inr ⟨ν + k - n, by omega⟩)
      fun t => Sum.inr ⟨σ + t, by omega⟩
  obtain ⟨c, hc⟩ := det_select (α := (Fin ν ⊕ Fin m) ⊕ Fin (n - ν)) (β := Fin n ⊕ Fin m) (by simp only [Fintype.card_sum, Fintype.card_fin]; omega) g f
  let T : Matrix (Fin (n - ν)) (Fin (n - ν)) ℝ := Matrix.of fun t k => (Uᵀ * C * Q) ⟨σ + t, by omega⟩ ⟨ν + k, by omega⟩
  have hblk : ∀ s, ∃ Y, (fromBlocks ((Qᵀ * A * Q).map Complex.ofReal - s • 1) ((Qᵀ * B).map Complex.ofReal) ((Uᵀ * C * Q).map Complex.ofReal)
      ((Uᵀ * D).map Complex.ofReal)).submatrix g f = fromBlocks (sysPencil A' B' C' D' s) Y 0 (T.map Complex.ofReal) := by
    intro s
    refine ⟨Matrix.of fun i k => (fromBlocks ((Qᵀ * A * Q).map Complex.ofReal - s • 1) ((Qᵀ * B).map Complex.ofReal) ((Uᵀ * C * Q).map Complex.ofReal)
      ((Uᵀ * D).map Complex.ofReal)) (g (Sum.inl i)) (f (Sum.inr k)), ?_⟩
    ext i j
    rw [submatrix_apply]
    rcases i with (i | i) | i <;> rcases j with (j | j) | j
    · simp only [g, f, Sum.elim_inl, fromBlocks_apply₁₁, sysPencil, Matrix.sub_apply, map_apply, h.a, Matrix.smul_apply, Matrix.one_apply]
      congr 3
      simp [Fin.ext_iff]
    · simp only [g, f, Sum.elim_inl, Sum.elim_inr, fromBlocks_apply₁₁, fromBlocks_apply₁₂, sysPencil, map_apply, h.b]
    · rfl
    · simp only [g, f, Sum.elim_inl, Sum.elim_inr, fromBlocks_apply₁₁, sysPencil, fromBlocks_apply₂₁, map_apply]
      by_cases hk : ν + (i : ℕ) < n
      · rw [dif_pos hk, fromBlocks_apply₁₁, h.c1 i j hk, Matrix.sub_apply, map_apply, Matrix.smul_apply, Matrix.one_apply_ne, smul_zero, sub_zero]
        intro he
        have := congrArg Fin.val he
        simp at this
        omega
      · rw [dif_neg hk, fromBlocks_apply₂₁, h.c2 i j (by omega), map_apply]
    · simp only [g, f, Sum.elim_inl, Sum.elim_inr, fromBlocks_apply₁₁, sysPencil, fromBlocks_apply₂₂, map_apply]
      by_cases hk : ν + (i : ℕ) < n
      · rw [dif_pos hk, fromBlocks_apply₁₂, h.d1 i j hk, map_apply]
      · rw [dif_neg hk, fromBlocks_apply₂₂, h.d2 i j (by omega), map_apply]
    · rfl
    · simp only [g, f, Sum.elim_inl, Sum.elim_inr, fromBlocks_apply₂₁, map_apply, Matrix.zero_apply]
      rw [h.c0 _ _ (by simp) (by simp), Complex.ofReal_zero]
    · simp only [g, f, Sum.elim_inl, Sum.elim_inr, fromBlocks_apply₂₁, fromBlocks_apply₂₂, map_apply, Matrix.zero_apply]
      rw [h.d0 _ _ (by simp), Complex.ofReal_zero]
    · simp only [g, f, T, Sum.elim_inr, fromBlocks_apply₂₁, fromBlocks_apply₂₂, map_apply, Matrix.of_apply]
  set w := (fromBlocks ((Qᵀ).map Complex.ofReal) 0 0 ((Uᵀ).map Complex.ofReal) : Matrix (Fin n ⊕ Fin m) (Fin n ⊕ Fin m) ℂ).det
  set l := (fromBlocks (Q.map Complex.ofReal) 0 0 1 : Matrix (Fin n ⊕ Fin m) (Fin n ⊕ Fin m) ℂ).det
  have key : ∀ s, (sysPencil A' B' C' D' s).det * (T.map Complex.ofReal).det = c * (w * (sysPencil A B C D s).det * l) := by
    intro s
    obtain ⟨Y, hY⟩ := hblk s
    rw [← det_fromBlocks_zero₂₁ _ Y, ← hY, hc, ← sysPencil_coords h.q, det_mul, det_mul]
  -- the block `T` is nonsingular
  have hT : T.det ≠ 0 := by
    intro h0
    obtain ⟨y, hy0, hy⟩ := exists_mulVec_eq_zero_iff.mpr h0
    apply hy0
    let y' : Fin n → ℝ := fun j => if hj : ν ≤ (j : ℕ) then y ⟨j - ν, by omega⟩ else 0
    have : y' = 0 := by
      refine h.inj y' (fun j hj => dif_neg (by omega)) fun i hi => ?_
      have hrow := congrFun hy ⟨i - σ, by omega⟩
      rw [mulVec_sum, Pi.zero_apply] at hrow
      rw [mulVec_sum, ← hrow]
      symm
      refine Finset.sum_bij_ne_zero (fun k _ _ => (⟨ν + k, by omega⟩ : Fin n)) (fun _ _ _ => Finset.mem_univ _) ?_ ?_ ?_
      · intro a _ _ b _ _ hab
        have := congrArg Fin.val hab
        exact Fin.ext (by simp only at this; omega)
      · intro j _ hj
        have hν : ν ≤ (j : ℕ) := by
          by_contra hlt
          exact hj (by simp only [y', dif_neg hlt, mul_zero])
        refine ⟨⟨j - ν, by omega⟩, Finset.mem_univ _, ?_, Fin.ext (by simp only; omega)⟩
        have e1 : (⟨σ + (i - σ), by omega⟩ : Fin m) = i := Fin.ext (by simp only; omega)
        have e2 : (⟨ν + (j - ν), by omega⟩ : Fin n) = j := Fin.ext (by simp only; omega)
        simp only [T, Matrix.of_apply, e1, e2]
        simpa only [y', dif_pos hν] using hj
      · intro k _ _
        have e1 : (⟨σ + (i - σ), by omega⟩ : Fin m) = i := Fin.ext (by simp only; omega)
        have e3 : (⟨ν + k - ν, by omega⟩ : Fin (n - ν)) = k := Fin.ext (by simp only; omega)
        simp only [T, Matrix.of_apply, e1, y', dif_pos (show ν ≤ ν + (k : ℕ) by omega), e3]
    ext k
    have := congrFun this ⟨ν + k, by omega⟩
    have e3 : (⟨ν + k - ν, by omega⟩ : Fin (n - ν)) = k := Fin.ext (by simp only; omega)
    simpa only [y', dif_pos (show ν ≤ ν + (k : ℕ) by omega), e3, Pi.zero_apply] using this
  have hTC : (T.map Complex.ofReal).det ≠ 0 := by
    have e : (T.map Complex.ofReal).det = ((T.det : ℝ) : ℂ) := ((Complex.ofRealHom).map_det T).symm
    rw [e]
    exact_mod_cast hT
  obtain ⟨s₀, hs₀⟩ := hne
  have hs₀' : (sysPencil A' B' C' D' s₀).det ≠ 0 := by
    intro h0
    obtain ⟨z, hz0, hz⟩ := exists_mulVec_eq_zero_iff.mpr h0
    have h1 := (h.ker_iff s₀ (z ∘ Sum.inl) (z ∘ Sum.inr)).mp (by rw [Sum.elim_comp_inl_inr]; exact hz)
    have h2 : deflMap Q ν m z = 0 := eq_zero_of_mulVec_eq_zero hs₀ h1
    exact hz0 (deflMap_injective h.q hle (h2.trans (map_zero _).symm))
  have hcwl : c * (w * l) ≠ 0 := by
    intro h0
    have := key s₀
    have e : c * (w * (sysPencil A B C D s₀).det * l) = c * (w * l) * (sysPencil A B C D s₀).det := by ring
    rw [e, h0, zero_mul] at this
    exact mul_ne_zero hs₀' hTC this
  refine ⟨(T.map Complex.ofReal).det / (c * (w * l)), div_ne_zero hTC hcwl, fun s => ?_⟩
  rw [div_mul_eq_mul_div, eq_div_iff hcwl]
  linear_combination -key s

end

end Harold
