import Verif.Lemmas.TransZerosLoop

/-!
# `transmission_zeros` as a whole
-/

namespace Harold

open Matrix Spec

variable {n m p : ℕ} {A : Matrix (Fin n) (Fin n) ℝ} {B : Matrix (Fin n) (Fin m) ℝ} {C : Matrix (Fin p) (Fin n) ℝ} {D : Matrix (Fin p) (Fin m) ℝ}

/-- Inclusions of kernels of real matrices carry over to complex vectors. -/
theorem ker_complex {q : ℕ} {B : Matrix (Fin q) (Fin m) ℝ} (h : ∀ v, D *ᵥ v = 0 → B *ᵥ v = 0) (v : Fin m → ℂ) (hv : D.map Complex.ofReal *ᵥ v = 0) :
    B.map Complex.ofReal *ᵥ v = 0 := by
  have hr := h (fun j => (v j).re) (funext fun i => by rw [← map_mulVec_re, hv]; rfl)
  have hi := h (fun j => (v j).im) (funext fun i => by rw [← map_mulVec_im, hv]; rfl)
  ext i
  refine Complex.ext ?_ ?_
  · rw [map_mulVec_re, hr]; rfl
  · rw [map_mulVec_im, hi]; rfl

section feedback
variable {K : Matrix (Fin m) (Fin n) ℝ}

/-- The kernel of the pencil if `D K = -C`. -/
theorem ker_feedback (hDK : D * K = -C) (hB : ∀ v, D *ᵥ v = 0 → B *ᵥ v = 0) (s : ℂ) (z : Fin n ⊕ Fin m → ℂ) :
    sysPencil A B C D s *ᵥ z = 0 ↔ ((A + B * K).map Complex.ofReal - s • 1) *ᵥ (z ∘ Sum.inl) = 0 ∧
      D.map Complex.ofReal *ᵥ (z ∘ Sum.inr - K.map Complex.ofReal *ᵥ (z ∘ Sum.inl)) = 0 := by
  rw [sysPencil_ker]
  have hDK' : C.map Complex.ofReal = -(D.map Complex.ofReal * K.map Complex.ofReal) := by
    rw [← map_mulC, hDK]
    ext i j
    simp
  have hA : (A + B * K).map Complex.ofReal = A.map Complex.ofReal + B.map Complex.ofReal * K.map Complex.ofReal := by
    rw [← map_mulC]
    ext i j
    simp
  set x := z ∘ Sum.inl
  set u := z ∘ Sum.inr
  have e2 : (C.map Complex.ofReal *ᵥ x + D.map Complex.ofReal *ᵥ u = 0) ↔ D.map Complex.ofReal *ᵥ (u - K.map Complex.ofReal *ᵥ x) = 0 := by
    rw [hDK', neg_mulVec, mulVec_sub, mulVec_mulVec, neg_add_eq_sub]
  rw [e2, hA, sub_mulVec, add_mulVec, smul_mulVec, one_mulVec, sub_eq_zero, ← mulVec_mulVec]
  constructor
  · rintro ⟨h1, h2⟩
    refine ⟨?_, h2⟩
    have h3 := ker_complex hB _ h2
    rw [mulVec_sub, sub_eq_zero] at h3
    rw [← h3]
    exact h1
  · rintro ⟨h1, h2⟩
    refine ⟨?_, h2⟩
    have h3 := ker_complex hB _ h2
    rw [mulVec_sub, sub_eq_zero] at h3
    rw [h3]
    exact h1

theorem exists_det_ne (M : Matrix (Fin n) (Fin n) ℂ) : ∃ s : ℂ, (M - s • 1).det ≠ 0 := by
  have h0 : (M.charpoly) ≠ 0 := (charpoly_monic M).ne_zero
  obtain ⟨s, hs⟩ := Infinite.exists_notMem_finset M.charpoly.roots.toFinset
  refine ⟨s, fun h => hs ?_⟩
  rw [Multiset.mem_toFinset, Polynomial.mem_roots h0, Polynomial.IsRoot.def, eval_charpoly]
  have e : scalar (Fin n) s - M = -(M - s • 1) := by
    rw [neg_sub]
    congr 1
    exact (smul_one_eq_diagonal s).symm
  rw [e, det_neg, h, mul_zero]

/-- The zeros are the eigenvalues of `A + B K` if `D K = -C` and the kernel of `D` is in the kernel of `B`. -/
theorem zero_iff_feedback (hDK : D * K = -C) (hB : ∀ v, D *ᵥ v = 0 → B *ᵥ v = 0) (s : ℂ) :
    InvariantZero A B C D s ↔ ((A + B * K).map Complex.ofReal - s • 1).det = 0 := by
  have hsub : ∀ s s' : ℂ, ((A + B * K).map Complex.ofReal - s • 1).det ≠ 0 →
      LinearMap.ker (sysPencil A B C D s).mulVecLin ≤ LinearMap.ker (sysPencil A B C D s').mulVecLin := by
    intro s s' hs z hz
    rw [LinearMap.mem_ker, mulVecLin_apply, ker_feedback hDK hB] at hz ⊢
    have h0 : z ∘ Sum.inl = 0 := by
      by_contra hne
      exact hs (exists_mulVec_eq_zero_iff.mp ⟨_, hne, hz.1⟩)
    refine ⟨by rw [h0, mulVec_zero], hz.2⟩
  constructor
  · rintro ⟨s', h⟩
    by_contra hne
    have h1 := Submodule.finrank_mono (hsub s s' hne)
    have h2 := finrank_ker_mulVec (sysPencil A B C D s)
    have h3 := finrank_ker_mulVec (sysPencil A B C D s')
    omega
  · intro h
    obtain ⟨s', hs'⟩ := exists_det_ne ((A + B * K).map Complex.ofReal)
    refine ⟨s', ?_⟩
    obtain ⟨x, hx0, hx⟩ := exists_mulVec_eq_zero_iff.mpr h
    have hlt : LinearMap.ker (sysPencil A B C D s').mulVecLin < LinearMap.ker (sysPencil A B C D s).mulVecLin := by
      refine lt_of_le_of_ne (hsub s' s hs') fun heq => ?_
      have hm : Sum.elim x (K.map Complex.ofReal *ᵥ x) ∈ LinearMap.ker (sysPencil A B C D s).mulVecLin := by
        rw [LinearMap.mem_ker, mulVecLin_apply, ker_feedback hDK hB]
        simp only [Sum.elim_comp_inl, Sum.elim_comp_inr, sub_self, mulVec_zero, and_true]
        exact hx
      rw [← heq, LinearMap.mem_ker, mulVecLin_apply, ker_feedback hDK hB] at hm
      simp only [Sum.elim_comp_inl] at hm
      exact hs' (exists_mulVec_eq_zero_iff.mp ⟨x, hx0, hm.1⟩)
    have h1 := Submodule.finrank_lt_finrank_of_lt hlt
    have h2 := finrank_ker_mulVec (sysPencil A B C D s)
    have h3 := finrank_ker_mulVec (sysPencil A B C D s')
    omega

/-- The determinant of the pencil if `D K = -C`. -/
theorem pencilDet_feedback (hDK : D * K = -C) : ∃ k : ℂ, ∀ s, pencilDet A B C D s = k * ((A + B * K).map Complex.ofReal - s • 1).det := by
  by_cases h : p = m
  · subst h
    refine ⟨(D.map Complex.ofReal).det, fun s => ?_⟩
    rw [pencilDet_square]
    have e : sysPencil A B C D s * fromBlocks 1 0 (K.map Complex.ofReal) 1 =
        fromBlocks ((A + B * K).map Complex.ofReal - s • 1) (B.map Complex.ofReal) 0 (D.map Complex.ofReal) := by
      unfold sysPencil
      rw [fromBlocks_multiply]
      congr 1
      · rw [Matrix.mul_one, ← map_mulC]
        ext i j
        simp only [Matrix.add_apply, Matrix.sub_apply, map_apply, Complex.ofReal_add]
        ring
      · rw [Matrix.mul_zero, Matrix.mul_one, zero_add]
      · rw [Matrix.mul_one, ← map_mulC, hDK]
        ext i j
        simp
      · rw [Matrix.mul_zero, Matrix.mul_one, zero_add]
    have h1 := congrArg Matrix.det e
    rw [det_mul, det_fromBlocks_zero₁₂, det_one, det_one, mul_one, mul_one, det_fromBlocks_zero₂₁] at h1
    rw [h1, mul_comm]
  · exact ⟨0, fun s => by rw [zero_mul]; exact dif_neg h⟩

end feedback

/-- The pencil of a model without states does not depend on `s`. -/
theorem sysPencil_empty {A : Matrix (Fin 0) (Fin 0) ℝ} {B : Matrix (Fin 0) (Fin m) ℝ} {C : Matrix (Fin p) (Fin 0) ℝ} {D : Matrix (Fin p) (Fin m) ℝ} (s s' : ℂ) :
    sysPencil A B C D s = sysPencil A B C D s' := by
  unfold sysPencil
  congr 1
  exact Matrix.ext fun i => i.elim0

theorem rank_lt_of_ker (hB : ∀ v, D *ᵥ v = 0 → B *ᵥ v = 0) {u : Fin m → ℝ} (hu : u ≠ 0) (hD : D *ᵥ u = 0) (s : ℂ) :
    (sysPencil A B C D s).rank < n + m := by
  have hre : ∀ {q : ℕ} (M : Matrix (Fin q) (Fin m) ℝ), M *ᵥ u = 0 → M.map Complex.ofReal *ᵥ (fun i => (u i : ℂ)) = 0 := by
    intro q M hM
    ext i
    refine Complex.ext ?_ ?_
    · rw [map_mulVec_re]
      simpa using congrFun hM i
    · rw [map_mulVec_im]
      have : (fun j => ((u j : ℂ)).im) = 0 := funext fun j => Complex.ofReal_im _
      rw [this, mulVec_zero]
      rfl
  have hmem : (Sum.elim 0 (fun i => (u i : ℂ)) : Fin n ⊕ Fin m → ℂ) ∈ LinearMap.ker (sysPencil A B C D s).mulVecLin := by
    rw [LinearMap.mem_ker, mulVecLin_apply, sysPencil_ker]
    simp only [Sum.elim_comp_inl, Sum.elim_comp_inr, mulVec_zero, zero_add, smul_zero]
    exact ⟨hre B (hB u hD), hre D hD⟩
  have hpos : 0 < Module.finrank ℂ (LinearMap.ker (sysPencil A B C D s).mulVecLin) := by
    rw [Module.finrank_pos_iff]
    refine ⟨⟨_, hmem⟩, 0, fun h => hu ?_⟩
    ext i
    have : ((u i : ℝ) : ℂ) = 0 := congrFun (congrArg Subtype.val h) (Sum.inr i)
    exact_mod_cast this
  have h2 := finrank_ker_mulVec (sysPencil A B C D s)
  simp only [Fintype.card_sum, Fintype.card_fin] at h2
  omega

/-- The outcome of the computation for the model `A, B, C, D`: either `inf` is in the list and the pencil has dependent columns at every `s`, or all values
are finite, they are the zeros, and for as many inputs as outputs they are counted with multiplicity. -/
def TzResult (A : Matrix (Fin n) (Fin n) ℝ) (B : Matrix (Fin n) (Fin m) ℝ) (C : Matrix (Fin p) (Fin n) ℝ) (D : Matrix (Fin p) (Fin m) ℝ)
    (z : List (Option ℂ)) : Prop :=
  (none ∈ z ∧ ∀ s, (sysPencil A B C D s).rank < n + m) ∨
    ∃ zs : List ℂ, z = zs.map some ∧ (∀ s, InvariantZero A B C D s ↔ s ∈ zs) ∧
      ∃ k : ℂ, ∀ s, pencilDet A B C D s = k * (zs.map fun x => x - s).prod

theorem tzResult_empty {A : Matrix (Fin 0) (Fin 0) ℝ} {B : Matrix (Fin 0) (Fin m) ℝ} {C : Matrix (Fin p) (Fin 0) ℝ} {D : Matrix (Fin p) (Fin m) ℝ} :
    TzResult A B C D [] := by
  refine Or.inr ⟨[], rfl, fun s => ⟨?_, fun h => absurd h List.not_mem_nil⟩, pencilDet A B C D 0, fun s => ?_⟩
  · rintro ⟨s', h⟩
    rw [sysPencil_empty s s'] at h
    exact absurd h (lt_irrefl _)
  · simp only [List.map_nil, List.prod_nil, mul_one]
    unfold pencilDet
    rw [sysPencil_empty s 0]

theorem tzEnd_spec {N : TzNum} (hN : TzExact N) (hw : ∀ w, w ᵥ* D = 0 → w ᵥ* C = 0) (hB : ∀ v, D *ᵥ v = 0 → B *ᵥ v = 0) :
    ∃ z, tzEnd N (some ⟨Arr.of A, Arr.of B, Arr.of C, Arr.of D⟩) = .ok z ∧ TzResult A B C D z := by
  unfold tzEnd
  simp only [Arr.of_r, Arr.of_c]
  by_cases h0 : n * n = 0
  · obtain rfl : n = 0 := by simpa using h0
    rw [if_pos rfl]
    exact ⟨[], rfl, tzResult_empty⟩
  · rw [if_neg h0]
    obtain ⟨z, h1, h2⟩ := tzFinal_spec (A := A) (B := B) hN hw
    refine ⟨z, h1, ?_⟩
    rcases h2 with ⟨hz, u, hu, hD⟩ | ⟨zs, K, rfl, hDK, hdet⟩
    · exact Or.inl ⟨hz, fun s => rank_lt_of_ker hB hu hD s⟩
    · refine Or.inr ⟨zs, rfl, fun s => ?_, ?_⟩
      · rw [zero_iff_feedback hDK hB, hdet, List.prod_eq_zero_iff, List.mem_map]
        constructor
        · rintro ⟨x, hx, hx0⟩
          rw [← sub_eq_zero.mp hx0]
          exact hx
        · intro hs
          exact ⟨s, hs, sub_self s⟩
      · obtain ⟨k, hk⟩ := pencilDet_feedback (A := A) (B := B) hDK
        exact ⟨k, fun s => by rw [hk, hdet]⟩

/-- Transport of the outcome. -/
theorem TzResult.transport {n' m' p' : ℕ} {A' : Matrix (Fin n') (Fin n') ℝ} {B' : Matrix (Fin n') (Fin m') ℝ} {C' : Matrix (Fin p') (Fin n') ℝ}
    {D' : Matrix (Fin p') (Fin m') ℝ} {z : List (Option ℂ)} (hn : n' ≤ n) (hm : m' ≤ m)
    (hrank : ∀ s, (sysPencil A B C D s).rank = (sysPencil A' B' C' D' s).rank + (n - n'))
    (hdet : (∃ s, pencilDet A B C D s ≠ 0) → ∃ k : ℂ, k ≠ 0 ∧ ∀ s, pencilDet A B C D s = k * pencilDet A' B' C' D' s)
    (h : TzResult A' B' C' D' z) : TzResult A B C D z := by
  rcases h with ⟨h1, h2⟩ | ⟨zs, rfl, h1, k, h2⟩
  · refine Or.inl ⟨h1, fun s => ?_⟩
    have := h2 s
    rw [hrank s]
    omega
  · refine Or.inr ⟨zs, rfl, fun s => ?_, ?_⟩
    · rw [← h1]
      unfold InvariantZero
      refine exists_congr fun s' => ?_
      rw [hrank s, hrank s']
      omega
    · by_cases hex : ∃ s, pencilDet A B C D s ≠ 0
      · obtain ⟨k', -, hk'⟩ := hdet hex
        exact ⟨k' * k, fun s => by rw [hk', h2, mul_assoc]⟩
      · push Not at hex
        exact ⟨0, fun s => by rw [hex, zero_mul]⟩

theorem Deflated.result {ν p' : ℕ} {A' : Matrix (Fin ν) (Fin ν) ℝ} {B' : Matrix (Fin ν) (Fin m) ℝ} {C' : Matrix (Fin p') (Fin ν) ℝ} {D' : Matrix (Fin p') (Fin m) ℝ}
    (h : Deflated A B C D A' B' C' D') {z : List (Option ℂ)} (hz : TzResult A' B' C' D' z) : TzResult A B C D z :=
  hz.transport h.le le_rfl h.rank h.det

theorem Deflated.result_dual {ν p' : ℕ} {A' : Matrix (Fin ν) (Fin ν) ℝ} {B' : Matrix (Fin ν) (Fin p) ℝ} {C' : Matrix (Fin p') (Fin ν) ℝ} {D' : Matrix (Fin p') (Fin p) ℝ}
    (h : Deflated Aᵀ Cᵀ Bᵀ Dᵀ A' B' C' D') {z : List (Option ℂ)} (hz : TzResult A'ᵀ C'ᵀ B'ᵀ D'ᵀ z) : TzResult A B C D z := by
  refine hz.transport h.le h.ple (fun s => ?_) fun hex => ?_
  · rw [rank_dual, ← rank_dual A B C D, h.rank s]
  · obtain ⟨k, hk, hs⟩ := h.det (by simpa only [pencilDet_dual] using hex)
    refine ⟨k, hk, fun s => ?_⟩
    rw [pencilDet_dual, ← pencilDet_dual A B C D, hs]

theorem rank_le_of_zero (hC : C = 0) (hD : D = 0) (s : ℂ) : (sysPencil A B C D s).rank ≤ n := by
  have e : sysPencil A B C D s = fromRows 1 0 * fromCols (A.map Complex.ofReal - s • 1) (B.map Complex.ofReal) := by
    rw [fromRows_mul_fromCols]
    unfold sysPencil
    rw [hC, hD]
    simp
  rw [e]
  refine (rank_mul_le_left _ _).trans ((rank_le_card_width _).trans ?_)
  simp

theorem tzAfter_spec {N : TzNum} (hN : TzExact N) (hw : ∀ w, w ᵥ* D = 0 → w ᵥ* C = 0) (hr : ∃ μ, n < (sysPencil A B C D μ).rank) :
    ∃ z, tzAfter N (some ⟨Arr.of A, Arr.of B, Arr.of C, Arr.of D⟩) = .ok z ∧ TzResult A B C D z := by
  unfold tzAfter
  simp only [Arr.of_r, Arr.of_c]
  by_cases h0 : n * n = 0
  · obtain rfl : n = 0 := by simpa using h0
    rw [if_pos rfl]
    exact ⟨[], rfl, tzResult_empty⟩
  rw [if_neg h0]
  unfold tzDual
  simp only [Arr.hstack_of, bind, Except.bind, Arr.of_r, Arr.of_c]
  have hcond : (Arr.of (hcat C D)).any = true ∨ p ≠ m := by
    by_contra hno
    push Not at hno
    obtain ⟨h1, -⟩ := hno
    have h1 : ∀ i j, hcat C D i j = 0 := by
      intro i j
      by_contra hne
      exact h1 ((Arr.any_iff _).mpr ⟨i, j, hne⟩)
    have hC : C = 0 := by
      ext i j
      simpa [hcat] using h1 i (Fin.castAdd m j)
    have hD : D = 0 := by
      ext i j
      simpa [hcat] using h1 i (Fin.natAdd n j)
    obtain ⟨μ, hμ⟩ := hr
    have := rank_le_of_zero (A := A) (B := B) hC hD μ
    omega
  rw [if_pos hcond]
  unfold Quad.dual
  simp only [Arr.T_of]
  obtain ⟨ν, p', A', B', C', D', h1, h2, h3⟩ := tzReduce_spec hN Aᵀ Cᵀ Bᵀ Dᵀ
  rcases h3 with ⟨h3, rfl⟩ | h3
  · simp only [h3, Option.map, tzEnd]
    exact ⟨[], rfl, h1.result_dual tzResult_empty⟩
  · simp only [h3, Option.map, Quad.dual, Arr.T_of]
    obtain ⟨z, h4, h5⟩ := tzEnd_spec (A := A'ᵀ) (B := C'ᵀ) (C := B'ᵀ) (D := D'ᵀ) hN
      (fun w h => by
        rw [vecMul_transpose] at h ⊢
        exact h1.ker (fun v hv => by
          rw [mulVec_transpose] at hv ⊢
          exact hw v hv) w h)
      (fun v h => by
        rw [mulVec_transpose] at h ⊢
        exact h2 v h)
    exact ⟨z, h4, h1.result_dual h5⟩

theorem matrixRank_of {N : TzNum} (hN : TzExact N) : matrixRank N.svd (Arr.of D) = D.rank := by
  obtain ⟨u, sv, v, h1, h2⟩ := hN.svd D
  unfold matrixRank
  simp only [h1, Arr.of_r, Arr.of_c]
  have h4 : rankTol N.svd.eps p m sv = 0 := by unfold rankTol; rw [hN.eps, mul_zero]
  have := countAbove_eq_rank (S := N.svd) (le_of_eq hN.eps.symm) h2 (fun t ht h0 => by
    rw [h4]
    exact lt_of_le_of_ne (h2.nonneg t ht) (Ne.symm h0))
  exact this

theorem left_ker_of_rank (h : D.rank = p) (w : Fin p → ℝ) (hw : w ᵥ* D = 0) : w = 0 := by
  have h1 := LinearMap.finrank_range_add_finrank_ker (Dᵀ).mulVecLin
  have h2 : Module.finrank ℝ (LinearMap.range (Dᵀ).mulVecLin) = p := by
    have := rank_transpose D
    rw [h] at this
    exact this
  rw [Module.finrank_fintype_fun_eq_card, Fintype.card_fin, h2] at h1
  have h3 : LinearMap.ker (Dᵀ).mulVecLin = ⊥ := Submodule.finrank_eq_zero.mp (by omega)
  have h4 : w ∈ LinearMap.ker (Dᵀ).mulVecLin := by
    rw [LinearMap.mem_ker, mulVecLin_apply, mulVec_transpose]
    exact hw
  rw [h3] at h4
  exact h4

/-- What `transmission_zeros` computes. -/
theorem transmissionZeros_spec {N : TzNum} (hN : TzExact N) (hB : B ≠ 0) (hC : C ≠ 0) (hr : ∃ μ, n < (sysPencil A B C D μ).rank) :
    ∃ z, transmissionZeros N ⟨Arr.of A, Arr.of B, Arr.of C, Arr.of D⟩ = .ok z ∧ TzResult A B C D z := by
  have hany : ∀ {r c : ℕ} {M : Matrix (Fin r) (Fin c) ℝ}, M ≠ 0 → ¬ (Arr.of M).any = false := by
    intro r c M hM hf
    refine hM (Matrix.ext fun i j => ?_)
    by_contra hne
    rw [(Arr.any_iff (Arr.of M)).mpr ⟨i, j, hne⟩] at hf
    cases hf
  unfold transmissionZeros
  simp only [Arr.of_r, Arr.of_c, matrixRank_of hN]
  rw [if_neg (not_or.mpr ⟨hany hB, hany hC⟩)]
  by_cases h1 : (p = 1 ∧ m = 1 ∧ 0 < D.rank) ∨ (D.rank = min p m ∧ p = m)
  · rw [if_pos h1]
    have hpm : p = m ∧ D.rank = p := by
      rcases h1 with ⟨rfl, rfl, h⟩ | ⟨h, rfl⟩
      · exact ⟨rfl, le_antisymm (rank_le_height D) h⟩
      · exact ⟨rfl, by rw [h, min_self]⟩
    obtain ⟨rfl, hrk⟩ := hpm
    refine tzEnd_spec hN (fun w h => ?_) fun v h => ?_
    · rw [left_ker_of_rank hrk w h, zero_vecMul]
    · rw [left_ker_of_rank (D := Dᵀ) (by rw [rank_transpose, hrk]) v (by rw [vecMul_transpose, h]), mulVec_zero]
  · rw [if_neg h1]
    unfold tzFirst
    simp only [Arr.of_r, matrixRank_of hN]
    by_cases h2 : D.rank = p
    · rw [if_pos h2]
      simp only [bind, Except.bind]
      exact tzAfter_spec hN (fun w h => by rw [left_ker_of_rank h2 w h, zero_vecMul]) hr
    · rw [if_neg h2]
      obtain ⟨ν, p', A', B', C', D', h3, h4, h5⟩ := tzReduce_spec hN A B C D
      rcases h5 with ⟨h5, rfl⟩ | h5
      · simp only [h5, bind, Except.bind, tzAfter]
        exact ⟨[], rfl, h3.result tzResult_empty⟩
      · simp only [h5, bind, Except.bind]
        obtain ⟨μ, hμ⟩ := hr
        have hle := h3.le
        obtain ⟨z, h6, h7⟩ := tzAfter_spec (A := A') (B := B') hN h4 ⟨μ, by have := h3.rank μ; omega⟩
        exact ⟨z, h6, h3.result h7⟩

end Harold
