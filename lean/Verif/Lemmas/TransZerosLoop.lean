import Verif.Lemmas.TransZerosDet
import Verif.Lemmas.TransZerosStep

/-!
# The deflation loop and the final eigenvalue problem
-/

namespace Harold

open Matrix Spec

variable {n m p ν p' : ℕ}

/-- The determinant of the system pencil of a model with as many inputs as outputs, `0` for others. -/
noncomputable def pencilDet (A : Matrix (Fin n) (Fin n) ℝ) (B : Matrix (Fin n) (Fin m) ℝ) (C : Matrix (Fin p) (Fin n) ℝ) (D : Matrix (Fin p) (Fin m) ℝ) (s : ℂ) : ℂ :=
  if h : p = m then ((sysPencil A B C D s).submatrix id (Sum.map id (Fin.cast h))).det else 0

theorem pencilDet_square (A : Matrix (Fin n) (Fin n) ℝ) (B : Matrix (Fin n) (Fin m) ℝ) (C : Matrix (Fin m) (Fin n) ℝ) (D : Matrix (Fin m) (Fin m) ℝ) (s : ℂ) :
    pencilDet A B C D s = (sysPencil A B C D s).det := by
  unfold pencilDet
  rw [dif_pos rfl]
  congr 1
  ext i j
  rcases j with j | j <;> rfl

theorem sysPencil_dual (A : Matrix (Fin n) (Fin n) ℝ) (B : Matrix (Fin n) (Fin m) ℝ) (C : Matrix (Fin p) (Fin n) ℝ) (D : Matrix (Fin p) (Fin m) ℝ) (s : ℂ) :
    sysPencil Aᵀ Cᵀ Bᵀ Dᵀ s = (sysPencil A B C D s)ᵀ := by
  unfold sysPencil
  rw [fromBlocks_transpose]
  congr 1
  rw [transpose_sub, transpose_smul, transpose_one]
  rfl

theorem rank_dual (A : Matrix (Fin n) (Fin n) ℝ) (B : Matrix (Fin n) (Fin m) ℝ) (C : Matrix (Fin p) (Fin n) ℝ) (D : Matrix (Fin p) (Fin m) ℝ) (s : ℂ) :
    (sysPencil Aᵀ Cᵀ Bᵀ Dᵀ s).rank = (sysPencil A B C D s).rank := by
  rw [sysPencil_dual, rank_transpose]

theorem pencilDet_dual (A : Matrix (Fin n) (Fin n) ℝ) (B : Matrix (Fin n) (Fin m) ℝ) (C : Matrix (Fin p) (Fin n) ℝ) (D : Matrix (Fin p) (Fin m) ℝ) (s : ℂ) :
    pencilDet Aᵀ Cᵀ Bᵀ Dᵀ s = pencilDet A B C D s := by
  by_cases h : p = m
  · subst h
    rw [pencilDet_square, pencilDet_square, sysPencil_dual, det_transpose]
  · unfold pencilDet
    rw [dif_neg h, dif_neg (Ne.symm h)]

/-- What is kept by deflation steps. -/
structure Deflated (A : Matrix (Fin n) (Fin n) ℝ) (B : Matrix (Fin n) (Fin m) ℝ) (C : Matrix (Fin p) (Fin n) ℝ) (D : Matrix (Fin p) (Fin m) ℝ)
    (A' : Matrix (Fin ν) (Fin ν) ℝ) (B' : Matrix (Fin ν) (Fin m) ℝ) (C' : Matrix (Fin p') (Fin ν) ℝ) (D' : Matrix (Fin p') (Fin m) ℝ) : Prop where
  le : ν ≤ n
  ple : p' ≤ p
  rank : ∀ s, (sysPencil A B C D s).rank = (sysPencil A' B' C' D' s).rank + (n - ν)
  ker : (∀ v, D *ᵥ v = 0 → B *ᵥ v = 0) → ∀ v, D' *ᵥ v = 0 → B' *ᵥ v = 0
  det : (∃ s, pencilDet A B C D s ≠ 0) → ∃ k : ℂ, k ≠ 0 ∧ ∀ s, pencilDet A B C D s = k * pencilDet A' B' C' D' s

section
variable {A : Matrix (Fin n) (Fin n) ℝ} {B : Matrix (Fin n) (Fin m) ℝ} {C : Matrix (Fin p) (Fin n) ℝ} {D : Matrix (Fin p) (Fin m) ℝ}
  {A' : Matrix (Fin ν) (Fin ν) ℝ} {B' : Matrix (Fin ν) (Fin m) ℝ} {C' : Matrix (Fin p') (Fin ν) ℝ} {D' : Matrix (Fin p') (Fin m) ℝ}
  {Q : Matrix (Fin n) (Fin n) ℝ} {U : Matrix (Fin p) (Fin p) ℝ} {σ : ℕ}

theorem Deflated.refl (A : Matrix (Fin n) (Fin n) ℝ) (B : Matrix (Fin n) (Fin m) ℝ) (C : Matrix (Fin p) (Fin n) ℝ) (D : Matrix (Fin p) (Fin m) ℝ) :
    Deflated A B C D A B C D where
  le := le_refl _
  ple := le_refl _
  rank s := by rw [Nat.sub_self, Nat.add_zero]
  ker h := h
  det _ := ⟨1, one_ne_zero, fun s => (one_mul _).symm⟩

theorem Deflated.trans {n' q : ℕ} {A₂ : Matrix (Fin n') (Fin n') ℝ} {B₂ : Matrix (Fin n') (Fin m) ℝ} {C₂ : Matrix (Fin q) (Fin n') ℝ} {D₂ : Matrix (Fin q) (Fin m) ℝ}
    (h : Deflated A B C D A' B' C' D') (h' : Deflated A' B' C' D' A₂ B₂ C₂ D₂) : Deflated A B C D A₂ B₂ C₂ D₂ where
  le := h'.le.trans h.le
  ple := h'.ple.trans h.ple
  rank s := by
    have := h.le
    have := h'.le
    rw [h.rank s, h'.rank s]
    omega
  ker hk := h'.ker (h.ker hk)
  det hd := by
    obtain ⟨k, hk, h1⟩ := h.det hd
    obtain ⟨s, hs⟩ := hd
    obtain ⟨k', hk', h2⟩ := h'.det ⟨s, fun h0 => hs (by rw [h1, h0, mul_zero])⟩
    exact ⟨k * k', mul_ne_zero hk hk', fun s => by rw [h1, h2, mul_assoc]⟩

theorem DeflStep.deflated (h : DeflStep A B C D A' B' C' D' Q U σ) (hp : p' ≤ p) : Deflated A B C D A' B' C' D' where
  le := h.le
  ple := hp
  rank := h.rank
  ker hk v hv := by
    have hcard := h.card
    have hle := h.le
    have h1 : (Uᵀ * D) *ᵥ v = 0 := by
      ext i
      by_cases hi : (i : ℕ) < σ
      · have h2 := congrFun hv ⟨i + n - ν, by omega⟩
        have h3 : (⟨ν + (i + n - ν) - n, by have := h.σle; omega⟩ : Fin p) = i := Fin.ext (by simp only; omega)
        refine Eq.trans ?_ h2
        refine mulVec_row_eq (fun j => ?_) v
        rw [h.d2 _ j (by simp only; omega)]
        exact congrArg (fun k => (Uᵀ * D) k j) h3.symm
      · exact mulVec_row_zero (fun j => h.d0 i j (by omega)) v
    have h2 : D *ᵥ v = 0 := by
      have h3 := congrArg (fun x => U *ᵥ x) h1
      simpa only [mulVec_mulVec, ← Matrix.mul_assoc, mul_eq_one_comm.mp h.u, Matrix.one_mul, mulVec_zero] using h3
    have h3 := hk v h2
    ext i
    have h4 : (B' *ᵥ v) i = ((Qᵀ * B) *ᵥ v) (i.castLE h.le) := mulVec_row_eq (fun j => h.b i j) v
    rw [h4, ← mulVec_mulVec, h3, mulVec_zero]
    rfl
  det hd := by
    obtain ⟨s₀, hs₀⟩ := hd
    have hpm : p = m := by
      by_contra hne
      exact hs₀ (dif_neg hne)
    subst hpm
    rw [pencilDet_square] at hs₀
    have hr : (sysPencil A B C D s₀).rank = n + p := by
      have := rank_of_det_ne_zero hs₀
      simpa using this
    have hr' := h.rank s₀
    have hle' : (sysPencil A' B' C' D' s₀).rank ≤ ν + p' := by
      have := rank_le_card_height (sysPencil A' B' C' D' s₀)
      simpa using this
    have hle := h.le
    have : p' = p := by omega
    subst this
    obtain ⟨k, hk, hks⟩ := h.det ⟨s₀, hs₀⟩
    exact ⟨k, hk, fun s => by rw [pencilDet_square, pencilDet_square, hks]⟩

end

/-- What the loop computes. -/
theorem tzLoop_spec {S : SvdNum ℝ} (hS : ∀ {p m : ℕ} (M : Matrix (Fin p) (Fin m) ℝ), SvdOk S M) : ∀ (fuel : ℕ) {n p : ℕ} (A : Matrix (Fin n) (Fin n) ℝ)
    (B : Matrix (Fin n) (Fin m) ℝ) (C : Matrix (Fin p) (Fin n) ℝ) (D : Matrix (Fin p) (Fin m) ℝ), n ≤ fuel →
    ∃ (ν p' : ℕ) (A' : Matrix (Fin ν) (Fin ν) ℝ) (B' : Matrix (Fin ν) (Fin m) ℝ) (C' : Matrix (Fin p') (Fin ν) ℝ) (D' : Matrix (Fin p') (Fin m) ℝ),
      Deflated A B C D A' B' C' D' ∧ (∀ w, w ᵥ* D' = 0 → w ᵥ* C' = 0) ∧
      ((tzLoop S 0 fuel ⟨Arr.of A, Arr.of B, Arr.of C, Arr.of D⟩ = .ok none ∧ ν = 0) ∨
        tzLoop S 0 fuel ⟨Arr.of A, Arr.of B, Arr.of C, Arr.of D⟩ = .ok (some ⟨Arr.of A', Arr.of B', Arr.of C', Arr.of D'⟩)) := by
  intro fuel
  induction fuel with
  | zero =>
    intro n p A B C D hn
    obtain rfl : n = 0 := by omega
    exact ⟨_, _, A, B, C, D, Deflated.refl _ _ _ _, fun w _ => funext fun j => j.elim0, Or.inr rfl⟩
  | succ fuel ih =>
    intro n p A B C D hn
    unfold tzLoop
    rcases tzStep_spec hS A B C D with ⟨h1, h2⟩ | ⟨ν, p', A', B', C', D', Q, U, σ, h1, h2, h3, h4⟩
    · refine ⟨_, _, A, B, C, D, Deflated.refl _ _ _ _, h2, Or.inr ?_⟩
      simp only [h1, bind, Except.bind]
    · by_cases hν : ν = 0
      · subst hν
        rw [if_pos rfl] at h4
        refine ⟨_, _, A', B', C', D', h1.deflated h3, fun w _ => funext fun j => j.elim0, Or.inl ⟨?_, rfl⟩⟩
        simp only [h4, bind, Except.bind]
      · rw [if_neg hν] at h4
        obtain ⟨ν₂, p₂, A₂, B₂, C₂, D₂, h5, h6, h7⟩ := ih A' B' C' D' (by omega)
        refine ⟨ν₂, p₂, A₂, B₂, C₂, D₂, (h1.deflated h3).trans h5, h6, ?_⟩
        simp only [h4, bind, Except.bind]
        exact h7

theorem tzReduce_spec {N : TzNum} (hN : TzExact N) (A : Matrix (Fin n) (Fin n) ℝ)
    (B : Matrix (Fin n) (Fin m) ℝ) (C : Matrix (Fin p) (Fin n) ℝ) (D : Matrix (Fin p) (Fin m) ℝ) :
    ∃ (ν p' : ℕ) (A' : Matrix (Fin ν) (Fin ν) ℝ) (B' : Matrix (Fin ν) (Fin m) ℝ) (C' : Matrix (Fin p') (Fin ν) ℝ) (D' : Matrix (Fin p') (Fin m) ℝ),
      Deflated A B C D A' B' C' D' ∧ (∀ w, w ᵥ* D' = 0 → w ᵥ* C' = 0) ∧
      ((tzReduce N ⟨Arr.of A, Arr.of B, Arr.of C, Arr.of D⟩ = .ok none ∧ ν = 0) ∨
        tzReduce N ⟨Arr.of A, Arr.of B, Arr.of C, Arr.of D⟩ = .ok (some ⟨Arr.of A', Arr.of B', Arr.of C', Arr.of D'⟩)) := by
  unfold tzReduce tzTol
  rw [hN.spacing, zero_mul]
  exact tzLoop_spec hN.svd n A B C D (le_refl _)

/-! ## The final eigenvalue problem -/

section final
variable {A : Matrix (Fin n) (Fin n) ℝ} {B : Matrix (Fin n) (Fin m) ℝ} {C : Matrix (Fin p) (Fin n) ℝ} {D : Matrix (Fin p) (Fin m) ℝ}

theorem roll_of (V : Matrix (Fin (m + n)) (Fin (m + n)) ℝ) :
    (Arr.of V).roll m = Arr.of (Matrix.of fun i j : Fin (n + m) => V ⟨(i + m) % (m + n), Nat.mod_lt _ (by have := i.2; omega)⟩ ⟨(j + m) % (m + n), Nat.mod_lt _ (by have := i.2; omega)⟩) := by
  unfold Arr.roll
  exact Arr.ext_cast (Nat.add_comm m n) (Nat.add_comm m n) fun i j => rfl

/-- The singular values of `[D, C]` behind the first `m` vanish if every left kernel vector of `D` is one of `C`. -/
theorem rank_hcat_le (hw : ∀ w, w ᵥ* D = 0 → w ᵥ* C = 0) : (hcat D C).rank ≤ m := by
  have h1 : (hcat D C).rank = D.rank := by
    have e : (hcat D C).rank = (fromCols D C).rank := rank_submatrix (fromCols D C) (Equiv.refl _) finSumFinEquiv.symm
    rw [e, ← rank_transpose, ← rank_transpose D]
    have hker : LinearMap.ker ((fromCols D C)ᵀ).mulVecLin = LinearMap.ker (Dᵀ).mulVecLin := by
      ext w
      simp only [LinearMap.mem_ker, mulVecLin_apply, mulVec_transpose]
      rw [vecMul_fromCols]
      constructor
      · intro h
        exact funext fun j => congrFun h (Sum.inl j)
      · intro h
        rw [h, hw w h]
        ext j
        rcases j with j | j <;> rfl
    have h2 := LinearMap.finrank_range_add_finrank_ker ((fromCols D C)ᵀ).mulVecLin
    have h3 := LinearMap.finrank_range_add_finrank_ker (Dᵀ).mulVecLin
    rw [hker] at h2
    unfold Matrix.rank
    omega
  rw [h1]
  exact rank_le_width D

theorem det_qz {E F : Matrix (Fin n) (Fin n) ℝ} {a b : Matrix (Fin n) (Fin n) ℂ} (h : IsQz E F a b) :
    ∃ k : ℂ, k ≠ 0 ∧ ∀ s, (F.map Complex.ofReal - s • E.map Complex.ofReal).det = k * ∏ i, (b i i - s * a i i) ∧ (E.map Complex.ofReal).det = k * ∏ i, a i i := by
  obtain ⟨ha, hb, Q, Z, hQ, hZ, hE, hF⟩ := h
  refine ⟨Q.det * Z.det, ?_, fun s => ⟨?_, ?_⟩⟩
  · have h1 := congrArg Matrix.det hQ
    have h2 := congrArg Matrix.det hZ
    rw [det_mul, det_one] at h1 h2
    exact mul_ne_zero (right_ne_zero_of_mul_eq_one h1) (right_ne_zero_of_mul_eq_one h2)
  · have e : F.map Complex.ofReal - s • E.map Complex.ofReal = Q * (b - s • a) * Z := by
      rw [hE, hF, Matrix.mul_sub, Matrix.sub_mul, Matrix.mul_smul, Matrix.smul_mul]
    have ht : (b - s • a).BlockTriangular id := fun i j hij => by
      rw [Matrix.sub_apply, Matrix.smul_apply, ha hij, hb hij, smul_zero, sub_zero]
    rw [e, det_mul, det_mul, det_of_upperTriangular ht]
    simp only [Matrix.sub_apply, Matrix.smul_apply, smul_eq_mul]
    ring
  · rw [hE, det_mul, det_mul, det_of_upperTriangular ha]
    ring

/-- What the last part computes: the eigenvalues of `A + B K` with `D K = -C`, or `inf` is among the results and the columns of `D` are dependent. -/
theorem tzFinal_spec {N : TzNum} (hN : TzExact N) (hw : ∀ w, w ᵥ* D = 0 → w ᵥ* C = 0) :
    ∃ z, tzFinal N ⟨Arr.of A, Arr.of B, Arr.of C, Arr.of D⟩ = .ok z ∧
      ((none ∈ z ∧ ∃ u, u ≠ 0 ∧ D *ᵥ u = 0) ∨
        ∃ (zs : List ℂ) (K : Matrix (Fin m) (Fin n) ℝ), z = zs.map some ∧ D * K = -C ∧
          ∀ s, ((A + B * K).map Complex.ofReal - s • 1).det = (zs.map fun x => x - s).prod) := by
  obtain ⟨u, sv, v, h1, h2⟩ := hN.svd (hcat D C)
  set V : Matrix (Fin (n + m)) (Fin (n + m)) ℝ :=
    Matrix.of fun i j => vᵀ ⟨(i + m) % (m + n), Nat.mod_lt _ (by have := i.2; omega)⟩ ⟨(j + m) % (m + n), Nat.mod_lt _ (by have := i.2; omega)⟩ with hV
  set E : Matrix (Fin n) (Fin n) ℝ := Matrix.of fun i j => v ⟨m + j, by omega⟩ ⟨m + i, by omega⟩ with hE
  set G : Matrix (Fin m) (Fin n) ℝ := Matrix.of fun i j => v ⟨m + j, by omega⟩ ⟨i, by omega⟩ with hG
  have hroll : (Arr.of vᵀ).roll m = Arr.of V := roll_of vᵀ
  have hVE : ∀ i j : Fin n, V (Fin.castAdd m i) (Fin.castAdd m j) = E i j := by
    intro i j
    simp only [hV, hE, Matrix.of_apply, transpose_apply, Fin.val_castAdd]
    have hi := i.2
    have hj := j.2
    congr 1 <;> exact Fin.ext (by simp only; rw [Nat.mod_eq_of_lt (by omega)]; omega)
  have hVG : ∀ (i : Fin m) (j : Fin n), V (Fin.natAdd n i) (Fin.castAdd m j) = G i j := by
    intro i j
    simp only [hV, hG, Matrix.of_apply, transpose_apply, Fin.val_castAdd, Fin.val_natAdd]
    have hi := i.2
    have hj := j.2
    congr 1
    · exact Fin.ext (by simp only; rw [Nat.mod_eq_of_lt (by omega)]; omega)
    · refine Fin.ext ?_
      simp only
      have e : n + (i : ℕ) + m = i + (m + n) := by omega
      rw [e, Nat.add_mod_right, Nat.mod_eq_of_lt (by omega)]
  -- the columns of `[E; G]` are orthonormal and in the kernel of `[C, D]`
  have hsplit : ∀ f : Fin (m + n) → ℝ, ∑ k, f k = ∑ l : Fin m, f ⟨l, by omega⟩ + ∑ i : Fin n, f ⟨m + i, by omega⟩ := fun f => Fin.sum_univ_add f
  have horth : Eᵀ * E + Gᵀ * G = 1 := by
    ext j j'
    have h3 := congrFun (congrFun h2.v_orth ⟨m + j, by omega⟩) ⟨m + j', by omega⟩
    rw [Matrix.mul_apply, hsplit] at h3
    rw [Matrix.add_apply, Matrix.mul_apply, Matrix.mul_apply, add_comm]
    refine Eq.trans h3 ?_
    rw [Matrix.one_apply, Matrix.one_apply]
    congr 1
    simp [Fin.ext_iff]
  have hrank := rank_hcat_le hw
  have hsv : ∀ k : ℕ, m ≤ k → sv.getD k 0 = 0 := by
    intro k hk
    by_cases hl : k < sv.length
    · have hcnt : countAbove (0 : ℝ) sv ≤ m := by
        have h3 := countAbove_le_rank (S := N.svd) (le_of_eq hN.eps.symm) h2
        have h4 : rankTol N.svd.eps p (m + n) sv = 0 := by unfold rankTol; rw [hN.eps, mul_zero]
        rw [h4] at h3
        exact h3.trans hrank
      refine le_antisymm (desc_getD_le h2.desc (hcnt.trans hk) hl) ?_
      rw [List.getD_eq_getElem _ _ hl]
      exact h2.nonneg _ (List.getElem_mem _)
    · exact List.getD_eq_default _ _ (by omega)
  have hker : C * E + D * G = 0 := by
    have h3 : ∀ (i : Fin p) (j : Fin n), (hcat D C * vᵀ) i ⟨m + j, by omega⟩ = 0 := by
      intro i j
      rw [h2.eq, Matrix.mul_assoc, h2.v_orth, Matrix.mul_one, Matrix.mul_apply]
      refine Finset.sum_eq_zero fun k _ => ?_
      have : diagRect p (m + n) sv k ⟨m + j, by omega⟩ = 0 := by
        simp only [diagRect, Matrix.of_apply]
        by_cases hk : (k : ℕ) = m + j
        · rw [if_pos hk]; exact hsv _ (by omega)
        · rw [if_neg hk]
      rw [this, mul_zero]
    ext i j
    rw [Matrix.zero_apply, ← h3 i j, Matrix.mul_apply, hsplit, Matrix.add_apply, Matrix.mul_apply, Matrix.mul_apply, add_comm]
    congr 1
    · refine Finset.sum_congr rfl fun l _ => ?_
      have : hcat D C i ⟨l, by omega⟩ = D i l := by
        have e : (⟨l, by omega⟩ : Fin (m + n)) = Fin.castAdd n l := rfl
        rw [e]; simp [hcat]
      rw [this]; rfl
    · refine Finset.sum_congr rfl fun l _ => ?_
      have : hcat D C i ⟨m + l, by omega⟩ = C i l := by
        have e : (⟨m + l, by omega⟩ : Fin (m + n)) = Fin.natAdd m l := rfl
        rw [e]; simp [hcat]
      rw [this]; rfl
  obtain ⟨a, b, hqz, hab⟩ := hN.qz E (A * E + B * G)
  have hsl1 : (Arr.of V).slice 0 n 0 n = Arr.of E := by
    rw [slice_of (a := n) (b := n) _ _ _ _ _ (by omega) (by omega)]
    refine Arr.of_inj.mpr ?_
    ext i j
    rw [Matrix.of_apply, ← hVE]
    exact congrArg₂ _ (Fin.ext (Nat.zero_add _)) (Fin.ext (Nat.zero_add _))
  have hsl2 : (Arr.of (hcat A B * V)).slice 0 n 0 n = Arr.of (A * E + B * G) := by
    rw [slice_of (a := n) (b := n) _ _ _ _ _ (by omega) (by omega)]
    refine Arr.of_inj.mpr ?_
    ext i j
    have e1 : (⟨0 + i, by omega⟩ : Fin n) = i := Fin.ext (Nat.zero_add _)
    have e2 : (⟨0 + j, by omega⟩ : Fin (n + m)) = Fin.castAdd m j := Fin.ext (Nat.zero_add _)
    rw [Matrix.of_apply, e1, e2, Matrix.mul_apply, Fin.sum_univ_add, Matrix.add_apply, Matrix.mul_apply, Matrix.mul_apply]
    congr 1
    · exact Finset.sum_congr rfl fun k _ => by rw [hVE]; simp [hcat]
    · exact Finset.sum_congr rfl fun k _ => by rw [hVG]; simp [hcat]
  have hdiag : ∀ x : Matrix (Fin n) (Fin n) ℂ, (Arr.of x).diagList = List.ofFn fun i => x i i := by
    intro x
    unfold Arr.diagList
    refine List.ext_getElem (by simp) fun k hk hk' => ?_
    simp
  refine ⟨tzQuot (List.ofFn fun i => a i i) (List.ofFn fun i => b i i), ?_, ?_⟩
  · unfold tzFinal
    simp only [Arr.hstack_of, bind, Except.bind, h1, Arr.T_of, Arr.of_r, Arr.of_c, hroll, Arr.matmul_of, hsl1, hsl2, hqz, hdiag]
  have hzip : tzQuot (List.ofFn fun i => a i i) (List.ofFn fun i => b i i) = List.ofFn fun i => if a i i = 0 then none else some (b i i / a i i) := by
    unfold tzQuot
    refine List.ext_getElem (by simp) fun k hk hk' => ?_
    simp
  rw [hzip]
  obtain ⟨k, hk, hdet⟩ := det_qz hab
  by_cases ha : ∃ i, a i i = 0
  · left
    obtain ⟨i, hi⟩ := ha
    refine ⟨List.mem_ofFn.mpr ⟨i, if_pos hi⟩, ?_⟩
    have hE0 : E.det = 0 := by
      have h3 := (hdet 0).2
      rw [show ∏ i, a i i = 0 from Finset.prod_eq_zero (Finset.mem_univ i) hi, mul_zero] at h3
      have e : (E.map Complex.ofReal).det = ((E.det : ℝ) : ℂ) := ((Complex.ofRealHom).map_det E).symm
      rw [e] at h3
      exact_mod_cast h3
    obtain ⟨y, hy0, hy⟩ := exists_mulVec_eq_zero_iff.mpr hE0
    refine ⟨G *ᵥ y, fun h0 => hy0 ?_, ?_⟩
    · have h3 := congrArg (fun M => M *ᵥ y) horth
      simp only [add_mulVec, ← mulVec_mulVec, hy, h0, mulVec_zero, add_zero, one_mulVec] at h3
      exact h3.symm
    · have h3 := congrArg (fun M => M *ᵥ y) hker
      simpa only [add_mulVec, ← mulVec_mulVec, hy, mulVec_zero, zero_add, zero_mulVec] using h3
  · right
    push Not at ha
    have hEC : (E.map Complex.ofReal).det ≠ 0 := by
      rw [(hdet 0).2]
      exact mul_ne_zero hk (Finset.prod_ne_zero_iff.mpr fun i _ => ha i)
    have hE0 : E.det ≠ 0 := by
      have e : (E.map Complex.ofReal).det = ((E.det : ℝ) : ℂ) := ((Complex.ofRealHom).map_det E).symm
      rw [e] at hEC
      exact_mod_cast hEC
    have hu : IsUnit E.det := isUnit_iff_ne_zero.mpr hE0
    refine ⟨List.ofFn fun i => b i i / a i i, G * E⁻¹, ?_, ?_, fun s => ?_⟩
    · rw [List.map_ofFn]
      congr 1
      funext i
      simp only [Function.comp, if_neg (ha i)]
    · have h3 : D * G = -(C * E) := eq_neg_of_add_eq_zero_right hker
      rw [← Matrix.mul_assoc, h3, Matrix.neg_mul, Matrix.mul_assoc, mul_nonsing_inv _ hu, Matrix.mul_one]
    · have e : (A * E + B * G).map Complex.ofReal - s • E.map Complex.ofReal = ((A + B * (G * E⁻¹)).map Complex.ofReal - s • 1) * E.map Complex.ofReal := by
        rw [Matrix.sub_mul, ← map_mulC, Matrix.smul_mul, Matrix.one_mul, Matrix.add_mul, Matrix.mul_assoc B, Matrix.mul_assoc G, nonsing_inv_mul _ hu, Matrix.mul_one]
      have h3 := (hdet s).1
      rw [e, det_mul, (hdet s).2] at h3
      have h4 : ∏ i, (b i i - s * a i i) = (∏ i, a i i) * ∏ i, (b i i / a i i - s) := by
        rw [← Finset.prod_mul_distrib]
        refine Finset.prod_congr rfl fun i _ => ?_
        have := ha i
        field_simp
      rw [h4] at h3
      have h5 : k * ∏ i, a i i ≠ 0 := mul_ne_zero hk (Finset.prod_ne_zero_iff.mpr fun i _ => ha i)
      have h6 : ((A + B * (G * E⁻¹)).map Complex.ofReal - s • 1).det = ∏ i, (b i i / a i i - s) :=
        mul_right_cancel₀ h5 (by linear_combination h3)
      rw [h6, List.map_ofFn, List.prod_ofFn]
      rfl

end final

end Harold
