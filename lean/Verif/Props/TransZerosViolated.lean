import Verif.Props.TransZeros

/-!
# C73: models for which `transmission_zeros` does not return the zeros
-/

namespace Harold

open Matrix Spec

/-- A rank drop from kernel vectors. -/
theorem invZero_of_ker {n m p : ℕ} {A : Matrix (Fin n) (Fin n) ℝ} {B : Matrix (Fin n) (Fin m) ℝ} {C : Matrix (Fin p) (Fin n) ℝ} {D : Matrix (Fin p) (Fin m) ℝ}
    {s s' : ℂ} (h : ∃ z, z ≠ 0 ∧ sysPencil A B C D s *ᵥ z = 0) (h' : ∀ z, sysPencil A B C D s' *ᵥ z = 0 → z = 0) : InvariantZero A B C D s := by
  refine ⟨s', ?_⟩
  obtain ⟨z, hz, h0⟩ := h
  have h1 : LinearMap.ker (sysPencil A B C D s').mulVecLin = ⊥ := by
    rw [eq_bot_iff]
    intro z hz
    exact h' z hz
  have h2 : 0 < Module.finrank ℂ (LinearMap.ker (sysPencil A B C D s).mulVecLin) := by
    rw [Module.finrank_pos_iff]
    exact ⟨⟨z, h0⟩, 0, fun h => hz (congrArg Subtype.val h)⟩
  have h3 := finrank_ker_mulVec (sysPencil A B C D s)
  have h4 := finrank_ker_mulVec (sysPencil A B C D s')
  rw [h1, finrank_bot] at h4
  omega

/-- The code violates **C73** for models with `B = 0` or `C = 0`: `State(1, 0, 1, 1)` is reported to have no zeros, although the system pencil loses rank at
`s = 1`. (For other models that are not minimal the points of this kind are returned, see `C73_nonminimal_violated`.) -/
theorem C73_decoupled_violated (N : TzNum) :
    transmissionZeros N ⟨Arr.of !![1], Arr.of !![0], Arr.of !![1], Arr.of !![1]⟩ = .ok [] ∧
      InvariantZero (!![1] : Matrix (Fin 1) (Fin 1) ℝ) (!![0] : Matrix (Fin 1) (Fin 1) ℝ) (!![1] : Matrix (Fin 1) (Fin 1) ℝ) (!![1] : Matrix (Fin 1) (Fin 1) ℝ) 1 := by
  constructor
  · unfold transmissionZeros
    have h : (Arr.of (!![0] : Matrix (Fin 1) (Fin 1) ℝ)).any = false := by
      rw [← Bool.not_eq_true, Arr.any_iff]
      rintro ⟨i, j, h⟩
      refine h ?_
      change (!![0] : Matrix (Fin 1) (Fin 1) ℝ) i j = 0
      have hi : i = (0 : Fin 1) := Subsingleton.elim (α := Fin 1) _ _
      have hj : j = (0 : Fin 1) := Subsingleton.elim (α := Fin 1) _ _
      rw [hi, hj]
      rfl
    simp only [h, true_or, if_true]
  · rw [zero_iff_feedback (K := !![-1]) (by ext i j; fin_cases i; fin_cases j; simp) fun v hv => by ext i; fin_cases i; simp [mulVec, dotProduct]]
    rw [det_fin_one]
    simp

/-- The code violates **C73** read as a statement on the transfer matrix: for the model `diag(1, 2), [1; 0], [1, 0], 1`, whose transfer function is
`s/(s - 1)`, the value `2` is returned: the eigenvalue of the part that is neither reachable nor observable. -/
theorem C73_nonminimal_violated {N : TzNum} (hN : TzExact N) :
    (∃ z, transmissionZeros N ⟨Arr.of !![1, 0; 0, 2], Arr.of !![1; 0], Arr.of !![1, 0], Arr.of !![1]⟩ = .ok z ∧ some 2 ∈ z) ∧
      ∀ s M, TfAt (!![1, 0; 0, 2] : Matrix (Fin 2) (Fin 2) ℝ) (!![1; 0] : Matrix (Fin 2) (Fin 1) ℝ) (!![1, 0] : Matrix (Fin 1) (Fin 2) ℝ)
        (!![1] : Matrix (Fin 1) (Fin 1) ℝ) s M → (s - 1) * M 0 0 = s := by
  have hdetM : ∀ s : ℂ, (s • (1 : Matrix (Fin 2) (Fin 2) ℂ) - (!![1, 0; 0, 2] : Matrix (Fin 2) (Fin 2) ℝ).map Complex.ofReal).det = (s - 1) * (s - 2) := by
    intro s
    rw [det_fin_two]
    simp
  have hX : ∀ s : ℂ, (s - 1) * (s - 2) ≠ 0 → (s • (1 : Matrix (Fin 2) (Fin 2) ℂ) - (!![1, 0; 0, 2] : Matrix (Fin 2) (Fin 2) ℝ).map Complex.ofReal) *
      !![1 / (s - 1), 0; 0, 1 / (s - 2)] = 1 := by
    intro s hs
    have h1 := left_ne_zero_of_mul hs
    have h2 := right_ne_zero_of_mul hs
    ext i j
    fin_cases i <;> fin_cases j <;> simp [Matrix.mul_apply, Fin.sum_univ_two, h1, h2]
  have hval : ∀ s M, TfAt (!![1, 0; 0, 2] : Matrix (Fin 2) (Fin 2) ℝ) (!![1; 0] : Matrix (Fin 2) (Fin 1) ℝ) (!![1, 0] : Matrix (Fin 1) (Fin 2) ℝ)
        (!![1] : Matrix (Fin 1) (Fin 1) ℝ) s M → (s - 1) * M 0 0 = s := by
    rintro s M ⟨hd, rfl⟩
    rw [hdetM] at hd
    have h1 := left_ne_zero_of_mul hd
    rw [inv_eq_right_inv (hX s hd)]
    simp [Matrix.mul_apply, Fin.sum_univ_two]
    field_simp
    ring
  refine ⟨?_, hval⟩
  obtain ⟨zs, h1, h2, -⟩ := C73_left_invertible (A := !![1, 0; 0, 2]) (B := !![1; 0]) (C := !![1, 0]) (D := !![1]) hN
    (fun h => by have := congrFun (congrFun h 0) 0; norm_num at this) (fun h => by have := congrFun (congrFun h 0) 0; norm_num at this)
    ⟨3, _, tfAt_of (hX 3 (by norm_num)), by
      refine le_antisymm (rank_le_width _) (rank_pos_of_ne fun h => ?_)
      have h3 := hval 3 _ (tfAt_of (hX 3 (by norm_num)))
      rw [h] at h3
      norm_num at h3⟩
  refine ⟨_, h1, List.mem_map.mpr ⟨2, (h2 2).mpr ?_, rfl⟩⟩
  rw [zero_iff_feedback (K := !![-1, 0]) (by ext i j; fin_cases i; fin_cases j <;> simp) fun v hv => by
    have := congrFun hv 0
    simp [mulVec, dotProduct] at this
    ext i
    fin_cases i <;> simp [mulVec, dotProduct, this]]
  rw [det_fin_two]
  simp

/-- The code violates **C73** for square models whose transfer matrix vanishes: for `diag(1, 2), [0; 1], [1, 0], 0` the system pencil has the same rank at every
point, but at least one value is returned. -/
theorem C73_zero_tf_violated {N : TzNum} (hN : TzExact N) :
    (∃ z, transmissionZeros N ⟨Arr.of !![1, 0; 0, 2], Arr.of !![0; 1], Arr.of !![1, 0], Arr.of (0 : Matrix (Fin 1) (Fin 1) ℝ)⟩ = .ok z ∧ z ≠ []) ∧
      ∀ s, ¬ InvariantZero (!![1, 0; 0, 2] : Matrix (Fin 2) (Fin 2) ℝ) (!![0; 1] : Matrix (Fin 2) (Fin 1) ℝ) (!![1, 0] : Matrix (Fin 1) (Fin 2) ℝ)
        (0 : Matrix (Fin 1) (Fin 1) ℝ) s := by
  constructor
  · have hany : ∀ {r c : ℕ} {M : Matrix (Fin r) (Fin c) ℝ}, M ≠ 0 → ¬ (Arr.of M).any = false := by
      intro r c M hM hf
      refine hM (Matrix.ext fun i j => ?_)
      by_contra hne
      rw [(Arr.any_iff (Arr.of M)).mpr ⟨i, j, hne⟩] at hf
      cases hf
    -- the first step
    have hred : ∃ (A' B' : Matrix (Fin 1) (Fin 1) ℝ), tzReduce N ⟨Arr.of !![1, 0; 0, 2], Arr.of !![0; 1], Arr.of !![1, 0], Arr.of (0 : Matrix (Fin 1) (Fin 1) ℝ)⟩ =
        .ok (some ⟨Arr.of A', Arr.of B', Arr.of (0 : Matrix (Fin 1) (Fin 1) ℝ), Arr.of (0 : Matrix (Fin 1) (Fin 1) ℝ)⟩) := by
      unfold tzReduce tzTol
      rw [hN.spacing, zero_mul]
      change ∃ (A' B' : Matrix (Fin 1) (Fin 1) ℝ), tzLoop N.svd 0 2 _ = _
      unfold tzLoop
      rcases tzStep_spec hN.svd (!![1, 0; 0, 2] : Matrix (Fin 2) (Fin 2) ℝ) (!![0; 1] : Matrix (Fin 2) (Fin 1) ℝ) (!![1, 0] : Matrix (Fin 1) (Fin 2) ℝ)
        (0 : Matrix (Fin 1) (Fin 1) ℝ) with ⟨-, h⟩ | ⟨ν, p', A', B', C', D', Q, U, σ, h1, h2, h3, h4⟩
      · exfalso
        have := congrFun (h (fun _ => 1) (by rw [vecMul_zero])) 0
        simp [vecMul, dotProduct] at this
      · have hc := h1.card
        have hσ := h1.σle
        obtain rfl : σ = 0 := by omega
        obtain rfl : ν = 1 := by omega
        obtain rfl : p' = 1 := by omega
        have hU : U 0 0 ≠ 0 := fun h0 => by
          have := congrFun (congrFun h1.u 0) 0
          simp [Matrix.mul_apply, h0] at this
        have hQ0 : Q 0 0 = 0 := by
          have := h1.c0 0 0 (by norm_num) (by norm_num)
          simp [Matrix.mul_apply, Fin.sum_univ_two] at this
          exact this.resolve_left hU
        have hq := h1.q
        have hq1 := congrFun (congrFun hq 0) 0
        have hq2 := congrFun (congrFun hq 0) 1
        simp [Matrix.mul_apply, Fin.sum_univ_two, hQ0] at hq1 hq2
        have hQ1 : Q 1 1 = 0 := hq2.resolve_left fun h0 => by rw [h0] at hq1; norm_num at hq1
        have hC : C' = 0 := by
          ext i j
          fin_cases i
          fin_cases j
          have := h1.c1 0 0 (by norm_num)
          refine this.trans ?_
          change (Qᵀ * (!![1, 0; 0, 2] : Matrix (Fin 2) (Fin 2) ℝ) * Q) 1 0 = 0
          simp [Matrix.mul_apply, Fin.sum_univ_two, hQ0, hQ1]
        have hD : D' = 0 := by
          ext i j
          fin_cases i
          fin_cases j
          have := h1.d1 0 0 (by norm_num)
          refine this.trans ?_
          change (Qᵀ * (!![0; 1] : Matrix (Fin 2) (Fin 1) ℝ)) 1 0 = 0
          simp [Matrix.mul_apply, Fin.sum_univ_two, hQ1]
        subst hC
        subst hD
        refine ⟨A', B', ?_⟩
        rw [if_neg one_ne_zero] at h4
        simp only [h4, bind, Except.bind]
        unfold tzLoop
        rcases tzStep_spec hN.svd A' B' (0 : Matrix (Fin 1) (Fin 1) ℝ) (0 : Matrix (Fin 1) (Fin 1) ℝ) with ⟨h5, -⟩ | ⟨ν, p', A₂, B₂, C₂, D₂, Q₂, U₂, σ, g1, g2, g3, -⟩
        · simp only [h5, bind, Except.bind]
        · exfalso
          have hc := g1.card
          have hσ := g1.σle
          obtain rfl : ν = 0 := by omega
          have := congrFun (g1.inj (fun _ => 1) (fun j hj => absurd hj (Nat.not_lt_zero _)) fun i _ => by
            rw [Matrix.mul_zero, Matrix.zero_mul, zero_mulVec]; rfl) 0
          simp at this
    obtain ⟨A', B', hred⟩ := hred
    unfold transmissionZeros
    simp only [Arr.of_r, Arr.of_c, matrixRank_of hN, rank_zero]
    rw [if_neg (not_or.mpr ⟨hany fun h => by have := congrFun (congrFun h 1) 0; norm_num at this, hany fun h => by have := congrFun (congrFun h 0) 0; norm_num at this⟩)]
    rw [if_neg (by norm_num)]
    unfold tzFirst
    simp only [Arr.of_r, matrixRank_of hN, rank_zero]
    rw [if_neg (by norm_num), hred]
    simp only [bind, Except.bind, tzAfter, Arr.of_r, Arr.of_c]
    rw [if_neg (by norm_num)]
    unfold tzDual
    simp only [Arr.hstack_of, bind, Except.bind, Arr.of_r, Arr.of_c]
    have hz : (Arr.of (hcat (0 : Matrix (Fin 1) (Fin 1) ℝ) (0 : Matrix (Fin 1) (Fin 1) ℝ))).any = false := by
      rw [← Bool.not_eq_true, Arr.any_iff]
      rintro ⟨i, j, h⟩
      refine h ?_
      change hcat (0 : Matrix (Fin 1) (Fin 1) ℝ) (0 : Matrix (Fin 1) (Fin 1) ℝ) i j = 0
      refine Fin.addCases (fun j => ?_) (fun j => ?_) j <;> simp [hcat]
    rw [hz, if_neg (by simp)]
    simp only [tzEnd, Arr.of_r, Arr.of_c]
    rw [if_neg (by norm_num)]
    obtain ⟨z, h1, h2⟩ := tzFinal_spec (A := A') (B := B') (C := (0 : Matrix (Fin 1) (Fin 1) ℝ)) (D := (0 : Matrix (Fin 1) (Fin 1) ℝ)) hN fun w _ => by rw [vecMul_zero]
    refine ⟨z, h1, ?_⟩
    rintro rfl
    rcases h2 with ⟨h2, -⟩ | ⟨zs, K, h2, -, h3⟩
    · exact absurd h2 List.not_mem_nil
    · have hzs : zs = [] := by simpa using h2.symm
      have h4 := h3 (((A' + B' * K) 0 0 : ℝ) : ℂ)
      rw [hzs, det_fin_one] at h4
      simp at h4
  · rintro s ⟨s', h⟩
    have e : sysPencil (!![1, 0; 0, 2] : Matrix (Fin 2) (Fin 2) ℝ) (!![0; 1] : Matrix (Fin 2) (Fin 1) ℝ) (!![1, 0] : Matrix (Fin 1) (Fin 2) ℝ) (0 : Matrix (Fin 1) (Fin 1) ℝ) s' =
        fromBlocks (1 : Matrix (Fin 2) (Fin 2) ℂ) !![s - s'; 0] 0 1 *
        sysPencil (!![1, 0; 0, 2] : Matrix (Fin 2) (Fin 2) ℝ) (!![0; 1] : Matrix (Fin 2) (Fin 1) ℝ) (!![1, 0] : Matrix (Fin 1) (Fin 2) ℝ) (0 : Matrix (Fin 1) (Fin 1) ℝ) s *
        fromBlocks (1 : Matrix (Fin 2) (Fin 2) ℂ) 0 !![0, s - s'] 1 := by
      unfold sysPencil
      rw [fromBlocks_multiply, fromBlocks_multiply]
      congr 1
      · ext i j
        fin_cases i <;> fin_cases j <;> simp [Matrix.mul_apply, Fin.sum_univ_two, vecMul, dotProduct]
      · ext i j
        fin_cases i <;> fin_cases j <;> simp [Matrix.mul_apply, Fin.sum_univ_two]
      · ext i j
        fin_cases i <;> fin_cases j <;> simp [Matrix.mul_apply, Fin.sum_univ_two]
      · ext i j
        fin_cases i <;> fin_cases j <;> simp [Matrix.mul_apply, Fin.sum_univ_two]
    rw [e] at h
    have h1 := rank_mul_le_left (fromBlocks (1 : Matrix (Fin 2) (Fin 2) ℂ) !![s - s'; 0] 0 (1 : Matrix (Fin 1) (Fin 1) ℂ) *
        sysPencil (!![1, 0; 0, 2] : Matrix (Fin 2) (Fin 2) ℝ) (!![0; 1] : Matrix (Fin 2) (Fin 1) ℝ) (!![1, 0] : Matrix (Fin 1) (Fin 2) ℝ) (0 : Matrix (Fin 1) (Fin 1) ℝ) s)
        (fromBlocks (1 : Matrix (Fin 2) (Fin 2) ℂ) 0 !![0, s - s'] (1 : Matrix (Fin 1) (Fin 1) ℂ))
    have h2 := rank_mul_le_right (fromBlocks (1 : Matrix (Fin 2) (Fin 2) ℂ) !![s - s'; 0] 0 (1 : Matrix (Fin 1) (Fin 1) ℂ))
        (sysPencil (!![1, 0; 0, 2] : Matrix (Fin 2) (Fin 2) ℝ) (!![0; 1] : Matrix (Fin 2) (Fin 1) ℝ) (!![1, 0] : Matrix (Fin 1) (Fin 2) ℝ) (0 : Matrix (Fin 1) (Fin 1) ℝ) s)
    omega

/-- The code violates **C73** for models with more inputs than outputs: which columns of a kernel basis are used depends on the singular value decomposition, and with
some decompositions `inf` is returned in place of the zero `-1` of `State(0, [1, 0], 1, [1, 0])`. -/
theorem C73_wide_violated :
    (∃ N, TzExact N ∧ transmissionZeros N ⟨Arr.of !![0], Arr.of !![1, 0], Arr.of !![1], Arr.of !![1, 0]⟩ = .ok [none]) ∧
      InvariantZero (!![0] : Matrix (Fin 1) (Fin 1) ℝ) (!![1, 0] : Matrix (Fin 1) (Fin 2) ℝ) (!![1] : Matrix (Fin 1) (Fin 1) ℝ) (!![1, 0] : Matrix (Fin 1) (Fin 2) ℝ) (-1) := by
  classical
  constructor
  · obtain ⟨N₀, hN₀⟩ := exists_tzExact
    have h2 : (0 : ℝ) ≤ 2 := by norm_num
    have hs2 : √(2 : ℝ) * √2 = 2 := Real.mul_self_sqrt h2
    have hs0 : √(2 : ℝ) ≠ 0 := Real.sqrt_ne_zero'.mpr (by norm_num)
    set v : Matrix (Fin 3) (Fin 3) ℝ := !![1 / √2, 0, 1 / √2; 1 / √2, 0, -(1 / √2); 0, 1, 0] with hv
    have hsvd : IsSvd (hcat (!![1, 0] : Matrix (Fin 1) (Fin 2) ℝ) (!![1] : Matrix (Fin 1) (Fin 1) ℝ)) (1 : Matrix (Fin 1) (Fin 1) ℝ) [√2] v := by
      refine ⟨by simp, ?_, rfl, fun t ht => ?_, List.pairwise_singleton _ _, ?_⟩
      · ext i j
        fin_cases i <;> fin_cases j <;> simp [hv, Matrix.mul_apply, Fin.sum_univ_three] <;> field_simp <;> linarith
      · rw [List.mem_singleton.mp ht]
        exact Real.sqrt_nonneg _
      · ext i j
        rw [Matrix.one_mul, Matrix.mul_apply]
        fin_cases i
        fin_cases j <;> simp [hcat, diagRect, Fin.sum_univ_three, hv, Fin.addCases, hs0] <;> rfl
    let svd' : Arr ℝ → Arr ℝ × List ℝ × Arr ℝ := fun x =>
      if x = Arr.of (hcat (!![1, 0] : Matrix (Fin 1) (Fin 2) ℝ) (!![1] : Matrix (Fin 1) (Fin 1) ℝ)) then (Arr.of (1 : Matrix (Fin 1) (Fin 1) ℝ), [√2], Arr.of v) else N₀.svd.svd x
    have hN : TzExact ⟨⟨svd', N₀.svd.eps⟩, N₀.spacing, N₀.qz⟩ := by
      refine ⟨fun {p m} M => ?_, hN₀.eps, hN₀.spacing, hN₀.qz⟩
      by_cases hM : Arr.of M = Arr.of (hcat (!![1, 0] : Matrix (Fin 1) (Fin 2) ℝ) (!![1] : Matrix (Fin 1) (Fin 1) ℝ))
      · have hp : p = 1 := congrArg Arr.r hM
        have hm : m = 3 := congrArg Arr.c hM
        subst hp
        subst hm
        have hM' := Arr.of_inj.mp hM
        subst hM'
        exact ⟨_, _, _, if_pos rfl, hsvd⟩
      · obtain ⟨u, s, w, h1, h2⟩ := hN₀.svd M
        exact ⟨u, s, w, (if_neg hM).trans h1, h2⟩
    set N : TzNum := ⟨⟨svd', N₀.svd.eps⟩, N₀.spacing, N₀.qz⟩ with hNdef
    refine ⟨N, hN, ?_⟩
    have hrank : (!![1, 0] : Matrix (Fin 1) (Fin 2) ℝ).rank = 1 := by
      refine le_antisymm (rank_le_height _) ?_
      rw [Nat.one_le_iff_ne_zero]
      intro h0
      have h1 : LinearMap.range (!![1, 0] : Matrix (Fin 1) (Fin 2) ℝ).mulVecLin = ⊥ := Submodule.finrank_eq_zero.mp h0
      rw [LinearMap.range_eq_bot] at h1
      have h2 := congrFun (LinearMap.congr_fun h1 ![1, 0]) 0
      simp [mulVec, dotProduct, Fin.sum_univ_two] at h2
    have hany : ∀ {r c : ℕ} {M : Matrix (Fin r) (Fin c) ℝ}, M ≠ 0 → (Arr.of M).any = true := by
      intro r c M hM
      by_contra hf
      refine hM (Matrix.ext fun i j => ?_)
      by_contra hne
      exact hf ((Arr.any_iff (Arr.of M)).mpr ⟨i, j, hne⟩)
    unfold transmissionZeros
    simp only [Arr.of_r, Arr.of_c, matrixRank_of hN, hrank]
    have hB : (Arr.of (!![1, 0] : Matrix (Fin 1) (Fin 2) ℝ)).any = true := hany fun h => by have := congrFun (congrFun h 0) 0; norm_num at this
    have hC : (Arr.of (!![1] : Matrix (Fin 1) (Fin 1) ℝ)).any = true := hany fun h => by have := congrFun (congrFun h 0) 0; norm_num at this
    rw [hB, hC, if_neg (by simp), if_neg (by norm_num)]
    unfold tzFirst
    simp only [Arr.of_r, matrixRank_of hN, hrank]
    rw [if_pos trivial]
    simp only [bind, Except.bind, tzAfter, Arr.of_r, Arr.of_c]
    rw [if_neg (by norm_num)]
    unfold tzDual
    simp only [Arr.hstack_of, bind, Except.bind, Arr.of_r, Arr.of_c]
    rw [if_pos (Or.inr (by norm_num))]
    unfold Quad.dual
    simp only [Arr.T_of]
    have hred : tzReduce N ⟨Arr.of (!![0] : Matrix (Fin 1) (Fin 1) ℝ)ᵀ, Arr.of (!![1] : Matrix (Fin 1) (Fin 1) ℝ)ᵀ, Arr.of (!![1, 0] : Matrix (Fin 1) (Fin 2) ℝ)ᵀ,
        Arr.of (!![1, 0] : Matrix (Fin 1) (Fin 2) ℝ)ᵀ⟩ = .ok (some ⟨Arr.of (!![0] : Matrix (Fin 1) (Fin 1) ℝ)ᵀ, Arr.of (!![1] : Matrix (Fin 1) (Fin 1) ℝ)ᵀ,
        Arr.of (!![1, 0] : Matrix (Fin 1) (Fin 2) ℝ)ᵀ, Arr.of (!![1, 0] : Matrix (Fin 1) (Fin 2) ℝ)ᵀ⟩) := by
      unfold tzReduce tzTol
      rw [hN.spacing, zero_mul]
      change tzLoop N.svd 0 1 _ = _
      unfold tzLoop
      rcases tzStep_spec hN.svd (!![0] : Matrix (Fin 1) (Fin 1) ℝ)ᵀ (!![1] : Matrix (Fin 1) (Fin 1) ℝ)ᵀ (!![1, 0] : Matrix (Fin 1) (Fin 2) ℝ)ᵀ
        (!![1, 0] : Matrix (Fin 1) (Fin 2) ℝ)ᵀ with ⟨h5, -⟩ | ⟨ν, p', A₂, B₂, C₂, D₂, Q, U, σ, g1, g2, g3, -⟩
      · simp only [h5, bind, Except.bind]
      · exfalso
        have hc := g1.card
        obtain rfl : ν = 0 := by omega
        have := congrFun (g1.inj (fun _ => 1) (fun j hj => absurd hj (Nat.not_lt_zero _)) fun i hi => by
          rw [← mulVec_mulVec]
          exact mulVec_row_zero (fun j => g1.d0 i j hi) _) 0
        simp at this
    simp only [hred, Option.map, Quad.dual, Arr.T_of, transpose_transpose, tzEnd, Arr.of_r, Arr.of_c]
    rw [if_neg (by norm_num)]
    unfold tzFinal
    have hcall : N.svd.svd (Arr.of (hcat (!![1, 0] : Matrix (Fin 1) (Fin 2) ℝ) (!![1] : Matrix (Fin 1) (Fin 1) ℝ))) = (Arr.of (1 : Matrix (Fin 1) (Fin 1) ℝ), [√2], Arr.of v) := if_pos rfl
    simp only [Arr.hstack_of, bind, Except.bind, hcall, Arr.T_of, Arr.of_r, Arr.of_c]
    have hroll := roll_of (n := 1) (m := 2) vᵀ
    rw [hroll]
    simp only [Arr.matmul_of]
    rw [slice_of (a := 1) (b := 1) _ _ _ _ _ (by norm_num) (by norm_num), slice_of (a := 1) (b := 1) _ _ _ _ _ (by norm_num) (by norm_num)]
    obtain ⟨a, b, h1, ha, hb, Q, Z, hQ, hZ, hE, hF⟩ := hN.qz _ _
    rw [h1]
    have ha0 : a 0 0 = 0 := by
      have h3 := congrFun (congrFun hE 0) 0
      have h4 := congrFun (congrFun hQ 0) 0
      have h5 := congrFun (congrFun hZ 0) 0
      simp [hv, Matrix.mul_apply] at h3 h4 h5
      rcases h3 with (h3 | h3) | h3
      · rw [h3] at h4; simp at h4
      · exact h3
      · rw [h3] at h5; simp at h5
    simp [tzQuot, Arr.diagList, ha0]
  · rw [zero_iff_feedback (K := !![-1; 0]) (by ext i j; fin_cases i; fin_cases j; simp [Matrix.mul_apply, Fin.sum_univ_two]) fun v hv => hv]
    rw [det_fin_one]
    simp [Matrix.mul_apply, Fin.sum_univ_two]

/-- The only singular value of a matrix with one column. -/
theorem svd_col {p : ℕ} {M : Matrix (Fin (p + 1)) (Fin 1) ℝ} {U : Matrix (Fin (p + 1)) (Fin (p + 1)) ℝ} {s : List ℝ} {V : Matrix (Fin 1) (Fin 1) ℝ} (h : IsSvd M U s V) :
    ∃ t, s = [t] ∧ 0 ≤ t ∧ t ^ 2 = ∑ i, M i 0 ^ 2 ∧ V 0 0 ^ 2 = 1 ∧ ∀ i, M i 0 = U i 0 * t * V 0 0 := by
  have hl := h.len
  rw [Nat.min_eq_right (by omega)] at hl
  obtain ⟨t, rfl⟩ := List.length_eq_one_iff.mp hl
  have hV : V 0 0 ^ 2 = 1 := by
    have := congrFun (congrFun h.v_orth 0) 0
    simp [Matrix.mul_apply] at this
    rw [sq]
    simpa using this
  have hM : ∀ i, M i 0 = U i 0 * t * V 0 0 := by
    intro i
    have h1 := congrFun (congrFun h.eq i) 0
    rw [Matrix.mul_apply, Fin.sum_univ_one, Matrix.mul_apply, Fin.sum_univ_succ, Finset.sum_eq_zero fun k _ => ?_, add_zero] at h1
    · rw [h1]
      simp [diagRect]
    · simp [diagRect]
  have hU : ∑ i, U i 0 ^ 2 = 1 := by
    have := congrFun (congrFun h.u_orth 0) 0
    rw [Matrix.mul_apply, Matrix.one_apply_eq] at this
    rw [← this]
    exact Finset.sum_congr rfl fun i _ => by rw [transpose_apply, sq]
  refine ⟨t, rfl, h.nonneg t (List.mem_singleton.mpr rfl), ?_, hV, hM⟩
  have e : ∑ i, M i 0 ^ 2 = ∑ i, U i 0 ^ 2 * t ^ 2 := Finset.sum_congr rfl fun i _ => by
    rw [hM, mul_pow, mul_pow, hV, mul_one]
  rw [e, ← Finset.sum_mul, hU, one_mul]

/-- The code violates **C73** for models with small output matrices: the tolerance of the rank decisions is taken from the size of `A` alone. The minimal model
`[0, 1; 1, -1], [1; 0], [ε, 0], 0` has the zero `-1` for every `ε > 0`; if `ε` is below the tolerance (about `1e-13` in double precision), no zero is
returned. All other computations are exact here. -/
theorem C73_scaling_violated {N : TzNum} (hsvd : ∀ {p m : ℕ} (M : Matrix (Fin p) (Fin m) ℝ), SvdOk N.svd M) (heps : 0 ≤ N.svd.eps) {ε : ℝ} (hε : 0 < ε)
    (htol : ε ≤ N.spacing 300 * √3) (h1 : N.spacing 300 * √3 < 1) :
    transmissionZeros N ⟨Arr.of !![0, 1; 1, -1], Arr.of !![1; 0], Arr.of !![ε, 0], Arr.of (0 : Matrix (Fin 1) (Fin 1) ℝ)⟩ = .ok [] ∧
      InvariantZero (!![0, 1; 1, -1] : Matrix (Fin 2) (Fin 2) ℝ) (!![1; 0] : Matrix (Fin 2) (Fin 1) ℝ) (!![ε, 0] : Matrix (Fin 1) (Fin 2) ℝ)
        (0 : Matrix (Fin 1) (Fin 1) ℝ) (-1) := by
  constructor
  · set τ := N.spacing 300 * √3 with hτ
    have hany : ∀ {r c : ℕ} {M : Matrix (Fin r) (Fin c) ℝ}, M ≠ 0 → (Arr.of M).any = true := by
      intro r c M hM
      by_contra hf
      refine hM (Matrix.ext fun i j => ?_)
      by_contra hne
      exact hf ((Arr.any_iff (Arr.of M)).mpr ⟨i, j, hne⟩)
    have hnot : ∀ {r c : ℕ}, (Arr.of (0 : Matrix (Fin r) (Fin c) ℝ)).any = false := by
      intro r c
      rw [← Bool.not_eq_true, Arr.any_iff]
      rintro ⟨i, j, h⟩
      exact h rfl
    have hcount : ∀ {t : ℝ}, countAbove τ [t] = if τ < t then 1 else 0 := by
      intro t
      by_cases h : τ < t <;> simp [countAbove, h]
    have hn300 : (100 : ℝ) * √(((2 + 1) * (2 + 1) : ℕ) : ℝ) = 300 := by
      have : √(((2 + 1) * (2 + 1) : ℕ) : ℝ) = 3 := by
        rw [show (((2 + 1) * (2 + 1) : ℕ) : ℝ) = 3 ^ 2 by norm_num]
        exact Real.sqrt_sq (by norm_num)
      rw [this]
      norm_num
    have hnorm : (Arr.of (!![0, 1; 1, -1] : Matrix (Fin 2) (Fin 2) ℝ)).normF = √3 := by
      unfold Arr.normF
      congr 1
      change ∑ i : Fin 2, ∑ j : Fin 2, (!![0, 1; 1, -1] : Matrix (Fin 2) (Fin 2) ℝ) i j ^ 2 = 3
      simp [Fin.sum_univ_two]
      norm_num
    -- the first reduction does nothing
    have hred1 : tzReduce N ⟨Arr.of !![0, 1; 1, -1], Arr.of !![1; 0], Arr.of !![ε, 0], Arr.of (0 : Matrix (Fin 1) (Fin 1) ℝ)⟩ =
        .ok (some ⟨Arr.of !![0, 1; 1, -1], Arr.of !![1; 0], Arr.of !![ε, 0], Arr.of (0 : Matrix (Fin 1) (Fin 1) ℝ)⟩) := by
      unfold tzReduce tzTol
      simp only [Arr.of_r, Arr.of_c, hnorm, hn300, ← hτ]
      unfold tzLoop tzStep tzSplit
      simp only [hnot, Bool.false_eq_true, if_false, bind, Except.bind, tzCompress]
      rw [slice_of (a := 1) (b := 2) _ _ _ _ _ (by norm_num) (by norm_num), Arr.T_of]
      obtain ⟨U, s, V, h2, h3⟩ := hsvd (Matrix.of fun (i : Fin 1) (j : Fin 2) => (!![ε, 0] : Matrix (Fin 1) (Fin 2) ℝ) ⟨0 + i, by omega⟩ ⟨0 + j, by omega⟩)ᵀ
      obtain ⟨t, rfl, h4, h5, -, -⟩ := svd_col h3
      have ht : t = ε := by
        simp [Fin.sum_univ_two] at h5
        exact (abs_eq_abs.mp (sq_eq_sq_iff_abs_eq_abs t ε |>.mp h5)).resolve_right fun h => by linarith
      simp only [haroldsvdTol, h2, hcount, ht, not_lt.mpr htol, if_false, if_true]
    -- the dual reduction removes everything
    have hred2 : tzReduce N ⟨Arr.of !![0, 1; 1, -1], Arr.of (!![ε, 0] : Matrix (Fin 1) (Fin 2) ℝ)ᵀ, Arr.of (!![1; 0] : Matrix (Fin 2) (Fin 1) ℝ)ᵀ, Arr.of (0 : Matrix (Fin 1) (Fin 1) ℝ)⟩ =
        .ok none := by
      unfold tzReduce tzTol
      simp only [Arr.of_r, Arr.of_c, hnorm, hn300, ← hτ]
      unfold tzLoop tzStep tzSplit
      simp only [hnot, Bool.false_eq_true, if_false, bind, Except.bind, tzCompress]
      rw [slice_of (a := 1) (b := 2) _ _ _ _ _ (by norm_num) (by norm_num), Arr.T_of]
      obtain ⟨U, s, V, h2, h3⟩ := hsvd (Matrix.of fun (i : Fin 1) (j : Fin 2) => (!![1; 0] : Matrix (Fin 2) (Fin 1) ℝ)ᵀ ⟨0 + i, by omega⟩ ⟨0 + j, by omega⟩)ᵀ
      obtain ⟨t, rfl, h4, h5, hV, hM⟩ := svd_col h3
      have ht : t = 1 := by
        simp [Fin.sum_univ_two] at h5
        rcases h5 with h5 | h5
        · exact h5
        · linarith
      subst ht
      have hU10 : U 1 0 = 0 := by
        have := hM 1
        have hV0 : V 0 0 ≠ 0 := fun h0 => by rw [h0] at hV; norm_num at hV
        simp at this
        exact this.resolve_right hV0
      have hu1 := congrFun (congrFun h3.u_orth 0) 0
      have hu2 := congrFun (congrFun h3.u_orth 0) 1
      have hu3 := congrFun (congrFun h3.u_orth 1) 1
      simp [Matrix.mul_apply, Fin.sum_univ_two, hU10] at hu1 hu2 hu3
      have hU01 : U 0 1 = 0 := hu2.resolve_left fun h0 => by rw [h0] at hu1; norm_num at hu1
      simp only [haroldsvdTol, h2, hcount, h1, if_true, one_ne_zero, if_false, Arr.of_r, lt_irrefl]
      obtain ⟨a, b, c, d, hup, hc, hd⟩ : ∃ a b c d : ℝ, tzUpdate0 ⟨Arr.of !![0, 1; 1, -1], Arr.of (!![ε, 0] : Matrix (Fin 1) (Fin 2) ℝ)ᵀ, Arr.of (!![1; 0] : Matrix (Fin 2) (Fin 1) ℝ)ᵀ,
          Arr.of (0 : Matrix (Fin 1) (Fin 1) ℝ)⟩ (Arr.of U).fliplr (2 - 1) = .ok ⟨Arr.of !![a], Arr.of !![b], Arr.of !![c], Arr.of !![d]⟩ ∧ c ^ 2 = 1 ∧ d ^ 2 = ε ^ 2 := by
        set Q : Matrix (Fin 2) (Fin 2) ℝ := U.submatrix id Fin.rev with hQ
        have hfl : (Arr.of U).fliplr = Arr.of Q := rfl
        set Y := Qᵀ * hcat ((!![0, 1; 1, -1] : Matrix (Fin 2) (Fin 2) ℝ) * Q) (!![ε, 0] : Matrix (Fin 1) (Fin 2) ℝ)ᵀ with hY
        refine ⟨Y 0 0, Y 0 2, Y 1 0, Y 1 2, ?_, ?_, ?_⟩
        · rw [hfl]
          unfold tzUpdate0
          simp only [Arr.T_of, Arr.matmul_of, Arr.hstack_of, bind, Except.bind, Arr.of_r, Arr.of_c]
          rw [slice_of (a := 1) (b := 1) _ _ _ _ _ (by norm_num) (by norm_num), slice_of (a := 1) (b := 1) _ _ _ _ _ (by norm_num) (by norm_num),
            slice_of (a := 1) (b := 1) _ _ _ _ _ (by norm_num) (by norm_num), slice_of (a := 1) (b := 1) _ _ _ _ _ (by norm_num) (by norm_num)]
          congr 2 <;> refine Arr.of_inj.mpr ?_ <;> ext i j <;> fin_cases i <;> fin_cases j <;> rfl
        · have : Y 1 0 = U 0 0 * U 1 1 := by
            rw [hY, Matrix.mul_apply, Fin.sum_univ_two]
            change U 0 0 * ((!![0, 1; 1, -1] : Matrix (Fin 2) (Fin 2) ℝ) * Q) 0 0 + U 1 0 * _ = _
            rw [hU10, zero_mul, add_zero, Matrix.mul_apply, Fin.sum_univ_two]
            change U 0 0 * (0 * U 0 1 + 1 * U 1 1) = _
            ring
          rw [this]
          rw [hU01] at hu3
          calc (U 0 0 * U 1 1) ^ 2 = (U 0 0 * U 0 0) * (U 1 1 * U 1 1) := by ring
            _ = 1 := by rw [hu1, show U 1 1 * U 1 1 = 1 by linarith, mul_one]
        · have : Y 1 2 = U 0 0 * ε := by
            rw [hY, Matrix.mul_apply, Fin.sum_univ_two]
            change U 0 0 * ε + U 1 0 * _ = _
            rw [hU10, zero_mul, add_zero]
          rw [this]
          calc (U 0 0 * ε) ^ 2 = (U 0 0 * U 0 0) * ε ^ 2 := by ring
            _ = ε ^ 2 := by rw [hu1, one_mul]
      simp only [hup]
      rw [if_neg (show ¬ (2 - 1 = 0) by norm_num)]
      simp only
      have hd0 : d ≠ 0 := fun h => by rw [h] at hd; nlinarith
      have hdany : (Arr.of !![d]).any = true := hany fun h => hd0 (congrFun (congrFun h 0) 0)
      obtain ⟨U₂, s₂, V₂, g1, g2⟩ := hsvd !![d]
      obtain ⟨t, rfl, g3, g4, -, -⟩ := svd_col g2
      have ht : t = ε := by
        simp at g4
        exact (abs_eq_abs.mp (sq_eq_sq_iff_abs_eq_abs t ε |>.mp (g4.trans hd))).resolve_right fun h => by linarith
      subst ht
      have hsplit : tzSplit N.svd τ (Arr.of !![c]) (Arr.of !![d]) = .ok (some (Arr.of (U₂ᵀ * !![c]), Arr.of (diagRect 1 1 [t] * V₂), 0)) := by
        have hh : haroldsvdTol N.svd τ (Arr.of !![d]) = (Arr.of U₂, Arr.of (diagRect 1 1 [t]), Arr.of V₂, 0) := by
          unfold haroldsvdTol
          simp only [g1, hcount, not_lt.mpr htol, if_false]
        unfold tzSplit
        rw [if_pos hdany, hh]
        simp only [Arr.matmul_of, Arr.T_of, bind, Except.bind, Arr.of_r]
        rw [if_neg (by norm_num)]
      unfold tzLoop tzStep
      simp only [hsplit, bind, Except.bind]
      unfold tzCompress
      simp only [Arr.of_r, Arr.of_c]
      rw [slice_of (a := 1) (b := 1) _ _ _ _ _ (by norm_num) (by norm_num), Arr.T_of]
      obtain ⟨U₃, s₃, V₃, k1, k2⟩ := hsvd (Matrix.of fun (i : Fin 1) (j : Fin 1) => (U₂ᵀ * !![c]) ⟨0 + i, by omega⟩ ⟨0 + j, by omega⟩)ᵀ
      obtain ⟨t', rfl, k3, k4, -, -⟩ := svd_col k2
      have ht' : t' = 1 := by
        have hU := congrFun (congrFun g2.u_orth 0) 0
        simp [Matrix.mul_apply] at k4 hU
        have h7 : t' ^ 2 = 1 := by
          rw [k4, mul_pow, hc, mul_one, sq]
          exact hU
        rcases (sq_eq_one_iff.mp h7) with h | h <;> linarith
      subst ht'
      simp only [haroldsvdTol, k1, hcount, h1, if_true, one_ne_zero, if_false, Nat.sub_self]
    unfold transmissionZeros
    have hrk : matrixRank N.svd (Arr.of (0 : Matrix (Fin 1) (Fin 1) ℝ)) = 0 := by
      obtain ⟨u, sv, v, k1, k2⟩ := hsvd (0 : Matrix (Fin 1) (Fin 1) ℝ)
      unfold matrixRank
      have := countAbove_le_rank heps k2
      rw [rank_zero] at this
      rw [k1]
      exact Nat.le_zero.mp this
    have hB : (Arr.of (!![1; 0] : Matrix (Fin 2) (Fin 1) ℝ)).any = true := hany fun h => by have := congrFun (congrFun h 0) 0; norm_num at this
    have hC : (Arr.of (!![ε, 0] : Matrix (Fin 1) (Fin 2) ℝ)).any = true := hany fun h => hε.ne' (congrFun (congrFun h 0) 0)
    simp only [hrk, hB, hC]
    rw [if_neg (by simp), if_neg (by simp)]
    unfold tzFirst
    simp only [hrk, Arr.of_r]
    rw [if_neg (by norm_num), hred1]
    simp only [bind, Except.bind, tzAfter, Arr.of_r, Arr.of_c]
    rw [if_neg (by norm_num)]
    unfold tzDual
    simp only [Arr.hstack_of, bind, Except.bind, Arr.of_r, Arr.of_c]
    rw [if_pos (Or.inl (hany fun h => hε.ne' (congrFun (congrFun h 0) 0)))]
    unfold Quad.dual
    simp only [Arr.T_of]
    have hAT : (!![0, 1; 1, -1] : Matrix (Fin 2) (Fin 2) ℝ)ᵀ = !![0, 1; 1, -1] := by
      ext i j
      fin_cases i <;> fin_cases j <;> rfl
    rw [hAT, transpose_zero, hred2]
    rfl
  · refine invZero_of_ker (s' := 0) ⟨Sum.elim ![0, 1] ![-1], fun h => by simpa using congrFun h (Sum.inl 1), ?_⟩ fun z hz => ?_
    · rw [sysPencil_ker]
      simp only [Sum.elim_comp_inl, Sum.elim_comp_inr]
      constructor
      · ext i
        fin_cases i <;> simp [mulVec, dotProduct, Fin.sum_univ_two]
      · ext i
        fin_cases i
        simp [mulVec, dotProduct, Fin.sum_univ_two]
    · rw [sysPencil_ker] at hz
      have e1 := congrFun hz.1 0
      have e2 := congrFun hz.1 1
      have e3 := congrFun hz.2 0
      simp [mulVec, dotProduct, Fin.sum_univ_two] at e1 e2 e3
      have e4 := e3.resolve_left hε.ne'
      rw [e4] at e2
      have e5 : z (Sum.inl 1) = 0 := by linear_combination -e2
      rw [e5] at e1
      ext i
      rcases i with i | i
      · fin_cases i
        · exact e4
        · exact e5
      · fin_cases i
        simpa using e1

/-- Non-vacuity of `C73_scaling_violated`. -/
example : ∃ N : TzNum, (∀ {p m : ℕ} (M : Matrix (Fin p) (Fin m) ℝ), SvdOk N.svd M) ∧ 0 ≤ N.svd.eps ∧ (1 / 10 : ℝ) ≤ N.spacing 300 * √3 ∧ N.spacing 300 * √3 < 1 := by
  obtain ⟨N, hN⟩ := exists_tzExact
  have h1 : (1 : ℝ) ≤ √3 := Real.le_sqrt_of_sq_le (by norm_num)
  have h2 : √3 < (2 : ℝ) := (Real.sqrt_lt' (by norm_num)).mpr (by norm_num)
  refine ⟨⟨N.svd, fun _ => 1 / 4, N.qz⟩, hN.svd, le_of_eq hN.eps.symm, ?_, ?_⟩ <;> simp only <;> linarith

/-- Non-vacuity of `C73_nonminimal_violated` and `C73_zero_tf_violated`. -/
example : ∃ N : TzNum, TzExact N := exists_tzExact

end Harold
