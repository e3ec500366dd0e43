import Verif.Props.ZeroInv
import Verif.Props.Refine

/-!
# C123: zeros of products, zeros and simulations
-/

namespace Harold

open Matrix Spec

variable {n m p : ℕ} {A : Matrix (Fin n) (Fin n) ℝ} {B : Matrix (Fin n) (Fin m) ℝ} {C : Matrix (Fin p) (Fin n) ℝ} {D : Matrix (Fin p) (Fin m) ℝ} {N : TzNum}

/-- A value is taken at all points but the eigenvalues. -/
theorem tfAt_off {s : ℂ} (hs : (A.map Complex.ofReal).charpoly.eval s ≠ 0) : ∃ M, TfAt A B C D s M := ⟨_, by rw [det_scalarC]; exact hs, rfl⟩

theorem hcat_ne_left {a b c : ℕ} {X : Matrix (Fin a) (Fin b) ℝ} {Y : Matrix (Fin a) (Fin c) ℝ} (h : X ≠ 0) : hcat X Y ≠ 0 := fun h0 => h (by
  ext i j
  have := congrFun (congrFun h0 i) (Fin.castAdd c j)
  simpa [hcat] using this)

theorem vcat_ne_right {a b c : ℕ} {X : Matrix (Fin a) (Fin c) ℝ} {Y : Matrix (Fin b) (Fin c) ℝ} (h : Y ≠ 0) : vcat X Y ≠ 0 := fun h0 => h (by
  ext i j
  have := congrFun (congrFun h0 (Fin.natAdd a i)) j
  simpa [vcat] using this)

/-- **C123**, products: the zeros of the product of two square models are the zeros of the factors, with their multiplicities. -/
theorem C123_product {n₁ n₂ : ℕ} {A₁ : Matrix (Fin n₁) (Fin n₁) ℝ} {B₁ : Matrix (Fin n₁) (Fin m) ℝ} {C₁ : Matrix (Fin m) (Fin n₁) ℝ} {D₁ : Matrix (Fin m) (Fin m) ℝ} {A₂ : Matrix (Fin n₂) (Fin n₂) ℝ}
    {B₂ : Matrix (Fin n₂) (Fin m) ℝ} {C₂ : Matrix (Fin m) (Fin n₂) ℝ} {D₂ : Matrix (Fin m) (Fin m) ℝ} (hN : TzExact N) (hB₁ : B₁ ≠ 0) (hC₁ : C₁ ≠ 0) (hB₂ : B₂ ≠ 0) (hC₂ : C₂ ≠ 0)
    (hr₁ : ∃ μ M, TfAt A₁ B₁ C₁ D₁ μ M ∧ M.det ≠ 0) (hr₂ : ∃ μ M, TfAt A₂ B₂ C₂ D₂ μ M ∧ M.det ≠ 0) {dt : Option ℝ} (hdt : DtOk dt) (fuel : ℕ) :
    ∃ (A : Matrix (Fin (n₁ + n₂)) (Fin (n₁ + n₂)) ℝ) (B : Matrix (Fin (n₁ + n₂)) (Fin m) ℝ) (C : Matrix (Fin m) (Fin (n₁ + n₂)) ℝ) (D : Matrix (Fin m) (Fin m) ℝ) (zs₁ zs₂ zs : List ℂ),
      (stateOf A₁ B₁ C₁ D₁ dt).matmul (fuel + 1) (stateOf A₂ B₂ C₂ D₂ dt) = .ok (stateOf A B C D dt) ∧
      transmissionZeros N ⟨Arr.of A₁, Arr.of B₁, Arr.of C₁, Arr.of D₁⟩ = .ok (zs₁.map some) ∧ transmissionZeros N ⟨Arr.of A₂, Arr.of B₂, Arr.of C₂, Arr.of D₂⟩ = .ok (zs₂.map some) ∧
      transmissionZeros N ⟨Arr.of A, Arr.of B, Arr.of C, Arr.of D⟩ = .ok (zs.map some) ∧ List.Perm zs (zs₁ ++ zs₂) := by
  have z : (Arr.zeros n₂ n₁ : Arr ℝ) = Arr.of 0 := rfl
  have e0 : (stateOf A₁ B₁ C₁ D₁ dt).matmul (fuel + 1) (stateOf A₂ B₂ C₂ D₂ dt) =
      .ok (stateOf (blk A₁ (B₁ * C₂) 0 A₂) (vcat (B₁ * D₂) B₂) (hcat C₁ (D₁ * C₂)) (D₁ * D₂) dt) := by
    rw [StateM.matmul]
    simp only [stateOf, ne_eq, not_true_eq_false, if_false, StateM.m, StateM.p, Bool.and_self, Bool.false_eq_true, decide_false, Bool.and_false]
    simp only [StateM.series, StateM.n, Arr.of_r, Arr.vstack_of, Arr.hstack_of, Arr.matmul_of, z, bind, Except.bind, vcat_hcat]
    exact mkState_of hdt _ _ _ _
  set A := blk A₁ (B₁ * C₂) 0 A₂ with hA
  have hcp : ∀ s : ℂ, (A.map Complex.ofReal).charpoly.eval s = (A₁.map Complex.ofReal).charpoly.eval s * (A₂.map Complex.ofReal).charpoly.eval s := fun s => by
    rw [← det_scalarC, ← det_scalarC, ← det_scalarC, hA]
    have := blk_map (algebraMap ℝ ℂ) A₁ (B₁ * C₂) 0 A₂
    simp only [Complex.coe_algebraMap] at this
    have h0 : (0 : Matrix (Fin n₂) (Fin n₁) ℝ).map Complex.ofReal = 0 := by ext i j; simp
    rw [this, h0, smul_one_sub_blk, neg_zero, det_blk_upper]
  obtain ⟨zs₁, k₁, h1, hk₁, h2⟩ := C73_square hN hB₁ hC₁ hr₁
  obtain ⟨zs₂, k₂, h3, hk₂, h4⟩ := C73_square hN hB₂ hC₂ hr₂
  have val : ∀ s M₁ M₂, TfAt A₁ B₁ C₁ D₁ s M₁ → TfAt A₂ B₂ C₂ D₂ s M₂ → TfAt A (vcat (B₁ * D₂) B₂) (hcat C₁ (D₁ * C₂)) (D₁ * D₂) s (M₁ * M₂) := fun s M₁ M₂ hM₁ hM₂ => by
    obtain ⟨R, e1, e2, -⟩ := C17_matmul (hasTF_stateOf.mpr hM₁) (hasTF_stateOf.mpr hM₂) hdt rfl fuel
    rw [e0] at e1
    cases e1
    exact hasTF_stateOf.mp e2
  have ev : ∀ (l : List ℂ) (s : ℂ), ((l.map fun z => Polynomial.X - Polynomial.C z).prod).eval s = (l.map fun z => s - z).prod := fun l s => by
    rw [Polynomial.eval_list_prod, List.map_map]
    congr 2
    funext z
    simp
  have hne : ∀ l : List ℂ, (l.map fun z => Polynomial.X - Polynomial.C z).prod ≠ 0 := fun l => List.prod_ne_zero fun h0 => by
    obtain ⟨z, -, h⟩ := List.mem_map.mp h0
    exact Polynomial.X_sub_C_ne_zero z h
  set f : Polynomial ℂ := (A₁.map Complex.ofReal).charpoly * (A₂.map Complex.ofReal).charpoly with hf
  have hf0 : f ≠ 0 := mul_ne_zero (charpoly_monic _).ne_zero (charpoly_monic _).ne_zero
  obtain ⟨μ, hμ⟩ : ∃ μ : ℂ, (f * ((zs₁.map fun z => Polynomial.X - Polynomial.C z).prod * (zs₂.map fun z => Polynomial.X - Polynomial.C z).prod)).eval μ ≠ 0 := by
    by_contra hn
    push Not at hn
    exact mul_ne_zero hf0 (mul_ne_zero (hne _) (hne _)) (Polynomial.funext fun s => by rw [hn s, Polynomial.eval_zero])
  simp only [hf, Polynomial.eval_mul, ev] at hμ
  have det_ne : ∀ {j : ℕ} {A' : Matrix (Fin j) (Fin j) ℝ} {M : Matrix (Fin m) (Fin m) ℂ} {k : ℂ} {zs : List ℂ} {s : ℂ}, k ≠ 0 → (zs.map fun z => s - z).prod ≠ 0 →
      (A'.map Complex.ofReal).charpoly.eval s * M.det = k * (zs.map fun z => s - z).prod → M.det ≠ 0 := fun hk hz h h0 => by
    rw [h0, mul_zero] at h
    exact mul_ne_zero hk hz h.symm
  obtain ⟨M₁, hM₁⟩ := tfAt_off (B := B₁) (C := C₁) (D := D₁) (left_ne_zero_of_mul (left_ne_zero_of_mul hμ))
  obtain ⟨M₂, hM₂⟩ := tfAt_off (B := B₂) (C := C₂) (D := D₂) (right_ne_zero_of_mul (left_ne_zero_of_mul hμ))
  obtain ⟨zs, k, h5, hk, h6⟩ := C73_square hN (vcat_ne_right (X := B₁ * D₂) hB₂) (hcat_ne_left (Y := D₁ * C₂) hC₁) ⟨μ, _, val μ M₁ M₂ hM₁ hM₂, by
    rw [det_mul]
    exact mul_ne_zero (det_ne hk₁ (left_ne_zero_of_mul (right_ne_zero_of_mul hμ)) (h2 μ M₁ hM₁)) (det_ne hk₂ (right_ne_zero_of_mul (right_ne_zero_of_mul hμ)) (h4 μ M₂ hM₂))⟩
  refine ⟨A, _, _, _, zs₁, zs₂, zs, e0, h1, h3, h5, perm_of_prod_off hf0 hk (mul_ne_zero hk₁ hk₂) fun s hs => ?_⟩
  rw [hf, Polynomial.eval_mul] at hs
  obtain ⟨M₁, hM₁⟩ := tfAt_off (B := B₁) (C := C₁) (D := D₁) (left_ne_zero_of_mul hs)
  obtain ⟨M₂, hM₂⟩ := tfAt_off (B := B₂) (C := C₂) (D := D₂) (right_ne_zero_of_mul hs)
  rw [← h6 s _ (val s M₁ M₂ hM₁ hM₂), hcp, det_mul, List.map_append, List.prod_append]
  linear_combination (A₂.map Complex.ofReal).charpoly.eval s * M₂.det * h2 s M₁ hM₁ + k₁ * (zs₁.map fun z => s - z).prod * h4 s M₂ hM₂

section blocking

variable {P : Type} {Nm : Numerics ℝ P} {E : DNum} {S : StateObj ℝ P} {h : ℝ}

/-- The input `z ^ k u₀`. -/
def powerInput (z : ℝ) (u₀ : Fin m → ℝ) (K : ℕ) : Matrix (Fin K) (Fin m) ℝ := Matrix.of fun i j => z ^ (i : ℕ) * u₀ j

/-- A real solution of a real equation with a complex one. -/
theorem real_kernel {z : ℝ} (hz : (sysPencil A B C D (z : ℂ)).rank < n + m) : ∃ (x : Fin n → ℝ) (u : Fin m → ℝ), (x ≠ 0 ∨ u ≠ 0) ∧ A *ᵥ x + B *ᵥ u = z • x ∧ C *ᵥ x + D *ᵥ u = 0 := by
  have h1 := finrank_ker_mulVec (sysPencil A B C D (z : ℂ))
  simp only [Fintype.card_sum, Fintype.card_fin] at h1
  have h2 : 0 < Module.finrank ℂ (LinearMap.ker (sysPencil A B C D (z : ℂ)).mulVecLin) := by omega
  rw [Module.finrank_pos_iff_exists_ne_zero] at h2
  obtain ⟨⟨w, hw⟩, hne⟩ := h2
  have hw0 : w ≠ 0 := fun h => hne (Subtype.ext h)
  rw [LinearMap.mem_ker, mulVecLin_apply, sysPencil_ker] at hw
  have part : ∀ (f : ℂ →+ ℝ), (∀ (r : ℝ) (c : ℂ), f (r * c) = r * f c) → (f ∘ w ≠ 0) →
      ∃ (x : Fin n → ℝ) (u : Fin m → ℝ), (x ≠ 0 ∨ u ≠ 0) ∧ A *ᵥ x + B *ᵥ u = z • x ∧ C *ᵥ x + D *ᵥ u = 0 := by
    intro f hf hfw
    have hmv : ∀ {a b : ℕ} (X : Matrix (Fin a) (Fin b) ℝ) (y : Fin b → ℂ) (i : Fin a), f ((X.map Complex.ofReal *ᵥ y) i) = (X *ᵥ (f ∘ y)) i := fun X y i => by
      simp only [mulVec, dotProduct, map_sum, map_apply, hf, Function.comp]
    refine ⟨f ∘ w ∘ Sum.inl, f ∘ w ∘ Sum.inr, ?_, ?_, ?_⟩
    · by_contra hn
      push Not at hn
      refine hfw (funext fun i => ?_)
      rcases i with i | i
      · exact congrFun hn.1 i
      · exact congrFun hn.2 i
    · funext i
      have := congrArg f (congrFun hw.1 i)
      simp only [Pi.add_apply, map_add, hmv, Pi.smul_apply, smul_eq_mul, hf] at this
      simpa using this
    · funext i
      have := congrArg f (congrFun hw.2 i)
      simpa only [Pi.add_apply, map_add, hmv, Pi.zero_apply, map_zero] using this
  by_cases hre : Complex.reAddGroupHom ∘ w = 0
  · refine part Complex.imAddGroupHom (fun r c => by simp) fun him => hw0 (funext fun i => Complex.ext ?_ ?_)
    · simpa using congrFun hre i
    · simpa using congrFun him i
  · exact part Complex.reAddGroupHom (fun r c => by simp) hre

/-- **C123**, zeros and simulations: a real number `z` is returned by `transmission_zeros` for an observable discrete model exactly if some input `z ^ k u₀`, `u₀ ≠ 0`, gives from some initial state the output zero. -/
theorem C123_blocking (hN : TzExact N) (hB : B ≠ 0) (hC : C ≠ 0) (hr : ∃ μ M, TfAt A B C D μ M ∧ M.rank = m) (ho : Observable A C) (hn : n ≠ 1) (hh : 0 < h) (hS : S.g = stateOf A B C D (some h)) :
    ∃ zs : List ℂ, transmissionZeros N ⟨Arr.of A, Arr.of B, Arr.of C, Arr.of D⟩ = .ok (zs.map some) ∧
      ∀ z : ℝ, (z : ℂ) ∈ zs ↔ ∃ (x₀ : Fin n → ℝ) (u₀ : Fin m → ℝ), u₀ ≠ 0 ∧ ∀ K, 2 ≤ K → simulate Nm E S (Arr.of (powerInput z u₀ K)) none (some (List.ofFn x₀)) false =
        .ok (.flat (Arr.of (0 : Matrix (Fin K) (Fin p) ℝ)), (List.range K).map fun k : ℕ => (k : ℝ) * h) := by
  obtain ⟨zs, h1, h2, -⟩ := C73_left_invertible hN hB hC hr
  obtain ⟨μ, M, hM, hrk⟩ := hr
  have hm : 1 ≤ m := by
    rw [Nat.one_le_iff_ne_zero]
    rintro rfl
    exact hB (Matrix.ext fun i j => j.elim0)
  have sim : ∀ (z : ℝ) (x₀ : Fin n → ℝ) (u₀ : Fin m → ℝ) (K : ℕ), 2 ≤ K → simulate Nm E S (Arr.of (powerInput z u₀ K)) none (some (List.ofFn x₀)) false =
      .ok (.flat (Arr.of (Matrix.of fun i : Fin K => C *ᵥ runStates A B (fun k => z ^ k • u₀) x₀ i + D *ᵥ (z ^ (i : ℕ) • u₀))), (List.range K).map fun k : ℕ => (k : ℝ) * h) := fun z x₀ u₀ K hK => by
    rw [simulate_flat (A := A) (B := B) (C := C) (D := D) (dt := some h) (t := (List.range K).map fun k : ℕ => (k : ℝ) * h) hK hm (by rw [hS]) (by rw [hS]; rfl) (by rw [hS]; rfl)
      (by rw [hS]; exact timeArray_none _) (by simp) (by unfold simModel; rw [hS]) (.inr ⟨rfl, hn⟩) false (.inl rfl)]
    congr 4
    funext i
    exact output_run (fun k => z ^ k • u₀) (fun i => by funext j; simp [powerInput]) i
  refine ⟨zs, h1, fun z => ?_⟩
  rw [h2]
  constructor
  · rintro ⟨s', hs'⟩
    have hle := rank_le_card_width (sysPencil A B C D s')
    simp only [Fintype.card_sum, Fintype.card_fin] at hle
    obtain ⟨x, u, hne, hx, hy⟩ := real_kernel (A := A) (B := B) (C := C) (D := D) (z := z) (by omega)
    have hu : u ≠ 0 := by
      rintro rfl
      rw [mulVec_zero, add_zero] at hx hy
      have hp : ∀ k : ℕ, (A ^ k) *ᵥ x = z ^ k • x := fun k => by
        induction k with
        | zero => simp
        | succ k ih => rw [pow_succ', ← mulVec_mulVec, ih, mulVec_smul, hx, smul_smul, pow_succ]
      refine (hne.resolve_right fun h => h rfl) (ho x fun k => ?_)
      rw [hp, mulVec_smul, hy, smul_zero]
    refine ⟨x, u, hu, fun K hK => ?_⟩
    rw [sim z x u K hK]
    have hrun : ∀ k, runStates A B (fun k => z ^ k • u) x k = z ^ k • x := fun k => by
      induction k with
      | zero => simp [runStates]
      | succ k ih => rw [runStates, ih, mulVec_smul, mulVec_smul, ← smul_add, hx, smul_smul, pow_succ]
    have e : (Matrix.of fun i : Fin K => C *ᵥ runStates A B (fun k => z ^ k • u) x i + D *ᵥ (z ^ (i : ℕ) • u)) = 0 := by
      ext i j
      rw [of_apply, hrun, mulVec_smul, mulVec_smul, ← smul_add, hy, smul_zero]
      rfl
    rw [e]
  · rintro ⟨x, u, hu, hsim⟩
    set xs := runStates A B (fun k => z ^ k • u) x with hxs
    have hout : ∀ k : ℕ, C *ᵥ xs k + D *ᵥ (z ^ k • u) = 0 := fun k => by
      have ht := hsim (k + 2) (by omega)
      rw [sim z x u (k + 2) (by omega)] at ht
      simp only [Except.ok.injEq, Prod.mk.injEq, SimOut.flat.injEq, Arr.of_inj] at ht
      exact congrFun ht.1 ⟨k, by omega⟩
    have hstep : ∀ k : ℕ, (A ^ k) *ᵥ (xs 1 - z • xs 0) = xs (k + 1) - z • xs k := fun k => by
      induction k with
      | zero => simp
      | succ k ih =>
        have e1 : xs (k + 1 + 1) = A *ᵥ xs (k + 1) + B *ᵥ (z ^ (k + 1) • u) := rfl
        have e2 : xs (k + 1) = A *ᵥ xs k + B *ᵥ (z ^ k • u) := rfl
        rw [pow_succ', ← mulVec_mulVec, ih, mulVec_sub, e1, mulVec_smul, mulVec_smul]
        conv_rhs => rw [show z • xs (k + 1) = z • (A *ᵥ xs k + B *ᵥ (z ^ k • u)) by rw [← e2], mulVec_smul, smul_add, smul_smul, ← pow_succ']
        abel
    have h0 : xs 1 - z • xs 0 = 0 := ho _ fun k => by
      rw [hstep, mulVec_sub, mulVec_smul]
      have e1 := hout (k + 1)
      have e2 := hout k
      rw [eq_neg_of_add_eq_zero_left e1, eq_neg_of_add_eq_zero_left e2, mulVec_smul, mulVec_smul, smul_neg, smul_smul, ← pow_succ', sub_self]
    have hx : A *ᵥ x + B *ᵥ u = z • x := by
      have := sub_eq_zero.mp h0
      simpa [hxs, runStates] using this
    have hy : C *ᵥ x + D *ᵥ u = 0 := by simpa [hxs, runStates] using hout 0
    refine ⟨μ, ?_⟩
    rw [rank_tf hM, hrk]
    have h1 := finrank_ker_mulVec (sysPencil A B C D (z : ℂ))
    simp only [Fintype.card_sum, Fintype.card_fin] at h1
    have hmv : ∀ {a b : ℕ} (X : Matrix (Fin a) (Fin b) ℝ) (y : Fin b → ℝ), X.map Complex.ofReal *ᵥ (fun i => (y i : ℂ)) = fun i => (((X *ᵥ y) i : ℝ) : ℂ) := fun X y => by
      funext i
      simp [mulVec, dotProduct]
    have hpos : 0 < Module.finrank ℂ (LinearMap.ker (sysPencil A B C D (z : ℂ)).mulVecLin) := by
      rw [Module.finrank_pos_iff_exists_ne_zero]
      refine ⟨⟨Sum.elim (fun i => (x i : ℂ)) (fun i => (u i : ℂ)), ?_⟩, fun h => hu ?_⟩
      · rw [LinearMap.mem_ker, mulVecLin_apply, sysPencil_ker]
        simp only [Sum.elim_comp_inl, Sum.elim_comp_inr, hmv]
        refine ⟨funext fun i => ?_, funext fun i => ?_⟩
        · have := congrFun hx i
          simp only [Pi.add_apply, Pi.smul_apply, smul_eq_mul] at this ⊢
          exact_mod_cast this
        · have := congrFun hy i
          simp only [Pi.add_apply, Pi.zero_apply] at this ⊢
          exact_mod_cast this
      · funext i
        have := congrFun (congrArg Subtype.val h) (Sum.inr i)
        simpa using this
    omega

/-- The model `(s + 1) / s²`: its zero is `-1`. -/
theorem block_ex : TfAt (!![0, 1; 0, 0] : Matrix (Fin 2) (Fin 2) ℝ) (!![0; 1] : Matrix (Fin 2) (Fin 1) ℝ) (!![1, 1] : Matrix (Fin 1) (Fin 2) ℝ) (0 : Matrix (Fin 1) (Fin 1) ℝ) 1 !![2] := by
  refine isTF_iff_sol.mpr ⟨?_, !![1; 1], ?_, ?_⟩
  · simp [det_fin_two]
  · ext i j; fin_cases i <;> fin_cases j <;> simp [Matrix.mul_apply, Fin.sum_univ_two]
  · ext i j; fin_cases i; fin_cases j; simp [Matrix.mul_apply, Fin.sum_univ_two]; norm_num

theorem block_rank : (!![2] : Matrix (Fin 1) (Fin 1) ℂ).rank = 1 := by
  have h : (!![2] : Matrix (Fin 1) (Fin 1) ℂ).det ≠ 0 := by simp
  simpa using rank_of_det_ne_zero h

/-- Non-vacuity of `C123_blocking`: for the discrete model `(s + 1) / s²` the input `(-1) ^ k` from the right initial state gives the output zero. -/
example {N : TzNum} (hN : TzExact N) (S : StateObj ℝ P) (hS : S.g = stateOf (!![0, 1; 0, 0] : Matrix (Fin 2) (Fin 2) ℝ) (!![0; 1] : Matrix (Fin 2) (Fin 1) ℝ) (!![1, 1] : Matrix (Fin 1) (Fin 2) ℝ) 0 (some 1)) :
    ∃ zs : List ℂ, transmissionZeros N ⟨S.g.a, S.g.b, S.g.c, S.g.d⟩ = .ok (zs.map some) ∧ ((-1 : ℝ) : ℂ) ∈ zs := by
  have ho : Observable (!![0, 1; 0, 0] : Matrix (Fin 2) (Fin 2) ℝ) (!![1, 1] : Matrix (Fin 1) (Fin 2) ℝ) := fun x hx => by
    have h0 := congrFun (hx 0) 0
    have h1 := congrFun (hx 1) 0
    simp [mulVec, dotProduct, Fin.sum_univ_two] at h0 h1
    ext i
    fin_cases i
    · simpa [h1] using h0
    · simpa using h1
  obtain ⟨zs, h1, h2⟩ := C123_blocking (Nm := ⟨fun _ => [], fun _ _ _ _ => [], fun _ => true, fun _ => true⟩) (E := plainDNum) hN (fun h => by have := congrFun (congrFun h 1) 0; simp at this)
    (fun h => by have := congrFun (congrFun h 0) 0; simp at this) ⟨1, _, block_ex, block_rank⟩ ho (by decide) one_pos hS
  refine ⟨zs, by rw [hS]; exact h1, ?_⟩
  have hm : 1 ≤ 1 := le_rfl
  refine (h2 (-1)).mpr ⟨![1, -1], ![1], fun h => one_ne_zero (congrFun h 0), fun K hK => ?_⟩
  rw [simulate_flat (A := (!![0, 1; 0, 0] : Matrix (Fin 2) (Fin 2) ℝ)) (B := (!![0; 1] : Matrix (Fin 2) (Fin 1) ℝ)) (C := (!![1, 1] : Matrix (Fin 1) (Fin 2) ℝ)) (D := 0) (dt := some 1)
    (x0 := ![1, -1]) (t := (List.range K).map fun k : ℕ => (k : ℝ) * 1) hK hm (by rw [hS]) (by rw [hS]; rfl) (by rw [hS]; rfl) (by rw [hS]; exact timeArray_none _) (by simp) (by unfold simModel; rw [hS])
    (.inr ⟨rfl, by decide⟩) false (.inl rfl)]
  have hrun : ∀ k, runStates (!![0, 1; 0, 0] : Matrix (Fin 2) (Fin 2) ℝ) (!![0; 1] : Matrix (Fin 2) (Fin 1) ℝ) (fun k => (-1 : ℝ) ^ k • ![1]) ![1, -1] k = (-1 : ℝ) ^ k • ![1, -1] := fun k => by
    induction k with
    | zero => simp [runStates]
    | succ k ih =>
      rw [runStates, ih]
      ext i
      fin_cases i <;> simp [mulVec, dotProduct, Fin.sum_univ_two, pow_succ]
  congr 4
  ext i j
  rw [of_apply, output_run (fun k => (-1 : ℝ) ^ k • ![1]) (fun i => by funext j; fin_cases j; simp [powerInput]) i, hrun]
  fin_cases j
  simp [mulVec, dotProduct, Fin.sum_univ_two]

end blocking

/-- Non-vacuity of `C123_product`: the square of `(s + 1) / s²`. -/
example {N : TzNum} (hN : TzExact N) (G : StateM ℝ) (hG : G = stateOf (!![0, 1; 0, 0] : Matrix (Fin 2) (Fin 2) ℝ) (!![0; 1] : Matrix (Fin 2) (Fin 1) ℝ) (!![1, 1] : Matrix (Fin 1) (Fin 2) ℝ) 0 none) :
    ∃ (R : StateM ℝ) (zs zs' : List ℂ), G.matmul 1 G = .ok R ∧ transmissionZeros N ⟨G.a, G.b, G.c, G.d⟩ = .ok (zs.map some) ∧ transmissionZeros N ⟨R.a, R.b, R.c, R.d⟩ = .ok (zs'.map some) ∧ List.Perm zs' (zs ++ zs) := by
  have hB : (!![0; 1] : Matrix (Fin 2) (Fin 1) ℝ) ≠ 0 := fun h => by have := congrFun (congrFun h 1) 0; simp at this
  have hC : (!![1, 1] : Matrix (Fin 1) (Fin 2) ℝ) ≠ 0 := fun h => by have := congrFun (congrFun h 0) 0; simp at this
  have hd : (!![2] : Matrix (Fin 1) (Fin 1) ℂ).det ≠ 0 := by simp
  obtain ⟨A, B, C, D, zs₁, zs₂, zs, h1, h2, h3, h4, h5⟩ := C123_product hN hB hC hB hC ⟨1, _, block_ex, hd⟩ ⟨1, _, block_ex, hd⟩ dtOk_none 0
  have e : zs₁ = zs₂ := by
    rw [h2] at h3
    exact List.map_injective_iff.mpr (Option.some_injective ℂ) (Except.ok.inj h3)
  subst hG e
  exact ⟨_, zs₁, zs, h1, h2, h4, h5⟩

/-- Non-vacuity of `C123_state_feedback`: any state feedback for `(s + 1) / s²`. -/
example {N : TzNum} (hN : TzExact N) (A : Matrix (Fin 2) (Fin 2) ℝ) (B : Matrix (Fin 2) (Fin 1) ℝ) (C : Matrix (Fin 1) (Fin 2) ℝ) (D : Matrix (Fin 1) (Fin 1) ℝ) (hA : A = !![0, 1; 0, 0]) (hB : B = !![0; 1])
    (hC : C = !![1, 1]) (hD : D = 0) (F : Matrix (Fin 1) (Fin 2) ℝ) : SameZeros N A (A - B * F) B B C (C - D * F) D D := by
  subst hA hB hC hD
  have hC : (!![1, 1] : Matrix (Fin 1) (Fin 2) ℝ) ≠ 0 := fun h => by have := congrFun (congrFun h 0) 0; simp at this
  exact C123_state_feedback hN (fun h => by have := congrFun (congrFun h 1) 0; simp at this) hC ⟨1, _, block_ex, block_rank⟩ F (by rw [Matrix.zero_mul, sub_zero]; exact hC)

end Harold
