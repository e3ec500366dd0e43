import Verif.Lemmas.TransZerosEnd
import Verif.Lemmas.QzExists
import Verif.Lemmas.StateDcgain
import Verif.Spec.TF
import Verif.Props.ToTransfer

/-!
# C73: `transmission_zeros`
-/

namespace Harold

open Matrix Spec

variable {n m p : ℕ} {A : Matrix (Fin n) (Fin n) ℝ} {B : Matrix (Fin n) (Fin m) ℝ} {C : Matrix (Fin p) (Fin n) ℝ} {D : Matrix (Fin p) (Fin m) ℝ} {N : TzNum}

/-- The transfer matrix of the real model `A, B, C, D` has the value `M` at `s`, which is not a pole. -/
abbrev TfAt (A : Matrix (Fin n) (Fin n) ℝ) (B : Matrix (Fin n) (Fin m) ℝ) (C : Matrix (Fin p) (Fin n) ℝ) (D : Matrix (Fin p) (Fin m) ℝ) (s : ℂ)
    (M : Matrix (Fin p) (Fin m) ℂ) : Prop :=
  IsTF (A.map Complex.ofReal) (B.map Complex.ofReal) (C.map Complex.ofReal) (D.map Complex.ofReal) s M

theorem det_scalarC (M : Matrix (Fin n) (Fin n) ℂ) (z : ℂ) : (z • (1 : Matrix (Fin n) (Fin n) ℂ) - M).det = M.charpoly.eval z := by
  rw [eval_charpoly, scalar_apply, ← smul_one_eq_diagonal]

/-- The map `u ↦ ((sI - A)⁻¹ B u, u)`. -/
noncomputable def schurMap (A : Matrix (Fin n) (Fin n) ℝ) (B : Matrix (Fin n) (Fin m) ℝ) (s : ℂ) : (Fin m → ℂ) →ₗ[ℂ] (Fin n ⊕ Fin m → ℂ) where
  toFun u := Sum.elim (((s • 1 - A.map Complex.ofReal)⁻¹ * B.map Complex.ofReal) *ᵥ u) u
  map_add' u v := by
    ext i
    rcases i with i | i
    · simp only [mulVec_add, Sum.elim_inl, Pi.add_apply]
    · rfl
  map_smul' c u := by
    ext i
    rcases i with i | i
    · simp only [mulVec_smul, Sum.elim_inl, Pi.smul_apply, RingHom.id_apply]
    · rfl

/-- Where the transfer matrix is defined, the rank of the pencil is `n` plus the rank of the transfer matrix. -/
theorem rank_tf {s : ℂ} {M : Matrix (Fin p) (Fin m) ℂ} (h : TfAt A B C D s M) : (sysPencil A B C D s).rank = n + M.rank := by
  obtain ⟨hdet, rfl⟩ := h
  have hu : IsUnit (s • (1 : Matrix (Fin n) (Fin n) ℂ) - A.map Complex.ofReal).det := isUnit_iff_ne_zero.mpr hdet
  have hinj : Function.Injective (schurMap A B s) := fun u v huv => funext fun i => congrFun huv (Sum.inr i)
  set R := (s • (1 : Matrix (Fin n) (Fin n) ℂ) - A.map Complex.ofReal) with hR
  have key : ∀ (x : Fin n → ℂ) (u : Fin m → ℂ), A.map Complex.ofReal *ᵥ x + B.map Complex.ofReal *ᵥ u = s • x ↔ x = (R⁻¹ * B.map Complex.ofReal) *ᵥ u := by
    intro x u
    have e : A.map Complex.ofReal *ᵥ x + B.map Complex.ofReal *ᵥ u = s • x ↔ R *ᵥ x = B.map Complex.ofReal *ᵥ u := by
      rw [hR, sub_mulVec, smul_mulVec, one_mulVec, sub_eq_iff_eq_add, add_comm]
      exact eq_comm
    rw [e]
    constructor
    · intro h
      rw [← mulVec_mulVec, ← h, mulVec_mulVec, nonsing_inv_mul _ hu, one_mulVec]
    · intro h
      rw [h, mulVec_mulVec, ← Matrix.mul_assoc, mul_nonsing_inv _ hu, Matrix.one_mul]
  have e : (LinearMap.ker (C.map Complex.ofReal * R⁻¹ * B.map Complex.ofReal + D.map Complex.ofReal).mulVecLin).map (schurMap A B s) =
      LinearMap.ker (sysPencil A B C D s).mulVecLin := by
    ext z
    simp only [Submodule.mem_map, LinearMap.mem_ker, mulVecLin_apply]
    constructor
    · rintro ⟨u, hu, rfl⟩
      rw [sysPencil_ker]
      refine ⟨(key _ _).mpr rfl, ?_⟩
      simp only [schurMap, LinearMap.coe_mk, AddHom.coe_mk, Sum.elim_comp_inl, Sum.elim_comp_inr, mulVec_mulVec]
      rw [← Matrix.mul_assoc, ← add_mulVec]
      exact hu
    · intro hz
      rw [sysPencil_ker] at hz
      have h1 := (key _ _).mp hz.1
      refine ⟨z ∘ Sum.inr, ?_, ?_⟩
      · rw [add_mulVec, Matrix.mul_assoc, ← mulVec_mulVec, ← h1]
        exact hz.2
      · ext i
        rcases i with i | i
        · exact (congrFun h1 i).symm
        · rfl
  have h1 := LinearEquiv.finrank_eq (Submodule.equivMapOfInjective _ hinj (LinearMap.ker (C.map Complex.ofReal * R⁻¹ * B.map Complex.ofReal + D.map Complex.ofReal).mulVecLin))
  rw [e] at h1
  have h2 := finrank_ker_mulVec (sysPencil A B C D s)
  have h3 := finrank_ker_mulVec (C.map Complex.ofReal * R⁻¹ * B.map Complex.ofReal + D.map Complex.ofReal)
  simp only [Fintype.card_sum, Fintype.card_fin] at h2 h3
  omega

/-- `M ≠ 0` has positive rank. -/
theorem rank_pos_of_ne {M : Matrix (Fin p) (Fin m) ℂ} (h : M ≠ 0) : 0 < M.rank := by
  rw [Nat.pos_iff_ne_zero]
  intro h0
  have h1 : LinearMap.range M.mulVecLin = ⊥ := Submodule.finrank_eq_zero.mp h0
  rw [LinearMap.range_eq_bot] at h1
  refine h (Matrix.ext fun i j => ?_)
  have h2 : M *ᵥ Pi.single j 1 = 0 := LinearMap.congr_fun h1 (Pi.single j 1)
  have h3 := congrFun h2 i
  rw [mulVec_single_one] at h3
  exact h3

/-- **C73**, first part. If `B` and `C` are not zero and the transfer matrix is not identically zero, `transmission_zeros` succeeds. If all values returned
are finite, they are exactly the points where the rank of the system pencil drops. Missing: `B = 0` or `C = 0`, transfer matrices that vanish identically,
and models for which `inf` is returned; see the violations below and `C73_left_invertible` for a class where `inf` is never returned. -/
theorem C73_zeros_partial (hN : TzExact N) (hB : B ≠ 0) (hC : C ≠ 0) (hr : ∃ μ M, TfAt A B C D μ M ∧ M ≠ 0) :
    ∃ z, transmissionZeros N ⟨Arr.of A, Arr.of B, Arr.of C, Arr.of D⟩ = .ok z ∧ (none ∉ z → ∀ s, some s ∈ z ↔ InvariantZero A B C D s) := by
  obtain ⟨μ, M, hM, hne⟩ := hr
  obtain ⟨z, h1, h2⟩ := transmissionZeros_spec (A := A) (D := D) hN hB hC ⟨μ, by rw [rank_tf hM]; have := rank_pos_of_ne hne; omega⟩
  refine ⟨z, h1, fun hz s => ?_⟩
  rcases h2 with ⟨h2, -⟩ | ⟨zs, rfl, h3, -⟩
  · exact absurd h2 hz
  · rw [h3]
    simp

/-- **C73**, second part: models whose transfer matrix has independent columns at some point (for instance square models with invertible transfer matrix, or
models with one input and a transfer matrix that is not zero). All values returned are finite and they are exactly the points where the rank of the system
pencil drops. In particular a point that is not a pole is returned exactly if the columns of the transfer matrix are dependent there. -/
theorem C73_left_invertible (hN : TzExact N) (hB : B ≠ 0) (hC : C ≠ 0) (hr : ∃ μ M, TfAt A B C D μ M ∧ M.rank = m) :
    ∃ zs : List ℂ, transmissionZeros N ⟨Arr.of A, Arr.of B, Arr.of C, Arr.of D⟩ = .ok (zs.map some) ∧
      (∀ s, s ∈ zs ↔ InvariantZero A B C D s) ∧ ∀ s M, TfAt A B C D s M → (s ∈ zs ↔ M.rank < m) := by
  obtain ⟨μ, M, hM, hrk⟩ := hr
  have hm : 0 < m := by
    rw [Nat.pos_iff_ne_zero]
    rintro rfl
    exact hB (Matrix.ext fun i j => j.elim0)
  obtain ⟨z, h1, h2⟩ := transmissionZeros_spec (A := A) (D := D) hN hB hC ⟨μ, by rw [rank_tf hM]; omega⟩
  rcases h2 with ⟨-, h2⟩ | ⟨zs, rfl, h3, -⟩
  · have := h2 μ
    rw [rank_tf hM] at this
    omega
  · refine ⟨zs, h1, fun s => (h3 s).symm, fun s M' hM' => ?_⟩
    rw [← h3]
    constructor
    · rintro ⟨s', hs'⟩
      rw [rank_tf hM'] at hs'
      have := rank_le_card_width (sysPencil A B C D s')
      simp only [Fintype.card_sum, Fintype.card_fin] at this
      omega
    · intro hlt
      refine ⟨μ, ?_⟩
      rw [rank_tf hM, rank_tf hM']
      omega

/-- The determinant of the pencil of a square model. -/
theorem pencilDet_tf {B : Matrix (Fin n) (Fin m) ℝ} {C : Matrix (Fin m) (Fin n) ℝ} {D : Matrix (Fin m) (Fin m) ℝ} {s : ℂ} {M : Matrix (Fin m) (Fin m) ℂ}
    (h : TfAt A B C D s M) : pencilDet A B C D s = (-1) ^ n * ((A.map Complex.ofReal).charpoly.eval s * M.det) := by
  obtain ⟨hdet, rfl⟩ := h
  rw [pencilDet_square]
  unfold sysPencil
  have e1 : A.map Complex.ofReal - s • 1 = -(s • (1 : Matrix (Fin n) (Fin n) ℂ) - A.map Complex.ofReal) := (neg_sub _ _).symm
  have hu : IsUnit (A.map Complex.ofReal - s • (1 : Matrix (Fin n) (Fin n) ℂ)).det := by
    rw [e1, det_neg]
    exact isUnit_iff_ne_zero.mpr (mul_ne_zero (pow_ne_zero _ (neg_ne_zero.mpr one_ne_zero)) hdet)
  haveI := invertibleOfIsUnitDet _ hu
  rw [det_fromBlocks₁₁, invOf_eq_nonsing_inv]
  have e2 : (A.map Complex.ofReal - s • (1 : Matrix (Fin n) (Fin n) ℂ))⁻¹ = -(s • (1 : Matrix (Fin n) (Fin n) ℂ) - A.map Complex.ofReal)⁻¹ := by
    refine inv_eq_left_inv ?_
    rw [e1, Matrix.neg_mul, Matrix.mul_neg, neg_neg, nonsing_inv_mul _ (isUnit_iff_ne_zero.mpr hdet)]
  rw [e2, Matrix.mul_neg, Matrix.neg_mul, sub_neg_eq_add, add_comm (D.map _), e1, det_neg, Fintype.card_fin, det_scalarC, mul_assoc]

/-- **C73**, third part: square models whose transfer matrix is invertible at some point. The zeros are returned with their multiplicities: `det G(s)` is, up to
a constant factor, the product of the `s - zᵢ` divided by the characteristic polynomial of `A`. -/
theorem C73_square {B : Matrix (Fin n) (Fin m) ℝ} {C : Matrix (Fin m) (Fin n) ℝ} {D : Matrix (Fin m) (Fin m) ℝ} (hN : TzExact N) (hB : B ≠ 0) (hC : C ≠ 0)
    (hr : ∃ μ M, TfAt A B C D μ M ∧ M.det ≠ 0) :
    ∃ (zs : List ℂ) (k : ℂ), transmissionZeros N ⟨Arr.of A, Arr.of B, Arr.of C, Arr.of D⟩ = .ok (zs.map some) ∧ k ≠ 0 ∧
      ∀ s M, TfAt A B C D s M → (A.map Complex.ofReal).charpoly.eval s * M.det = k * (zs.map fun z => s - z).prod := by
  obtain ⟨μ, M, hM, hdet⟩ := hr
  have hm : 0 < m := by
    rw [Nat.pos_iff_ne_zero]
    rintro rfl
    exact hB (Matrix.ext fun i j => j.elim0)
  have hrk : M.rank = m := by simpa using rank_of_det_ne_zero hdet
  obtain ⟨z, h1, h2⟩ := transmissionZeros_spec (A := A) (D := D) hN hB hC ⟨μ, by rw [rank_tf hM]; omega⟩
  rcases h2 with ⟨-, h2⟩ | ⟨zs, rfl, -, k, h3⟩
  · have := h2 μ
    rw [rank_tf hM] at this
    omega
  · have hsign : ∀ s : ℂ, (zs.map fun x => x - s).prod = (-1) ^ zs.length * (zs.map fun z => s - z).prod := by
      intro s
      clear h1 h3
      induction zs with
      | nil => simp
      | cons x xs ih =>
        simp only [List.map_cons, List.prod_cons, ih, List.length_cons, pow_succ]
        ring
    refine ⟨zs, (-1) ^ n * k * (-1) ^ zs.length, h1, ?_, fun s M' hM' => ?_⟩
    · have h4 := h3 μ
      rw [pencilDet_tf hM] at h4
      refine mul_ne_zero (mul_ne_zero (pow_ne_zero _ (neg_ne_zero.mpr one_ne_zero)) fun h0 => ?_) (pow_ne_zero _ (neg_ne_zero.mpr one_ne_zero))
      rw [h0, zero_mul] at h4
      have h5 := hM.1
      rw [det_scalarC] at h5
      exact mul_ne_zero (pow_ne_zero _ (neg_ne_zero.mpr one_ne_zero)) (mul_ne_zero h5 hdet) h4
    · have h4 := h3 s
      rw [pencilDet_tf hM', hsign] at h4
      have h5 : ((-1 : ℂ) ^ n) * (-1) ^ n = 1 := by rw [← mul_pow, neg_one_mul, neg_neg, one_pow]
      linear_combination (-1 : ℂ) ^ n * h4 - (A.map Complex.ofReal).charpoly.eval s * M'.det * h5

/-! ## Minimal models -/

theorem numPoly_shift {K : Type} [Field K] (A : Matrix (Fin n) (Fin n) K) (b c : Fin n → K) :
    numPoly A (A *ᵥ b) c = Polynomial.X * numPoly A b c - Polynomial.C (c ⬝ᵥ b) * A.charpoly := by
  have h1 := adjugate_mul (charmatrix A)
  have h2 : (fun i => Polynomial.C ((A *ᵥ b) i)) = (Polynomial.X : Polynomial K) • (fun i => Polynomial.C (b i)) - charmatrix A *ᵥ fun i => Polynomial.C (b i) := by
    unfold charmatrix
    rw [sub_mulVec, scalar_apply, ← smul_one_eq_diagonal, smul_mulVec, one_mulVec]
    ext1 i
    simp [mulVec, dotProduct]
  unfold numPoly
  rw [h2, mulVec_sub, mulVec_smul, mulVec_mulVec, h1, smul_mulVec, one_mulVec, dotProduct_sub, dotProduct_smul, dotProduct_smul, smul_eq_mul, smul_eq_mul]
  congr 1
  rw [mul_comm, Matrix.charpoly]
  congr 1
  simp [dotProduct]

theorem numPoly_zero_markov {K : Type} [Field K] {A : Matrix (Fin n) (Fin n) K} {c : Fin n → K} (k : ℕ) :
    ∀ {b : Fin n → K}, numPoly A b c = 0 → c ⬝ᵥ ((A ^ k) *ᵥ b) = 0 := by
  have step : ∀ {b : Fin n → K}, numPoly A b c = 0 → c ⬝ᵥ b = 0 ∧ numPoly A (A *ᵥ b) c = 0 := by
    intro b hb
    have h1 := numPoly_shift A b c
    rw [hb, mul_zero, zero_sub] at h1
    have h2 : c ⬝ᵥ b = 0 := by
      by_contra hne
      have h3 := degree_numPoly_lt A (A *ᵥ b) c
      rw [h1, Polynomial.degree_neg, Polynomial.degree_C_mul hne, Matrix.charpoly_degree_eq_dim, Fintype.card_fin] at h3
      exact absurd h3 (lt_irrefl _)
    exact ⟨h2, by rw [h1, h2, Polynomial.C_0, zero_mul, neg_zero]⟩
  induction k with
  | zero =>
    intro b hb
    rw [pow_zero, one_mulVec]
    exact (step hb).1
  | succ k ih =>
    intro b hb
    rw [pow_succ, ← mulVec_mulVec]
    exact ih (step hb).2

/-- The transfer matrix of a minimal model with states is not identically zero. -/
theorem minimal_tf_ne (hn : 0 < n) (hr : Reachable A B) (ho : Observable A C) : ∃ μ M, TfAt A B C D μ M ∧ M ≠ 0 := by
  by_contra hcon
  push Not at hcon
  have hnum : ∀ i j, numPoly A (fun l => B l j) (C i) + Polynomial.C (D i j) * A.charpoly = 0 := by
    intro i j
    have hinf : Set.Infinite {s : ℂ | (A.map Complex.ofReal).charpoly.eval s ≠ 0} := by
      have hfin : Set.Finite {s : ℂ | (A.map Complex.ofReal).charpoly.eval s = 0} := by
        have := (A.map Complex.ofReal).charpoly.roots.toFinset.finite_toSet
        refine this.subset fun s hs => ?_
        simp only [Multiset.mem_toFinset, Finset.mem_coe]
        exact (Polynomial.mem_roots (charpoly_monic _).ne_zero).mpr hs
      exact hfin.infinite_compl
    have hmap : (numPoly A (fun l => B l j) (C i) + Polynomial.C (D i j) * A.charpoly).map (algebraMap ℝ ℂ) = 0 := by
      refine Polynomial.eq_zero_of_infinite_isRoot _ (hinf.mono fun s hs => ?_)
      have hdet : (s • (1 : Matrix (Fin n) (Fin n) ℂ) - A.map Complex.ofReal).det ≠ 0 := by rw [det_scalarC]; exact hs
      have h0 := congrFun (congrFun (hcon s _ ⟨hdet, rfl⟩) i) j
      have h1 := resolvent_entry A (fun l => B l j) (C i) s hdet
      have h2 : (C.map Complex.ofReal * (s • (1 : Matrix (Fin n) (Fin n) ℂ) - A.map Complex.ofReal)⁻¹ * B.map Complex.ofReal) i j =
          Polynomial.aeval s (numPoly A (fun l => B l j) (C i)) / Polynomial.aeval s A.charpoly := by
        rw [← h1, Matrix.mul_assoc]
        rfl
      rw [Matrix.add_apply, h2, Matrix.zero_apply] at h0
      have h3 : Polynomial.aeval s A.charpoly ≠ 0 := by rw [aeval_charpoly]; exact hdet
      rw [Set.mem_setOf_eq, Polynomial.IsRoot.def, Polynomial.eval_map_algebraMap, map_add, map_mul, Polynomial.aeval_C]
      have h4 : (D.map Complex.ofReal) i j = algebraMap ℝ ℂ (D i j) := rfl
      rw [h4] at h0
      field_simp at h0
      linear_combination h0
    exact (Polynomial.map_eq_zero_iff (algebraMap ℝ ℂ).injective).mp hmap
  have hnum0 : ∀ i j, numPoly A (fun l => B l j) (C i) = 0 := by
    intro i j
    by_cases hD : D i j = 0
    · have := hnum i j
      rwa [hD, Polynomial.C_0, zero_mul, add_zero] at this
    · exfalso
      have h1 := eq_neg_of_add_eq_zero_left (hnum i j)
      have h3 := degree_numPoly_lt A (fun l => B l j) (C i)
      rw [h1, Polynomial.degree_neg, Polynomial.degree_C_mul hD, Matrix.charpoly_degree_eq_dim, Fintype.card_fin] at h3
      exact absurd h3 (lt_irrefl _)
  have hmark : ∀ k : ℕ, C * A ^ k * B = 0 := by
    intro k
    ext i j
    have h1 := numPoly_zero_markov k (hnum0 i j)
    rw [Matrix.zero_apply, Matrix.mul_assoc, ← h1]
    rfl
  have hall : ∀ us : List (Fin m → ℝ), ∀ k : ℕ, C *ᵥ ((A ^ k) *ᵥ finalState A B us) = 0 := by
    intro us
    induction us using List.reverseRecOn with
    | nil => intro k; simp [finalState]
    | append_singleton us u ih =>
      intro k
      have h1 : finalState A B (us ++ [u]) = A *ᵥ finalState A B us + B *ᵥ u := by simp [finalState]
      have h2 := ih (k + 1)
      rw [h1, mulVec_add, mulVec_add, mulVec_mulVec _ _ A, ← pow_succ, h2, zero_add, mulVec_mulVec, mulVec_mulVec, hmark, zero_mulVec]
  have hzero : ∀ x : Fin n → ℝ, x = 0 := fun x => by
    obtain ⟨us, rfl⟩ := hr x
    exact ho _ (hall us)
  have := congrFun (hzero fun _ => 1) ⟨0, hn⟩
  simp at this

/-- **C73** for minimal models: `transmission_zeros` succeeds, and if all values returned are finite, they are exactly the points where the rank of the system
pencil drops. Missing: models that are not minimal (`C73_nonminimal_violated`) and wide ones (`C73_wide_violated`). -/
theorem C73_minimal_partial (hN : TzExact N) (hn : 0 < n) (hr : Reachable A B) (ho : Observable A C) :
    ∃ z, transmissionZeros N ⟨Arr.of A, Arr.of B, Arr.of C, Arr.of D⟩ = .ok z ∧ (none ∉ z → ∀ s, some s ∈ z ↔ InvariantZero A B C D s) := by
  refine C73_zeros_partial hN ?_ ?_ (minimal_tf_ne hn hr ho)
  · rintro rfl
    obtain ⟨us, hus⟩ := hr fun _ => 1
    have : ∀ us : List (Fin m → ℝ), finalState A 0 us = 0 := by
      intro us
      induction us using List.reverseRecOn with
      | nil => rfl
      | append_singleton us u ih =>
        have h1 : finalState A 0 (us ++ [u]) = A *ᵥ finalState A 0 us + (0 : Matrix (Fin n) (Fin m) ℝ) *ᵥ u := by simp [finalState]
        rw [h1, ih, mulVec_zero, zero_mulVec, add_zero]
    have h := congrFun ((this us).symm.trans hus) ⟨0, hn⟩
    simp at h
  · rintro rfl
    have h := congrFun (ho (fun _ => 1) fun k => by rw [zero_mulVec]) ⟨0, hn⟩
    simp at h

/-! ## Models with one input and one output -/

/-- Discharge of the assumption of C28: what `transmission_zeros` returns for models with one input, one output and no feedthrough is what the conversion of
state space models to transfer functions relies on. -/
theorem C73_zerosExact {E : Numerics ℝ ℂ} (hN : TzExact N) (hE : ∀ a b c d (zs : List ℂ), transmissionZeros N ⟨a, b, c, d⟩ = .ok (zs.map some) → E.tz a b c d = zs) :
    ZerosExact E := by
  intro n A b c hne
  have hadj : ∀ s : ℂ, (A.map Complex.ofReal).charpoly.eval s ≠ 0 → ∀ M, TfAt A b c 0 s M →
      (A.map Complex.ofReal).charpoly.eval s * M.det = ((numPoly A (fun i => b i 0) (c 0)).map (algebraMap ℝ ℂ)).eval s := by
    rintro s hs M ⟨hdet, rfl⟩
    have h1 := resolvent_entry A (fun l => b l 0) (c 0) s hdet
    have h2 : (c.map Complex.ofReal * (s • (1 : Matrix (Fin n) (Fin n) ℂ) - A.map Complex.ofReal)⁻¹ * b.map Complex.ofReal + (0 : Matrix (Fin 1) (Fin 1) ℝ).map Complex.ofReal).det =
        Polynomial.aeval s (numPoly A (fun l => b l 0) (c 0)) / Polynomial.aeval s A.charpoly := by
      rw [← h1, det_fin_one, Matrix.add_apply, Matrix.mul_assoc]
      simp only [map_apply, Matrix.zero_apply, Complex.ofReal_zero, add_zero]
      rfl
    have h3 : (A.map Complex.ofReal).charpoly.eval s = Polynomial.aeval s A.charpoly := by rw [aeval_charpoly, ← det_scalarC]; rfl
    rw [h2, h3, Polynomial.eval_map_algebraMap]
    rw [h3] at hs
    field_simp
  have hinf : Set.Infinite {s : ℂ | (A.map Complex.ofReal).charpoly.eval s ≠ 0} := by
    have hfin : Set.Finite {s : ℂ | (A.map Complex.ofReal).charpoly.eval s = 0} := by
      have := (A.map Complex.ofReal).charpoly.roots.toFinset.finite_toSet
      refine this.subset fun s hs => ?_
      simp only [Multiset.mem_toFinset, Finset.mem_coe]
      exact (Polynomial.mem_roots (charpoly_monic _).ne_zero).mpr hs
    exact hfin.infinite_compl
  have hnum : (numPoly A (fun i => b i 0) (c 0)).map (algebraMap ℝ ℂ) ≠ 0 := fun h0 => hne ((Polynomial.map_eq_zero_iff (algebraMap ℝ ℂ).injective).mp h0)
  have hb : b ≠ 0 := by
    rintro rfl
    refine hne ?_
    unfold numPoly
    have : (fun i : Fin n => Polynomial.C ((0 : Matrix (Fin n) (Fin 1) ℝ) i 0)) = 0 := funext fun i => Polynomial.C_0
    rw [this, mulVec_zero, dotProduct_zero]
  have hc : c ≠ 0 := by
    rintro rfl
    refine hne ?_
    unfold numPoly
    have : (fun i : Fin n => Polynomial.C ((0 : Matrix (Fin 1) (Fin n) ℝ) 0 i)) = 0 := funext fun i => Polynomial.C_0
    rw [this, zero_dotProduct]
  have hex : ∃ μ M, TfAt A b c 0 μ M ∧ M.det ≠ 0 := by
    by_contra hno
    push Not at hno
    refine hnum (Polynomial.eq_zero_of_infinite_isRoot _ (hinf.mono fun s hs => ?_))
    have hdet : (s • (1 : Matrix (Fin n) (Fin n) ℂ) - A.map Complex.ofReal).det ≠ 0 := by rw [det_scalarC]; exact hs
    have h1 := hadj s hs _ ⟨hdet, rfl⟩
    rw [hno s _ ⟨hdet, rfl⟩, mul_zero] at h1
    exact h1.symm
  obtain ⟨zs, k, h1, hk, h2⟩ := C73_square (D := 0) hN hb hc hex
  have h3 := hE _ _ _ _ zs h1
  refine ⟨k, ?_⟩
  have h4 : (Arr.zeros 1 1 : Arr ℝ) = Arr.of 0 := rfl
  rw [h4, h3]
  refine Polynomial.eq_of_infinite_eval_eq _ _ (hinf.mono fun s hs => ?_)
  have hdet : (s • (1 : Matrix (Fin n) (Fin n) ℂ) - A.map Complex.ofReal).det ≠ 0 := by rw [det_scalarC]; exact hs
  rw [Set.mem_setOf_eq, ← hadj s hs _ ⟨hdet, rfl⟩, h2 s _ ⟨hdet, rfl⟩, Polynomial.eval_mul, Polynomial.eval_C, eval_prod_sub]

/-- The value of the transfer matrix from a right inverse of `sI - A`. -/
theorem tfAt_of {s : ℂ} {X : Matrix (Fin n) (Fin n) ℂ} (h : (s • (1 : Matrix (Fin n) (Fin n) ℂ) - A.map Complex.ofReal) * X = 1) :
    TfAt A B C D s (C.map Complex.ofReal * X * B.map Complex.ofReal + D.map Complex.ofReal) := by
  have h1 := congrArg Matrix.det h
  rw [det_mul, det_one] at h1
  exact ⟨left_ne_zero_of_mul_eq_one h1, by rw [inv_eq_right_inv h]⟩

/-- Non-vacuity of `C73_square`: `(s + 3)/((s + 1)(s + 2))`. -/
example : ∃ (N : TzNum) (zs : List ℂ), TzExact N ∧
    transmissionZeros N ⟨Arr.of !![0, 1; -2, -3], Arr.of !![0; 1], Arr.of !![3, 1], Arr.of !![0]⟩ = .ok (zs.map some) := by
  obtain ⟨N, hN⟩ := exists_tzExact
  obtain ⟨zs, k, h, -⟩ := C73_square (A := !![0, 1; -2, -3]) (B := !![0; 1]) (C := !![3, 1]) (D := !![0]) hN
    (fun h => by have := congrFun (congrFun h 1) 0; norm_num at this) (fun h => by have := congrFun (congrFun h 0) 1; norm_num at this)
    ⟨0, _, tfAt_of (X := !![3 / 2, 1 / 2; -1, 0]) (by
      ext i j
      fin_cases i <;> fin_cases j <;> norm_num [Matrix.mul_apply, Fin.sum_univ_two]), by
      rw [det_fin_one]
      norm_num [Matrix.mul_apply, Fin.sum_univ_two]⟩
  exact ⟨N, zs, hN, h⟩

/-- Non-vacuity of `C73_left_invertible`: one input and two outputs. -/
example : ∃ (N : TzNum) (zs : List ℂ), TzExact N ∧
    transmissionZeros N ⟨Arr.of !![0, 1; -2, -3], Arr.of !![0; 1], Arr.of !![3, 1; 1, 0], Arr.of !![0; 1]⟩ = .ok (zs.map some) := by
  obtain ⟨N, hN⟩ := exists_tzExact
  obtain ⟨zs, h, -⟩ := C73_left_invertible (A := !![0, 1; -2, -3]) (B := !![0; 1]) (C := !![3, 1; 1, 0]) (D := !![0; 1]) hN
    (fun h => by have := congrFun (congrFun h 1) 0; norm_num at this) (fun h => by have := congrFun (congrFun h 0) 1; norm_num at this)
    ⟨0, _, tfAt_of (X := !![3 / 2, 1 / 2; -1, 0]) (by
      ext i j
      fin_cases i <;> fin_cases j <;> norm_num [Matrix.mul_apply, Fin.sum_univ_two]), by
      refine le_antisymm (rank_le_width _) (rank_pos_of_ne fun h => ?_)
      have := congrFun (congrFun h 0) 0
      norm_num [Matrix.mul_apply, Fin.sum_univ_two] at this⟩
  exact ⟨N, zs, hN, h⟩

/-- Non-vacuity of `C73_minimal_partial`: two inputs and one output. -/
example : ∃ (N : TzNum) (z : List (Option ℂ)), TzExact N ∧
    transmissionZeros N ⟨Arr.of !![0], Arr.of !![1, 0], Arr.of !![1], Arr.of !![0, 1]⟩ = .ok z := by
  obtain ⟨N, hN⟩ := exists_tzExact
  obtain ⟨z, h, -⟩ := C73_minimal_partial (A := !![0]) (B := !![1, 0]) (C := !![1]) (D := !![0, 1]) hN (by norm_num)
    (fun x => ⟨[![x 0, 0]], by
      ext i
      fin_cases i
      simp [finalState, mulVec, dotProduct, Fin.sum_univ_two]⟩)
    (fun x hx => by
      ext i
      fin_cases i
      simpa [mulVec, dotProduct] using congrFun (hx 0) 0)
  exact ⟨N, z, hN, h⟩

/-- Non-vacuity of `C73_zerosExact`. -/
example : ∃ E : Numerics ℝ ℂ, ZerosExact E := by
  classical
  obtain ⟨N, hN⟩ := exists_tzExact
  refine ⟨⟨fun _ => [], fun a b c d => match transmissionZeros N ⟨a, b, c, d⟩ with | .ok z => z.filterMap id | .error _ => [], fun _ => true, fun _ => true⟩,
    C73_zerosExact hN fun a b c d zs h => ?_⟩
  simp only [h, List.filterMap_map, Function.id_comp, List.filterMap_some]

/-- **C28** with the modelled `transmission_zeros` in place of an assumption on the zeros: given exact eigenvalues, singular values and generalized eigenvalues
`state_to_transfer` returns a `Transfer` with the sampling period of `G` whose quotients are the entries of `C(sI-A)⁻¹B + D`. Missing: the routines are assumed exact; static gains are in `C28_gain`. -/
theorem C28_with_zeros_partial {E : TNum ℝ} {P : Numerics ℝ ℂ} (hbal : ∀ polys i, E.bal polys i ≠ 0) (hthr : E.lcmTol ≤ 1)
    (hP : EigExact P) (hN : TzExact N) (hE : ∀ a b c d (zs : List ℂ), transmissionZeros N ⟨a, b, c, d⟩ = .ok (zs.map some) → P.tz a b c d = zs)
    {G : StateM ℝ} (hG : Consistent G p m) (hg : G.isgain = false) (hdt : DtOk G.dt) (hp : 0 < p) (hm : 0 < m) :
    ∃ F, stateToTransfer E P G = .ok F ∧ F.dt = G.dt ∧
      ∀ {L : Type} [Field L] [Algebra ℝ L] (s : L) (M : Matrix (Fin p) (Fin m) L), HasTF G p m s M → HasVal F p m s M :=
  C28_dynamic_partial hbal hthr hP (C73_zerosExact hN hE) hG hg hdt hp hm

/-- Non-vacuity of `C28_with_zeros_partial`. -/
example : ∃ (N : TzNum) (P : Numerics ℝ ℂ), TzExact N ∧ EigExact P ∧
    ∀ a b c d (zs : List ℂ), transmissionZeros N ⟨a, b, c, d⟩ = .ok (zs.map some) → P.tz a b c d = zs := by
  obtain ⟨N, hN⟩ := exists_tzExact
  obtain ⟨P, hP, -⟩ := exists_exact_numerics
  refine ⟨N, ⟨P.eig, fun a b c d => match transmissionZeros N ⟨a, b, c, d⟩ with | .ok z => z.filterMap id | .error _ => [], fun _ => true, fun _ => true⟩,
    hN, @hP, fun a b c d zs h => ?_⟩
  simp only [h, List.filterMap_map, Function.id_comp, List.filterMap_some]

end Harold
