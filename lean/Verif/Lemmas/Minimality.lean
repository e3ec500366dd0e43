import Verif.Props.Kalman
import Mathlib.LinearAlgebra.Finsupp.LSum
import Mathlib.LinearAlgebra.FiniteDimensional.Lemmas
import Mathlib.LinearAlgebra.Basis.VectorSpace
import Mathlib.LinearAlgebra.Matrix.ToLin

/-!
# Realizations with the same Markov parameters
-/

namespace Harold

open Matrix Spec

variable {K : Type} [Field K] {n n' m p : ℕ}

/-- The state reached by an input: `∑ A^k B u_k`, with `u_k` the input applied `k` steps before the end. -/
noncomputable def reachLin (A : Matrix (Fin n) (Fin n) K) (B : Matrix (Fin n) (Fin m) K) : (ℕ →₀ (Fin m → K)) →ₗ[K] (Fin n → K) :=
  Finsupp.lsum K fun k => (A ^ k * B).mulVecLin

theorem reachLin_single (A : Matrix (Fin n) (Fin n) K) (B : Matrix (Fin n) (Fin m) K) (k : ℕ) (u : Fin m → K) :
    reachLin A B (Finsupp.single k u) = (A ^ k * B) *ᵥ u := by
  simp [reachLin]

/-- Applying the input one step earlier. -/
theorem reachLin_shift (A : Matrix (Fin n) (Fin n) K) (B : Matrix (Fin n) (Fin m) K) (v : ℕ →₀ (Fin m → K)) :
    reachLin A B (Finsupp.lmapDomain _ K Nat.succ v) = A *ᵥ reachLin A B v := by
  have : (reachLin A B).comp (Finsupp.lmapDomain _ K Nat.succ) = A.mulVecLin.comp (reachLin A B) := by
    refine Finsupp.lhom_ext fun k u => ?_
    simp only [LinearMap.comp_apply, Finsupp.lmapDomain_apply, Finsupp.mapDomain_single, reachLin_single, mulVecLin_apply, mulVec_mulVec]
    rw [Nat.succ_eq_add_one, pow_succ', Matrix.mul_assoc]
  exact LinearMap.congr_fun this v

theorem finalState_reachLin (A : Matrix (Fin n) (Fin n) K) (B : Matrix (Fin n) (Fin m) K) (us : List (Fin m → K)) :
    ∃ v, reachLin A B v = finalState A B us := by
  induction us using List.reverseRecOn with
  | nil => exact ⟨0, by simp [finalState]⟩
  | append_singleton us u ih =>
    obtain ⟨v, hv⟩ := ih
    refine ⟨Finsupp.lmapDomain _ K Nat.succ v + Finsupp.single 0 u, ?_⟩
    rw [map_add, reachLin_shift, reachLin_single, hv, finalState_concat, pow_zero, Matrix.one_mul]

theorem reachLin_surjective {A : Matrix (Fin n) (Fin n) K} {B : Matrix (Fin n) (Fin m) K} (h : Reachable A B) : Function.Surjective (reachLin A B) := by
  intro x
  obtain ⟨us, rfl⟩ := h x
  exact finalState_reachLin A B us

/-- The states reached by the same input have the same outputs ever after. -/
theorem reachLin_output {A : Matrix (Fin n) (Fin n) K} {B : Matrix (Fin n) (Fin m) K} {C : Matrix (Fin p) (Fin n) K}
    {A' : Matrix (Fin n') (Fin n') K} {B' : Matrix (Fin n') (Fin m) K} {C' : Matrix (Fin p) (Fin n') K} (h : ∀ k, C * A ^ k * B = C' * A' ^ k * B')
    (v : ℕ →₀ (Fin m → K)) (j : ℕ) : C *ᵥ ((A ^ j) *ᵥ reachLin A B v) = C' *ᵥ ((A' ^ j) *ᵥ reachLin A' B' v) := by
  have : (C * A ^ j).mulVecLin.comp (reachLin A B) = (C' * A' ^ j).mulVecLin.comp (reachLin A' B') := by
    refine Finsupp.lhom_ext fun k u => ?_
    simp only [LinearMap.comp_apply, reachLin_single, mulVecLin_apply, mulVec_mulVec]
    have := h (j + k)
    rw [pow_add, pow_add] at this
    simp only [Matrix.mul_assoc] at this ⊢
    rw [this]
  have := LinearMap.congr_fun this v
  simpa [mulVec_mulVec] using this

/-- Linear maps factor through each other if the kernels are contained. -/
theorem factor_of_ker {V W W' : Type} [AddCommGroup V] [Module K V] [AddCommGroup W] [Module K W] [AddCommGroup W'] [Module K W'] (R : V →ₗ[K] W)
    (R' : V →ₗ[K] W') (h : ∀ v, R' v = 0 → R v = 0) : ∃ T : W' →ₗ[K] W, ∀ v, T (R' v) = R v := by
  obtain ⟨T, hT⟩ := LinearMap.exists_extend (((LinearMap.ker R').liftQ R fun v hv => h v hv).comp (R'.quotKerEquivRange.symm : LinearMap.range R' →ₗ[K] _))
  refine ⟨T, fun v => ?_⟩
  have := LinearMap.congr_fun hT ⟨R' v, v, rfl⟩
  simp only [LinearMap.comp_apply, Submodule.subtype_apply] at this
  rw [this]
  have e : R'.quotKerEquivRange.symm ⟨R' v, v, rfl⟩ = (LinearMap.ker R').mkQ v := by
    rw [LinearEquiv.symm_apply_eq]
    rfl
  simp only [LinearEquiv.coe_coe, e]
  rfl

/-- A reachable and observable realization is a quotient of (a part of) every other one. -/
theorem exists_quotient {A : Matrix (Fin n) (Fin n) K} {B : Matrix (Fin n) (Fin m) K} {C : Matrix (Fin p) (Fin n) K}
    {A' : Matrix (Fin n') (Fin n') K} {B' : Matrix (Fin n') (Fin m) K} {C' : Matrix (Fin p) (Fin n') K} (h : ∀ k, C * A ^ k * B = C' * A' ^ k * B')
    (ho : Observable A C) : ∃ T : (Fin n' → K) →ₗ[K] (Fin n → K), ∀ v, T (reachLin A' B' v) = reachLin A B v := by
  refine factor_of_ker _ _ fun v hv => ho _ fun k => ?_
  rw [reachLin_output h, hv, mulVec_zero, mulVec_zero]

/-- **Least order**: no realization has fewer states than a reachable and observable one. -/
theorem order_le {A : Matrix (Fin n) (Fin n) K} {B : Matrix (Fin n) (Fin m) K} {C : Matrix (Fin p) (Fin n) K}
    {A' : Matrix (Fin n') (Fin n') K} {B' : Matrix (Fin n') (Fin m) K} {C' : Matrix (Fin p) (Fin n') K} (h : ∀ k, C * A ^ k * B = C' * A' ^ k * B')
    (hr : Reachable A B) (ho : Observable A C) : n ≤ n' := by
  obtain ⟨T, hT⟩ := exists_quotient h ho
  have hs : Function.Surjective T := fun x => by
    obtain ⟨v, rfl⟩ := reachLin_surjective hr x
    exact ⟨_, hT v⟩
  have := LinearMap.finrank_le_finrank_of_surjective hs
  simpa using this

/-- **State space isomorphism**: a realization with the same number of states as a reachable and observable one is similar to it. -/
theorem similar_of_markov {A : Matrix (Fin n) (Fin n) K} {B : Matrix (Fin n) (Fin m) K} {C : Matrix (Fin p) (Fin n) K}
    {A' : Matrix (Fin n) (Fin n) K} {B' : Matrix (Fin n) (Fin m) K} {C' : Matrix (Fin p) (Fin n) K} (h : ∀ k, C * A ^ k * B = C' * A' ^ k * B')
    (hr : Reachable A B) (ho : Observable A C) : ∃ T : Matrix (Fin n) (Fin n) K, T.det ≠ 0 ∧ A' = T⁻¹ * A * T ∧ B' = T⁻¹ * B ∧ C' = C * T := by
  obtain ⟨T, hT⟩ := exists_quotient h ho
  have hs : Function.Surjective T := fun x => by
    obtain ⟨v, rfl⟩ := reachLin_surjective hr x
    exact ⟨_, hT v⟩
  have hi : Function.Injective T := LinearMap.injective_iff_surjective.mpr hs
  have hs' : Function.Surjective (reachLin A' B') := fun x => by
    obtain ⟨v, hv⟩ := reachLin_surjective hr (T x)
    exact ⟨v, hi (by rw [hT, hv])⟩
  let M := LinearMap.toMatrix' T
  have hM : ∀ x, M *ᵥ x = T x := fun x => by rw [← Matrix.toLin'_apply, Matrix.toLin'_toMatrix']
  have hu : IsUnit M.det := by
    rw [← Matrix.isUnit_iff_isUnit_det, ← Matrix.mulVec_injective_iff_isUnit]
    intro x y hxy
    exact hi (by simpa only [hM] using hxy)
  have hMi : M⁻¹ * M = 1 := nonsing_inv_mul M hu
  have e1 : M * A' = A * M := by
    rw [← Matrix.toLin'.injective.eq_iff]
    refine LinearMap.ext fun x => ?_
    obtain ⟨v, rfl⟩ := hs' x
    rw [Matrix.toLin'_apply, Matrix.toLin'_apply, ← mulVec_mulVec, ← mulVec_mulVec, ← reachLin_shift, hM, hM, hT, hT, reachLin_shift]
  have e2 : M * B' = B := by
    rw [← Matrix.toLin'.injective.eq_iff]
    refine LinearMap.ext fun u => ?_
    have h1 := hT (Finsupp.single 0 u)
    rw [reachLin_single, reachLin_single, pow_zero, pow_zero, Matrix.one_mul, Matrix.one_mul] at h1
    rw [Matrix.toLin'_apply, Matrix.toLin'_apply, ← mulVec_mulVec, hM, h1]
  have e3 : C' = C * M := by
    rw [← Matrix.toLin'.injective.eq_iff]
    refine LinearMap.ext fun x => ?_
    obtain ⟨v, rfl⟩ := hs' x
    have h1 := reachLin_output h v 0
    rw [pow_zero, pow_zero, one_mulVec, one_mulVec] at h1
    rw [Matrix.toLin'_apply, Matrix.toLin'_apply, ← mulVec_mulVec, hM, hT, h1]
  refine ⟨M, hu.ne_zero, ?_, ?_, e3⟩
  · rw [Matrix.mul_assoc, ← e1, ← Matrix.mul_assoc, hMi, Matrix.one_mul]
  · rw [← e2, ← Matrix.mul_assoc, hMi, Matrix.one_mul]

/-- Every model has a reachable part with the same Markov parameters: `P` embeds it, `Q` is a left inverse of `P`. -/
theorem reach_reduce (A : Matrix (Fin n) (Fin n) K) (B : Matrix (Fin n) (Fin m) K) : ∃ (r : ℕ) (P : Matrix (Fin n) (Fin r) K) (Q : Matrix (Fin r) (Fin n) K),
    r ≤ n ∧ Q * P = 1 ∧ A * P = P * (Q * A * P) ∧ B = P * (Q * B) ∧ Reachable (Q * A * P) (Q * B) ∧ (¬ Reachable A B → r < n) := by
  let W := krySpace A B (n - 1)
  obtain ⟨b⟩ : Nonempty (Module.Basis (Fin (Module.finrank K W)) K W) := ⟨Module.finBasis K W⟩
  obtain ⟨q, hq⟩ := LinearMap.exists_extend (b.equivFun : W →ₗ[K] (Fin (Module.finrank K W) → K))
  let pl : (Fin (Module.finrank K W) → K) →ₗ[K] (Fin n → K) := W.subtype.comp (b.equivFun.symm : _ →ₗ[K] W)
  let P := LinearMap.toMatrix' pl
  let Q := LinearMap.toMatrix' q
  have hP : ∀ x, P *ᵥ x = pl x := fun x => by rw [← Matrix.toLin'_apply, Matrix.toLin'_toMatrix']
  have hQ : ∀ x, Q *ᵥ x = q x := fun x => by rw [← Matrix.toLin'_apply, Matrix.toLin'_toMatrix']
  have hqW : ∀ w : W, q w = b.equivFun w := fun w => LinearMap.congr_fun hq w
  have hPm : ∀ x, P *ᵥ x ∈ W := fun x => by rw [hP]; exact (b.equivFun.symm x).2
  have hPQ : ∀ w ∈ W, P *ᵥ (Q *ᵥ w) = w := fun w hw => by
    rw [hQ, hP, hqW ⟨w, hw⟩]
    simp [pl]
  have hQP : Q * P = 1 := by
    rw [← Matrix.toLin'.injective.eq_iff]
    refine LinearMap.ext fun x => ?_
    rw [Matrix.toLin'_apply, ← mulVec_mulVec, hP, hQ, Matrix.toLin'_one]
    change q ((b.equivFun.symm x : W) : Fin n → K) = x
    rw [hqW, LinearEquiv.apply_symm_apply]
  have hA : A * P = P * (Q * A * P) := by
    rw [← Matrix.toLin'.injective.eq_iff]
    refine LinearMap.ext fun x => ?_
    rw [Matrix.toLin'_apply, Matrix.toLin'_apply]
    simp only [← mulVec_mulVec]
    rw [hPQ _ (krylov_invariant A B (hPm x))]
  have hB : B = P * (Q * B) := by
    rw [← Matrix.toLin'.injective.eq_iff]
    refine LinearMap.ext fun u => ?_
    rw [Matrix.toLin'_apply, Matrix.toLin'_apply]
    simp only [← mulVec_mulVec]
    refine (hPQ _ ?_).symm
    have := mem_krylov A B (Nat.zero_le (n - 1)) u
    simpa using this
  refine ⟨Module.finrank K W, P, Q, ?_, hQP, hA, hB, ?_, ?_⟩
  · simpa using Submodule.finrank_le W
  · intro x
    obtain ⟨us, -, h1⟩ := krylov_reached A B (n - 1) (hPm x)
    refine ⟨us, ?_⟩
    have h2 : ∀ us : List (Fin m → K), P *ᵥ finalState (Q * A * P) (Q * B) us = finalState A B us := by
      intro us
      induction us using List.reverseRecOn with
      | nil => simp [finalState]
      | append_singleton us u ih =>
        rw [finalState_concat, finalState_concat, ← ih, mulVec_add, mulVec_mulVec, mulVec_mulVec, ← hA, ← hB, mulVec_mulVec]
    have h3 := congrArg (Q *ᵥ ·) ((h2 us).trans h1)
    simpa [mulVec_mulVec, hQP] using h3
  · intro hnr
    have h1 : W ≠ ⊤ := fun h => hnr fun x => by
      obtain ⟨us, -, h2⟩ := krylov_reached A B (n - 1) (x := x) (by change x ∈ W; rw [h]; trivial)
      exact ⟨us, h2⟩
    simpa using Submodule.finrank_lt h1

theorem pow_embed {r : ℕ} {A : Matrix (Fin n) (Fin n) K} {A' : Matrix (Fin r) (Fin r) K} {P : Matrix (Fin n) (Fin r) K} (h : A * P = P * A') (k : ℕ) :
    A ^ k * P = P * A' ^ k := by
  induction k with
  | zero => simp
  | succ k ih => rw [pow_succ, Matrix.mul_assoc, h, ← Matrix.mul_assoc, ih, Matrix.mul_assoc, ← pow_succ]

theorem observable_embed {r : ℕ} {A : Matrix (Fin n) (Fin n) K} {A' : Matrix (Fin r) (Fin r) K} {P : Matrix (Fin n) (Fin r) K} {Q : Matrix (Fin r) (Fin n) K}
    {C : Matrix (Fin p) (Fin n) K} (h : A * P = P * A') (hQ : Q * P = 1) (ho : Observable A C) : Observable A' (C * P) := by
  intro x hx
  have : P *ᵥ x = 0 := ho _ fun k => by
    rw [← hx k, mulVec_mulVec, mulVec_mulVec, mulVec_mulVec, Matrix.mul_assoc, Matrix.mul_assoc, ← pow_embed h]
  rw [← one_mulVec x, ← hQ, ← mulVec_mulVec, this, mulVec_zero]

theorem reachable_transpose (A : Matrix (Fin n) (Fin n) K) (C : Matrix (Fin p) (Fin n) K) : Reachable Aᵀ Cᵀ ↔ Observable A C := by
  rw [reachable_iff_rank, observable_iff_rank, ← rank_transpose (ctrbM Aᵀ Cᵀ (n - 1)), ctrbM_transpose, transpose_transpose, transpose_transpose]

/-- The dual of `reach_reduce`. -/
theorem obs_reduce (A : Matrix (Fin n) (Fin n) K) (C : Matrix (Fin p) (Fin n) K) : ∃ (r : ℕ) (P : Matrix (Fin r) (Fin n) K) (Q : Matrix (Fin n) (Fin r) K),
    r ≤ n ∧ P * Q = 1 ∧ P * A = (P * A * Q) * P ∧ C = (C * Q) * P ∧ Observable (P * A * Q) (C * Q) := by
  obtain ⟨r, P, Q, h1, h2, h3, h4, h5, -⟩ := reach_reduce Aᵀ Cᵀ
  refine ⟨r, Pᵀ, Qᵀ, h1, ?_, ?_, ?_, ?_⟩
  · rw [← transpose_mul, h2, transpose_one]
  · have := congrArg transpose h3
    simpa only [transpose_mul, transpose_transpose, Matrix.mul_assoc] using this
  · have := congrArg transpose h4
    simpa only [transpose_mul, transpose_transpose, Matrix.mul_assoc] using this
  · rw [← reachable_transpose]
    simpa only [transpose_mul, transpose_transpose, Matrix.mul_assoc] using h5

theorem pow_project {r : ℕ} {A : Matrix (Fin n) (Fin n) K} {A' : Matrix (Fin r) (Fin r) K} {P : Matrix (Fin r) (Fin n) K} (h : P * A = A' * P) (k : ℕ) :
    P * A ^ k = A' ^ k * P := by
  induction k with
  | zero => simp
  | succ k ih => rw [pow_succ, ← Matrix.mul_assoc, ih, Matrix.mul_assoc, h, ← Matrix.mul_assoc, ← pow_succ]

theorem reachable_project {r : ℕ} {A : Matrix (Fin n) (Fin n) K} {A' : Matrix (Fin r) (Fin r) K} {P : Matrix (Fin r) (Fin n) K} {Q : Matrix (Fin n) (Fin r) K}
    {B : Matrix (Fin n) (Fin m) K} (h : P * A = A' * P) (hQ : P * Q = 1) (hr : Reachable A B) : Reachable A' (P * B) := by
  intro x
  obtain ⟨us, hus⟩ := hr (Q *ᵥ x)
  refine ⟨us, ?_⟩
  have h2 : ∀ us : List (Fin m → K), finalState A' (P * B) us = P *ᵥ finalState A B us := by
    intro us
    induction us using List.reverseRecOn with
    | nil => simp [finalState]
    | append_singleton us u ih => rw [finalState_concat, finalState_concat, ih, mulVec_add, mulVec_mulVec, mulVec_mulVec, mulVec_mulVec, h]
  rw [h2, hus, mulVec_mulVec, hQ, one_mulVec]

theorem observable_similar {A T : Matrix (Fin n) (Fin n) K} {C : Matrix (Fin p) (Fin n) K} (hT : T.det ≠ 0) (h : Observable A C) :
    Observable (T⁻¹ * A * T) (C * T) := by
  have hu := isUnit_iff_ne_zero.mpr hT
  refine observable_embed (Q := T⁻¹) ?_ (nonsing_inv_mul T hu) h
  rw [← Matrix.mul_assoc, ← Matrix.mul_assoc, mul_nonsing_inv T hu, Matrix.one_mul]

/-- Eigenvalues of an invariant part. -/
theorem det_embed {r : ℕ} {A : Matrix (Fin n) (Fin n) K} {A' : Matrix (Fin r) (Fin r) K} {P : Matrix (Fin n) (Fin r) K} {Q : Matrix (Fin r) (Fin n) K}
    (h : A * P = P * A') (hQ : Q * P = 1) {L : Type} [Field L] [Algebra K L] {s : L} (hs : (s • (1 : Matrix (Fin r) (Fin r) L) - A'.map (algebraMap K L)).det = 0) :
    (s • (1 : Matrix (Fin n) (Fin n) L) - A.map (algebraMap K L)).det = 0 := by
  obtain ⟨x, hx, h1⟩ := exists_mulVec_eq_zero_iff.mpr hs
  refine exists_mulVec_eq_zero_iff.mp ⟨P.map (algebraMap K L) *ᵥ x, fun h0 => hx ?_, ?_⟩
  · have := congrArg (fun y => Q.map (algebraMap K L) *ᵥ y) h0
    rw [mulVec_mulVec, ← Matrix.map_mul, hQ] at this
    simpa [Matrix.map_one] using this
  · rw [mulVec_mulVec, Matrix.sub_mul, ← Matrix.map_mul, h, Matrix.map_mul, Matrix.smul_mul, Matrix.one_mul]
    have e : s • P.map (algebraMap K L) - P.map (algebraMap K L) * A'.map (algebraMap K L) = P.map (algebraMap K L) * (s • 1 - A'.map (algebraMap K L)) := by
      rw [Matrix.mul_sub, Matrix.mul_smul, Matrix.mul_one]
    rw [e, ← mulVec_mulVec, h1, mulVec_zero]

theorem det_project {r : ℕ} {A : Matrix (Fin n) (Fin n) K} {A' : Matrix (Fin r) (Fin r) K} {P : Matrix (Fin r) (Fin n) K} {Q : Matrix (Fin n) (Fin r) K}
    (h : P * A = A' * P) (hQ : P * Q = 1) {L : Type} [Field L] [Algebra K L] {s : L} (hs : (s • (1 : Matrix (Fin r) (Fin r) L) - A'.map (algebraMap K L)).det = 0) :
    (s • (1 : Matrix (Fin n) (Fin n) L) - A.map (algebraMap K L)).det = 0 := by
  have h1 : Aᵀ * Pᵀ = Pᵀ * A'ᵀ := by rw [← transpose_mul, ← transpose_mul, h]
  have h2 : Qᵀ * Pᵀ = 1 := by rw [← transpose_mul, hQ, transpose_one]
  have e : ∀ {k : ℕ} (M : Matrix (Fin k) (Fin k) K), (s • (1 : Matrix (Fin k) (Fin k) L) - Mᵀ.map (algebraMap K L)) = (s • 1 - M.map (algebraMap K L))ᵀ := by
    intro k M
    rw [transpose_sub, transpose_smul, transpose_one, transpose_map]
  have h3 := det_embed h1 h2 (L := L) (s := s) (by rw [e, det_transpose, hs])
  rwa [e, det_transpose] at h3

/-- Every model has a reachable and observable part with the same Markov parameters, whose eigenvalues, over every field, are among those of the model. -/
theorem exists_minimal (A : Matrix (Fin n) (Fin n) K) (B : Matrix (Fin n) (Fin m) K) (C : Matrix (Fin p) (Fin n) K) :
    ∃ (r : ℕ) (A' : Matrix (Fin r) (Fin r) K) (B' : Matrix (Fin r) (Fin m) K) (C' : Matrix (Fin p) (Fin r) K), r ≤ n ∧ Reachable A' B' ∧ Observable A' C' ∧
      (∀ k, C * A ^ k * B = C' * A' ^ k * B') ∧ (r = n → Reachable A B ∧ Observable A C) ∧
      ∀ (L : Type) [Field L] [Algebra K L] (s : L), (s • (1 : Matrix (Fin r) (Fin r) L) - A'.map (algebraMap K L)).det = 0 →
        (s • (1 : Matrix (Fin n) (Fin n) L) - A.map (algebraMap K L)).det = 0 := by
  obtain ⟨r, P, Q, h1, h2, h3, h4, h5, -⟩ := reach_reduce A B
  generalize hA' : Q * A * P = A₁ at h3 h5
  generalize hB' : Q * B = B₁ at h4 h5
  obtain ⟨r', P', Q', g1, g2, g3, g4, g5⟩ := obs_reduce A₁ (C * P)
  generalize P' * A₁ * Q' = A₂ at g3 g5
  generalize C * P * Q' = C₂ at g4 g5
  have hr := reachable_project g3 g2 h5
  have hm : ∀ k, C * A ^ k * B = C₂ * A₂ ^ k * (P' * B₁) := fun k => by
    rw [h4, ← Matrix.mul_assoc, Matrix.mul_assoc C, pow_embed h3, ← Matrix.mul_assoc C, g4, Matrix.mul_assoc C₂, pow_project g3]
    simp only [Matrix.mul_assoc]
  refine ⟨r', A₂, P' * B₁, C₂, g1.trans h1, hr, g5, hm, ?_, fun L _ _ s hs => det_embed h3 h2 (det_project g3 g2 hs)⟩
  rintro rfl
  obtain ⟨T, hT, e1, e2, e3⟩ := similar_of_markov (fun k => (hm k).symm) hr g5
  rw [e1, e2, e3]
  exact ⟨reachable_similar (isUnit_iff_ne_zero.mpr hT) hr, observable_similar hT g5⟩

end Harold
