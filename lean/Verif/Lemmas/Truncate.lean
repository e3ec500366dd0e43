import Verif.Lemmas.TF
import Verif.Lemmas.StairReach

/-!
# Removing unreachable and unobservable states
-/

namespace Harold

open Matrix Spec

section tf
variable {L n n' m p : Type} [Field L] [Fintype n] [DecidableEq n] [Fintype n'] [DecidableEq n'] [Fintype m] [Fintype p]
  {A : Matrix n n L} {B : Matrix n m L} {C : Matrix p n L} {D : Matrix p m L} {s : L} {M : Matrix p m L} {A' : Matrix n' n' L}

theorem _root_.Harold.Spec.IsTF.transpose (h : IsTF A B C D s M) : IsTF Aᵀ Cᵀ Bᵀ Dᵀ s Mᵀ := by
  obtain ⟨h1, rfl⟩ := h
  have e : s • (1 : Matrix n n L) - Aᵀ = (s • (1 : Matrix n n L) - A)ᵀ := by rw [transpose_sub, transpose_smul, transpose_one]
  refine ⟨by rw [e, det_transpose]; exact h1, ?_⟩
  rw [e, ← transpose_nonsing_inv]
  simp only [transpose_add, transpose_mul, Matrix.mul_assoc]

/-- The restriction to an invariant subspace that contains the inputs. -/
theorem _root_.Harold.Spec.IsTF.restrict {J : Matrix n n' L} {P : Matrix n' n L} (hP : P * J = 1) (hA : A * J = J * A') {B' : Matrix n' m L} (hB : B = J * B')
    (h : IsTF A B C D s M) : IsTF A' B' (C * J) D s M := by
  have e : (s • (1 : Matrix n n L) - A) * J = J * (s • (1 : Matrix n' n' L) - A') := by
    rw [Matrix.sub_mul, Matrix.mul_sub, hA]
    simp
  have hd : (s • (1 : Matrix n' n' L) - A').det ≠ 0 := by
    intro h0
    obtain ⟨v, hv, hv0⟩ := exists_mulVec_eq_zero_iff.mpr h0
    have h1 : (s • (1 : Matrix n n L) - A) *ᵥ (J *ᵥ v) = 0 := by
      rw [mulVec_mulVec, e, ← mulVec_mulVec, hv0, mulVec_zero]
    have h2 : J *ᵥ v = 0 := by
      by_contra h3
      exact h.1 (exists_mulVec_eq_zero_iff.mp ⟨_, h3, h1⟩)
    apply hv
    have := congrArg (P *ᵥ ·) h2
    simpa [mulVec_mulVec, hP] using this
  obtain ⟨h1, X, hX, rfl⟩ := isTF_iff_sol.mp h
  refine isTF_iff_sol.mpr ⟨hd, (s • (1 : Matrix n' n' L) - A')⁻¹ * B', ?_, ?_⟩
  · rw [mul_nonsing_inv_cancel_left _ _ (isUnit_iff_ne_zero.mpr hd)]
  · have h3 : X = J * ((s • (1 : Matrix n' n' L) - A')⁻¹ * B') := by
      have h4 : (s • (1 : Matrix n n L) - A) * (J * ((s • (1 : Matrix n' n' L) - A')⁻¹ * B')) = B := by
        rw [← Matrix.mul_assoc, e, Matrix.mul_assoc, mul_nonsing_inv_cancel_left _ _ (isUnit_iff_ne_zero.mpr hd), hB]
      rw [← nonsing_inv_mul_cancel_left _ X (isUnit_iff_ne_zero.mpr h1), hX, ← h4, nonsing_inv_mul_cancel_left _ _ (isUnit_iff_ne_zero.mpr h1)]
    rw [h3, Matrix.mul_assoc]

/-- The quotient by an invariant subspace that is not seen by the output. -/
theorem _root_.Harold.Spec.IsTF.quotient {J : Matrix n n' L} {P : Matrix n' n L} (hP : P * J = 1) (hA : P * A = A' * P) {C' : Matrix p n' L} (hC : C = C' * P)
    (h : IsTF A B C D s M) : IsTF A' (P * B) C' D s M := by
  have h1 := h.transpose
  have h2 := IsTF.restrict (J := Pᵀ) (P := Jᵀ) (A' := A'ᵀ) (B' := C'ᵀ) (by rw [← transpose_mul, hP, transpose_one])
    (by rw [← transpose_mul, hA, transpose_mul]) (by rw [hC, transpose_mul]) h1
  have h3 := h2.transpose
  rwa [transpose_mul, transpose_transpose, transpose_transpose, transpose_transpose, transpose_transpose, transpose_transpose, transpose_transpose] at h3

/-- Rows and columns selected by an injective map, as products. -/
theorem sub_sub {f : n' → n} (hf : Function.Injective f) : (1 : Matrix n n L).submatrix f id * (1 : Matrix n n L).submatrix id f = 1 := by
  ext i j
  simp [Matrix.mul_apply, Matrix.one_apply, hf.eq_iff]

omit [DecidableEq n'] [Fintype n'] [Fintype m] in
theorem sub_mul_rows (f : n' → n) (X : Matrix n m L) : (1 : Matrix n n L).submatrix f id * X = X.submatrix f id := by
  ext i j
  simp [Matrix.mul_apply, Matrix.one_apply]

omit [DecidableEq n'] [Fintype n'] [Fintype p] in
theorem mul_sub_cols (f : n' → n) (X : Matrix p n L) : X * (1 : Matrix n n L).submatrix id f = X.submatrix id f := by
  ext i j
  simp [Matrix.mul_apply, Matrix.one_apply]

omit [Fintype n] [DecidableEq n'] [Fintype m] in
theorem cols_mul {f : n' → n} (hf : Function.Injective f) {X : Matrix n m L} (hX : ∀ i c, i ∉ Set.range f → X i c = 0) :
    (1 : Matrix n n L).submatrix id f * X.submatrix f id = X := by
  ext i j
  simp only [Matrix.mul_apply, submatrix_apply, id, Matrix.one_apply]
  by_cases h : i ∈ Set.range f
  · obtain ⟨i, rfl⟩ := h
    rw [Finset.sum_eq_single i]
    · simp
    · intro b _ hb
      rw [if_neg (fun h => hb (hf h).symm), zero_mul]
    · simp
  · rw [hX i j h]
    refine Finset.sum_eq_zero fun b _ => ?_
    rw [if_neg (fun h' => h ⟨b, h'.symm⟩), zero_mul]

omit [Fintype n] [DecidableEq n'] [Fintype p] in
theorem mul_rows {f : n' → n} (hf : Function.Injective f) {X : Matrix p n L} (hX : ∀ i c, c ∉ Set.range f → X i c = 0) :
    X.submatrix id f * (1 : Matrix n n L).submatrix f id = X := by
  have := cols_mul (L := L) (m := p) hf (X := Xᵀ) fun i c h => hX c i h
  rw [← transpose_inj]
  rw [transpose_mul, transpose_submatrix, transpose_submatrix, transpose_one]
  exact this

/-- Unreachable states can be removed. -/
theorem _root_.Harold.Spec.IsTF.sub_ctrl {f : n' → n} (hf : Function.Injective f) (hA : ∀ i c, i ∉ Set.range f → A i (f c) = 0) (hB : ∀ i c, i ∉ Set.range f → B i c = 0)
    (h : IsTF A B C D s M) : IsTF (A.submatrix f f) (B.submatrix f id) (C.submatrix id f) D s M := by
  have h1 := h.restrict (sub_sub hf) (A' := A.submatrix f f) (B' := B.submatrix f id)
    (by rw [mul_sub_cols]; exact (cols_mul hf (X := A.submatrix id f) hA).symm) (cols_mul hf hB).symm
  rwa [mul_sub_cols] at h1

/-- Unobservable states can be removed. -/
theorem _root_.Harold.Spec.IsTF.sub_obs {f : n' → n} (hf : Function.Injective f) (hA : ∀ i c, c ∉ Set.range f → A (f i) c = 0) (hC : ∀ i c, c ∉ Set.range f → C i c = 0)
    (h : IsTF A B C D s M) : IsTF (A.submatrix f f) (B.submatrix f id) (C.submatrix id f) D s M := by
  have h1 := h.quotient (sub_sub hf) (A' := A.submatrix f f) (C' := C.submatrix id f)
    (by rw [sub_mul_rows]; exact (mul_rows hf (X := A.submatrix f id) hA).symm) (mul_rows hf hC).symm
  rwa [sub_mul_rows] at h1

end tf

variable {K : Type} [Field K] {n m p q k r : ℕ} {A : Matrix (Fin n) (Fin n) K} {B : Matrix (Fin n) (Fin m) K} {C : Matrix (Fin p) (Fin n) K}

/-- Reachability is invariant. -/
theorem Reachable.map {A' : Matrix (Fin q) (Fin q) K} {B' : Matrix (Fin q) (Fin m) K} {P : Matrix (Fin q) (Fin n) K} {J : Matrix (Fin n) (Fin q) K}
    (hP : P * J = 1) (hA : P * A = A' * P) (hB : P * B = B') (h : Reachable A B) : Reachable A' B' := by
  rw [reachable_iff_kry] at h ⊢
  rw [eq_top_iff]
  intro x _
  have h1 := kry_map hA hB (x := J *ᵥ x) (by rw [h]; exact Submodule.mem_top)
  rwa [mulVec_mulVec, hP, one_mulVec] at h1

theorem reachable_orth {T : Matrix (Fin n) (Fin n) K} (hT : Tᵀ * T = 1) : Reachable (Tᵀ * A * T) (Tᵀ * B) ↔ Reachable A B := by
  have hT' : T * Tᵀ = 1 := mul_eq_one_comm.mp hT
  constructor
  · refine Reachable.map (P := T) (J := Tᵀ) hT' ?_ ?_
    · rw [← Matrix.mul_assoc, ← Matrix.mul_assoc, hT', Matrix.one_mul]
    · rw [← Matrix.mul_assoc, hT', Matrix.one_mul]
  · refine Reachable.map (P := Tᵀ) (J := T) hT ?_ rfl
    rw [Matrix.mul_assoc (Tᵀ * A), hT', Matrix.mul_one]

theorem reachable_conj {T : Matrix (Fin n) (Fin n) K} (hT : T.det ≠ 0) : Reachable (T⁻¹ * A * T) (T⁻¹ * B) ↔ Reachable A B := by
  have h1 : T⁻¹ * T = 1 := nonsing_inv_mul T (isUnit_iff_ne_zero.mpr hT)
  have h2 : T * T⁻¹ = 1 := mul_nonsing_inv T (isUnit_iff_ne_zero.mpr hT)
  constructor
  · refine Reachable.map (P := T) (J := T⁻¹) h2 ?_ ?_
    · rw [← Matrix.mul_assoc, ← Matrix.mul_assoc, h2, Matrix.one_mul]
    · rw [← Matrix.mul_assoc, h2, Matrix.one_mul]
  · refine Reachable.map (P := T⁻¹) (J := T) h1 ?_ rfl
    rw [Matrix.mul_assoc (T⁻¹ * A), h2, Matrix.mul_one]

theorem observable_iff_dual (A : Matrix (Fin n) (Fin n) K) (C : Matrix (Fin p) (Fin n) K) : Observable A C ↔ Reachable Aᵀ Cᵀ := by
  rw [observable_iff_rank, reachable_iff_rank, ← rank_transpose (obsvM A C (n - 1))]
  have : (obsvM A C (n - 1))ᵀ = ctrbM Aᵀ Cᵀ (n - 1) := by
    have h := ctrbM_transpose Aᵀ Cᵀ (n - 1)
    rw [transpose_transpose, transpose_transpose] at h
    rw [← h, transpose_transpose]
  rw [this]

/-- The leading block is reachable ... -/
theorem Lead.reachable (h : Lead r A B) : Reachable (A.submatrix (Fin.castLE h.le) (Fin.castLE h.le)) (B.submatrix (Fin.castLE h.le) id) := by
  set f := Fin.castLE h.le
  have hf : Function.Injective f := Fin.castLE_injective h.le
  have hr : ∀ {i : Fin n}, i ∉ Set.range f → r ≤ (i : ℕ) := fun {i} hi => by
    by_contra h1
    exact hi ⟨⟨i, by omega⟩, by ext; simp [f]⟩
  have hA : A * (1 : Matrix (Fin n) (Fin n) K).submatrix id f = (1 : Matrix (Fin n) (Fin n) K).submatrix id f * A.submatrix f f := by
    rw [mul_sub_cols]
    exact (cols_mul hf (X := A.submatrix id f) fun i c hi => h.zeroA i _ (hr hi) (by simp [f])).symm
  have hB : (1 : Matrix (Fin n) (Fin n) K).submatrix id f * B.submatrix f id = B := cols_mul hf fun i c hi => h.zeroB i c (hr hi)
  rw [reachable_iff_single]
  intro i
  have h1 : krySpace A B (n - 1) ≤ (krySpace (A.submatrix f f) (B.submatrix f id) (r - 1)).map ((1 : Matrix (Fin n) (Fin n) K).submatrix id f).mulVecLin := by
    refine kry_le (fun u => ?_) ?_
    · refine ⟨B.submatrix f id *ᵥ u, input_mem_kry _ _ u, ?_⟩
      rw [mulVecLin_apply, mulVec_mulVec, hB]
    · rintro _ ⟨y, hy, rfl⟩
      refine ⟨_, krylov_invariant _ _ hy, ?_⟩
      rw [mulVecLin_apply, mulVecLin_apply, mulVec_mulVec, mulVec_mulVec, hA]
  obtain ⟨y, hy, e⟩ := h1 (h.reach (f i) (by simp [f]))
  have : y = Pi.single i 1 := by
    have e2 := congrArg ((1 : Matrix (Fin n) (Fin n) K).submatrix f id *ᵥ ·) e
    simp only [mulVecLin_apply, mulVec_mulVec, sub_sub hf, one_mulVec] at e2
    rw [e2]
    ext j
    rw [mulVec_single_one, col_apply, submatrix_apply, id, Matrix.one_apply, Pi.single_apply]
    simp [hf.eq_iff]
  rwa [this] at hy

/-- ... and larger leading blocks are not. -/
theorem Lead.not_reachable (h : Lead r A B) (hk : k ≤ n) (hr : r < k) :
    ¬ Reachable (A.submatrix (Fin.castLE hk) (Fin.castLE hk)) (B.submatrix (Fin.castLE hk) id) := by
  rw [reachable_iff_kry]
  intro h1
  let W : Submodule K (Fin k → K) :=
    { carrier := {x | ∀ i : Fin k, r ≤ (i : ℕ) → x i = 0}
      add_mem' := fun {a b} ha hb i hi => by rw [Pi.add_apply, ha i hi, hb i hi, add_zero]
      zero_mem' := fun i _ => rfl
      smul_mem' := fun c x hx i hi => by rw [Pi.smul_apply, hx i hi, smul_zero] }
  have h2 : krySpace (A.submatrix (Fin.castLE hk) (Fin.castLE hk)) (B.submatrix (Fin.castLE hk) id) (k - 1) ≤ W := by
    refine kry_le (fun u i hi => ?_) fun x hx i hi => ?_
    · show ∑ c, (B.submatrix (Fin.castLE hk) id) i c * u c = 0
      refine Finset.sum_eq_zero fun c _ => ?_
      rw [submatrix_apply, h.zeroB _ _ (by simpa using hi), zero_mul]
    · show ∑ c, (A.submatrix (Fin.castLE hk) (Fin.castLE hk)) i c * x c = 0
      refine Finset.sum_eq_zero fun c _ => ?_
      by_cases hc : (c : ℕ) < r
      · rw [submatrix_apply, h.zeroA _ _ (by simpa using hi) (by simpa using hc), zero_mul]
      · rw [hx c (by omega), mul_zero]
  have h3 : (Pi.single ⟨r, hr⟩ 1 : Fin k → K) ∈ W := h2 (by rw [h1]; exact Submodule.mem_top)
  have h4 := h3 ⟨r, hr⟩ (le_refl _)
  simp at h4

/-- The first `q` states are not seen by the output. -/
structure Tail (q : ℕ) (A : Matrix (Fin n) (Fin n) K) (C : Matrix (Fin p) (Fin n) K) : Prop where
  le : q ≤ n
  zeroA : ∀ i c : Fin n, q ≤ (i : ℕ) → (c : ℕ) < q → A i c = 0
  zeroC : ∀ (i : Fin p) (c : Fin n), (c : ℕ) < q → C i c = 0

end Harold
