import Verif.Spec.Alias
import Verif.Lemmas.Truncate
import Verif.Lemmas.LqrLoop
import Verif.Props.LqrLoop
import Verif.Props.PoleMap

/-!
# Eigenvector tests for reachability and observability, eigenvectors of `exp A`
-/

namespace Harold

open Matrix NormedSpace Harold.Spec

variable {n m p : ℕ}

theorem map_pow_c (A : Matrix (Fin n) (Fin n) ℝ) (k : ℕ) : (A ^ k).map (algebraMap ℝ ℂ) = A.map (algebraMap ℝ ℂ) ^ k := by
  induction k with
  | zero => simp [Matrix.map_one]
  | succ k ih => rw [pow_succ, pow_succ, Matrix.map_mul, ih]

theorem parts_zero {v : Fin n → ℂ} (h : v = 0) : (fun i => (v i).re) = 0 ∧ (fun i => (v i).im) = 0 := by
  subst h
  exact ⟨rfl, rfl⟩

theorem mulVec_pow_eig {A : Matrix (Fin n) (Fin n) ℂ} {z : ℂ} {v : Fin n → ℂ} (h : A *ᵥ v = z • v) (k : ℕ) : A ^ k *ᵥ v = z ^ k • v := by
  induction k with
  | zero => simp
  | succ k ih => rw [pow_succ, ← mulVec_mulVec, h, mulVec_smul, ih, smul_smul, pow_succ, mul_comm]

/-- A pair is observable if and only if no eigenvector is in the kernel of `C`. -/
theorem hautus (A : Matrix (Fin n) (Fin n) ℝ) (C : Matrix (Fin p) (Fin n) ℝ) :
    Observable A C ↔ ∀ (z : ℂ) (v : Fin n → ℂ), A.map (algebraMap ℝ ℂ) *ᵥ v = z • v → C.map (algebraMap ℝ ℂ) *ᵥ v = 0 → v = 0 := by
  constructor
  · intro h z v hv hC
    have h0 : ∀ k : ℕ, (C * A ^ k).map (algebraMap ℝ ℂ) *ᵥ v = 0 := by
      intro k
      rw [Matrix.map_mul, map_pow_c, ← mulVec_mulVec, mulVec_pow_eig hv, mulVec_smul, hC, smul_zero]
    refine vec_zero_of_parts (h _ fun k => ?_) (h _ fun k => ?_)
    · have := (parts_zero (h0 k)).1
      rw [(map_mulVec_parts _ v).1] at this
      rw [mulVec_mulVec, this]
    · have := (parts_zero (h0 k)).2
      rw [(map_mulVec_parts _ v).2] at this
      rw [mulVec_mulVec, this]
  · intro h x hx
    by_contra hne
    let U : Submodule ℂ (Fin n → ℂ) :=
      { carrier := {u | ∀ k : ℕ, C.map (algebraMap ℝ ℂ) *ᵥ (A.map (algebraMap ℝ ℂ) ^ k *ᵥ u) = 0}
        add_mem' := fun {a b} ha hb k => by rw [mulVec_add, mulVec_add, ha k, hb k, add_zero]
        zero_mem' := fun k => by simp
        smul_mem' := fun c a ha k => by rw [mulVec_smul, mulVec_smul, ha k, smul_zero] }
    have hU : ∀ u, u ∈ U ↔ ∀ k : ℕ, C.map (algebraMap ℝ ℂ) *ᵥ (A.map (algebraMap ℝ ℂ) ^ k *ᵥ u) = 0 := fun _ => Iff.rfl
    have hinv : ∀ u ∈ U, (toLin' (A.map (algebraMap ℝ ℂ))) u ∈ U := by
      intro u hu
      rw [hU] at hu ⊢
      intro k
      have := hu (k + 1)
      rwa [pow_succ, ← mulVec_mulVec u] at this
    let x' : Fin n → ℂ := fun i => (x i : ℂ)
    have hx' : x' ∈ U := by
      rw [hU]
      intro k
      rw [mulVec_mulVec, ← map_pow_c, ← Matrix.map_mul]
      have h1 := map_mulVec_parts (C * A ^ k) x'
      have e1 : (fun i => (x' i).re) = x := by funext i; simp [x']
      have e2 : (fun i => (x' i).im) = 0 := by funext i; simp [x']
      rw [e1, e2, ← mulVec_mulVec, hx k, mulVec_zero] at h1
      exact vec_zero_of_parts h1.1 h1.2
    have hx0 : x' ≠ 0 := by
      intro h0
      refine hne (funext fun i => ?_)
      have := congrFun h0 i
      simpa [x'] using this
    have : Nontrivial U := ⟨⟨⟨x', hx'⟩, 0, fun h0 => hx0 (congrArg Subtype.val h0)⟩⟩
    obtain ⟨z, hz⟩ := Module.End.exists_eigenvalue (K := ℂ) (V := U) ((toLin' (A.map (algebraMap ℝ ℂ))).restrict hinv)
    obtain ⟨u, hu⟩ := hz.exists_hasEigenvector
    have e := congrArg Subtype.val hu.apply_eq_smul
    refine hu.2 (Subtype.ext (h z u.1 ?_ ?_))
    · exact e
    · have := (hU u.1).mp u.2 0
      simpa using this

theorem hautus_reach (A : Matrix (Fin n) (Fin n) ℝ) (B : Matrix (Fin n) (Fin m) ℝ) :
    Reachable A B ↔ ∀ (z : ℂ) (v : Fin n → ℂ), Aᵀ.map (algebraMap ℝ ℂ) *ᵥ v = z • v → Bᵀ.map (algebraMap ℝ ℂ) *ᵥ v = 0 → v = 0 := by
  rw [← hautus, observable_iff_dual, transpose_transpose, transpose_transpose]

/-! ## The substitution methods -/

section lft
variable {x β w c : ℝ} {A : Matrix (Fin n) (Fin n) ℝ} {C : Matrix (Fin p) (Fin n) ℝ}

theorem observable_lft (hd : (1 - w • A).det ≠ 0) (hβ : β ≠ 0) (hc : c ≠ 0) :
    Observable (x • 1 + β • (A * (1 - w • A)⁻¹)) (c • (C * (1 - w • A)⁻¹)) ↔ Observable A C := by
  obtain ⟨Y, hYdef⟩ : ∃ Y, Y = (1 - w • A)⁻¹ := ⟨_, rfl⟩
  have hY : (1 - w • A) * Y = 1 := by rw [hYdef]; exact mul_nonsing_inv _ (Ne.isUnit hd)
  have hY' : Y * (1 - w • A) = 1 := by rw [hYdef]; exact nonsing_inv_mul _ (Ne.isUnit hd)
  rw [← hYdef]
  set Ac := A.map (algebraMap ℝ ℂ) with hAc
  set Yc := Y.map (algebraMap ℝ ℂ) with hYc
  set Cc := C.map (algebraMap ℝ ℂ) with hCc
  have hYm : (1 - (w : ℂ) • Ac) * Yc = 1 := by
    have e2 := congrArg (fun X => X.map (algebraMap ℝ ℂ)) hY
    simp only [map_mul', map_sub', map_smul'] at e2
    simpa [hAc, hYc] using e2
  have hYm' : Yc * (1 - (w : ℂ) • Ac) = 1 := by
    have e2 := congrArg (fun X => X.map (algebraMap ℝ ℂ)) hY'
    simp only [map_mul', map_sub', map_smul'] at e2
    simpa [hAc, hYc] using e2
  have eA : (x • 1 + β • (A * Y)).map (algebraMap ℝ ℂ) = (x : ℂ) • 1 + (β : ℂ) • (Ac * Yc) := by
    rw [map_add', map_smul', map_smul', map_mul']
    simp [hAc, hYc]
  have eC : (c • (C * Y)).map (algebraMap ℝ ℂ) = (c : ℂ) • (Cc * Yc) := by
    rw [map_smul', map_mul']
    simp [hCc, hYc]
  have hβc : (β : ℂ) ≠ 0 := Complex.ofReal_ne_zero.mpr hβ
  have hcc : (c : ℂ) ≠ 0 := Complex.ofReal_ne_zero.mpr hc
  rw [hautus, hautus, eA, eC]
  constructor
  · intro h z v hv hC
    by_contra hv0
    have h1 : (1 - (w : ℂ) • Ac) *ᵥ v = (1 - w * z) • v := by
      rw [sub_mulVec, one_mulVec, smul_mulVec, hv, smul_smul, sub_smul, one_smul]
    have h2 : v = (1 - w * z) • Yc *ᵥ v := by
      rw [← mulVec_smul, ← h1, mulVec_mulVec, hYm', one_mulVec]
    have h3 : (1 - w * z : ℂ) ≠ 0 := by
      intro h0
      rw [h0, zero_smul] at h2
      exact hv0 h2
    have h4 : Yc *ᵥ v = (1 - w * z : ℂ)⁻¹ • v := by
      conv_rhs => rw [h2]
      rw [smul_smul, inv_mul_cancel₀ h3, one_smul]
    refine hv0 (h (x + β * ((1 - w * z)⁻¹ * z)) v ?_ ?_)
    · rw [add_mulVec, smul_mulVec, smul_mulVec, one_mulVec, ← mulVec_mulVec, h4, mulVec_smul, hv]
      module
    · rw [smul_mulVec, ← mulVec_mulVec, h4, mulVec_smul, hC, smul_zero, smul_zero]
  · intro h z v hv hC
    set u := Yc *ᵥ v with hu
    have hvu : v = (1 - (w : ℂ) • Ac) *ᵥ u := by rw [hu, mulVec_mulVec, hYm, one_mulVec]
    suffices hu0 : u = 0 by rw [hvu, hu0, mulVec_zero]
    have hCu : Cc *ᵥ u = 0 := by
      rw [smul_mulVec, ← mulVec_mulVec] at hC
      exact (smul_eq_zero.mp hC).resolve_left hcc
    have h1 : (β : ℂ) • Ac *ᵥ u = (z - x) • (u - (w : ℂ) • Ac *ᵥ u) := by
      rw [add_mulVec, smul_mulVec, smul_mulVec, one_mulVec, ← mulVec_mulVec, ← hu] at hv
      have h2 : v = u - (w : ℂ) • Ac *ᵥ u := by
        conv_lhs => rw [hvu]
        rw [sub_mulVec, one_mulVec, smul_mulVec]
      rw [← h2, sub_smul, ← hv]
      abel
    have h2 : ((β : ℂ) + w * (z - x)) • Ac *ᵥ u = (z - x) • u := by
      rw [add_smul, h1, smul_sub, smul_smul, mul_comm (w : ℂ)]
      abel
    by_cases h3 : (β : ℂ) + w * (z - x) = 0
    · rw [h3, zero_smul] at h2
      refine (smul_eq_zero.mp h2.symm).resolve_left fun h4 => hβc ?_
      rwa [h4, mul_zero, add_zero] at h3
    · refine h (((β : ℂ) + w * (z - x))⁻¹ * (z - x)) u ?_ hCu
      rw [← smul_smul, ← h2, smul_smul, inv_mul_cancel₀ h3, one_smul]

theorem reachable_lft {B : Matrix (Fin n) (Fin m) ℝ} (hd : (1 - w • A).det ≠ 0) (hβ : β ≠ 0) (hc : c ≠ 0) :
    Reachable (x • 1 + β • (A * (1 - w • A)⁻¹)) (c • ((1 - w • A)⁻¹ * B)) ↔ Reachable A B := by
  have hd' : (1 - w • Aᵀ).det ≠ 0 := by
    have : (1 - w • Aᵀ) = (1 - w • A)ᵀ := by rw [transpose_sub, transpose_one, transpose_smul]
    rw [this, det_transpose]
    exact hd
  have hu : IsUnit (1 - w • A).det := Ne.isUnit hd
  have hcomm : A * (1 - w • A)⁻¹ = (1 - w • A)⁻¹ * A := by
    have h1 : A * (1 - w • A) = (1 - w • A) * A := by
      rw [mul_sub, sub_mul, mul_one, one_mul, Matrix.mul_smul, Matrix.smul_mul]
    have h2 : (1 - w • A)⁻¹ * (A * (1 - w • A)) * (1 - w • A)⁻¹ = (1 - w • A)⁻¹ * ((1 - w • A) * A) * (1 - w • A)⁻¹ := by rw [h1]
    rw [← Matrix.mul_assoc, Matrix.mul_assoc, mul_nonsing_inv _ hu, Matrix.mul_one, ← Matrix.mul_assoc, nonsing_inv_mul _ hu, Matrix.one_mul] at h2
    exact h2.symm
  have := observable_lft (x := x) (C := Bᵀ) hd' hβ hc
  rw [observable_iff_dual, observable_iff_dual, transpose_transpose, transpose_transpose] at this
  rw [← this]
  have e : (1 - w • Aᵀ)⁻¹ᵀ = (1 - w • A)⁻¹ := by
    rw [transpose_nonsing_inv, transpose_sub, transpose_one, transpose_smul, transpose_transpose]
  rw [transpose_add, transpose_smul, transpose_smul, transpose_smul, transpose_one, transpose_mul, transpose_mul, e, transpose_transpose, transpose_transpose, hcomm]

end lft

/-! ## Eigenvectors of `exp A` -/

section expvec
variable {k : Type} [Fintype k] [DecidableEq k] {X : Matrix k k ℂ}

theorem exp_jordan_vec {u v : k → ℂ} {a : ℂ} (hv : X *ᵥ v = a • v + u) (hu : X *ᵥ u = a • u) : exp X *ᵥ v = Complex.exp a • v + Complex.exp a • u := by
  have hc : ∀ (M : Matrix k k ℂ) (x : k → ℂ) (i : k), (M * replicateCol (Fin 1) x) i 0 = (M *ᵥ x) i := fun _ _ _ => rfl
  have h1 := exp_jordan (X := X) (Y := a • (1 : Matrix (Fin 1) (Fin 1) ℂ)) (V := replicateCol (Fin 1) v) (U := replicateCol (Fin 1) u) (by
    ext i j
    rw [Fin.fin_one_eq_zero j, hc, hv]
    simp [replicateCol_apply]) (by
    ext i j
    rw [Fin.fin_one_eq_zero j, hc, hu]
    simp [replicateCol_apply])
  rw [exp_scalar] at h1
  funext i
  have := congrFun (congrFun h1 i) 0
  rw [hc] at this
  rw [this]
  simp [replicateCol_apply]

/-- If different eigenvalues have different exponentials, every eigenvector of `exp X` is one of `X`. -/
theorem eig_of_exp (hX : ∀ a b : ℂ, (∃ v ≠ 0, X *ᵥ v = a • v) → (∃ v ≠ 0, X *ᵥ v = b • v) → Complex.exp a = Complex.exp b → a = b) {μ : ℂ}
    {v : k → ℂ} (h : exp X *ᵥ v = μ • v) (hv : v ≠ 0) : ∃ a : ℂ, X *ᵥ v = a • v := by
  have cX : X * exp X = exp X * X := (Commute.refl X).exp_right.eq
  let W : Submodule ℂ (k → ℂ) :=
    { carrier := {u | exp X *ᵥ u = μ • u}
      add_mem' := fun {a b} ha hb => by
        simp only [Set.mem_setOf_eq] at ha hb ⊢
        rw [mulVec_add, smul_add, ha, hb]
      zero_mem' := by simp
      smul_mem' := fun c a ha => by
        simp only [Set.mem_setOf_eq] at ha ⊢
        rw [mulVec_smul, ha, smul_comm] }
  have hW : ∀ u, u ∈ W ↔ exp X *ᵥ u = μ • u := fun _ => Iff.rfl
  have hinv : ∀ u ∈ W, (toLin' X) u ∈ W := by
    intro u hu
    rw [hW] at hu ⊢
    rw [toLin'_apply, mulVec_mulVec, ← cX, ← mulVec_mulVec, hu, mulVec_smul]
  let T : Module.End ℂ W := (toLin' X).restrict hinv
  have hT : ∀ u : W, (T u).1 = X *ᵥ u.1 := fun _ => rfl
  have hev : ∀ b, T.HasEigenvalue b → Complex.exp b = μ ∧ ∃ v ≠ 0, X *ᵥ v = b • v := by
    intro b hb
    obtain ⟨u, hu⟩ := hb.exists_hasEigenvector
    have e : X *ᵥ u.1 = b • u.1 := congrArg Subtype.val hu.apply_eq_smul
    have hu0 : u.1 ≠ 0 := fun h0 => hu.2 (Subtype.ext h0)
    refine ⟨?_, u.1, hu0, e⟩
    have e1 := exp_eig_vec e
    rw [(hW u.1).mp u.2] at e1
    have e2 : (μ - Complex.exp b) • u.1 = 0 := by rw [sub_smul, e1, sub_self]
    exact (sub_eq_zero.mp ((smul_eq_zero.mp e2).resolve_right hu0)).symm
  have : Nontrivial W := ⟨⟨⟨v, h⟩, 0, fun h0 => hv (congrArg Subtype.val h0)⟩⟩
  obtain ⟨a, ha⟩ := Module.End.exists_eigenvalue (K := ℂ) (V := W) T
  obtain ⟨ha1, ha2⟩ := hev a ha
  refine ⟨a, ?_⟩
  have htop : T.maxGenEigenspace a = ⊤ := by
    have h1 := Module.End.iSup_maxGenEigenspace_eq_top T
    rw [eq_top_iff, ← h1]
    refine iSup_le fun b => ?_
    by_cases hb : b = a
    · rw [hb]
    · have : T.maxGenEigenspace b = ⊥ := by
        by_contra hb'
        obtain ⟨hb1, hb2⟩ := hev b (Module.End.HasUnifEigenvalue.lt (k := ⊤) zero_lt_one hb')
        exact hb (hX b a hb2 ha2 (hb1.trans ha1.symm))
      rw [this]
      exact bot_le
  set R : Module.End ℂ W := T - a • (1 : Module.End ℂ W) with hR
  have hRv : ∀ u : W, (R u).1 = X *ᵥ u.1 - a • u.1 := fun _ => rfl
  have hnil : ∃ j : ℕ, (R ^ j) ⟨v, h⟩ = 0 := by
    have : (⟨v, h⟩ : W) ∈ T.maxGenEigenspace a := by rw [htop]; trivial
    rwa [Module.End.mem_maxGenEigenspace] at this
  by_contra hne
  classical
  obtain ⟨j, hj, hmin⟩ : ∃ j : ℕ, (R ^ j) ⟨v, h⟩ = 0 ∧ ∀ i < j, (R ^ i) ⟨v, h⟩ ≠ 0 := ⟨Nat.find hnil, Nat.find_spec hnil, fun i hi => Nat.find_min hnil hi⟩
  obtain ⟨j, rfl⟩ : ∃ i, j = i + 2 := by
    rcases j with _ | _ | j
    · exact absurd (congrArg Subtype.val hj) (by simpa using hv)
    · refine absurd (congrArg Subtype.val hj) ?_
      rw [zero_add, pow_one]
      exact fun hc => hne (sub_eq_zero.mp hc)
    · exact ⟨j, rfl⟩
  set V : W := (R ^ j) ⟨v, h⟩ with hV
  have hU0 : R V ≠ 0 := by
    have := hmin (j + 1) (by omega)
    rwa [pow_succ', Module.End.mul_apply] at this
  have hUU : R (R V) = 0 := by
    rwa [pow_succ', pow_succ', Module.End.mul_apply, Module.End.mul_apply] at hj
  have e1 : X *ᵥ V.1 = a • V.1 + (R V).1 := by rw [hRv]; abel
  have e2 : X *ᵥ (R V).1 = a • (R V).1 := sub_eq_zero.mp (congrArg Subtype.val hUU)
  have e3 := exp_jordan_vec e1 e2
  rw [(hW V.1).mp V.2, ha1] at e3
  have e4 : Complex.exp a • (R V).1 = 0 := by
    rw [ha1]
    simpa using e3.symm
  exact hU0 (Subtype.ext ((smul_eq_zero.mp e4).resolve_left (Complex.exp_ne_zero a)))

end expvec

/-! ## The hold methods -/

section hold
variable {A : Matrix (Fin n) (Fin n) ℝ} {dt : ℝ}

theorem smul_map_c {a b : ℕ} (c : ℝ) (M : Matrix (Fin a) (Fin b) ℝ) : (c • M).map (algebraMap ℝ ℂ) = (c : ℂ) • M.map (algebraMap ℝ ℂ) := by
  ext i j
  simp

theorem eig_of_exp_real (hA : NoAlias dt A) (hdt : dt ≠ 0) {μ : ℂ} {v : Fin n → ℂ}
    (h : (exp (dt • A)).map (algebraMap ℝ ℂ) *ᵥ v = μ • v) (hv : v ≠ 0) : ∃ a : ℂ, A.map (algebraMap ℝ ℂ) *ᵥ v = a • v := by
  have hd : (dt : ℂ) ≠ 0 := Complex.ofReal_ne_zero.mpr hdt
  rw [← exp_map_ofReal, smul_map_c] at h
  have hs : ∀ (a : ℂ) (v : Fin n → ℂ), ((dt : ℂ) • A.map (algebraMap ℝ ℂ)) *ᵥ v = a • v → A.map (algebraMap ℝ ℂ) *ᵥ v = (a / dt) • v := by
    intro a v h1
    rw [smul_mulVec] at h1
    rw [div_eq_inv_mul, ← smul_smul, ← h1, smul_smul, inv_mul_cancel₀ hd, one_smul]
  obtain ⟨a, ha⟩ := eig_of_exp (X := (dt : ℂ) • A.map (algebraMap ℝ ℂ)) (by
    rintro a b ⟨v, hv, h1⟩ ⟨w, hw, h2⟩ hab
    have := hA (a / dt) (b / dt) (isEig_of_vec hv (hs a v h1)) (isEig_of_vec hw (hs b w h2)) (by rwa [div_mul_cancel₀ _ hd, div_mul_cancel₀ _ hd])
    exact (div_left_inj' hd).mp this) h hv
  exact ⟨_, hs a v ha⟩

theorem exp_eig_real {s : ℂ} {v : Fin n → ℂ} (h : A.map (algebraMap ℝ ℂ) *ᵥ v = s • v) :
    (exp (dt • A)).map (algebraMap ℝ ℂ) *ᵥ v = Complex.exp (s * dt) • v := by
  rw [← exp_map_ofReal, smul_map_c]
  refine exp_eig_vec ?_
  rw [smul_mulVec, h, smul_smul, mul_comm]

theorem observable_exp {C : Matrix (Fin p) (Fin n) ℝ} (h : Observable (exp (dt • A)) C) : Observable A C := by
  rw [hautus] at h ⊢
  exact fun z v hv hC => h _ v (exp_eig_real hv) hC

theorem observable_exp_iff {C : Matrix (Fin p) (Fin n) ℝ} (hA : NoAlias dt A) (hdt : dt ≠ 0) : Observable (exp (dt • A)) C ↔ Observable A C := by
  refine ⟨observable_exp, fun h => ?_⟩
  rw [hautus] at h ⊢
  intro z v hv hC
  by_contra hv0
  obtain ⟨a, ha⟩ := eig_of_exp_real hA hdt hv hv0
  exact hv0 (h a v ha hC)

/-- A row that `A` annihilates passes the input through unchanged. -/
theorem gam_kernel {k : ℕ} {W : Matrix (Fin k) (Fin n) ℝ} (R : Matrix (Fin n) (Fin m) ℝ) (h : W * A = 0) : W * gam A R 0 = W * R := by
  have h1 := exp_intertwine (X := shiftN k) (Y := blk A R 0 (0 : Matrix (Fin m) (Fin m) ℝ)) (Z := vcat (hcat W 0) (hcat 0 (W * R))) (by
    rw [shiftN, blk_mul_vcat, vcat_mul, hcat_mul_blk, hcat_mul_blk, h]
    have : hcat (0 : Matrix (Fin k) (Fin n) ℝ) (0 : Matrix (Fin k) (Fin m) ℝ) = 0 := by
      ext i j
      refine Fin.addCases (fun j => ?_) (fun j => ?_) j <;> simp [hcat]
    simp [this])
  rw [exp_shiftN, exp_blk, blk_mul_vcat, vcat_mul, hcat_mul_blk] at h1
  have h2 : hcat W 0 + hcat 0 (W * R) = hcat (W * exp A) (W * gam A R 0) := by
    simpa using (vcat_inj h1).1
  have h3 := congrArg (fun M : Matrix (Fin k) (Fin (n + m)) ℝ => M.submatrix id (Fin.natAdd n)) h2
  ext i j
  have := congrFun (congrFun h3 i) j
  simpa [hcat] using this.symm

theorem gam_kernel_vec {v : Fin n → ℂ} (R : Matrix (Fin n) (Fin m) ℝ) (h : Aᵀ.map (algebraMap ℝ ℂ) *ᵥ v = 0) :
    (gam A R 0)ᵀ.map (algebraMap ℝ ℂ) *ᵥ v = Rᵀ.map (algebraMap ℝ ℂ) *ᵥ v := by
  have key : ∀ x : Fin n → ℝ, Aᵀ *ᵥ x = 0 → (gam A R 0)ᵀ *ᵥ x = Rᵀ *ᵥ x := by
    intro x hx
    have h1 : replicateRow (Fin 1) x * A = 0 := by
      rw [← replicateRow_vecMul, ← mulVec_transpose, hx]
      rfl
    have h2 := gam_kernel R h1
    rw [← replicateRow_vecMul, ← replicateRow_vecMul, ← mulVec_transpose, ← mulVec_transpose] at h2
    exact replicateRow_injective h2
  obtain ⟨h1, h2⟩ := parts_zero h
  rw [(map_mulVec_parts _ v).1] at h1
  rw [(map_mulVec_parts _ v).2] at h2
  have e1 := key _ h1
  have e2 := key _ h2
  rw [← (map_mulVec_parts _ v).1, ← (map_mulVec_parts _ v).1] at e1
  rw [← (map_mulVec_parts _ v).2, ← (map_mulVec_parts _ v).2] at e2
  funext i
  exact Complex.ext (congrFun e1 i) (congrFun e2 i)

/-- `vᵀ gam = φ(s) vᵀ R` for a left eigenvector. -/
theorem gam_left {v : Fin n → ℂ} {s : ℂ} (R : Matrix (Fin n) (Fin m) ℝ) (h : Aᵀ.map (algebraMap ℝ ℂ) *ᵥ v = s • v) :
    s • (gam A R 0)ᵀ.map (algebraMap ℝ ℂ) *ᵥ v = (Complex.exp s - 1) • Rᵀ.map (algebraMap ℝ ℂ) *ᵥ v := by
  have h1 := congrArg (fun M : Matrix (Fin n) (Fin m) ℝ => Mᵀ.map (algebraMap ℝ ℂ) *ᵥ v) (gam_hold A R)
  simp only [transpose_mul, transpose_sub, transpose_one, Matrix.map_mul, ← mulVec_mulVec] at h1
  rw [h, mulVec_smul] at h1
  rw [h1, ← mulVec_smul]
  congr 1
  rw [Matrix.map_sub _ (fun a b => map_sub _ a b), Matrix.map_one _ (map_zero _) (map_one _), sub_mulVec, one_mulVec, ← exp_transpose, ← exp_map_ofReal, exp_eig_vec h, sub_smul, one_smul]

variable {name : String} {B Γ : Matrix (Fin n) (Fin m) ℝ} {C : Matrix (Fin p) (Fin n) ℝ} {D F : Matrix (Fin p) (Fin m) ℝ} {Φ : Matrix (Fin n) (Fin n) ℝ}

/-- The input matrix of the hold discretization along a left eigenvector. -/
theorem HoldOf.left (h : HoldOf name dt A B C D Φ Γ F) (hdt : dt ≠ 0) {v : Fin n → ℂ} {s : ℂ} (hv : Aᵀ.map (algebraMap ℝ ℂ) *ᵥ v = s • v) :
    ∃ φ : ℂ, Γᵀ.map (algebraMap ℝ ℂ) *ᵥ v = φ • Bᵀ.map (algebraMap ℝ ℂ) *ᵥ v ∧ (φ = 0 → s ≠ 0 ∧ Complex.exp (s * dt) = 1) := by
  have hd : (dt : ℂ) ≠ 0 := Complex.ofReal_ne_zero.mpr hdt
  have hv' : (dt • A)ᵀ.map (algebraMap ℝ ℂ) *ᵥ v = (s * dt) • v := by
    rw [transpose_smul, smul_map_c, smul_mulVec, hv, smul_smul, mul_comm]
  have eB : (dt • B)ᵀ.map (algebraMap ℝ ℂ) *ᵥ v = (dt : ℂ) • Bᵀ.map (algebraMap ℝ ℂ) *ᵥ v := by
    rw [transpose_smul, smul_map_c, smul_mulVec]
  obtain ⟨rfl, h⟩ := h
  by_cases hs : s = 0
  · subst hs
    have h0 : (dt • A)ᵀ.map (algebraMap ℝ ℂ) *ᵥ v = 0 := by rw [hv', zero_mul, zero_smul]
    have h1 := gam_kernel_vec (dt • B) h0
    rw [eB] at h1
    refine ⟨dt, ?_, fun h => absurd h hd⟩
    rcases h with ⟨-, rfl, -⟩ | ⟨-, g, hg, rfl, -⟩
    · exact h1
    · rw [transpose_sub, transpose_add, transpose_mul, Matrix.map_sub _ (fun a b => map_sub _ a b), Matrix.map_add _ (fun a b => map_add _ a b), Matrix.map_mul, sub_mulVec, add_mulVec, ← mulVec_mulVec,
        ← exp_transpose, ← exp_map_ofReal, exp_eig_vec hv', zero_mul, Complex.exp_zero, one_smul, h1]
      abel
  · have hsd : s * dt ≠ 0 := mul_ne_zero hs hd
    have h1 := gam_left (dt • B) hv'
    rw [eB] at h1
    have h2 : (gam (dt • A) (dt • B) 0)ᵀ.map (algebraMap ℝ ℂ) *ᵥ v = ((Complex.exp (s * dt) - 1) / s) • Bᵀ.map (algebraMap ℝ ℂ) *ᵥ v := by
      have : (s * dt)⁻¹ • (s * dt) • (gam (dt • A) (dt • B) 0)ᵀ.map (algebraMap ℝ ℂ) *ᵥ v = ((Complex.exp (s * dt) - 1) / s) • Bᵀ.map (algebraMap ℝ ℂ) *ᵥ v := by
        rw [h1, smul_smul, smul_smul]
        congr 1
        field_simp
      rwa [smul_smul, inv_mul_cancel₀ hsd, one_smul] at this
    rcases h with ⟨-, rfl, -⟩ | ⟨-, g, hg, rfl, -⟩
    · refine ⟨_, h2, fun h3 => ⟨hs, ?_⟩⟩
      rw [div_eq_zero_iff, or_iff_left hs] at h3
      linear_combination h3
    · obtain ⟨g', hg', hA⟩ := gam_foh (dt • A) (dt • B)
      rw [hg] at hg'
      obtain rfl : g = g' := (hcat_inj hg').2
      have h3 := congrArg (fun M : Matrix (Fin n) (Fin m) ℝ => Mᵀ.map (algebraMap ℝ ℂ) *ᵥ v) hA
      simp only [transpose_mul, transpose_add, Matrix.map_mul, Matrix.map_add _ (fun a b => map_add _ a b), add_mulVec, ← mulVec_mulVec] at h3
      rw [hv', mulVec_smul, eB, h2] at h3
      have h4 : gᵀ.map (algebraMap ℝ ℂ) *ᵥ v = ((s * dt)⁻¹ * ((Complex.exp (s * dt) - 1) / s - dt)) • Bᵀ.map (algebraMap ℝ ℂ) *ᵥ v := by
        have : (s * dt) • gᵀ.map (algebraMap ℝ ℂ) *ᵥ v = ((Complex.exp (s * dt) - 1) / s - dt) • Bᵀ.map (algebraMap ℝ ℂ) *ᵥ v := by
          rw [sub_smul, ← h3]
          abel
        rw [← smul_smul, ← this, smul_smul, inv_mul_cancel₀ hsd, one_smul]
      refine ⟨(Complex.exp (s * dt) - 1) ^ 2 / (s ^ 2 * dt), ?_, fun h5 => ⟨hs, ?_⟩⟩
      · rw [transpose_sub, transpose_add, transpose_mul, Matrix.map_sub _ (fun a b => map_sub _ a b), Matrix.map_add _ (fun a b => map_add _ a b), Matrix.map_mul, sub_mulVec, add_mulVec, ← mulVec_mulVec,
          ← exp_transpose, ← exp_map_ofReal, exp_eig_vec hv', mulVec_smul, h2, h4, smul_smul, ← add_smul, ← sub_smul]
        congr 1
        field_simp
        ring
      · rw [div_eq_zero_iff, or_iff_left (mul_ne_zero (pow_ne_zero 2 hs) hd)] at h5
        linear_combination pow_eq_zero_iff (two_ne_zero) |>.mp h5

theorem HoldOf.reachable (h : HoldOf name dt A B C D Φ Γ F) (hdt : dt ≠ 0) (hr : Reachable Φ Γ) : Reachable A B := by
  rw [hautus_reach] at hr ⊢
  intro z v hv hB
  obtain ⟨φ, h1, -⟩ := h.left hdt hv
  refine hr (Complex.exp (z * dt)) v ?_ ?_
  · rw [h.1, ← exp_transpose, transpose_smul]
    exact exp_eig_real hv
  · rw [h1, hB, smul_zero]

theorem isEig_transpose {z : ℂ} : IsEig Aᵀ z ↔ IsEig A z := by
  unfold IsEig
  rw [← det_transpose]
  congr! 2
  rw [transpose_sub, transpose_smul, transpose_one, transpose_map, transpose_transpose]

theorem isEig_star {z : ℂ} (h : IsEig A z) : IsEig A (starRingEnd ℂ z) := by
  obtain ⟨v, hv, h1⟩ := vec_of_isEig h
  refine isEig_of_vec (v := fun i => starRingEnd ℂ (v i)) (fun h0 => hv (funext fun i => ?_)) (funext fun i => ?_)
  · exact (map_eq_zero (starRingEnd ℂ)).mp (congrFun h0 i)
  · have := congrArg (starRingEnd ℂ) (congrFun h1 i)
    simpa [mulVec, dotProduct, map_sum] using this

theorem noAlias_transpose (hA : NoAlias dt A) : NoAlias dt Aᵀ := fun s₁ s₂ h1 h2 => hA s₁ s₂ (isEig_transpose.mp h1) (isEig_transpose.mp h2)

theorem HoldOf.reachable_iff (h : HoldOf name dt A B C D Φ Γ F) (hdt : dt ≠ 0) (hA : NoAlias dt A) : Reachable Φ Γ ↔ Reachable A B := by
  refine ⟨h.reachable hdt, fun hr => ?_⟩
  rw [hautus_reach] at hr ⊢
  intro z v hv hB
  by_contra hv0
  have hv1 : (exp (dt • Aᵀ)).map (algebraMap ℝ ℂ) *ᵥ v = z • v := by
    rw [← transpose_smul, exp_transpose, ← h.1, hv]
  obtain ⟨s, hs⟩ := eig_of_exp_real (noAlias_transpose hA) hdt hv1 hv0
  obtain ⟨φ, h1, h2⟩ := h.left hdt hs
  rw [h1] at hB
  rcases smul_eq_zero.mp hB with h3 | h3
  · obtain ⟨hs0, h4⟩ := h2 h3
    have hd : (dt : ℂ) ≠ 0 := Complex.ofReal_ne_zero.mpr hdt
    have he : IsEig A s := isEig_transpose.mp (isEig_of_vec hv0 hs)
    have he' : IsEig A (starRingEnd ℂ s) := isEig_star he
    have h5 : Complex.exp (starRingEnd ℂ s * dt) = 1 := by
      have : starRingEnd ℂ s * (dt : ℂ) = starRingEnd ℂ (s * dt) := by rw [map_mul, Complex.conj_ofReal]
      rw [this, Complex.exp_conj, h4, map_one]
    have h6 := hA _ _ he he' (h4.trans h5.symm)
    have h7 : s.im = 0 := by
      have := congrArg Complex.im h6
      simp only [Complex.conj_im] at this
      linarith
    have h8 : ‖Complex.exp (s * dt)‖ = 1 := by rw [h4, norm_one]
    rw [Complex.norm_exp, Real.exp_eq_one_iff] at h8
    simp only [Complex.mul_re, Complex.ofReal_re, Complex.ofReal_im, mul_zero, sub_zero] at h8
    exact hs0 (Complex.ext ((mul_eq_zero.mp h8).resolve_right hdt) h7)
  · exact hv0 (hr s v hs h3)

end hold

end Harold
