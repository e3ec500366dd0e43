import Verif.Lemmas.TF

/-!
# From dynamically shaped models to resolvent identities
-/

namespace Harold

open Matrix Spec

section maps
variable {K L : Type} {r r₁ r₂ c c₁ c₂ : ℕ}

theorem hcat_map (f : K → L) (A : Matrix (Fin r) (Fin c₁) K) (B : Matrix (Fin r) (Fin c₂) K) :
    (hcat A B).map f = hcat (A.map f) (B.map f) := by
  ext i j
  rcases h : finSumFinEquiv.symm j with j' | j' <;> simp [hcat, h]

theorem vcat_map (f : K → L) (A : Matrix (Fin r₁) (Fin c) K) (B : Matrix (Fin r₂) (Fin c) K) :
    (vcat A B).map f = vcat (A.map f) (B.map f) := by
  ext i j
  rcases h : finSumFinEquiv.symm i with i' | i' <;> simp [vcat, h]

theorem blk_map (f : K → L) (A : Matrix (Fin r₁) (Fin c₁) K) (B : Matrix (Fin r₁) (Fin c₂) K)
    (C : Matrix (Fin r₂) (Fin c₁) K) (D : Matrix (Fin r₂) (Fin c₂) K) :
    (blk A B C D).map f = blk (A.map f) (B.map f) (C.map f) (D.map f) := by
  rw [blk, ← submatrix_map, fromBlocks_map]; rfl

theorem vcat_hcat (A : Matrix (Fin r₁) (Fin c₁) K) (B : Matrix (Fin r₁) (Fin c₂) K)
    (C : Matrix (Fin r₂) (Fin c₁) K) (D : Matrix (Fin r₂) (Fin c₂) K) :
    vcat (hcat A B) (hcat C D) = blk A B C D := by
  ext i j
  rcases h : finSumFinEquiv.symm i with i' | i' <;>
  rcases h' : finSumFinEquiv.symm j with j' | j' <;> simp [hcat, vcat, blk, h, h']

end maps

section typed
variable {L : Type} [Field L] {n₁ n₂ m p q : ℕ}

theorem isTF_parallel {A₁ : Matrix (Fin n₁) (Fin n₁) L} {B₁ : Matrix (Fin n₁) (Fin m) L}
    {C₁ : Matrix (Fin p) (Fin n₁) L} {D₁ : Matrix (Fin p) (Fin m) L}
    {A₂ : Matrix (Fin n₂) (Fin n₂) L} {B₂ : Matrix (Fin n₂) (Fin m) L}
    {C₂ : Matrix (Fin p) (Fin n₂) L} {D₂ : Matrix (Fin p) (Fin m) L} {s : L}
    {M₁ M₂ : Matrix (Fin p) (Fin m) L}
    (h₁ : IsTF A₁ B₁ C₁ D₁ s M₁) (h₂ : IsTF A₂ B₂ C₂ D₂ s M₂) :
    IsTF (blk A₁ 0 0 A₂) (vcat B₁ B₂) (hcat C₁ C₂) (D₁ + D₂) s (M₁ + M₂) :=
  (h₁.parallel h₂).reindex finSumFinEquiv.symm

theorem isTF_series {A₁ : Matrix (Fin n₁) (Fin n₁) L} {B₁ : Matrix (Fin n₁) (Fin q) L}
    {C₁ : Matrix (Fin p) (Fin n₁) L} {D₁ : Matrix (Fin p) (Fin q) L}
    {A₂ : Matrix (Fin n₂) (Fin n₂) L} {B₂ : Matrix (Fin n₂) (Fin m) L}
    {C₂ : Matrix (Fin q) (Fin n₂) L} {D₂ : Matrix (Fin q) (Fin m) L} {s : L}
    {M₁ : Matrix (Fin p) (Fin q) L} {M₂ : Matrix (Fin q) (Fin m) L}
    (h₁ : IsTF A₁ B₁ C₁ D₁ s M₁) (h₂ : IsTF A₂ B₂ C₂ D₂ s M₂) :
    IsTF (blk A₁ (B₁ * C₂) 0 A₂) (vcat (B₁ * D₂) B₂) (hcat C₁ (D₁ * C₂)) (D₁ * D₂) s (M₁ * M₂) :=
  (h₁.series h₂).reindex finSumFinEquiv.symm

end typed

section mk
variable {K : Type} [Field K] [LinearOrder K] {n m p : ℕ}

theorem checkDt_ok {dt : Option K} (h : DtOk dt) : checkDt dt = .ok dt := by
  cases dt with
  | none => rfl
  | some t =>
    have := h t rfl
    simp [checkDt, not_le.mpr this]

theorem mkState_of {dt : Option K} (h : DtOk dt) (A : Matrix (Fin n) (Fin n) K)
    (B : Matrix (Fin n) (Fin m) K) (C : Matrix (Fin p) (Fin n) K) (D : Matrix (Fin p) (Fin m) K) :
    mkState (some (Arr.of A)) (some (Arr.of B)) (some (Arr.of C)) (some (Arr.of D)) dt
      = .ok ⟨Arr.of A, Arr.of B, Arr.of C, Arr.of D, dt, false⟩ := by
  simp [mkState, validateState, checkDt_ok h, bind, Except.bind]

theorem mkGain_of {dt : Option K} (h : DtOk dt) (D : Arr K) :
    mkGain D dt = .ok ⟨Arr.empty, Arr.empty, Arr.empty, D, dt, true⟩ := by
  simp [mkGain, mkState, validateState, checkDt_ok h, bind, Except.bind]

end mk

section hastf
variable {K L : Type} [Field K] [Field L] [Algebra K L] {G : StateM K} {p m : ℕ} {s : L}
  {M : Matrix (Fin p) (Fin m) L}

theorem Spec.HasTF.r_eq (h : HasTF G p m s M) : G.d.r = p := by
  rcases h with ⟨_, D, hD, _⟩ | ⟨_, n, A, B, C, D, _, _, _, hD, _⟩ <;> simp [hD]

theorem Spec.HasTF.c_eq (h : HasTF G p m s M) : G.d.c = m := by
  rcases h with ⟨_, D, hD, _⟩ | ⟨_, n, A, B, C, D, _, _, _, hD, _⟩ <;> simp [hD]

theorem Spec.HasTF.of_gain {D : Matrix (Fin p) (Fin m) K} {a b c : Arr K} {dt : Option K} :
    HasTF (⟨a, b, c, Arr.of D, dt, true⟩ : StateM K) p m s (D.map (algebraMap K L)) :=
  Or.inl ⟨rfl, D, rfl, rfl⟩

theorem Spec.HasTF.of_dyn {n : ℕ} {A : Matrix (Fin n) (Fin n) K} {B : Matrix (Fin n) (Fin m) K}
    {C : Matrix (Fin p) (Fin n) K} {D : Matrix (Fin p) (Fin m) K} {dt : Option K}
    (h : IsTF (A.map (algebraMap K L)) (B.map (algebraMap K L)) (C.map (algebraMap K L))
      (D.map (algebraMap K L)) s M) :
    HasTF (⟨Arr.of A, Arr.of B, Arr.of C, Arr.of D, dt, false⟩ : StateM K) p m s M :=
  Or.inr ⟨rfl, n, A, B, C, D, rfl, rfl, rfl, rfl, h⟩

/-- Case analysis in substituted form. -/
theorem Spec.HasTF.elim {motive : StateM K → Matrix (Fin p) (Fin m) L → Prop}
    (h : HasTF G p m s M)
    (hg : ∀ (a b c : Arr K) (D : Matrix (Fin p) (Fin m) K) (dt : Option K),
      motive ⟨a, b, c, Arr.of D, dt, true⟩ (D.map (algebraMap K L)))
    (hd : ∀ (n : ℕ) (A : Matrix (Fin n) (Fin n) K) (B : Matrix (Fin n) (Fin m) K)
      (C : Matrix (Fin p) (Fin n) K) (D : Matrix (Fin p) (Fin m) K) (dt : Option K)
      (M : Matrix (Fin p) (Fin m) L),
      IsTF (A.map (algebraMap K L)) (B.map (algebraMap K L)) (C.map (algebraMap K L))
        (D.map (algebraMap K L)) s M →
      motive ⟨Arr.of A, Arr.of B, Arr.of C, Arr.of D, dt, false⟩ M) :
    motive G M := by
  obtain ⟨a, b, c, d, dt, g⟩ := G
  rcases h with ⟨hg', D, hD, rfl⟩ | ⟨hg', n, A, B, C, D, hA, hB, hC, hD, hT⟩
  · simp only at hg' hD
    subst hg' hD
    exact hg a b c D dt
  · simp only at hg' hA hB hC hD
    subst hg' hA hB hC hD
    exact hd n A B C D dt M hT

end hastf

section arr
variable {K : Type}

theorem Arr.of_cast {r c r' c' : ℕ} (hr : r' = r) (hc : c' = c) (M : Matrix (Fin r) (Fin c) K) :
    Arr.of M = Arr.of (M.submatrix (Fin.cast hr) (Fin.cast hc)) := by
  subst hr; subst hc; rfl

theorem finProdFinEquiv_symm_cast_one {p : ℕ} (i : Fin p) :
    finProdFinEquiv.symm (Fin.cast (mul_one p).symm i) = (i, 0) := by
  rw [Equiv.symm_apply_eq]
  ext
  simp [finProdFinEquiv]

theorem finProdFinEquiv_symm_cast_one_left {n : ℕ} (i : Fin n) :
    finProdFinEquiv.symm (Fin.cast (one_mul n).symm i) = (0, i) := by
  rw [Equiv.symm_apply_eq]
  ext
  simp [finProdFinEquiv]

variable [Field K]

theorem kron_ones_row {n m : ℕ} (B : Matrix (Fin n) (Fin 1) K) :
    Arr.kron (Arr.ones 1 m) (Arr.of B) = Arr.of (Matrix.of fun i (_ : Fin m) => B i 0) := by
  have h1 : (Arr.ones 1 m : Arr K) = Arr.of (Matrix.of fun _ _ => 1) := rfl
  rw [h1, Arr.kron_of, Arr.of_cast (one_mul n).symm (mul_one m).symm]
  congr 1
  ext i j
  simp only [kronM, submatrix_apply, kroneckerMap_apply, Matrix.of_apply,
    finProdFinEquiv_symm_cast_one, finProdFinEquiv_symm_cast_one_left, one_mul]

theorem kron_ones_col {n p : ℕ} (C : Matrix (Fin 1) (Fin n) K) :
    Arr.kron (Arr.ones p 1) (Arr.of C) = Arr.of (Matrix.of fun (_ : Fin p) j => C 0 j) := by
  have h1 : (Arr.ones p 1 : Arr K) = Arr.of (Matrix.of fun _ _ => 1) := rfl
  rw [h1, Arr.kron_of, Arr.of_cast (mul_one p).symm (one_mul n).symm]
  congr 1
  ext i j
  simp only [kronM, submatrix_apply, kroneckerMap_apply, Matrix.of_apply,
    finProdFinEquiv_symm_cast_one, finProdFinEquiv_symm_cast_one_left, one_mul]

theorem bdim_one_right (p : ℕ) : Arr.bdim p 1 = some p := by
  simp only [Arr.bdim]; split_ifs <;> simp_all

theorem bdim_one_left (p : ℕ) : Arr.bdim 1 p = some p := by
  simp only [Arr.bdim]; split_ifs <;> simp_all

theorem bget_scalar (d : Matrix (Fin 1) (Fin 1) K) (i j : ℕ) : (Arr.of d).bget i j = d 0 0 := by
  simp [Arr.bget]

theorem mul_scalar {p m : ℕ} (S : Matrix (Fin p) (Fin m) K) (d : Matrix (Fin 1) (Fin 1) K) :
    Arr.mul (Arr.of S) (Arr.of d) = .ok (Arr.of (Matrix.of fun i j => S i j * d 0 0)) := by
  simp only [Arr.mul, Arr.bop, bdim_one_right]
  congr 2
  ext i j
  simp [Arr.bget_of, bget_scalar]

theorem add_scalarArr {p m : ℕ} (S : Matrix (Fin p) (Fin m) K) (d : Matrix (Fin 1) (Fin 1) K) :
    Arr.add (Arr.of S) (Arr.of d) = .ok (Arr.of (Matrix.of fun i j => S i j + d 0 0)) := by
  simp only [Arr.add, Arr.bop, bdim_one_right]
  congr 2
  ext i j
  simp [Arr.bget_of, bget_scalar]

end arr

end Harold
