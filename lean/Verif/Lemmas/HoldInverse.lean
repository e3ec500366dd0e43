import Verif.Lemmas.LogUniq
import Verif.Lemmas.Expm
import Verif.Lemmas.StateTF
import Verif.Lemmas.FeedbackTF
import Verif.Lemmas.Lft
import Verif.Spec.Logm

/-!
# Principal logarithms of the block matrices of the hold methods
-/

namespace Harold

open Matrix NormedSpace Harold.Spec

variable {n m k l : ℕ}

theorem exp_map_ofReal (X : Matrix (Fin n) (Fin n) ℝ) : exp (X.map (algebraMap ℝ ℂ)) = (exp X).map (algebraMap ℝ ℂ) := by
  ext i j
  refine (hasSum_exp_entry (X.map (algebraMap ℝ ℂ)) i j).unique ?_
  have h := Complex.hasSum_ofReal.mpr (hasSum_exp_entry X i j)
  have e : (fun a : ℕ => ((a.factorial : ℂ))⁻¹ * (X.map (algebraMap ℝ ℂ) ^ a) i j) = fun a : ℕ => (((a.factorial : ℝ)⁻¹ * (X ^ a) i j : ℝ) : ℂ) := by
    funext a
    rw [← Matrix.map_pow]
    simp
  rw [e]
  exact h

theorem inStrip_of {X : Matrix (Fin n) (Fin n) ℝ} (h : ImBelow Real.pi X) : InStrip (X.map (algebraMap ℝ ℂ)) := by
  intro z v hv hz
  refine h z ?_
  unfold IsEig
  refine exists_mulVec_eq_zero_iff.mp ⟨v, hv, ?_⟩
  rw [sub_mulVec, hz, smul_mulVec, one_mulVec, sub_self]

/-- The main lemma for real matrices. -/
theorem strip_real {X : Matrix (Fin n) (Fin n) ℝ} {Y : Matrix (Fin m) (Fin m) ℝ} (hX : ImBelow Real.pi X) (hY : ImBelow Real.pi Y)
    {Z : Matrix (Fin n) (Fin m) ℝ} (h : exp X * Z = Z * exp Y) : X * Z = Z * Y := by
  have h1 := congrArg (fun M => M.map (algebraMap ℝ ℂ)) h
  simp only [map_mul', ← exp_map_ofReal] at h1
  have h2 := strip_intertwine (inStrip_of hX) (inStrip_of hY) h1
  rw [← map_mul', ← map_mul'] at h2
  exact Matrix.map_injective (algebraMap ℝ ℂ).injective h2

theorem principal_unique {X Y M : Matrix (Fin n) (Fin n) ℝ} (hX : IsPrincipalLog X M) (hY : IsPrincipalLog Y M) : X = Y := by
  have := strip_real (Z := 1) hX.2 hY.2 (by rw [hX.1, hY.1, Matrix.mul_one, Matrix.one_mul])
  rwa [Matrix.mul_one, Matrix.one_mul] at this

theorem isEig_intertwine {X X' D : Matrix (Fin n) (Fin n) ℝ} (hD : D.det ≠ 0) (h : X' * D = D * X) {z : ℂ} (hz : IsEig X' z) : IsEig X z := by
  unfold IsEig at *
  have hD' : (D.map (algebraMap ℝ ℂ)).det ≠ 0 := by
    rw [← RingHom.mapMatrix_apply, ← RingHom.map_det]
    simpa using hD
  have e : (z • (1 : Matrix (Fin n) (Fin n) ℂ) - X'.map (algebraMap ℝ ℂ)) * D.map (algebraMap ℝ ℂ)
      = D.map (algebraMap ℝ ℂ) * (z • (1 : Matrix (Fin n) (Fin n) ℂ) - X.map (algebraMap ℝ ℂ)) := by
    rw [Matrix.sub_mul, Matrix.mul_sub, ← map_mul', h, map_mul', smul_mul, Matrix.one_mul, Matrix.mul_smul, Matrix.mul_one]
  have := congrArg det e
  rw [det_mul, det_mul, hz, zero_mul] at this
  rcases mul_eq_zero.mp this.symm with h1 | h1
  · exact absurd h1 hD'
  · exact h1

theorem principal_conj {X X' M M' D : Matrix (Fin n) (Fin n) ℝ} (hD : D.det ≠ 0) (hX : IsPrincipalLog X M) (h : X' * D = D * X) (hM : M' * D = D * M) :
    IsPrincipalLog X' M' := by
  refine ⟨?_, fun z hz => hX.2 z (isEig_intertwine hD h hz)⟩
  have h1 := exp_intertwine h
  rw [hX.1, ← hM] at h1
  have h2 := congrArg (fun Y => Y * D⁻¹) h1
  simpa only [Matrix.mul_assoc, mul_nonsing_inv _ (Ne.isUnit hD), Matrix.mul_one] using h2

section bal
variable {E : DNum}

theorem unscale_mul {d : Fin n → ℝ} (hd : ∀ i, d i ≠ 0) (X : Matrix (Fin n) (Fin n) ℝ) : unscale d X * diagonal d = diagonal d * X := by
  ext i j
  rw [mul_diagonal, diagonal_mul, unscale, of_apply]
  have := hd j
  field_simp

theorem balance_mul (hE : BalanceOk E) (M : Matrix (Fin n) (Fin n) ℝ) :
    M * diagonal (E.balance M).2 = diagonal (E.balance M).2 * (E.balance M).1 := by
  obtain ⟨h1, h2⟩ := hE M
  ext i j
  rw [mul_diagonal, diagonal_mul, h2]
  have := h1 i
  field_simp

theorem det_diag_ne {d : Fin n → ℝ} (hd : ∀ i, d i ≠ 0) : (diagonal d).det ≠ 0 := by
  rw [det_diagonal]
  exact Finset.prod_ne_zero_iff.mpr fun i _ => hd i

/-- The balanced logarithm is the principal logarithm, divided by the period. -/
theorem balLog_of (hE : BalanceOk E) (hL : LogmOk E) {X M : Matrix (Fin n) (Fin n) ℝ} (hX : IsPrincipalLog X M) (t : ℝ) :
    balLog E (Arr.of M) t = .ok (Arr.of ((1 / t) • X)) := by
  have hd := (hE M).1
  have hD := det_diag_ne hd
  have hb := balance_mul hE M
  set D := diagonal (E.balance M).2 with hDd
  have hU := Ne.isUnit hD
  have h1 : IsPrincipalLog (D⁻¹ * X * D) (E.balance M).1 := by
    have hD' : (D⁻¹).det ≠ 0 := by
      rw [det_nonsing_inv, Ring.inverse_eq_inv']
      exact inv_ne_zero hD
    refine principal_conj hD' hX ?_ ?_
    · rw [Matrix.mul_assoc, mul_nonsing_inv _ hU, Matrix.mul_one]
    · have := congrArg (fun Y => D⁻¹ * Y * D⁻¹) hb
      simp only [Matrix.mul_assoc, mul_nonsing_inv _ hU, Matrix.mul_one] at this
      rw [← Matrix.mul_assoc D⁻¹ D, nonsing_inv_mul _ hU, Matrix.one_mul] at this
      exact this.symm
  obtain ⟨Y, hY⟩ := (hL (E.balance M).1).2 _ h1
  have h2 := (hL _).1 Y hY
  have h3 : IsPrincipalLog (unscale (E.balance M).2 Y) M := principal_conj hD h2 (unscale_mul hd Y) hb
  have h4 := principal_unique h3 hX
  have e : M.submatrix id (Fin.cast rfl) = M := rfl
  unfold balLog
  simp only [dif_pos, e, hY, h4]

/-- Conversely a result of the balanced logarithm comes from a principal logarithm. -/
theorem balLog_inv (hE : BalanceOk E) (hL : LogmOk E) {M : Matrix (Fin n) (Fin n) ℝ} {t : ℝ} {Z : Arr ℝ} (h : balLog E (Arr.of M) t = .ok Z) :
    ∃ X, IsPrincipalLog X M ∧ Z = Arr.of ((1 / t) • X) := by
  have hd := (hE M).1
  have e : M.submatrix id (Fin.cast rfl) = M := rfl
  unfold balLog at h
  simp only [dif_pos, e] at h
  cases hY : E.logm (E.balance M).1 with
  | none => rw [hY] at h; cases h
  | some Y =>
    rw [hY] at h
    exact ⟨_, principal_conj (det_diag_ne hd) ((hL _).1 Y hY) (unscale_mul hd Y) (balance_mul hE M), (Except.ok.inj h).symm⟩

end bal

/-! ## Blocks -/

section blocks
variable {K : Type} [Field K] {r₁ r₂ c₁ c₂ d₁ d₂ : ℕ}

theorem blk_mul (A : Matrix (Fin r₁) (Fin c₁) K) (B : Matrix (Fin r₁) (Fin c₂) K) (C : Matrix (Fin r₂) (Fin c₁) K) (D : Matrix (Fin r₂) (Fin c₂) K)
    (A' : Matrix (Fin c₁) (Fin d₁) K) (B' : Matrix (Fin c₁) (Fin d₂) K) (C' : Matrix (Fin c₂) (Fin d₁) K) (D' : Matrix (Fin c₂) (Fin d₂) K) :
    blk A B C D * blk A' B' C' D' = blk (A * A' + B * C') (A * B' + B * D') (C * A' + D * C') (C * B' + D * D') := by
  unfold blk
  rw [submatrix_mul_equiv, fromBlocks_multiply]

theorem blk_inj {A A' : Matrix (Fin r₁) (Fin c₁) K} {B B' : Matrix (Fin r₁) (Fin c₂) K} {C C' : Matrix (Fin r₂) (Fin c₁) K}
    {D D' : Matrix (Fin r₂) (Fin c₂) K} (h : blk A B C D = blk A' B' C' D') : A = A' ∧ B = B' ∧ C = C' ∧ D = D' := by
  have h1 := congrArg (fun X => X.submatrix finSumFinEquiv finSumFinEquiv) h
  simp only [blk, submatrix_submatrix, Equiv.symm_comp_self, submatrix_id_id] at h1
  exact fromBlocks_inj.mp h1

theorem hcat_inj {A A' : Matrix (Fin r₁) (Fin c₁) K} {B B' : Matrix (Fin r₁) (Fin c₂) K} (h : hcat A B = hcat A' B') : A = A' ∧ B = B' := by
  have h1 := congrArg (fun X => X.submatrix id finSumFinEquiv) h
  simp only [hcat, submatrix_submatrix, Equiv.symm_comp_self, Function.comp_id, submatrix_id_id] at h1
  exact fromCols_ext_iff _ _ _ _ |>.mp h1

theorem hcat_mul_blk (A : Matrix (Fin r₁) (Fin c₁) K) (B : Matrix (Fin r₁) (Fin c₂) K)
    (A' : Matrix (Fin c₁) (Fin d₁) K) (B' : Matrix (Fin c₁) (Fin d₂) K) (C' : Matrix (Fin c₂) (Fin d₁) K) (D' : Matrix (Fin c₂) (Fin d₂) K) :
    hcat A B * blk A' B' C' D' = hcat (A * A' + B * C') (A * B' + B * D') := by
  unfold hcat blk
  rw [submatrix_mul_equiv, fromCols_mul_fromBlocks]

theorem blk_mul_vcat (A : Matrix (Fin r₁) (Fin c₁) K) (B : Matrix (Fin r₁) (Fin c₂) K) (C : Matrix (Fin r₂) (Fin c₁) K) (D : Matrix (Fin r₂) (Fin c₂) K)
    (X : Matrix (Fin c₁) (Fin d₁) K) (Y : Matrix (Fin c₂) (Fin d₁) K) : blk A B C D * vcat X Y = vcat (A * X + B * Y) (C * X + D * Y) := by
  unfold blk vcat
  rw [submatrix_mul_equiv, fromBlocks_mul_fromRows]

theorem vcat_inj {A A' : Matrix (Fin r₁) (Fin c₁) K} {B B' : Matrix (Fin r₂) (Fin c₁) K} (h : vcat A B = vcat A' B') : A = A' ∧ B = B' := by
  have h1 := congrArg (fun X => X.submatrix finSumFinEquiv id) h
  simp only [vcat, submatrix_submatrix, Equiv.symm_comp_self, Function.comp_id, submatrix_id_id] at h1
  exact fromRows_ext_iff _ _ _ _ |>.mp h1

theorem hcat_mul_vcat' (A : Matrix (Fin r₁) (Fin c₁) K) (B : Matrix (Fin r₁) (Fin c₂) K) (X : Matrix (Fin c₁) (Fin d₁) K) (Y : Matrix (Fin c₂) (Fin d₁) K) :
    hcat A B * vcat X Y = A * X + B * Y := by
  unfold hcat vcat
  rw [submatrix_mul_equiv, fromCols_mul_fromRows, submatrix_id_id]

theorem vcat_zero' : vcat (0 : Matrix (Fin r₁) (Fin c₁) K) (0 : Matrix (Fin r₂) (Fin c₁) K) = 0 := by
  ext i j
  obtain ⟨i, rfl⟩ := finSumFinEquiv.surjective i
  rcases i with i | i <;> simp [vcat]

theorem exists_hcat' (X : Matrix (Fin r₁) (Fin (c₁ + c₂)) K) : ∃ A B, X = hcat A B :=
  ⟨X.submatrix id (Fin.castAdd c₂), X.submatrix id (Fin.natAdd c₁), by
    ext i j
    obtain ⟨j, rfl⟩ := finSumFinEquiv.surjective j
    rcases j with j | j <;> simp [hcat]⟩

theorem smul_hcat' (t : K) (A : Matrix (Fin r₁) (Fin c₁) K) (B : Matrix (Fin r₁) (Fin c₂) K) : t • hcat A B = hcat (t • A) (t • B) := by
  ext i j
  obtain ⟨j, rfl⟩ := finSumFinEquiv.surjective j
  rcases j with j | j <;> simp [hcat]

end blocks

/-! ## Exponentials of block triangular matrices -/

theorem isEig_blk {A : Matrix (Fin n) (Fin n) ℝ} {R : Matrix (Fin n) (Fin k) ℝ} {N : Matrix (Fin k) (Fin k) ℝ} {z : ℂ} :
    IsEig (blk A R 0 N) z ↔ IsEig A z ∨ IsEig N z := by
  unfold IsEig
  have e : z • (1 : Matrix (Fin (n + k)) (Fin (n + k)) ℂ) - (blk A R 0 N).map (algebraMap ℝ ℂ)
      = (fromBlocks (z • 1 - A.map (algebraMap ℝ ℂ)) (-(R.map (algebraMap ℝ ℂ))) 0 (z • 1 - N.map (algebraMap ℝ ℂ))).submatrix finSumFinEquiv.symm
        finSumFinEquiv.symm := by
    ext i j
    obtain ⟨i, rfl⟩ := finSumFinEquiv.surjective i
    obtain ⟨j, rfl⟩ := finSumFinEquiv.surjective j
    have h1 : ∀ (a : Fin n) (b : Fin k), Fin.castAdd k a ≠ Fin.natAdd n b := fun a b h => by
      have := congrArg Fin.val h
      simp at this
      omega
    rcases i with i | i <;> rcases j with j | j <;> simp [blk, Matrix.one_apply, h1, (h1 _ _).symm]
  rw [e, det_submatrix_equiv_self, det_fromBlocks_zero₂₁, mul_eq_zero]

theorem imBelow_blk {A : Matrix (Fin n) (Fin n) ℝ} {R : Matrix (Fin n) (Fin k) ℝ} {N : Matrix (Fin k) (Fin k) ℝ} {r : ℝ} :
    ImBelow r (blk A R 0 N) ↔ ImBelow r A ∧ ImBelow r N := by
  unfold ImBelow
  simp only [isEig_blk, or_imp, forall_and]

theorem imBelow_zero : ImBelow Real.pi (0 : Matrix (Fin n) (Fin n) ℝ) := by
  intro z hz
  unfold IsEig at hz
  rw [Matrix.map_zero _ (map_zero _), sub_zero, det_smul, det_one, mul_one] at hz
  rw [pow_eq_zero_iff (n := Fintype.card (Fin n)) (by
    rintro h
    rw [h, pow_zero] at hz
    exact one_ne_zero hz) |>.mp hz]
  simp [Real.pi_pos]

/-- `[[0, I], [0, 0]]`. -/
def shiftN (m : ℕ) : Matrix (Fin (m + m)) (Fin (m + m)) ℝ := blk 0 1 0 0

theorem imBelow_shiftN : ImBelow Real.pi (shiftN m) := imBelow_blk.mpr ⟨imBelow_zero, imBelow_zero⟩

theorem blk_add_same {r₁ r₂ c₁ c₂ : ℕ} (A A' : Matrix (Fin r₁) (Fin c₁) ℝ) (B B' : Matrix (Fin r₁) (Fin c₂) ℝ) (C C' : Matrix (Fin r₂) (Fin c₁) ℝ)
    (D D' : Matrix (Fin r₂) (Fin c₂) ℝ) : blk A B C D + blk A' B' C' D' = blk (A + A') (B + B') (C + C') (D + D') := by
  ext i j
  obtain ⟨i, rfl⟩ := finSumFinEquiv.surjective i
  obtain ⟨j, rfl⟩ := finSumFinEquiv.surjective j
  rcases i with i | i <;> rcases j with j | j <;> simp [blk]

theorem blk_one : blk (1 : Matrix (Fin n) (Fin n) ℝ) 0 0 (1 : Matrix (Fin m) (Fin m) ℝ) = 1 := by
  unfold blk
  rw [fromBlocks_one, submatrix_one_equiv]

theorem exp_shiftN : exp (shiftN m) = blk 1 1 0 1 := by
  have h := exp_jordan (X := shiftN m) (Y := (0 : Matrix (Fin (m + m)) (Fin (m + m)) ℝ)) (V := 1) (U := shiftN m) (by simp) (by
    rw [Matrix.mul_zero]
    unfold shiftN
    rw [blk_mul]
    simp only [Matrix.mul_zero, Matrix.zero_mul, add_zero]
    ext i j
    obtain ⟨i, rfl⟩ := finSumFinEquiv.surjective i
    obtain ⟨j, rfl⟩ := finSumFinEquiv.surjective j
    rcases i with i | i <;> rcases j with j | j <;> simp [blk])
  rw [exp_zero, Matrix.mul_one, Matrix.mul_one, Matrix.mul_one, ← blk_one, shiftN, blk_add_same] at h
  simpa [shiftN] using h

/-- The upper right block of the exponential of `[[A, R], [0, N]]`. -/
noncomputable def gam (A : Matrix (Fin n) (Fin n) ℝ) (R : Matrix (Fin n) (Fin k) ℝ) (N : Matrix (Fin k) (Fin k) ℝ) : Matrix (Fin n) (Fin k) ℝ :=
  (exp (blk A R 0 N)).submatrix (Fin.castAdd k) (Fin.natAdd n)

theorem exp_blk (A : Matrix (Fin n) (Fin n) ℝ) (R : Matrix (Fin n) (Fin k) ℝ) (N : Matrix (Fin k) (Fin k) ℝ) :
    exp (blk A R 0 N) = blk (exp A) (gam A R N) 0 (exp N) := by
  have h1 : exp (blk A R 0 N) * vcat (1 : Matrix (Fin n) (Fin n) ℝ) 0 = vcat (1 : Matrix (Fin n) (Fin n) ℝ) 0 * exp A := exp_intertwine (by rw [blk_mul_vcat, vcat_mul]; simp)
  have h2 : exp N * hcat (0 : Matrix (Fin k) (Fin n) ℝ) 1 = hcat 0 1 * exp (blk A R 0 N) := exp_intertwine (by rw [hcat_mul_blk, mul_hcat]; simp)
  rw [blk_of_submatrix (exp (blk A R 0 N)), blk_mul_vcat, vcat_mul] at h1
  rw [blk_of_submatrix (exp (blk A R 0 N)), hcat_mul_blk, mul_hcat] at h2
  simp only [Matrix.mul_one, Matrix.mul_zero, Matrix.one_mul, Matrix.zero_mul, add_zero, zero_add] at h1 h2
  rw [blk_of_submatrix (exp (blk A R 0 N)), (vcat_inj h1).1, (vcat_inj h1).2, ← (hcat_inj h2).2]
  rfl

/-- The first columns of the upper right block with the shift matrix do not depend on the last columns. -/
theorem gam_first (A : Matrix (Fin n) (Fin n) ℝ) (x y : Matrix (Fin n) (Fin m) ℝ) :
    ∃ g, gam A (hcat x y) (shiftN m) = hcat (gam A x 0) g := by
  have h : exp (blk A (hcat x y) 0 (shiftN m)) * blk (1 : Matrix (Fin n) (Fin n) ℝ) 0 0 (vcat (1 : Matrix (Fin m) (Fin m) ℝ) 0)
      = blk (1 : Matrix (Fin n) (Fin n) ℝ) 0 0 (vcat (1 : Matrix (Fin m) (Fin m) ℝ) 0) * exp (blk A x 0 0) := exp_intertwine (by
    rw [blk_mul, blk_mul, hcat_mul_vcat', shiftN, blk_mul_vcat]
    simp only [Matrix.mul_zero, Matrix.zero_mul, Matrix.mul_one, Matrix.one_mul, add_zero, zero_add]
    congr 1
    exact vcat_zero')
  obtain ⟨g₁, g₂, hg⟩ := exists_hcat' (gam A (hcat x y) (shiftN m))
  rw [exp_blk, exp_blk, blk_mul, blk_mul, hg, hcat_mul_vcat'] at h
  simp only [Matrix.mul_zero, Matrix.zero_mul, Matrix.mul_one, Matrix.one_mul, add_zero, zero_add] at h
  exact ⟨g₂, by rw [hg, (blk_inj h).2.1]⟩

/-- The exponential of the matrix of the first-order hold method, and the relation of its two input blocks. -/
theorem gam_foh (A : Matrix (Fin n) (Fin n) ℝ) (B : Matrix (Fin n) (Fin m) ℝ) :
    ∃ g, gam A (hcat B 0) (shiftN m) = hcat (gam A B 0) g ∧ A * g + B = gam A B 0 := by
  obtain ⟨g, hg⟩ := gam_first A B 0
  refine ⟨g, hg, ?_⟩
  have h : blk A (hcat B 0) 0 (shiftN m) * exp (blk A (hcat B 0) 0 (shiftN m)) = exp (blk A (hcat B 0) 0 (shiftN m)) * blk A (hcat B 0) 0 (shiftN m) :=
    (Commute.refl _).exp_right.eq
  rw [exp_blk, blk_mul, blk_mul, hg, exp_shiftN, shiftN] at h
  simp only [mul_hcat, hcat_mul_blk, hcat_add, Matrix.mul_zero, Matrix.zero_mul, Matrix.mul_one, Matrix.one_mul, add_zero, zero_add] at h
  exact (hcat_inj (blk_inj h).2.1).2

/-- What the first logarithm of the first-order hold method has to find. -/
theorem gam_unfoh (A : Matrix (Fin n) (Fin n) ℝ) (B g : Matrix (Fin n) (Fin m) ℝ) (t : ℝ) (hg : gam A (hcat B 0) (shiftN m) = hcat (gam A B 0) g)
    (hr : A * g + B = gam A B 0) :
    gam A (hcat (t • gam A B 0) (-(t • g))) (shiftN m) = hcat (t • (gam A B 0 + exp A * g - g)) 0 := by
  have h : exp (blk A (hcat B 0) 0 (shiftN m)) * blk 1 (hcat (t • g) 0) 0 (t • 1)
      = blk 1 (hcat (t • g) 0) 0 (t • 1) * exp (blk A (hcat (t • gam A B 0) (-(t • g))) 0 (shiftN m)) := exp_intertwine (by
    rw [blk_mul, blk_mul, shiftN, ← hr]
    simp only [mul_hcat, hcat_mul_blk, Matrix.mul_smul, smul_mul, smul_hcat', hcat_add, Matrix.mul_zero, Matrix.zero_mul, Matrix.mul_one, Matrix.one_mul,
      add_zero, zero_add, smul_add, smul_zero, neg_add_cancel])
  obtain ⟨g₁, g₂, h12⟩ := exists_hcat' (gam A (hcat (t • gam A B 0) (-(t • g))) (shiftN m))
  rw [exp_blk, exp_blk, blk_mul, blk_mul, hg, exp_shiftN, h12] at h
  simp only [mul_hcat, hcat_mul_blk, Matrix.mul_smul, smul_mul, smul_hcat', hcat_add, Matrix.mul_zero, Matrix.zero_mul, Matrix.mul_one, Matrix.one_mul,
    add_zero, zero_add, smul_zero] at h
  obtain ⟨e1, e2⟩ := hcat_inj (blk_inj h).2.1
  rw [h12]
  congr 1
  · rw [smul_sub, smul_add, eq_sub_iff_add_eq, ← e1]
    abel
  · simpa using e2.symm

end Harold
