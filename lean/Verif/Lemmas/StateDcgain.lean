import Verif.Model.StateDcgain
import Verif.Lemmas.MinrealState
import Verif.Lemmas.ToTransfer
import Verif.Props.Dcgain
import Mathlib.LinearAlgebra.Matrix.ToLinearEquiv

/-!
# The low frequency gain of a realization
-/

namespace Harold

open Matrix Spec Polynomial

section
variable {K : Type} [Field K] {n m p : ℕ}

/-- Equal transfer functions, as equation of polynomials. -/
theorem tf_poly {k : ℕ} {A : Matrix (Fin n) (Fin n) K} {B : Matrix (Fin n) (Fin m) K} {C : Matrix (Fin p) (Fin n) K}
    {A' : Matrix (Fin k) (Fin k) K} {B' : Matrix (Fin k) (Fin m) K} {C' : Matrix (Fin p) (Fin k) K}
    (h : ∀ (L : Type) [Field L] [Algebra K L] (D : Matrix (Fin p) (Fin m) L) (s : L) (M M' : Matrix (Fin p) (Fin m) L),
        TripleTF A B C D s M → TripleTF A' B' C' D s M' → M = M') (i : Fin p) (j : Fin m) :
    numPoly A (fun l => B l j) (C i) * A'.charpoly = numPoly A' (fun l => B' l j) (C' i) * A.charpoly := by
  have inj := IsFractionRing.injective K[X] (FractionRing K[X])
  obtain ⟨s, hs⟩ : ∃ s : FractionRing K[X], s = algebraMap K[X] (FractionRing K[X]) X := ⟨_, rfl⟩
  have ha : ∀ P : K[X], aeval s P = algebraMap K[X] (FractionRing K[X]) P := fun P => by
    rw [hs, aeval_algebraMap_apply, aeval_X_left_apply]
  have hd : ∀ {l : ℕ} (F : Matrix (Fin l) (Fin l) K), aeval s F.charpoly ≠ 0 := fun F h0 => by
    rw [ha, ← map_zero (algebraMap K[X] (FractionRing K[X]))] at h0
    exact F.charpoly_monic.ne_zero (inj h0)
  have hdet : ∀ {l : ℕ} (F : Matrix (Fin l) (Fin l) K), (s • (1 : Matrix (Fin l) (Fin l) (FractionRing K[X])) - F.map (algebraMap K (FractionRing K[X]))).det ≠ 0 :=
    fun F => by rw [← aeval_charpoly]; exact hd F
  have h1 := h (FractionRing K[X]) 0 s _ _ ⟨hdet A, rfl⟩ ⟨hdet A', rfl⟩
  have h2 := congrFun (congrFun h1 i) j
  have e : ∀ {l : ℕ} (F : Matrix (Fin l) (Fin l) K) (G : Matrix (Fin l) (Fin m) K) (H : Matrix (Fin p) (Fin l) K),
      (H.map (algebraMap K (FractionRing K[X])) * (s • (1 : Matrix (Fin l) (Fin l) (FractionRing K[X])) - F.map (algebraMap K (FractionRing K[X])))⁻¹ *
        G.map (algebraMap K (FractionRing K[X])) + (0 : Matrix (Fin p) (Fin m) (FractionRing K[X])) : Matrix (Fin p) (Fin m) (FractionRing K[X])) i j = aeval s (numPoly F (fun x => G x j) (H i)) / aeval s F.charpoly := fun F G H => by
    rw [← resolvent_entry F _ _ s (hdet F), add_zero, Matrix.mul_assoc, Matrix.mul_apply]
    simp only [dotProduct, mulVec, Matrix.mul_apply, map_apply]
  rw [e, e, div_eq_div_iff (hd A) (hd A')] at h2
  rw [ha, ha, ha, ha, ← map_mul, ← map_mul] at h2
  exact inj h2

variable [LinearOrder K]

theorem lowFreq_reduce (z₀ : K) (P : K[X]) {Q : K[X]} (hQ : Q ≠ 0) :
    ∃ (k : ℕ) (P' Q' : K[X]), P = (X - Polynomial.C z₀) ^ k * P' ∧ Q = (X - Polynomial.C z₀) ^ k * Q' ∧ (P'.eval z₀ ≠ 0 ∨ Q'.eval z₀ ≠ 0) := by
  by_cases hP : P = 0
  · obtain ⟨k, P', Q', h1, h2, h3, -⟩ := lowFreq_zero z₀ hQ
    exact ⟨k, P', Q', by rw [hP]; exact h1, h2, h3⟩
  obtain ⟨P1, h1, h2⟩ := Polynomial.exists_eq_pow_rootMultiplicity_mul_and_not_dvd P hP z₀
  obtain ⟨Q1, h3, h4⟩ := Polynomial.exists_eq_pow_rootMultiplicity_mul_and_not_dvd Q hQ z₀
  rw [dvd_iff_isRoot] at h2 h4
  rcases le_total (rootMultiplicity z₀ P) (rootMultiplicity z₀ Q) with h | h
  · obtain ⟨d, hd⟩ := Nat.exists_eq_add_of_le h
    refine ⟨rootMultiplicity z₀ P, P1, (X - Polynomial.C z₀) ^ d * Q1, h1, ?_, Or.inl h2⟩
    rw [← mul_assoc, ← pow_add, ← hd]
    exact h3
  · obtain ⟨d, hd⟩ := Nat.exists_eq_add_of_le h
    refine ⟨rootMultiplicity z₀ Q, (X - Polynomial.C z₀) ^ d * P1, Q1, ?_, h3, Or.inr h4⟩
    rw [← mul_assoc, ← pow_add, ← hd]
    exact h1

/-- Equal rational functions have the same gain. -/
theorem lowFreq_congr {z₀ : K} {P Q P' Q' : K[X]} (hQ : Q ≠ 0) (hQ' : Q' ≠ 0) (h : P * Q' = P' * Q) {v : DcVal K} (hv : LowFreqGain z₀ P' Q' v) :
    LowFreqGain z₀ P Q v := by
  obtain ⟨k, P1, Q1, h1, h2, h3, h4⟩ := hv
  obtain ⟨l, P2, Q2, g1, g2, g3⟩ := lowFreq_reduce z₀ P hQ
  have hX : (X - Polynomial.C z₀ : K[X]) ≠ 0 := X_sub_C_ne_zero z₀
  have e : P2 * Q1 = P1 * Q2 := by
    refine mul_left_cancel₀ (pow_ne_zero (k + l) hX) ?_
    rw [h1, h2, g1, g2] at h
    rw [pow_add]
    linear_combination h
  have e0 : P2.eval z₀ * Q1.eval z₀ = P1.eval z₀ * Q2.eval z₀ := by rw [← eval_mul, e, eval_mul]
  refine ⟨l, P2, Q2, g1, g2, g3, ?_⟩
  rcases h4 with ⟨h5, rfl⟩ | ⟨h5, rfl⟩
  · left
    have : Q2.eval z₀ ≠ 0 := fun h0 => by
      rw [h0, mul_zero] at e0
      exact (g3.resolve_right (by simp [h0])) ((mul_eq_zero.mp e0).resolve_right h5)
    refine ⟨this, ?_⟩
    congr 1
    rw [div_eq_div_iff h5 this, e0]
  · right
    refine ⟨?_, rfl⟩
    rw [h5, mul_zero] at e0
    exact (mul_eq_zero.mp e0.symm).resolve_left (h3.resolve_right (by simp [h5]))

/-- Adding a constant. -/
theorem lowFreq_add {z₀ : K} {P Q : K[X]} {v : DcVal K} (hv : LowFreqGain z₀ P Q v) (d : K) : LowFreqGain z₀ (P + Polynomial.C d * Q) Q (v.addNum d) := by
  obtain ⟨k, P1, Q1, h1, h2, h3, h4⟩ := hv
  refine ⟨k, P1 + Polynomial.C d * Q1, Q1, by rw [h1, h2]; ring, h2, ?_, ?_⟩
  · by_cases h0 : Q1.eval z₀ = 0
    · left
      simp [h0, h3.resolve_right (by simp [h0])]
    · exact Or.inr h0
  · rcases h4 with ⟨h5, rfl⟩ | ⟨h5, rfl⟩
    · left
      refine ⟨h5, ?_⟩
      simp only [DcVal.addNum, eval_add, eval_mul, eval_C]
      congr 1
      field_simp
    · exact Or.inr ⟨h5, rfl⟩

end

section
variable {K : Type} [Field K] {n m p : ℕ}

theorem obs_eig {A : Matrix (Fin n) (Fin n) K} {C : Matrix (Fin p) (Fin n) K} (ho : Observable A C) {z : K} {v : Fin n → K} (h : A *ᵥ v = z • v)
    (hc : C *ᵥ v = 0) : v = 0 := by
  refine ho v fun k => ?_
  have : (A ^ k) *ᵥ v = z ^ k • v := by
    induction k with
    | zero => simp
    | succ k ih => rw [pow_succ', ← mulVec_mulVec, ih, mulVec_smul, h, smul_smul, pow_succ]
  rw [this, mulVec_smul, hc, smul_zero]

theorem reach_eig {A : Matrix (Fin n) (Fin n) K} {B : Matrix (Fin n) (Fin m) K} (hr : Reachable A B) {z : K} {v : Fin n → K} (h : Aᵀ *ᵥ v = z • v)
    (hc : Bᵀ *ᵥ v = 0) : v = 0 := by
  refine obs_eig (C := Bᵀ) ?_ h hc
  rw [observable_iff_dual, transpose_transpose, transpose_transpose]
  exact hr

theorem exists_eig {A : Matrix (Fin n) (Fin n) K} {z : K} (h : A.charpoly.eval z = 0) : ∃ v, v ≠ 0 ∧ A *ᵥ v = z • v := by
  rw [eval_charpoly] at h
  obtain ⟨v, hv, h1⟩ := exists_mulVec_eq_zero_iff.mpr h
  refine ⟨v, hv, ?_⟩
  rw [sub_mulVec, sub_eq_zero] at h1
  rw [← h1, scalar_apply, ← smul_one_eq_diagonal, smul_mulVec, one_mulVec]

/-- A reachable and observable model with one input and one output has no common pole and zero. -/
theorem minimal_coprime {A : Matrix (Fin n) (Fin n) K} {B : Matrix (Fin n) (Fin 1) K} {C : Matrix (Fin 1) (Fin n) K} (hr : Reachable A B) (ho : Observable A C) (z : K) :
    (numPoly A (fun l => B l 0) (C 0)).eval z ≠ 0 ∨ A.charpoly.eval z ≠ 0 := by
  by_contra hcon
  push Not at hcon
  obtain ⟨h1, h2⟩ := hcon
  have h3 := congrArg (eval z) (charpoly_sub_rank_one A (fun l => B l 0) (C 0))
  rw [eval_add, h1, h2, add_zero] at h3
  obtain ⟨v, hv, h4⟩ := exists_eig h3
  have h5 : (A.transpose).charpoly.eval z = 0 := by rw [charpoly_transpose, h2]
  obtain ⟨y, hy, h6⟩ := exists_eig h5
  have h7 : (Matrix.of fun i j => B i 0 * C 0 j) *ᵥ v = (C 0 ⬝ᵥ v) • fun i => B i 0 := by
    ext i
    simp only [mulVec, dotProduct, of_apply, Pi.smul_apply, smul_eq_mul, Finset.sum_mul]
    exact Finset.sum_congr rfl fun j _ => by ring
  rw [sub_mulVec, h7] at h4
  have h8 := congrArg (fun w => y ⬝ᵥ w) h4
  simp only [dotProduct_sub, dotProduct_smul, dotProduct_mulVec, ← mulVec_transpose, h6, smul_dotProduct, smul_eq_mul] at h8
  have h9 : C 0 ⬝ᵥ v = 0 := by
    have : (C 0 ⬝ᵥ v) * (y ⬝ᵥ fun i => B i 0) = 0 := by linear_combination -h8
    refine (mul_eq_zero.mp this).resolve_right fun h0 => hy (reach_eig hr h6 ?_)
    ext i
    fin_cases i
    simpa [mulVec, dotProduct, mul_comm] using h0
  rw [h9, zero_smul, sub_zero] at h4
  refine hv (obs_eig ho h4 ?_)
  ext i
  fin_cases i
  exact h9

/-- The resolvent at a point of the field itself. -/
theorem resolvent_num (A : Matrix (Fin n) (Fin n) K) (B : Matrix (Fin n) (Fin m) K) (C : Matrix (Fin p) (Fin n) K) (z : K) (h : A.charpoly.eval z ≠ 0)
    (i : Fin p) (j : Fin m) :
    (C * ((z • (1 : Matrix (Fin n) (Fin n) K) - A)⁻¹ * B)) i j = (numPoly A (fun l => B l j) (C i)).eval z / A.charpoly.eval z := by
  have e : z • (1 : Matrix (Fin n) (Fin n) K) - A.map (algebraMap K K) = z • (1 : Matrix (Fin n) (Fin n) K) - A := by ext; simp
  have hd : (z • (1 : Matrix (Fin n) (Fin n) K) - A).det ≠ 0 := by
    rw [eval_charpoly] at h
    rwa [smul_one_eq_diagonal, ← scalar_apply]
  have := resolvent_entry (L := K) A (fun l => B l j) (C i) z (by rwa [e])
  rw [e] at this
  simp only [coe_aeval_eq_eval, Algebra.algebraMap_self, RingHom.id_apply] at this
  rw [← this]
  simp only [dotProduct, mulVec, Matrix.mul_apply]

end

section
variable {K : Type} [Field K] [LinearOrder K] {n m p : ℕ}

theorem dcMatrix_of (dt : Option K) (A : Matrix (Fin n) (Fin n) K) :
    dcMatrix dt (Arr.of A) = .ok (Arr.of (zeroFreq dt • (1 : Matrix (Fin n) (Fin n) K) - A)) := by
  unfold dcMatrix zeroFreq
  cases dt
  · simp
  · simp [Arr.eye]

theorem dcMatrixCh_of (dt : Option K) (A : Matrix (Fin n) (Fin n) K) :
    dcMatrixCh dt (Arr.of A) = .ok (Arr.of (zeroFreq dt • (1 : Matrix (Fin n) (Fin n) K) - A)) := by
  unfold dcMatrixCh zeroFreq
  cases dt
  · simp [bind, Except.bind]
  · simp [bind, Except.bind, Arr.eye]

theorem dcPlus_of (R : Matrix (Fin p) (Fin m) (DcVal K)) (D : Matrix (Fin p) (Fin m) K) :
    dcPlus (Arr.of R) (Arr.of D) = .ok (Arr.of (Matrix.of fun i j => (R i j).addNum (D i j))) := by
  unfold dcPlus
  exact dif_pos ⟨rfl, rfl⟩

theorem det_scalar (A : Matrix (Fin n) (Fin n) K) (z : K) : (z • (1 : Matrix (Fin n) (Fin n) K) - A).det = A.charpoly.eval z := by
  rw [eval_charpoly, smul_one_eq_diagonal, ← scalar_apply]

end

end Harold
