import Verif.Props.Duality
import Verif.Props.LoopPoles
import Verif.Props.StateInverse
import Verif.Props.PoleOps

/-!
# C123: zeros are not moved by feedback

The values returned by `transmission_zeros` do not change under state feedback, output injection, changes of coordinates and changes of the units of inputs and outputs, nor when a loop is closed with a gain.
-/

namespace Harold

open Matrix Spec

variable {n m p : ℕ} {A A' : Matrix (Fin n) (Fin n) ℝ} {B B' : Matrix (Fin n) (Fin m) ℝ} {C C' : Matrix (Fin p) (Fin n) ℝ} {D D' : Matrix (Fin p) (Fin m) ℝ} {N : TzNum}

/-- The results of `transmission_zeros` for two models: both succeed with finite values only, the values are the same, and the same with their multiplicities for square models. -/
def SameZeros (N : TzNum) (A A' : Matrix (Fin n) (Fin n) ℝ) (B B' : Matrix (Fin n) (Fin m) ℝ) (C C' : Matrix (Fin p) (Fin n) ℝ) (D D' : Matrix (Fin p) (Fin m) ℝ) : Prop :=
  ∃ zs zs' : List ℂ, transmissionZeros N ⟨Arr.of A, Arr.of B, Arr.of C, Arr.of D⟩ = .ok (zs.map some) ∧ transmissionZeros N ⟨Arr.of A', Arr.of B', Arr.of C', Arr.of D'⟩ = .ok (zs'.map some) ∧
    (∀ s, s ∈ zs' ↔ s ∈ zs) ∧ (p = m → List.Perm zs' zs)

theorem rank_lt_of_det_zero {ι : Type} [Fintype ι] [DecidableEq ι] {M : Matrix ι ι ℂ} (h : M.det = 0) : M.rank < Fintype.card ι := by
  obtain ⟨v, hv, h0⟩ := exists_mulVec_eq_zero_iff.mpr h
  have h1 := finrank_ker_mulVec M
  have h2 : 0 < Module.finrank ℂ (LinearMap.ker M.mulVecLin) := by
    rw [Module.finrank_pos_iff_exists_ne_zero]
    exact ⟨⟨v, h0⟩, fun h => hv (congrArg Subtype.val h)⟩
  omega

theorem prod_sign (zs : List ℂ) (s : ℂ) : (zs.map fun x => x - s).prod = (-1) ^ zs.length * (zs.map fun z => s - z).prod := by
  induction zs with
  | nil => simp
  | cons x xs ih =>
    simp only [List.map_cons, List.prod_cons, ih, List.length_cons, pow_succ]
    ring

theorem zeros_equiv (hN : TzExact N) (hB : B ≠ 0) (hC : C ≠ 0) (hB' : B' ≠ 0) (hC' : C' ≠ 0) (hr : ∃ μ M, TfAt A B C D μ M ∧ M.rank = m) {L : Matrix (Fin n ⊕ Fin p) (Fin n ⊕ Fin p) ℂ}
    {R : Matrix (Fin n ⊕ Fin m) (Fin n ⊕ Fin m) ℂ} (hL : IsUnit L.det) (hR : IsUnit R.det) (h : ∀ s, sysPencil A' B' C' D' s = L * sysPencil A B C D s * R) : SameZeros N A A' B B' C C' D D' := by
  have hrk : ∀ s, (sysPencil A' B' C' D' s).rank = (sysPencil A B C D s).rank := fun s => by
    rw [h, rank_mul_eq_left_of_isUnit_det _ _ hR, rank_mul_eq_right_of_isUnit_det _ _ hL]
  obtain ⟨μ, M, hM, hr⟩ := hr
  have hm : 0 < m := by
    rw [Nat.pos_iff_ne_zero]
    rintro rfl
    exact hB (Matrix.ext fun i j => j.elim0)
  have hμ := rank_tf hM
  obtain ⟨z, h1, h2⟩ := transmissionZeros_spec (A := A) (D := D) hN hB hC ⟨μ, by omega⟩
  obtain ⟨z', h3, h4⟩ := transmissionZeros_spec (A := A') (D := D') hN hB' hC' ⟨μ, by rw [hrk]; omega⟩
  rcases h2 with ⟨-, h2⟩ | ⟨zs, rfl, h5, k, h6⟩
  · have := h2 μ; omega
  rcases h4 with ⟨-, h4⟩ | ⟨zs', rfl, h7, k', h8⟩
  · have := h4 μ; rw [hrk] at this; omega
  refine ⟨zs, zs', h1, h3, fun s => ?_, ?_⟩
  · rw [← h5, ← h7]
    unfold InvariantZero
    simp only [hrk]
  · rintro rfl
    simp only [pencilDet_square, prod_sign] at h6 h8
    have hd : (sysPencil A B C D μ).det ≠ 0 := by
      intro h0
      have hl := rank_lt_of_det_zero h0
      simp only [Fintype.card_sum, Fintype.card_fin] at hl
      omega
    have hk : k ≠ 0 := by
      rintro rfl
      rw [h6, zero_mul] at hd
      exact hd rfl
    have hk' : k' ≠ 0 := by
      rintro rfl
      have e := h8 μ
      rw [h, det_mul, det_mul, zero_mul] at e
      exact mul_ne_zero (mul_ne_zero hL.ne_zero hd) hR.ne_zero e
    have hs : ∀ l : ℕ, ((-1 : ℂ)) ^ l ≠ 0 := fun l => pow_ne_zero _ (neg_ne_zero.mpr one_ne_zero)
    refine perm_of_prod_off (f := 1) one_ne_zero (k := k' * (-1) ^ zs'.length) (k' := L.det * R.det * k * (-1) ^ zs.length) (mul_ne_zero hk' (hs _))
      (mul_ne_zero (mul_ne_zero (mul_ne_zero hL.ne_zero hR.ne_zero) hk) (hs _)) fun s _ => ?_
    have e := h8 s
    rw [h, det_mul, det_mul, h6] at e
    linear_combination -e

theorem mapC_sub {a b : ℕ} (X Y : Matrix (Fin a) (Fin b) ℝ) : (X - Y).map Complex.ofReal = X.map Complex.ofReal - Y.map Complex.ofReal := by
  ext i j; simp

theorem mapC_mul {a b c : ℕ} (X : Matrix (Fin a) (Fin b) ℝ) (Y : Matrix (Fin b) (Fin c) ℝ) : (X * Y).map Complex.ofReal = X.map Complex.ofReal * Y.map Complex.ofReal :=
  Matrix.map_mul (f := Complex.ofRealHom)

/-- **C123**, state feedback: `u = v - F x` leaves the zeros where they are. -/
theorem C123_state_feedback (hN : TzExact N) (hB : B ≠ 0) (hC : C ≠ 0) (hr : ∃ μ M, TfAt A B C D μ M ∧ M.rank = m) (F : Matrix (Fin m) (Fin n) ℝ) (hF : C - D * F ≠ 0) :
    SameZeros N A (A - B * F) B B C (C - D * F) D D := by
  refine zeros_equiv hN hB hC hB hF hr (L := 1) (R := fromBlocks 1 0 (-F.map Complex.ofReal) 1) (by simp) (by simp [det_fromBlocks_zero₁₂]) fun s => ?_
  unfold sysPencil
  rw [Matrix.one_mul, fromBlocks_multiply, mapC_sub, mapC_sub, mapC_mul, mapC_mul]
  congr 1 <;> simp only [Matrix.mul_one, Matrix.mul_zero, Matrix.mul_neg, zero_add] <;> abel

/-- **C123**, output injection. -/
theorem C123_injection (hN : TzExact N) (hB : B ≠ 0) (hC : C ≠ 0) (hr : ∃ μ M, TfAt A B C D μ M ∧ M.rank = m) (F : Matrix (Fin n) (Fin p) ℝ) (hF : B - F * D ≠ 0) :
    SameZeros N A (A - F * C) B (B - F * D) C C D D := by
  refine zeros_equiv hN hB hC hF hC hr (L := fromBlocks 1 (-F.map Complex.ofReal) 0 1) (R := 1) (by simp [det_fromBlocks_zero₂₁]) (by simp) fun s => ?_
  unfold sysPencil
  rw [Matrix.mul_one, fromBlocks_multiply, mapC_sub, mapC_sub, mapC_mul, mapC_mul]
  congr 1 <;> simp only [Matrix.one_mul, Matrix.zero_mul, Matrix.neg_mul, zero_add] <;> abel

/-- **C123**, changes of the coordinates of the states. -/
theorem C123_coordinates (hN : TzExact N) (hB : B ≠ 0) (hC : C ≠ 0) (hr : ∃ μ M, TfAt A B C D μ M ∧ M.rank = m) {T V : Matrix (Fin n) (Fin n) ℝ} (hTV : T * V = 1) :
    SameZeros N A (T * A * V) B (T * B) C (C * V) D D := by
  have hVT : V * T = 1 := mul_eq_one_comm.mp hTV
  have hT : T.map Complex.ofReal * V.map Complex.ofReal = 1 := by rw [← mapC_mul, hTV]; ext i j; simp [Matrix.one_apply, apply_ite]
  have hd : (T.map Complex.ofReal).det * (V.map Complex.ofReal).det = 1 := by rw [← det_mul, hT, det_one]
  refine zeros_equiv hN hB hC (fun h => hB ?_) (fun h => hC ?_) hr (L := fromBlocks (T.map Complex.ofReal) 0 0 1) (R := fromBlocks (V.map Complex.ofReal) 0 0 1) ?_ ?_ fun s => ?_
  · rw [← Matrix.one_mul B, ← hVT, Matrix.mul_assoc, h, Matrix.mul_zero]
  · rw [← Matrix.mul_one C, ← hVT, ← Matrix.mul_assoc, h, Matrix.zero_mul]
  · rw [det_fromBlocks_zero₁₂, det_one, mul_one]
    exact IsUnit.of_mul_eq_one _ hd
  · rw [det_fromBlocks_zero₁₂, det_one, mul_one]
    exact IsUnit.of_mul_eq_one _ ((mul_comm _ _).trans hd)
  · unfold sysPencil
    rw [fromBlocks_multiply, fromBlocks_multiply, mapC_mul, mapC_mul, mapC_mul, mapC_mul]
    congr 1 <;> simp only [Matrix.one_mul, Matrix.mul_one, Matrix.zero_mul, Matrix.mul_zero, zero_add, add_zero]
    rw [Matrix.mul_sub, Matrix.sub_mul, Matrix.mul_smul, Matrix.smul_mul, Matrix.mul_one, hT]

/-- **C123**, changes of the units of inputs and outputs (or any invertible combination of them). -/
theorem C123_units (hN : TzExact N) (hB : B ≠ 0) (hC : C ≠ 0) (hr : ∃ μ M, TfAt A B C D μ M ∧ M.rank = m) {T V : Matrix (Fin p) (Fin p) ℝ} {U W : Matrix (Fin m) (Fin m) ℝ} (hTV : T * V = 1)
    (hUW : U * W = 1) : SameZeros N A A B (B * U) C (T * C) D (T * D * U) := by
  have hVT : V * T = 1 := mul_eq_one_comm.mp hTV
  have hT : T.map Complex.ofReal * V.map Complex.ofReal = 1 := by rw [← mapC_mul, hTV]; ext i j; simp [Matrix.one_apply, apply_ite]
  have hU : U.map Complex.ofReal * W.map Complex.ofReal = 1 := by rw [← mapC_mul, hUW]; ext i j; simp [Matrix.one_apply, apply_ite]
  have hd : (T.map Complex.ofReal).det * (V.map Complex.ofReal).det = 1 := by rw [← det_mul, hT, det_one]
  have hd' : (U.map Complex.ofReal).det * (W.map Complex.ofReal).det = 1 := by rw [← det_mul, hU, det_one]
  refine zeros_equiv hN hB hC (fun h => hB ?_) (fun h => hC ?_) hr (L := fromBlocks 1 0 0 (T.map Complex.ofReal)) (R := fromBlocks 1 0 0 (U.map Complex.ofReal)) ?_ ?_ fun s => ?_
  · rw [← Matrix.mul_one B, ← hUW, ← Matrix.mul_assoc, h, Matrix.zero_mul]
  · rw [← Matrix.one_mul C, ← hVT, Matrix.mul_assoc, h, Matrix.mul_zero]
  · rw [det_fromBlocks_zero₁₂, det_one, one_mul]
    exact IsUnit.of_mul_eq_one _ hd
  · rw [det_fromBlocks_zero₁₂, det_one, one_mul]
    exact IsUnit.of_mul_eq_one _ hd'
  · unfold sysPencil
    rw [fromBlocks_multiply, fromBlocks_multiply, mapC_mul, mapC_mul, mapC_mul, mapC_mul]
    congr 1 <;> simp only [Matrix.one_mul, Matrix.mul_one, Matrix.zero_mul, Matrix.mul_zero, zero_add, add_zero]

/-- **C123**, loops closed with a gain: the zeros from the reference to the output are the zeros of the open loop. The loop has no direct path through the gain and back, or the feedback is positive. -/
theorem C123_gain_loop (hN : TzExact N) (hB : B ≠ 0) (hC : C ≠ 0) (hr : ∃ μ M, TfAt A B C D μ M ∧ M.rank = m) {dt : Option ℝ} (hdt : DtOk dt) {H R : StateM ℝ} (hH : Consistent H m p) (hg : H.isgain = true)
    {E : Matrix (Fin m) (Fin p) ℝ} (hE : H.d = Arr.of E) {neg : Bool} (hσ : neg = false ∨ E * D = 0) (h : feedback (.state (stateOf A B C D dt)) (.state H) neg = .ok R) :
    ∃ (A' : Matrix (Fin n) (Fin n) ℝ) (B' : Matrix (Fin n) (Fin m) ℝ) (C' : Matrix (Fin p) (Fin n) ℝ) (D' : Matrix (Fin p) (Fin m) ℝ), R = stateOf A' B' C' D' dt ∧ SameZeros N A A' B B' C C' D D' := by
  obtain ⟨-, -, h1⟩ := feedback_result (G := stateOf A B C D dt) ⟨⟨rfl, rfl⟩, fun _ => ⟨rfl, rfl, rfl, rfl, rfl⟩⟩ hH hdt h
  obtain ⟨hΔ, h1⟩ := h1 D E rfl hE
  obtain ⟨a, b, c, d, dt', g⟩ := H
  simp only at hg hE
  subst hg hE
  unfold stateOf at h1
  rw [closeBody_ds hdt a b c A B C D E (E * D) (1 - E * D) hΔ] at h1
  cases h1
  set Δ := 1 - E * D with hΔd
  set σ : ℝ := fbSign neg with hσd
  have hu : IsUnit Δ.det := isUnit_iff_ne_zero.mpr hΔ
  have hΔΔ : Δ⁻¹ * Δ = 1 := nonsing_inv_mul _ hu
  have hV : ∃ W : Matrix (Fin m) (Fin m) ℝ, (1 + σ • (Δ⁻¹ * (E * D))) * W = 1 := by
    rcases hσ with rfl | h0
    · refine ⟨Δ, ?_⟩
      have e : σ = 1 := by simp [hσd, fbSign]
      have e2 : E * D = 1 - Δ := by rw [hΔd]; abel
      have e3 : Δ⁻¹ * (1 - Δ) = Δ⁻¹ - 1 := by rw [Matrix.mul_sub, Matrix.mul_one, hΔΔ]
      rw [e, one_smul, e2, e3, add_sub_cancel, hΔΔ]
    · exact ⟨1, by rw [h0, Matrix.mul_zero, smul_zero, add_zero, Matrix.mul_one]⟩
  obtain ⟨W, hW⟩ := hV
  have hW' : W * (1 + σ • (Δ⁻¹ * (E * D))) = 1 := mul_eq_one_comm.mp hW
  have eB : B + σ • B * (Δ⁻¹ * (E * D)) = B * (1 + σ • (Δ⁻¹ * (E * D))) := by rw [Matrix.mul_add, Matrix.mul_one, Matrix.mul_smul, Matrix.smul_mul]
  have eD : D + σ • D * (Δ⁻¹ * (E * D)) = D * (1 + σ • (Δ⁻¹ * (E * D))) := by rw [Matrix.mul_add, Matrix.mul_one, Matrix.mul_smul, Matrix.smul_mul]
  refine ⟨_, _, _, _, rfl, ?_⟩
  have hd : ((1 + σ • (Δ⁻¹ * (E * D))).map Complex.ofReal).det * (W.map Complex.ofReal).det = 1 := by
    rw [← det_mul, ← mapC_mul, hW]
    have : (1 : Matrix (Fin m) (Fin m) ℝ).map Complex.ofReal = 1 := by ext i j; simp [Matrix.one_apply, apply_ite]
    rw [this, det_one]
  refine zeros_equiv hN hB hC (fun h0 => hB ?_) (fun h0 => hC ?_) hr (L := 1) (R := fromBlocks 1 0 ((σ • (Δ⁻¹ * (E * C))).map Complex.ofReal) ((1 + σ • (Δ⁻¹ * (E * D))).map Complex.ofReal)) (by simp) ?_ fun s => ?_
  · rw [eB] at h0
    rw [← Matrix.mul_one B, ← hW, ← Matrix.mul_assoc, h0, Matrix.zero_mul]
  · have hC0 : C = -(σ • (D * (Δ⁻¹ * (E * C)))) := by
      rw [Matrix.smul_mul] at h0
      exact eq_neg_of_add_eq_zero_left h0
    have hY : (1 + σ • (Δ⁻¹ * (E * D))) * (Δ⁻¹ * (E * C)) = 0 := by
      have h3 : Δ⁻¹ * (E * C) = -(σ • (Δ⁻¹ * (E * D) * (Δ⁻¹ * (E * C)))) := by
        conv_lhs => rw [hC0]
        simp only [Matrix.mul_neg, Matrix.mul_smul, Matrix.mul_assoc]
      rw [Matrix.add_mul, Matrix.one_mul, Matrix.smul_mul]
      exact add_eq_zero_iff_eq_neg.mpr h3
    have hY0 : Δ⁻¹ * (E * C) = 0 := by
      rw [← Matrix.one_mul (Δ⁻¹ * (E * C)), ← hW', Matrix.mul_assoc, hY, Matrix.mul_zero]
    rw [hC0, hY0, Matrix.mul_zero, smul_zero, neg_zero]
  · rw [det_fromBlocks_zero₁₂, det_one, one_mul]
    exact IsUnit.of_mul_eq_one _ hd
  · rw [eB, eD]
    unfold sysPencil
    have ha : ∀ {a b : ℕ} (X Y : Matrix (Fin a) (Fin b) ℝ), (X + Y).map Complex.ofReal = X.map Complex.ofReal + Y.map Complex.ofReal := fun X Y => by ext i j; simp
    rw [Matrix.one_mul, fromBlocks_multiply, ha, ha C, ← mapC_mul, ← mapC_mul, ← mapC_mul, ← mapC_mul]
    congr 1 <;> simp only [Matrix.mul_one, Matrix.mul_zero, zero_add, Matrix.mul_smul, Matrix.smul_mul]
    abel

/-- **C123**, inverses: the zeros of a model are the poles of its inverse, and the poles of the model the zeros of the inverse, with their multiplicities. -/
theorem C123_inverse {B : Matrix (Fin n) (Fin m) ℝ} {C : Matrix (Fin m) (Fin n) ℝ} {D : Matrix (Fin m) (Fin m) ℝ} {T : Numerics ℝ ℂ} (hN : TzExact N) (hT : EigExact T) (hB : B ≠ 0) (hC : C ≠ 0)
    {dt : Option ℝ} (hdt : DtOk dt) (hsv : ¬ HasSVBelow spacing1 D) :
    ∃ (A' : Matrix (Fin n) (Fin n) ℝ) (B' : Matrix (Fin n) (Fin m) ℝ) (C' : Matrix (Fin m) (Fin n) ℝ) (D' : Matrix (Fin m) (Fin m) ℝ) (zs zs' : List ℂ),
      StateM.rtruedivGain (.scalar 1) (stateOf A B C D dt) = .ok (stateOf A' B' C' D' dt) ∧ transmissionZeros N ⟨Arr.of A, Arr.of B, Arr.of C, Arr.of D⟩ = .ok (zs.map some) ∧
      transmissionZeros N ⟨Arr.of A', Arr.of B', Arr.of C', Arr.of D'⟩ = .ok (zs'.map some) ∧ List.Perm zs (T.eig (Arr.of A')) ∧ List.Perm zs' (T.eig (Arr.of A)) := by
  have hdet : D.det ≠ 0 := det_ne_zero_of_not_svBelow (by simp [spacing1]) hsv
  have hDD : D⁻¹ * D = 1 := nonsing_inv_mul _ (isUnit_iff_ne_zero.mpr hdet)
  have hDD' : D * D⁻¹ = 1 := mul_nonsing_inv _ (isUnit_iff_ne_zero.mpr hdet)
  have h1C : ∀ k : ℕ, (1 : Matrix (Fin k) (Fin k) ℝ).map Complex.ofReal = 1 := fun k => by ext i j; simp [Matrix.one_apply, apply_ite]
  have hDDφ : D⁻¹.map Complex.ofReal * D.map Complex.ofReal = 1 := by rw [← mapC_mul, hDD, h1C]
  have hdC : (D⁻¹.map Complex.ofReal).det * (D.map Complex.ofReal).det = 1 := by rw [← det_mul, hDDφ, det_one]
  have hd1 : (D.map Complex.ofReal).det ≠ 0 := fun h => by rw [h, mul_zero] at hdC; exact zero_ne_one hdC
  have hd2 : (D⁻¹.map Complex.ofReal).det ≠ 0 := fun h => by rw [h, zero_mul] at hdC; exact zero_ne_one hdC
  obtain ⟨R0, e0, d0, g0, dd0, hR0⟩ := invert_hasTF (G := stateOf A B C D dt) hdt rfl hsv (.inr ⟨n, A, B, C, rfl, rfl, rfl⟩)
  obtain ⟨ha, hb, hc⟩ := hR0 n A B C rfl rfl rfl rfl
  set A' := A - B * (D⁻¹ * C) with hA'
  have hmap : A'.map Complex.ofReal = A.map Complex.ofReal - B.map Complex.ofReal * (D⁻¹.map Complex.ofReal * C.map Complex.ofReal) := by rw [hA', mapC_sub, mapC_mul, mapC_mul]
  have hmap2 : (-(D⁻¹ * C)).map Complex.ofReal = -(D⁻¹.map Complex.ofReal * C.map Complex.ofReal) := by rw [← mapC_mul]; ext i j; simp
  -- the two characteristic polynomials and the values of the models
  have rel : ∀ s M, TfAt A B C D s M → (A.map Complex.ofReal).charpoly.eval s * M.det = (D.map Complex.ofReal).det * (A'.map Complex.ofReal).charpoly.eval s := by
    rintro s M ⟨h1, rfl⟩
    have h2 := det_inverse_system (s := s) (A := A.map Complex.ofReal) (B := B.map Complex.ofReal) (C := C.map Complex.ofReal) hDDφ h1
    rw [← hmap, det_scalarC, det_scalarC] at h2
    rw [← h2, mul_comm]
  obtain ⟨μ, hμ⟩ : ∃ μ : ℂ, ((A.map Complex.ofReal).charpoly * (A'.map Complex.ofReal).charpoly).eval μ ≠ 0 := by
    by_contra hn
    push Not at hn
    exact mul_ne_zero (charpoly_monic _).ne_zero (charpoly_monic _).ne_zero (Polynomial.funext fun s => by rw [hn s, Polynomial.eval_zero])
  rw [Polynomial.eval_mul] at hμ
  have inv : ∀ s M, TfAt A B C D s M → (A'.map Complex.ofReal).charpoly.eval s ≠ 0 → TfAt A' (B * D⁻¹) (-(D⁻¹ * C)) D⁻¹ s M⁻¹ ∧ M.det ≠ 0 := by
    intro s M hM hne
    obtain ⟨N', hN', h1, h2⟩ := IsTF.inv hM hDDφ (by rw [← hmap, det_scalarC]; exact hne)
    rw [inv_eq_left_inv h1]
    refine ⟨?_, fun h0 => ?_⟩
    · show IsTF _ _ _ _ _ _
      rw [hmap, hmap2, mapC_mul]
      exact hN'
    · have := congrArg det h1
      rw [det_mul, h0, mul_zero, det_one] at this
      exact zero_ne_one this
  obtain ⟨M, hM⟩ : ∃ M, TfAt A B C D μ M := ⟨_, by rw [det_scalarC]; exact left_ne_zero_of_mul hμ, rfl⟩
  obtain ⟨hMi, hMd⟩ := inv μ M hM (right_ne_zero_of_mul hμ)
  obtain ⟨zs, k, h1, hk, h2⟩ := C73_square hN hB hC ⟨μ, M, hM, hMd⟩
  obtain ⟨zs', k', h3, hk', h4⟩ := C73_square (A := A') (B := B * D⁻¹) (C := -(D⁻¹ * C)) (D := D⁻¹) hN (fun h => hB (by rw [← Matrix.mul_one B, ← hDD, ← Matrix.mul_assoc, h, Matrix.zero_mul]))
    (fun h => hC (by rw [← Matrix.one_mul C, ← hDD', Matrix.mul_assoc, neg_eq_zero.mp h, Matrix.mul_zero])) ⟨μ, M⁻¹, hMi, (isUnit_nonsing_inv_det M (isUnit_iff_ne_zero.mpr hMd)).ne_zero⟩
  have eig : ∀ (X : Matrix (Fin n) (Fin n) ℝ) (s : ℂ), (X.map Complex.ofReal).charpoly.eval s = ((T.eig (Arr.of X)).map fun z => s - z).prod := fun X s => by
    have h5 := congrArg (Polynomial.eval s) (hT X)
    rw [← Matrix.charpoly_map] at h5
    refine Eq.trans h5 ?_
    rw [Polynomial.eval_list_prod, List.map_map]
    congr 2
    funext z
    simp
  have off : ∀ s, (((A.map Complex.ofReal).charpoly * (A'.map Complex.ofReal).charpoly)).eval s ≠ 0 → ∃ M, TfAt A B C D s M ∧ TfAt A' (B * D⁻¹) (-(D⁻¹ * C)) D⁻¹ s M⁻¹ ∧ M.det ≠ 0 := fun s hs => by
    rw [Polynomial.eval_mul] at hs
    have hM : TfAt A B C D s _ := ⟨by rw [det_scalarC]; exact left_ne_zero_of_mul hs, rfl⟩
    exact ⟨_, hM, inv s _ hM (right_ne_zero_of_mul hs)⟩
  refine ⟨A', B * D⁻¹, -(D⁻¹ * C), D⁻¹, zs, zs', ?_, h1, h3, ?_, ?_⟩
  · simp only [stateOf] at e0 d0 g0
    simp only [StateM.rtruedivGain, stateOf, e0, bind, Except.bind, StateM.rmatmulGain, g0, Bool.false_eq_true, if_false, one_ne_zero, ite_self, ha, hb, hc, dd0, Arr.smul_of, one_smul, d0]
    exact mkState_of hdt _ _ _ _
  · refine perm_of_prod_off (f := (A.map Complex.ofReal).charpoly * (A'.map Complex.ofReal).charpoly) (mul_ne_zero (charpoly_monic _).ne_zero (charpoly_monic _).ne_zero) hk hd1 fun s hs => ?_
    obtain ⟨M, hM, -, -⟩ := off s hs
    rw [← h2 s M hM, rel s M hM, eig A']
  · refine perm_of_prod_off (f := (A.map Complex.ofReal).charpoly * (A'.map Complex.ofReal).charpoly) (mul_ne_zero (charpoly_monic _).ne_zero (charpoly_monic _).ne_zero) hk' hd2 fun s hs => ?_
    obtain ⟨M, hM, hM', hMd⟩ := off s hs
    have h5 := rel s M hM
    have h6 := det_nonsing_inv M
    rw [← h4 s _ hM', ← eig A, h6, Ring.inverse_eq_inv']
    refine mul_right_cancel₀ hMd (mul_right_cancel₀ hd1 ?_)
    rw [mul_assoc, mul_assoc, ← mul_assoc M.det⁻¹, inv_mul_cancel₀ hMd, one_mul]
    linear_combination -h5 + ((A.map Complex.ofReal).charpoly.eval s * M.det) * (-hdC)

/-- Non-vacuity of `C123_inverse`: `State(-1, 1, 1, 2)`. -/
example {N : TzNum} {T : Numerics ℝ ℂ} (hN : TzExact N) (hT : EigExact T) : ∃ (R : StateM ℝ) (zs : List ℂ), StateM.rtruedivGain (.scalar 1) (stateOf (!![-1] : Matrix (Fin 1) (Fin 1) ℝ) !![1] !![1] !![2] none) = .ok R ∧
    transmissionZeros N ⟨R.a, R.b, R.c, R.d⟩ = .ok (zs.map some) ∧ List.Perm zs (T.eig (Arr.of (!![-1] : Matrix (Fin 1) (Fin 1) ℝ))) := by
  have hsv : ¬ HasSVBelow (spacing1 : ℝ) (!![2] : Matrix (Fin 1) (Fin 1) ℝ) := by
    rintro ⟨x, hx, h⟩
    simp [Matrix.mulVec, dotProduct, spacing1] at h
    nlinarith [mul_self_nonneg (x 0)]
  have h1 : (!![1] : Matrix (Fin 1) (Fin 1) ℝ) ≠ 0 := fun h => by have := congrFun (congrFun h 0) 0; simp at this
  obtain ⟨A', B', C', D', zs, zs', e, -, h3, -, h5⟩ := C123_inverse (A := (!![-1] : Matrix (Fin 1) (Fin 1) ℝ)) (B := !![1]) (C := !![1]) (D := !![2]) hN hT h1 h1 dtOk_none hsv
  exact ⟨_, zs', e, h3, h5⟩

end Harold
