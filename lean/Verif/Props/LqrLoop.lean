import Verif.Lemmas.LqrLoop
import Mathlib.LinearAlgebra.Matrix.DotProduct

/-!
# C85: the closed loop of `lqr`
-/

namespace Harold

open Matrix Spec

variable {n m p : ℕ}

theorem loop_mulVec (A : Matrix (Fin n) (Fin n) ℝ) (B : Matrix (Fin n) (Fin m) ℝ) (Kg : Matrix (Fin m) (Fin n) ℝ) (x : Fin n → ℝ) :
    (A - B * Kg) *ᵥ x = A *ᵥ x + B *ᵥ (-(Kg *ᵥ x)) := by
  rw [sub_mulVec, mulVec_neg, mulVec_mulVec, sub_eq_add_neg]

/-- A cost that sees all motions that do not decay sees those of the closed loop. -/
theorem sees_loop {keep : ℂ → Prop} {A : Matrix (Fin n) (Fin n) ℝ} {B : Matrix (Fin n) (Fin m) ℝ} {Q : Matrix (Fin n) (Fin n) ℝ} {S : Matrix (Fin n) (Fin m) ℝ}
    {R : Matrix (Fin m) (Fin m) ℝ} (hs : CostSees keep A B Q S R) (Kg : Matrix (Fin m) (Fin n) ℝ) (z : ℂ) (v : Fin n → ℂ) (hz : keep z)
    (h : (A - B * Kg).map (algebraMap ℝ ℂ) *ᵥ v = z • v)
    (hc : cost Q S R (fun i => (v i).re) (-(Kg *ᵥ fun i => (v i).re)) + cost Q S R (fun i => (v i).im) (-(Kg *ᵥ fun i => (v i).im)) = 0) : v = 0 := by
  refine hs z v (-(Kg.map (algebraMap ℝ ℂ) *ᵥ v)) hz ?_ ?_
  · rw [← h, mulVec_neg, mulVec_mulVec, Matrix.map_sub _ (map_sub (algebraMap ℝ ℂ)), Matrix.map_mul, sub_mulVec, sub_eq_add_neg]
  · obtain ⟨h1, h2⟩ := map_mulVec_parts Kg v
    have e1 : (fun i => ((-(Kg.map (algebraMap ℝ ℂ) *ᵥ v)) i).re) = -(Kg *ᵥ fun i => (v i).re) := by rw [← h1]; rfl
    have e2 : (fun i => ((-(Kg.map (algebraMap ℝ ℂ) *ᵥ v)) i).im) = -(Kg *ᵥ fun i => (v i).im) := by rw [← h2]; rfl
    rw [e1, e2]
    exact hc

theorem weight_psd {Q : Matrix (Fin n) (Fin n) ℝ} {S : Matrix (Fin n) (Fin m) ℝ} {R : Matrix (Fin m) (Fin m) ℝ} (h : CostNonneg Q S R) (u : Fin m → ℝ) : 0 ≤ u ⬝ᵥ R *ᵥ u := by
  have := h 0 u
  simpa [cost] using this

/-- What `lqr` returns for continuous time. -/
theorem lqr_cont_parts (N : AreNum ℝ) {A : Matrix (Fin n) (Fin n) ℝ} {B : Matrix (Fin n) (Fin m) ℝ} {C : Matrix (Fin p) (Fin n) ℝ} {D : Matrix (Fin p) (Fin m) ℝ}
    {Q : Matrix (Fin n) (Fin n) ℝ} {R : Option (Matrix (Fin m) (Fin m) ℝ)} {S : Option (Matrix (Fin n) (Fin m) ℝ)} {w : List Char}
    (hw : w ≠ "output".toList) (hN : CareOk N A B Q (R.getD 1) S) {k x acl : Arr ℝ}
    (h : lqr N (stateOf A B C D none) (Arr.of Q) (R.map Arr.of) (S.map Arr.of) w = .ok (k, x, acl)) :
    ∃ X : Matrix (Fin n) (Fin n) ℝ, x = Arr.of X ∧ Xᵀ = X ∧ (R.getD 1)ᵀ = R.getD 1 ∧ (R.getD 1).det ≠ 0 ∧ k = Arr.of ((R.getD 1)⁻¹ * (Bᵀ * X + (S.getD 0)ᵀ)) ∧
      acl = Arr.of (A - B * ((R.getD 1)⁻¹ * (Bᵀ * X + (S.getD 0)ᵀ))) ∧
      Aᵀ * X + X * A - (X * B + S.getD 0) * (R.getD 1)⁻¹ * (Bᵀ * X + (S.getD 0)ᵀ) + Q = 0 := by
  have h' := lqr_state N hw h
  have eR : (R.map Arr.of).getD (Arr.eye (Arr.of D).c) = Arr.of (R.getD 1) := by cases R <;> rfl
  rw [eR] at h'
  exact lqrSolve_cont N hN h'

/-- What `lqr` returns for discrete time. -/
theorem lqr_disc_parts (N : AreNum ℝ) {A : Matrix (Fin n) (Fin n) ℝ} {B : Matrix (Fin n) (Fin m) ℝ} {C : Matrix (Fin p) (Fin n) ℝ} {D : Matrix (Fin p) (Fin m) ℝ} {dt : ℝ}
    {Q : Matrix (Fin n) (Fin n) ℝ} {R : Option (Matrix (Fin m) (Fin m) ℝ)} {S : Option (Matrix (Fin n) (Fin m) ℝ)} {w : List Char}
    (hw : w ≠ "output".toList) (hN : DareOk N A B Q (R.getD 1) S) {k x acl : Arr ℝ}
    (h : lqr N (stateOf A B C D (some dt)) (Arr.of Q) (R.map Arr.of) (S.map Arr.of) w = .ok (k, x, acl)) :
    ∃ X : Matrix (Fin n) (Fin n) ℝ, x = Arr.of X ∧ Xᵀ = X ∧ (R.getD 1)ᵀ = R.getD 1 ∧ (R.getD 1 + Bᵀ * X * B).det ≠ 0 ∧
      k = Arr.of ((R.getD 1 + Bᵀ * X * B)⁻¹ * (Bᵀ * X * A + (S.getD 0)ᵀ)) ∧
      acl = Arr.of (A - B * ((R.getD 1 + Bᵀ * X * B)⁻¹ * (Bᵀ * X * A + (S.getD 0)ᵀ))) ∧
      Aᵀ * X * A - X - (Aᵀ * X * B + S.getD 0) * (R.getD 1 + Bᵀ * X * B)⁻¹ * (Bᵀ * X * A + (S.getD 0)ᵀ) + Q = 0 := by
  have h' := lqr_state N hw h
  have eR : (R.map Arr.of).getD (Arr.eye (Arr.of D).c) = Arr.of (R.getD 1) := by cases R <;> rfl
  rw [eR] at h'
  exact lqrSolve_disc N hN h'

/-- **C85, stability in continuous time.** If the weight is not negative and sees every motion that does not decay, then the returned closed loop matrix `A - B K` is stable exactly when the
returned `X` is positive semidefinite. -/
theorem C85_stable_continuous (N : AreNum ℝ) (A : Matrix (Fin n) (Fin n) ℝ) (B : Matrix (Fin n) (Fin m) ℝ) (C : Matrix (Fin p) (Fin n) ℝ) (D : Matrix (Fin p) (Fin m) ℝ)
    (Q : Matrix (Fin n) (Fin n) ℝ) (R : Option (Matrix (Fin m) (Fin m) ℝ)) (S : Option (Matrix (Fin n) (Fin m) ℝ)) (w : List Char)
    (hw : w ≠ "output".toList) (hN : CareOk N A B Q (R.getD 1) S) {k x acl : Arr ℝ}
    (h : lqr N (stateOf A B C D none) (Arr.of Q) (R.map Arr.of) (S.map Arr.of) w = .ok (k, x, acl))
    (hc : CostNonneg Q (S.getD 0) (R.getD 1)) (hs : CostSees (fun z => 0 ≤ z.re) A B Q (S.getD 0) (R.getD 1)) :
    ∃ (Kg : Matrix (Fin m) (Fin n) ℝ) (X : Matrix (Fin n) (Fin n) ℝ), k = Arr.of Kg ∧ x = Arr.of X ∧ acl = Arr.of (A - B * Kg) ∧
      ((∀ v, 0 ≤ v ⬝ᵥ X *ᵥ v) ↔ Hurwitz (A - B * Kg)) := by
  obtain ⟨X, hx, hX, hR, hd, hk, hacl, e⟩ := lqr_cont_parts N hw hN h
  refine ⟨_, X, hk, hx, hacl, ?_⟩
  set Kg := (R.getD 1)⁻¹ * (Bᵀ * X + (S.getD 0)ᵀ) with hKg
  have hl : ∀ x, ((A - B * Kg) *ᵥ x) ⬝ᵥ X *ᵥ x + x ⬝ᵥ X *ᵥ ((A - B * Kg) *ᵥ x) = -cost Q (S.getD 0) (R.getD 1) x (-(Kg *ᵥ x)) := fun x => by
    have := care_square hX hR hd e x (-(Kg *ᵥ x))
    rw [← hKg, neg_add_cancel, zero_dotProduct, ← loop_mulVec] at this
    linarith
  exact ⟨fun hX0 => hurwitz_of_psd hX hX0 hl (fun x => hc _ _) fun z v hz h' hcv => sees_loop hs Kg z v hz h' hcv, fun hH v => psd_of_hurwitz hH hl (fun x => hc _ _) v⟩

/-- **C85, stability in discrete time.** -/
theorem C85_stable_discrete (N : AreNum ℝ) (A : Matrix (Fin n) (Fin n) ℝ) (B : Matrix (Fin n) (Fin m) ℝ) (C : Matrix (Fin p) (Fin n) ℝ) (D : Matrix (Fin p) (Fin m) ℝ) (dt : ℝ)
    (Q : Matrix (Fin n) (Fin n) ℝ) (R : Option (Matrix (Fin m) (Fin m) ℝ)) (S : Option (Matrix (Fin n) (Fin m) ℝ)) (w : List Char)
    (hw : w ≠ "output".toList) (hN : DareOk N A B Q (R.getD 1) S) {k x acl : Arr ℝ}
    (h : lqr N (stateOf A B C D (some dt)) (Arr.of Q) (R.map Arr.of) (S.map Arr.of) w = .ok (k, x, acl))
    (hc : CostNonneg Q (S.getD 0) (R.getD 1)) (hs : CostSees (fun z => 1 ≤ ‖z‖) A B Q (S.getD 0) (R.getD 1)) :
    ∃ (Kg : Matrix (Fin m) (Fin n) ℝ) (X : Matrix (Fin n) (Fin n) ℝ), k = Arr.of Kg ∧ x = Arr.of X ∧ acl = Arr.of (A - B * Kg) ∧
      ((∀ v, 0 ≤ v ⬝ᵥ X *ᵥ v) ↔ Schur (A - B * Kg)) := by
  obtain ⟨X, hx, hX, hR, hd, hk, hacl, e⟩ := lqr_disc_parts N hw hN h
  refine ⟨_, X, hk, hx, hacl, ?_⟩
  set Kg := (R.getD 1 + Bᵀ * X * B)⁻¹ * (Bᵀ * X * A + (S.getD 0)ᵀ) with hKg
  have hl : ∀ x, ((A - B * Kg) *ᵥ x) ⬝ᵥ X *ᵥ ((A - B * Kg) *ᵥ x) - x ⬝ᵥ X *ᵥ x = -cost Q (S.getD 0) (R.getD 1) x (-(Kg *ᵥ x)) := fun x => by
    have := dare_square hX hR hd e x (-(Kg *ᵥ x))
    rw [← hKg, neg_add_cancel, zero_dotProduct, ← loop_mulVec] at this
    linarith
  exact ⟨fun hX0 => schur_of_psd hX hX0 hl (fun x => hc _ _) fun z v hz h' hcv => sees_loop hs Kg z v hz h' hcv, fun hH v => psd_of_schur hH hl (fun x => hc _ _) v⟩

/-- **C85, optimality in continuous time.** If the closed loop is stable and `R ≥ 0`, then `x₀' X x₀` is the smallest cost of all inputs that drive the state from `x₀` to zero, and `u = - K x` drives
it there at this cost. -/
theorem C85_optimal_continuous (N : AreNum ℝ) (A : Matrix (Fin n) (Fin n) ℝ) (B : Matrix (Fin n) (Fin m) ℝ) (C : Matrix (Fin p) (Fin n) ℝ) (D : Matrix (Fin p) (Fin m) ℝ)
    (Q : Matrix (Fin n) (Fin n) ℝ) (R : Option (Matrix (Fin m) (Fin m) ℝ)) (S : Option (Matrix (Fin n) (Fin m) ℝ)) (w : List Char)
    (hw : w ≠ "output".toList) (hN : CareOk N A B Q (R.getD 1) S) {k x : Arr ℝ} {Acl : Matrix (Fin n) (Fin n) ℝ}
    (h : lqr N (stateOf A B C D none) (Arr.of Q) (R.map Arr.of) (S.map Arr.of) w = .ok (k, x, Arr.of Acl)) (hR : ∀ v, 0 ≤ v ⬝ᵥ R.getD 1 *ᵥ v) (hH : Hurwitz Acl) :
    ∃ (Kg : Matrix (Fin m) (Fin n) ℝ) (X : Matrix (Fin n) (Fin n) ℝ), k = Arr.of Kg ∧ x = Arr.of X ∧ ∀ x₀,
      IsLeast (CCosts A B (cost Q (S.getD 0) (R.getD 1)) x₀) (x₀ ⬝ᵥ X *ᵥ x₀) ∧
      ∃ z u, CDriven A B x₀ z u ∧ (∀ t, u t = -(Kg *ᵥ z t)) ∧
        Filter.Tendsto (fun T => ∫ t in 0..T, cost Q (S.getD 0) (R.getD 1) (z t) (u t)) Filter.atTop (nhds (x₀ ⬝ᵥ X *ᵥ x₀)) := by
  obtain ⟨Kg, X, hk, hx, hacl, -, H⟩ := C57_continuous N A B C D Q R S w hw hN h
  obtain ⟨Kg', X', hk', hx', Ho⟩ := C57_continuous_optimal N A B C D Q R S w hw hN h hR
  obtain rfl := Arr.of_inj.1 (hk.symm.trans hk')
  obtain rfl := Arr.of_inj.1 (hx.symm.trans hx')
  obtain rfl := Arr.of_inj.1 hacl
  refine ⟨Kg, X, hk, hx, fun x₀ => ?_⟩
  have hex : ∃ z u, CDriven A B x₀ z u ∧ (∀ t, u t = -(Kg *ᵥ z t)) ∧
        Filter.Tendsto (fun T => ∫ t in 0..T, cost Q (S.getD 0) (R.getD 1) (z t) (u t)) Filter.atTop (nhds (x₀ ⬝ᵥ X *ᵥ x₀)) := by
    set z : ℝ → Fin n → ℝ := fun t => NormedSpace.exp (t • (A - B * Kg)) *ᵥ x₀ with hz
    have hd : ∀ t, HasDerivAt z (A *ᵥ z t + B *ᵥ (-(Kg *ᵥ z t))) t := fun t => by
      rw [← loop_mulVec]
      exact hasDerivAt_exp_mulVec _ _ _
    have hcz : Continuous z := continuous_iff_continuousAt.2 fun t => (hd t).continuousAt
    have hcu : Continuous fun t => -(Kg *ᵥ z t) := ((Matrix.mulVecLin Kg).continuous_of_finiteDimensional.comp hcz).neg
    have hz0 : z 0 = x₀ := by simp [hz]
    refine ⟨z, fun t => -(Kg *ᵥ z t), ⟨hz0, hcu.continuousOn, fun t _ => hd t, exp_mulVec_tendsto hH x₀⟩, fun t => rfl, ?_⟩
    have hq := bil_tendsto (exp_mulVec_tendsto hH x₀) (exp_mulVec_tendsto hH x₀) X
    have hlim : Filter.Tendsto (fun T => z 0 ⬝ᵥ X *ᵥ z 0 - z T ⬝ᵥ X *ᵥ z T) Filter.atTop (nhds (x₀ ⬝ᵥ X *ᵥ x₀)) := by
      have := (tendsto_const_nhds (x := z 0 ⬝ᵥ X *ᵥ z 0)).sub hq
      rw [sub_zero, hz0] at this
      rw [hz0]
      exact this
    refine hlim.congr' ?_
    filter_upwards [Filter.eventually_ge_atTop 0] with T hT
    rw [H z (fun t => -(Kg *ᵥ z t)) T hT hcu.continuousOn fun t _ => hd t]
    simp
  refine ⟨⟨?_, ?_⟩, hex⟩
  · obtain ⟨z, u, hzu, -, hJ⟩ := hex
    exact ⟨z, u, hzu, hJ⟩
  · rintro J ⟨z, u, ⟨rfl, hu, hz, hz0⟩, hJ⟩
    exact (Ho z u J hu hz hz0 hJ).1

/-- **C85, optimality in discrete time.** -/
theorem C85_optimal_discrete (N : AreNum ℝ) (A : Matrix (Fin n) (Fin n) ℝ) (B : Matrix (Fin n) (Fin m) ℝ) (C : Matrix (Fin p) (Fin n) ℝ) (D : Matrix (Fin p) (Fin m) ℝ) (dt : ℝ)
    (Q : Matrix (Fin n) (Fin n) ℝ) (R : Option (Matrix (Fin m) (Fin m) ℝ)) (S : Option (Matrix (Fin n) (Fin m) ℝ)) (w : List Char)
    (hw : w ≠ "output".toList) (hN : DareOk N A B Q (R.getD 1) S) {k x : Arr ℝ} {Acl : Matrix (Fin n) (Fin n) ℝ}
    (h : lqr N (stateOf A B C D (some dt)) (Arr.of Q) (R.map Arr.of) (S.map Arr.of) w = .ok (k, x, Arr.of Acl))
    (hc : CostNonneg Q (S.getD 0) (R.getD 1)) (hH : Schur Acl) :
    ∃ (Kg : Matrix (Fin m) (Fin n) ℝ) (X : Matrix (Fin n) (Fin n) ℝ), k = Arr.of Kg ∧ x = Arr.of X ∧ ∀ x₀,
      IsLeast (DCosts A B (cost Q (S.getD 0) (R.getD 1)) x₀) (x₀ ⬝ᵥ X *ᵥ x₀) ∧
      ∃ z u, DDriven A B x₀ z u ∧ (∀ t, u t = -(Kg *ᵥ z t)) ∧
        Filter.Tendsto (fun T => ∑ t ∈ Finset.range T, cost Q (S.getD 0) (R.getD 1) (z t) (u t)) Filter.atTop (nhds (x₀ ⬝ᵥ X *ᵥ x₀)) := by
  obtain ⟨Kg, X, hk, rfl, hacl, -, H⟩ := C57_discrete N A B C D dt Q R S w hw hN h
  obtain rfl := Arr.of_inj.1 hacl
  have hex : ∀ x₀, ∃ z u, DDriven A B x₀ z u ∧ (∀ t, u t = -(Kg *ᵥ z t)) ∧
        Filter.Tendsto (fun T => ∑ t ∈ Finset.range T, cost Q (S.getD 0) (R.getD 1) (z t) (u t)) Filter.atTop (nhds (x₀ ⬝ᵥ X *ᵥ x₀)) := by
    intro x₀
    set z : ℕ → Fin n → ℝ := fun t => (A - B * Kg) ^ t *ᵥ x₀ with hz
    have hd : ∀ t, z (t + 1) = A *ᵥ z t + B *ᵥ (-(Kg *ᵥ z t)) := fun t => by
      rw [← loop_mulVec, hz]
      simp only [pow_succ', ← mulVec_mulVec]
    have hz0 : z 0 = x₀ := by simp [hz]
    refine ⟨z, fun t => -(Kg *ᵥ z t), ⟨hz0, hd, pow_mulVec_tendsto hH x₀⟩, fun t => rfl, ?_⟩
    have hq := bil_tendsto (pow_mulVec_tendsto hH x₀) (pow_mulVec_tendsto hH x₀) X
    have hlim : Filter.Tendsto (fun T => z 0 ⬝ᵥ X *ᵥ z 0 - z T ⬝ᵥ X *ᵥ z T) Filter.atTop (nhds (x₀ ⬝ᵥ X *ᵥ x₀)) := by
      have := (tendsto_const_nhds (x := z 0 ⬝ᵥ X *ᵥ z 0)).sub hq
      rw [sub_zero, hz0] at this
      rw [hz0]
      exact this
    refine hlim.congr fun T => ?_
    rw [H z (fun t => -(Kg *ᵥ z t)) hd T]
    simp
  have hpsd : ∀ v, 0 ≤ v ⬝ᵥ X *ᵥ v := fun v => by
    obtain ⟨z, u, -, -, hJ⟩ := hex v
    exact ge_of_tendsto' hJ fun T => Finset.sum_nonneg fun t _ => hc _ _
  have hP : ∀ v, 0 ≤ v ⬝ᵥ (R.getD 1 + Bᵀ * X * B) *ᵥ v := fun v => by
    rw [add_mulVec, dotProduct_add, ← mulVec_mulVec, ← mulVec_mulVec, ← bil_left]
    exact add_nonneg (weight_psd hc v) (hpsd _)
  obtain ⟨Kg', hk', Ho⟩ := C57_discrete_optimal N A B C D dt Q R S w hw hN h hP
  refine ⟨Kg, X, hk, rfl, fun x₀ => ⟨⟨?_, ?_⟩, hex x₀⟩⟩
  · obtain ⟨z, u, hzu, -, hJ⟩ := hex x₀
    exact ⟨z, u, hzu, hJ⟩
  · rintro J ⟨z, u, ⟨rfl, hz, hz0⟩, hJ⟩
    exact (Ho z u J hz hz0 hJ).1

/-- **C85, uniqueness in continuous time.** Two calls whose closed loops are stable return the same `K` and `X`, whatever solvers they used and whatever `C`, `D` and accepted words. -/
theorem C85_unique_continuous (N N' : AreNum ℝ) (A : Matrix (Fin n) (Fin n) ℝ) (B : Matrix (Fin n) (Fin m) ℝ) {p p' : ℕ} (C : Matrix (Fin p) (Fin n) ℝ) (D : Matrix (Fin p) (Fin m) ℝ)
    (C' : Matrix (Fin p') (Fin n) ℝ) (D' : Matrix (Fin p') (Fin m) ℝ)
    (Q : Matrix (Fin n) (Fin n) ℝ) (R : Option (Matrix (Fin m) (Fin m) ℝ)) (S : Option (Matrix (Fin n) (Fin m) ℝ)) (w w' : List Char)
    (hw : w ≠ "output".toList) (hw' : w' ≠ "output".toList) (hN : CareOk N A B Q (R.getD 1) S) (hN' : CareOk N' A B Q (R.getD 1) S) {k x k' x' : Arr ℝ} {Acl Acl' : Matrix (Fin n) (Fin n) ℝ}
    (h : lqr N (stateOf A B C D none) (Arr.of Q) (R.map Arr.of) (S.map Arr.of) w = .ok (k, x, Arr.of Acl))
    (h' : lqr N' (stateOf A B C' D' none) (Arr.of Q) (R.map Arr.of) (S.map Arr.of) w' = .ok (k', x', Arr.of Acl')) (hH : Hurwitz Acl) (hH' : Hurwitz Acl') :
    k = k' ∧ x = x' ∧ Acl = Acl' := by
  obtain ⟨X, rfl, hX, hR, hd, rfl, hacl, e⟩ := lqr_cont_parts N hw hN h
  obtain ⟨X', rfl, hX', -, -, rfl, hacl', e'⟩ := lqr_cont_parts N' hw' hN' h'
  obtain rfl := Arr.of_inj.1 hacl
  obtain rfl := Arr.of_inj.1 hacl'
  obtain rfl := care_unique hX hX' hR hd e e' hH hH'
  exact ⟨rfl, rfl, rfl⟩

/-- **C85, uniqueness in discrete time.** -/
theorem C85_unique_discrete (N N' : AreNum ℝ) (A : Matrix (Fin n) (Fin n) ℝ) (B : Matrix (Fin n) (Fin m) ℝ) {p p' : ℕ} (C : Matrix (Fin p) (Fin n) ℝ) (D : Matrix (Fin p) (Fin m) ℝ)
    (C' : Matrix (Fin p') (Fin n) ℝ) (D' : Matrix (Fin p') (Fin m) ℝ) (dt dt' : ℝ)
    (Q : Matrix (Fin n) (Fin n) ℝ) (R : Option (Matrix (Fin m) (Fin m) ℝ)) (S : Option (Matrix (Fin n) (Fin m) ℝ)) (w w' : List Char)
    (hw : w ≠ "output".toList) (hw' : w' ≠ "output".toList) (hN : DareOk N A B Q (R.getD 1) S) (hN' : DareOk N' A B Q (R.getD 1) S) {k x k' x' : Arr ℝ} {Acl Acl' : Matrix (Fin n) (Fin n) ℝ}
    (h : lqr N (stateOf A B C D (some dt)) (Arr.of Q) (R.map Arr.of) (S.map Arr.of) w = .ok (k, x, Arr.of Acl))
    (h' : lqr N' (stateOf A B C' D' (some dt')) (Arr.of Q) (R.map Arr.of) (S.map Arr.of) w' = .ok (k', x', Arr.of Acl')) (hH : Schur Acl) (hH' : Schur Acl') :
    k = k' ∧ x = x' ∧ Acl = Acl' := by
  obtain ⟨X, rfl, hX, hR, hd, rfl, hacl, e⟩ := lqr_disc_parts N hw hN h
  obtain ⟨X', rfl, hX', -, hd', rfl, hacl', e'⟩ := lqr_disc_parts N' hw' hN' h'
  obtain rfl := Arr.of_inj.1 hacl
  obtain rfl := Arr.of_inj.1 hacl'
  have hu : IsUnit (R.getD 1 + Bᵀ * X * B).det := isUnit_iff_ne_zero.2 hd
  have hu' : IsUnit (R.getD 1 + Bᵀ * X' * B).det := isUnit_iff_ne_zero.2 hd'
  have hPi : (R.getD 1 + Bᵀ * X * B)⁻¹ᵀ = (R.getD 1 + Bᵀ * X * B)⁻¹ := by
    rw [transpose_nonsing_inv, transpose_add, hR, transpose_mul, transpose_mul, transpose_transpose, hX, Matrix.mul_assoc]
  have : X = X' := by
    refine dare_unique (Q := Q) hX hR (mul_nonsing_inv_cancel_left _ _ hu) (mul_nonsing_inv_cancel_left _ _ hu') ?_ ?_ hH hH'
    · rw [transpose_mul, hPi, transpose_add, transpose_mul, transpose_mul, transpose_transpose, transpose_transpose, hX, ← Matrix.mul_assoc Aᵀ]
      exact e
    · rw [← Matrix.mul_assoc]
      exact e'
  subst this
  exact ⟨rfl, rfl, rfl⟩

/-! ## When the weight sees every motion -/

theorem vec_zero_of_parts {v : Fin n → ℂ} (h1 : (fun i => (v i).re) = 0) (h2 : (fun i => (v i).im) = 0) : v = 0 := by
  funext i
  exact Complex.ext (congrFun h1 i) (congrFun h2 i)

/-- A weight that is positive for every nonzero state sees every motion. -/
theorem costSees_of_pos {keep : ℂ → Prop} (A : Matrix (Fin n) (Fin n) ℝ) (B : Matrix (Fin n) (Fin m) ℝ) {Q : Matrix (Fin n) (Fin n) ℝ} {S : Matrix (Fin n) (Fin m) ℝ} {R : Matrix (Fin m) (Fin m) ℝ}
    (hc : CostNonneg Q S R) (h : ∀ x u, x ≠ 0 → 0 < cost Q S R x u) : CostSees keep A B Q S R := by
  intro z v u _ _ h0
  have h1 := hc (fun i => (v i).re) (fun i => (u i).re)
  have h2 := hc (fun i => (v i).im) (fun i => (u i).im)
  refine vec_zero_of_parts ?_ ?_
  · by_contra hne
    linarith [h _ (fun i => (u i).re) hne]
  · by_contra hne
    linarith [h _ (fun i => (u i).im) hne]

theorem psd_kernel {Q : Matrix (Fin n) (Fin n) ℝ} (hQ : Qᵀ = Q) (h : ∀ x, 0 ≤ x ⬝ᵥ Q *ᵥ x) {x : Fin n → ℝ} (hx : x ⬝ᵥ Q *ᵥ x = 0) : Q *ᵥ x = 0 := by
  set y := Q *ᵥ x with hy
  by_contra hne
  have hpos : 0 < y ⬝ᵥ y := by
    have h0 : 0 ≤ y ⬝ᵥ y := Finset.sum_nonneg fun i _ => mul_self_nonneg (y i)
    rcases h0.lt_or_eq with h | h
    · exact h
    · exact absurd (dotProduct_self_eq_zero.1 h.symm) hne
  have hquad : ∀ t : ℝ, 0 ≤ 2 * t * (y ⬝ᵥ y) + t * t * (y ⬝ᵥ Q *ᵥ y) := fun t => by
    have := h (x + t • y)
    simp only [mulVec_add, mulVec_smul, dotProduct_add, add_dotProduct, dotProduct_smul, smul_dotProduct, smul_eq_mul, hx] at this
    rw [quad_comm hQ y x, ← hy] at this
    linarith
  have hq := h y
  have := hquad (-(y ⬝ᵥ y) / (1 + y ⬝ᵥ Q *ᵥ y))
  have h1 : 0 < 1 + y ⬝ᵥ Q *ᵥ y := by linarith
  set a := y ⬝ᵥ y
  set b := y ⬝ᵥ Q *ᵥ y
  have e : 2 * (-a / (1 + b)) * a + -a / (1 + b) * (-a / (1 + b)) * b = -(a * a * (2 + b)) / ((1 + b) * (1 + b)) := by field_simp; ring
  rw [e] at this
  have h2 : -(a * a * (2 + b)) / ((1 + b) * (1 + b)) < 0 := div_neg_of_neg_of_pos (by nlinarith [mul_pos hpos hpos]) (by positivity)
  linarith

/-- Without cross terms, with `Q ≥ 0` and `R > 0`: the weight sees every motion that does not decay exactly when no such motion of `x' = A x` is in the kernel of `Q`, that is, `(A, Q)` is detectable. -/
theorem costSees_of_detectable {keep : ℂ → Prop} {A : Matrix (Fin n) (Fin n) ℝ} (B : Matrix (Fin n) (Fin m) ℝ) {Q : Matrix (Fin n) (Fin n) ℝ} {R : Matrix (Fin m) (Fin m) ℝ}
    (hQ : Qᵀ = Q) (hQ0 : ∀ x, 0 ≤ x ⬝ᵥ Q *ᵥ x) (hR : ∀ u, u ≠ 0 → 0 < u ⬝ᵥ R *ᵥ u) :
    CostSees keep A B Q 0 R ↔
      ∀ (z : ℂ) (v : Fin n → ℂ), keep z → A.map (algebraMap ℝ ℂ) *ᵥ v = z • v → Q.map (algebraMap ℝ ℂ) *ᵥ v = 0 → v = 0 := by
  have hR0 : ∀ u, 0 ≤ u ⬝ᵥ R *ᵥ u := fun u => by
    by_cases hu : u = 0
    · simp [hu]
    · exact (hR u hu).le
  have hcost : ∀ x u, cost Q 0 R x u = x ⬝ᵥ Q *ᵥ x + u ⬝ᵥ R *ᵥ u := fun x u => by simp [cost]
  constructor
  · intro h z v hz hv hq
    refine h z v 0 hz (by rw [mulVec_zero, add_zero, hv]) ?_
    obtain ⟨h1, h2⟩ := map_mulVec_parts Q v
    have e1 : Q *ᵥ (fun i => (v i).re) = 0 := by rw [← h1, hq]; rfl
    have e2 : Q *ᵥ (fun i => (v i).im) = 0 := by rw [← h2, hq]; rfl
    have e3 : (fun i : Fin m => ((0 : Fin m → ℂ) i).re) = 0 := rfl
    have e4 : (fun i : Fin m => ((0 : Fin m → ℂ) i).im) = 0 := rfl
    rw [hcost, hcost, e1, e2, e3, e4]
    simp
  · intro h z v u hz hv h0
    rw [hcost, hcost] at h0
    have q1 := hQ0 fun i => (v i).re
    have q2 := hQ0 fun i => (v i).im
    have r1 := hR0 fun i => (u i).re
    have r2 := hR0 fun i => (u i).im
    have hu : u = 0 := by
      refine vec_zero_of_parts ?_ ?_
      · by_contra hne
        linarith [hR _ hne]
      · by_contra hne
        linarith [hR _ hne]
    have e1 := psd_kernel hQ hQ0 (x := fun i => (v i).re) (by linarith)
    have e2 := psd_kernel hQ hQ0 (x := fun i => (v i).im) (by linarith)
    obtain ⟨h1, h2⟩ := map_mulVec_parts Q v
    refine h z v hz ?_ (vec_zero_of_parts (h1.trans e1) (h2.trans e2))
    rw [← hv, hu, mulVec_zero, add_zero]

/-- **C85, the usual hypotheses.** Without cross terms, with `Q ≥ 0`, `R > 0` (or omitted) and `(A, Q)` detectable, `A - B K` is stable exactly when `X` is positive semidefinite. -/
theorem C85_detectable (N : AreNum ℝ) (A : Matrix (Fin n) (Fin n) ℝ) (B : Matrix (Fin n) (Fin m) ℝ) (C : Matrix (Fin p) (Fin n) ℝ) (D : Matrix (Fin p) (Fin m) ℝ)
    (Q : Matrix (Fin n) (Fin n) ℝ) (R : Option (Matrix (Fin m) (Fin m) ℝ)) (w : List Char)
    (hw : w ≠ "output".toList) (hN : CareOk N A B Q (R.getD 1) none) {k x acl : Arr ℝ}
    (h : lqr N (stateOf A B C D none) (Arr.of Q) (R.map Arr.of) none w = .ok (k, x, acl))
    (hQ : Qᵀ = Q) (hQ0 : ∀ v, 0 ≤ v ⬝ᵥ Q *ᵥ v) (hR : ∀ u, u ≠ 0 → 0 < u ⬝ᵥ R.getD 1 *ᵥ u)
    (hdet : ∀ (z : ℂ) (v : Fin n → ℂ), 0 ≤ z.re → A.map (algebraMap ℝ ℂ) *ᵥ v = z • v → Q.map (algebraMap ℝ ℂ) *ᵥ v = 0 → v = 0) :
    ∃ (Kg : Matrix (Fin m) (Fin n) ℝ) (X : Matrix (Fin n) (Fin n) ℝ), k = Arr.of Kg ∧ x = Arr.of X ∧ acl = Arr.of (A - B * Kg) ∧
      ((∀ v, 0 ≤ v ⬝ᵥ X *ᵥ v) ↔ Hurwitz (A - B * Kg)) := by
  refine C85_stable_continuous N A B C D Q R none w hw hN h (fun x u => ?_) ((costSees_of_detectable B hQ hQ0 hR).2 hdet)
  have hu : 0 ≤ u ⬝ᵥ R.getD 1 *ᵥ u := by
    by_cases hu : u = 0
    · simp [hu]
    · exact (hR u hu).le
  simpa [cost] using add_nonneg (hQ0 x) hu

/-- **C85, the usual hypotheses in discrete time.** -/
theorem C85_detectable_discrete (N : AreNum ℝ) (A : Matrix (Fin n) (Fin n) ℝ) (B : Matrix (Fin n) (Fin m) ℝ) (C : Matrix (Fin p) (Fin n) ℝ) (D : Matrix (Fin p) (Fin m) ℝ) (dt : ℝ)
    (Q : Matrix (Fin n) (Fin n) ℝ) (R : Option (Matrix (Fin m) (Fin m) ℝ)) (w : List Char)
    (hw : w ≠ "output".toList) (hN : DareOk N A B Q (R.getD 1) none) {k x acl : Arr ℝ}
    (h : lqr N (stateOf A B C D (some dt)) (Arr.of Q) (R.map Arr.of) none w = .ok (k, x, acl))
    (hQ : Qᵀ = Q) (hQ0 : ∀ v, 0 ≤ v ⬝ᵥ Q *ᵥ v) (hR : ∀ u, u ≠ 0 → 0 < u ⬝ᵥ R.getD 1 *ᵥ u)
    (hdet : ∀ (z : ℂ) (v : Fin n → ℂ), 1 ≤ ‖z‖ → A.map (algebraMap ℝ ℂ) *ᵥ v = z • v → Q.map (algebraMap ℝ ℂ) *ᵥ v = 0 → v = 0) :
    ∃ (Kg : Matrix (Fin m) (Fin n) ℝ) (X : Matrix (Fin n) (Fin n) ℝ), k = Arr.of Kg ∧ x = Arr.of X ∧ acl = Arr.of (A - B * Kg) ∧
      ((∀ v, 0 ≤ v ⬝ᵥ X *ᵥ v) ↔ Schur (A - B * Kg)) := by
  refine C85_stable_discrete N A B C D dt Q R none w hw hN h (fun x u => ?_) ((costSees_of_detectable B hQ hQ0 hR).2 hdet)
  have hu : 0 ≤ u ⬝ᵥ R.getD 1 *ᵥ u := by
    by_cases hu : u = 0
    · simp [hu]
    · exact (hR u hu).le
  simpa [cost] using add_nonneg (hQ0 x) hu

/-- **C85, weights on the outputs.** `weight_on='output'` with a stable closed loop minimizes the cost of `y = C x + D u` over all inputs that drive the state to zero. -/
theorem C85_output_continuous (N : AreNum ℝ) (A : Matrix (Fin n) (Fin n) ℝ) (B : Matrix (Fin n) (Fin m) ℝ) (C : Matrix (Fin p) (Fin n) ℝ) (D : Matrix (Fin p) (Fin m) ℝ)
    (Q : Matrix (Fin p) (Fin p) ℝ) (R : Option (Matrix (Fin m) (Fin m) ℝ)) (S : Option (Matrix (Fin p) (Fin m) ℝ)) (hQ : Qᵀ = Q)
    (hN : ∀ Q' R' S', CareOk N A B Q' R' (some S')) {k x : Arr ℝ} {Acl : Matrix (Fin n) (Fin n) ℝ}
    (h : lqr N (stateOf A B C D none) (Arr.of Q) (R.map Arr.of) (S.map Arr.of) "output".toList = .ok (k, x, Arr.of Acl))
    (hc : CostNonneg Q (S.getD 0) (R.getD 1)) (hH : Hurwitz Acl) :
    ∃ (Kg : Matrix (Fin m) (Fin n) ℝ) (X : Matrix (Fin n) (Fin n) ℝ), k = Arr.of Kg ∧ x = Arr.of X ∧ Acl = A - B * Kg ∧ ∀ x₀,
      IsLeast (CCosts A B (fun x u => cost Q (S.getD 0) (R.getD 1) (C *ᵥ x + D *ᵥ u) u) x₀) (x₀ ⬝ᵥ X *ᵥ x₀) ∧
      ∃ z u, CDriven A B x₀ z u ∧ (∀ t, u t = -(Kg *ᵥ z t)) ∧
        Filter.Tendsto (fun T => ∫ t in 0..T, cost Q (S.getD 0) (R.getD 1) (C *ᵥ z t + D *ᵥ u t) (u t)) Filter.atTop (nhds (x₀ ⬝ᵥ X *ᵥ x₀)) := by
  obtain ⟨Q', R', S', e, hcost⟩ := C57_output N A B C D none Q R S hQ
  rw [e] at h
  have hR' : ∀ v, 0 ≤ v ⬝ᵥ R' *ᵥ v := weight_psd (Q := Q') (S := S') fun x u => by rw [hcost]; exact hc _ _
  have hw : "state".toList ≠ "output".toList := by decide
  obtain ⟨Kg, X, hk, hx, H⟩ := C85_optimal_continuous N A B C D Q' (some R') (some S') "state".toList hw (hN _ _ _) h hR' hH
  obtain ⟨Kg', X', hk', -, hacl, -⟩ := C57_continuous N A B C D Q' (some R') (some S') "state".toList hw (hN _ _ _) h
  obtain rfl := Arr.of_inj.1 (hk.symm.trans hk')
  have ef : (fun x u => cost Q (S.getD 0) (R.getD 1) (C *ᵥ x + D *ᵥ u) u) = cost Q' S' R' := by funext x u; exact (hcost x u).symm
  refine ⟨Kg, X, hk, hx, Arr.of_inj.1 hacl, fun x₀ => ?_⟩
  simp only [← hcost]
  exact H x₀

/-- **C85, weights on the outputs in discrete time.** -/
theorem C85_output_discrete (N : AreNum ℝ) (A : Matrix (Fin n) (Fin n) ℝ) (B : Matrix (Fin n) (Fin m) ℝ) (C : Matrix (Fin p) (Fin n) ℝ) (D : Matrix (Fin p) (Fin m) ℝ) (dt : ℝ)
    (Q : Matrix (Fin p) (Fin p) ℝ) (R : Option (Matrix (Fin m) (Fin m) ℝ)) (S : Option (Matrix (Fin p) (Fin m) ℝ)) (hQ : Qᵀ = Q)
    (hN : ∀ Q' R' S', DareOk N A B Q' R' (some S')) {k x : Arr ℝ} {Acl : Matrix (Fin n) (Fin n) ℝ}
    (h : lqr N (stateOf A B C D (some dt)) (Arr.of Q) (R.map Arr.of) (S.map Arr.of) "output".toList = .ok (k, x, Arr.of Acl))
    (hc : CostNonneg Q (S.getD 0) (R.getD 1)) (hH : Schur Acl) :
    ∃ (Kg : Matrix (Fin m) (Fin n) ℝ) (X : Matrix (Fin n) (Fin n) ℝ), k = Arr.of Kg ∧ x = Arr.of X ∧ Acl = A - B * Kg ∧ ∀ x₀,
      IsLeast (DCosts A B (fun x u => cost Q (S.getD 0) (R.getD 1) (C *ᵥ x + D *ᵥ u) u) x₀) (x₀ ⬝ᵥ X *ᵥ x₀) ∧
      ∃ z u, DDriven A B x₀ z u ∧ (∀ t, u t = -(Kg *ᵥ z t)) ∧
        Filter.Tendsto (fun T => ∑ t ∈ Finset.range T, cost Q (S.getD 0) (R.getD 1) (C *ᵥ z t + D *ᵥ u t) (u t)) Filter.atTop (nhds (x₀ ⬝ᵥ X *ᵥ x₀)) := by
  obtain ⟨Q', R', S', e, hcost⟩ := C57_output N A B C D (some dt) Q R S hQ
  rw [e] at h
  have hw : "state".toList ≠ "output".toList := by decide
  have hc' : CostNonneg Q' S' R' := fun x u => by rw [hcost]; exact hc _ _
  obtain ⟨Kg, X, hk, hx, H⟩ := C85_optimal_discrete N A B C D dt Q' (some R') (some S') "state".toList hw (hN _ _ _) h hc' hH
  obtain ⟨Kg', X', hk', -, hacl, -⟩ := C57_discrete N A B C D dt Q' (some R') (some S') "state".toList hw (hN _ _ _) h
  obtain rfl := Arr.of_inj.1 (hk.symm.trans hk')
  refine ⟨Kg, X, hk, hx, Arr.of_inj.1 hacl, fun x₀ => ?_⟩
  simp only [← hcost]
  exact H x₀

/-! ## Instances -/

theorem isEig_one {a : ℝ} {z : ℂ} (h : IsEig (!![a] : Matrix (Fin 1) (Fin 1) ℝ) z) : z = a := by
  unfold IsEig at h
  rw [det_fin_one] at h
  simpa [sub_eq_zero] using h

theorem hurwitz_one {a : ℝ} (h : a < 0) : Hurwitz (!![a] : Matrix (Fin 1) (Fin 1) ℝ) := fun z hz => by
  rw [isEig_one hz]
  exact h

theorem schur_one {a : ℝ} (h : |a| < 1) : Schur (!![a] : Matrix (Fin 1) (Fin 1) ℝ) := fun z hz => by
  rw [isEig_one hz, Complex.norm_real]
  exact h

theorem exLoop_cont : ∃ k, lqr exAre (stateOf (!![1] : Matrix (Fin 1) (Fin 1) ℝ) (!![1] : Matrix (Fin 1) (Fin 1) ℝ) (!![4] : Matrix (Fin 1) (Fin 1) ℝ) !![0] none) (Arr.of !![3])
      (Option.map Arr.of (none : Option (Matrix (Fin 1) (Fin 1) ℝ))) (Option.map Arr.of (none : Option (Matrix (Fin 1) (Fin 1) ℝ))) "state".toList
        = .ok (k, Arr.of (!![3] : Matrix (Fin 1) (Fin 1) ℝ), Arr.of (!![-2] : Matrix (Fin 1) (Fin 1) ℝ)) := by
  obtain ⟨k, acl, h⟩ := exAre_lqr_cont (R := none) (S := none) (w := "state".toList) (by decide) (by decide) (by simp)
  obtain ⟨X, hx, -, -, -, -, hacl, -⟩ := lqr_cont_parts (R := none) (S := none) exAre (by decide) exAre_care3 h
  obtain rfl := Arr.of_inj.1 hx
  refine ⟨k, h.trans ?_⟩
  rw [hacl]
  congr 4
  ext i j; fin_cases i; fin_cases j
  simp [Matrix.mul_apply, Matrix.vecMul, dotProduct]
  norm_num

theorem exCost_pos : ∀ x u : Fin 1 → ℝ, x ≠ 0 → 0 < cost (!![3] : Matrix (Fin 1) (Fin 1) ℝ) (0 : Matrix (Fin 1) (Fin 1) ℝ) (1 : Matrix (Fin 1) (Fin 1) ℝ) x u := by
  intro x u hx
  have hx0 : x 0 ≠ 0 := fun h => hx (by funext i; fin_cases i; exact h)
  have h1 : 0 < x 0 * x 0 := mul_self_pos.2 hx0
  have h2 : 0 ≤ u 0 * u 0 := mul_self_nonneg _
  simp [cost, mulVec, dotProduct]
  nlinarith

theorem exCost_nonneg : CostNonneg (!![3] : Matrix (Fin 1) (Fin 1) ℝ) (0 : Matrix (Fin 1) (Fin 1) ℝ) (1 : Matrix (Fin 1) (Fin 1) ℝ) := by
  intro x u
  have h1 : 0 ≤ x 0 * x 0 := mul_self_nonneg _
  have h2 : 0 ≤ u 0 * u 0 := mul_self_nonneg _
  simp [cost, mulVec, dotProduct]
  nlinarith

-- The hypotheses of the theorems in continuous time are satisfiable: `x' = x + u` with the weights 3 and 1, an unstable model whose closed loop has the eigenvalue `-2`.
example : ∃ k, lqr exAre (stateOf (!![1] : Matrix (Fin 1) (Fin 1) ℝ) (!![1] : Matrix (Fin 1) (Fin 1) ℝ) (!![4] : Matrix (Fin 1) (Fin 1) ℝ) !![0] none) (Arr.of !![3])
      (Option.map Arr.of (none : Option (Matrix (Fin 1) (Fin 1) ℝ))) (Option.map Arr.of (none : Option (Matrix (Fin 1) (Fin 1) ℝ))) "state".toList
        = .ok (k, Arr.of (!![3] : Matrix (Fin 1) (Fin 1) ℝ), Arr.of (!![-2] : Matrix (Fin 1) (Fin 1) ℝ)) ∧
    CareOk exAre (!![1] : Matrix (Fin 1) (Fin 1) ℝ) (!![1] : Matrix (Fin 1) (Fin 1) ℝ) !![3] ((none : Option (Matrix (Fin 1) (Fin 1) ℝ)).getD 1) none ∧
    CostNonneg (!![3] : Matrix (Fin 1) (Fin 1) ℝ) (0 : Matrix (Fin 1) (Fin 1) ℝ) (1 : Matrix (Fin 1) (Fin 1) ℝ) ∧
    CostSees (fun z => 0 ≤ z.re) (!![1] : Matrix (Fin 1) (Fin 1) ℝ) (!![1] : Matrix (Fin 1) (Fin 1) ℝ) !![3] 0 1 ∧ Hurwitz (!![-2] : Matrix (Fin 1) (Fin 1) ℝ) := by
  obtain ⟨k, h⟩ := exLoop_cont
  exact ⟨k, h, exAre_care3, exCost_nonneg, costSees_of_pos _ _ exCost_nonneg exCost_pos, hurwitz_one (by norm_num)⟩

-- A detectable pair whose `Q` is singular: `A = diag(-1, 1)`, `Q = diag(0, 1)`.
example : ∀ (z : ℂ) (v : Fin 2 → ℂ), 0 ≤ z.re → (!![-1, 0; 0, 1] : Matrix (Fin 2) (Fin 2) ℝ).map (algebraMap ℝ ℂ) *ᵥ v = z • v →
    (!![0, 0; 0, 1] : Matrix (Fin 2) (Fin 2) ℝ).map (algebraMap ℝ ℂ) *ᵥ v = 0 → v = 0 := by
  intro z v hz h1 h2
  have a := congrFun h1 0
  have b := congrFun h2 1
  simp [mulVec, dotProduct, Fin.sum_univ_two] at a b
  have : v 0 = 0 := by
    have h3 : (z + 1) * v 0 = 0 := by linear_combination -a
    rcases mul_eq_zero.1 h3 with h4 | h4
    · have := congrArg Complex.re h4
      simp at this
      linarith
    · exact h4
  funext i
  fin_cases i
  · exact this
  · exact b

/-- A Riccati solver for one scalar equation with a cross term each. -/
noncomputable def exAreOut : AreNum ℝ where
  care a b q r s := open Classical in
    if a = Arr.of (!![1] : Matrix (Fin 1) (Fin 1) ℝ) ∧ b = Arr.of (!![1] : Matrix (Fin 1) (Fin 1) ℝ) ∧ q = Arr.of (!![48] : Matrix (Fin 1) (Fin 1) ℝ) ∧
      r = Arr.of (!![1] : Matrix (Fin 1) (Fin 1) ℝ) ∧ s = some (Arr.of (!![0] : Matrix (Fin 1) (Fin 1) ℝ)) then .ok (Arr.of (!![8] : Matrix (Fin 1) (Fin 1) ℝ)) else .error .linAlg
  dare a b q r s := open Classical in
    if a = Arr.of (!![1] : Matrix (Fin 1) (Fin 1) ℝ) ∧ b = Arr.of (!![1] : Matrix (Fin 1) (Fin 1) ℝ) ∧ q = Arr.of (!![1] : Matrix (Fin 1) (Fin 1) ℝ) ∧
      r = Arr.of (!![2] : Matrix (Fin 1) (Fin 1) ℝ) ∧ s = some (Arr.of (!![0] : Matrix (Fin 1) (Fin 1) ℝ)) then .ok (Arr.of (!![2] : Matrix (Fin 1) (Fin 1) ℝ)) else .error .linAlg

theorem exAreOut_care (Q' R' S' : Matrix (Fin 1) (Fin 1) ℝ) : CareOk exAreOut (!![1] : Matrix (Fin 1) (Fin 1) ℝ) (!![1] : Matrix (Fin 1) (Fin 1) ℝ) Q' R' (some S') := by
  intro x hx
  simp only [exAreOut] at hx
  split_ifs at hx with hc
  obtain ⟨-, -, hq, hr, hs⟩ := hc
  obtain rfl := Arr.of_inj.1 hq
  obtain rfl := Arr.of_inj.1 hr
  obtain rfl := Arr.of_inj.1 (Option.some.inj hs)
  refine ⟨!![8], (Except.ok.inj hx).symm, by ext i j; fin_cases i; fin_cases j; rfl, by ext i j; fin_cases i; fin_cases j; rfl, ?_⟩
  ext i j; fin_cases i; fin_cases j
  simp [mat1_inv, Matrix.mul_apply, Matrix.vecMul, dotProduct]
  norm_num

theorem exAreOut_dare (Q' R' S' : Matrix (Fin 1) (Fin 1) ℝ) : DareOk exAreOut (!![1] : Matrix (Fin 1) (Fin 1) ℝ) (!![1] : Matrix (Fin 1) (Fin 1) ℝ) Q' R' (some S') := by
  intro x hx
  simp only [exAreOut] at hx
  split_ifs at hx with hc
  obtain ⟨-, -, hq, hr, hs⟩ := hc
  obtain rfl := Arr.of_inj.1 hq
  obtain rfl := Arr.of_inj.1 hr
  obtain rfl := Arr.of_inj.1 (Option.some.inj hs)
  refine ⟨!![2], (Except.ok.inj hx).symm, by ext i j; fin_cases i; fin_cases j; rfl, by ext i j; fin_cases i; fin_cases j; rfl, ?_⟩
  have e : (!![2] + (!![1] : Matrix (Fin 1) (Fin 1) ℝ)ᵀ * !![2] * !![1] : Matrix (Fin 1) (Fin 1) ℝ) = !![4] := by
    ext i j; fin_cases i; fin_cases j; simp [Matrix.mul_apply]; norm_num
  rw [e, mat1_inv]
  ext i j; fin_cases i; fin_cases j
  simp [Matrix.mul_apply, Matrix.vecMul, dotProduct]
  norm_num

-- The hypotheses of `C85_output_continuous` are satisfiable: the output `y = 4 x` of `x' = x + u`.
example : ∃ k x, lqr exAreOut (stateOf (!![1] : Matrix (Fin 1) (Fin 1) ℝ) (!![1] : Matrix (Fin 1) (Fin 1) ℝ) (!![4] : Matrix (Fin 1) (Fin 1) ℝ) !![0] none) (Arr.of !![3])
      (Option.map Arr.of (some (!![1] : Matrix (Fin 1) (Fin 1) ℝ))) (Option.map Arr.of (none : Option (Matrix (Fin 1) (Fin 1) ℝ))) "output".toList
        = .ok (k, x, Arr.of (!![-7] : Matrix (Fin 1) (Fin 1) ℝ)) ∧
    (∀ Q' R' S', CareOk exAreOut (!![1] : Matrix (Fin 1) (Fin 1) ℝ) (!![1] : Matrix (Fin 1) (Fin 1) ℝ) Q' R' (some S')) ∧ Hurwitz (!![-7] : Matrix (Fin 1) (Fin 1) ℝ) := by
  refine ⟨Arr.of !![8], Arr.of !![8], ?_, exAreOut_care, hurwitz_one (by norm_num)⟩
  rw [lqr_output_eq]
  have eq : ((!![4] : Matrix (Fin 1) (Fin 1) ℝ)ᵀ * !![3] * !![4] : Matrix (Fin 1) (Fin 1) ℝ) = !![48] := by
    ext i j; fin_cases i; fin_cases j; simp [Matrix.mul_apply]; norm_num
  have er : ((!![0] : Matrix (Fin 1) (Fin 1) ℝ)ᵀ * !![3] * !![0] + ((none : Option (Matrix (Fin 1) (Fin 1) ℝ)).getD 0)ᵀ * !![0]
      + (!![0] : Matrix (Fin 1) (Fin 1) ℝ)ᵀ * (none : Option (Matrix (Fin 1) (Fin 1) ℝ)).getD 0 + (some !![1] : Option (Matrix (Fin 1) (Fin 1) ℝ)).getD 1 : Matrix (Fin 1) (Fin 1) ℝ) = !![1] := by
    ext i j; fin_cases i; fin_cases j; simp [Matrix.mul_apply]
  have es : ((!![4] : Matrix (Fin 1) (Fin 1) ℝ)ᵀ * !![3] * !![0] + (!![4] : Matrix (Fin 1) (Fin 1) ℝ)ᵀ * (none : Option (Matrix (Fin 1) (Fin 1) ℝ)).getD 0 : Matrix (Fin 1) (Fin 1) ℝ) = !![0] := by
    ext i j; fin_cases i; fin_cases j; simp [Matrix.mul_apply]
  rw [eq, er, es]
  have hd : (!![1] : Matrix (Fin 1) (Fin 1) ℝ).det ≠ 0 := by simp
  have hc := fun M => lqrAddCross_of (K := ℝ) M (some (!![0] : Matrix (Fin 1) (Fin 1) ℝ))
  simp only [Option.map_some] at hc
  unfold lqrSolve
  simp only [Option.isNone_none, if_true, exAreOut, and_self, bind, Except.bind, Arr.T_of, Arr.matmul_of, hc, Arr.solve_of, hd, if_false, Arr.sub_of, Except.ok.injEq, Prod.mk.injEq, Arr.of_inj, true_and]
  refine ⟨?_, ?_⟩
  · ext i j; fin_cases i; fin_cases j
    simp [mat1_inv, Matrix.mul_apply]
  · ext i j; fin_cases i; fin_cases j
    simp [mat1_inv, Matrix.mul_apply, Matrix.vecMul, dotProduct]
    norm_num

-- The hypotheses of the theorems in discrete time are satisfiable: `x(t + 1) = x(t) + u(t)` with the weights 1 and 2, weighted through the output `y = x`, whose closed loop has the eigenvalue `1/2`.
example : ∃ k x, lqr exAreOut (stateOf (!![1] : Matrix (Fin 1) (Fin 1) ℝ) (!![1] : Matrix (Fin 1) (Fin 1) ℝ) (!![1] : Matrix (Fin 1) (Fin 1) ℝ) !![0] (some 1)) (Arr.of !![1])
      (Option.map Arr.of (some (!![2] : Matrix (Fin 1) (Fin 1) ℝ))) (Option.map Arr.of (none : Option (Matrix (Fin 1) (Fin 1) ℝ))) "output".toList
        = .ok (k, x, Arr.of (!![1 / 2] : Matrix (Fin 1) (Fin 1) ℝ)) ∧
    (∀ Q' R' S', DareOk exAreOut (!![1] : Matrix (Fin 1) (Fin 1) ℝ) (!![1] : Matrix (Fin 1) (Fin 1) ℝ) Q' R' (some S')) ∧ Schur (!![1 / 2] : Matrix (Fin 1) (Fin 1) ℝ) := by
  refine ⟨Arr.of !![1 / 2], Arr.of !![2], ?_, exAreOut_dare, schur_one (by rw [abs_of_pos] <;> norm_num)⟩
  rw [lqr_output_eq]
  have eq : ((!![1] : Matrix (Fin 1) (Fin 1) ℝ)ᵀ * !![1] * !![1] : Matrix (Fin 1) (Fin 1) ℝ) = !![1] := by
    ext i j; fin_cases i; fin_cases j; simp [Matrix.mul_apply]
  have er : ((!![0] : Matrix (Fin 1) (Fin 1) ℝ)ᵀ * !![1] * !![0] + ((none : Option (Matrix (Fin 1) (Fin 1) ℝ)).getD 0)ᵀ * !![0]
      + (!![0] : Matrix (Fin 1) (Fin 1) ℝ)ᵀ * (none : Option (Matrix (Fin 1) (Fin 1) ℝ)).getD 0 + (some !![2] : Option (Matrix (Fin 1) (Fin 1) ℝ)).getD 1 : Matrix (Fin 1) (Fin 1) ℝ) = !![2] := by
    ext i j; fin_cases i; fin_cases j; simp [Matrix.mul_apply]
  have es : ((!![1] : Matrix (Fin 1) (Fin 1) ℝ)ᵀ * !![1] * !![0] + (!![1] : Matrix (Fin 1) (Fin 1) ℝ)ᵀ * (none : Option (Matrix (Fin 1) (Fin 1) ℝ)).getD 0 : Matrix (Fin 1) (Fin 1) ℝ) = !![0] := by
    ext i j; fin_cases i; fin_cases j; simp [Matrix.mul_apply]
  rw [eq, er, es]
  have e : ((!![1] : Matrix (Fin 1) (Fin 1) ℝ)ᵀ * !![2] * !![1] + !![2] : Matrix (Fin 1) (Fin 1) ℝ) = !![4] := by
    ext i j; fin_cases i; fin_cases j; simp [Matrix.mul_apply]; norm_num
  have hd : (!![4] : Matrix (Fin 1) (Fin 1) ℝ).det ≠ 0 := by simp
  have hc := fun M => lqrAddCross_of (K := ℝ) M (some (!![0] : Matrix (Fin 1) (Fin 1) ℝ))
  simp only [Option.map_some] at hc
  unfold lqrSolve
  simp only [Option.isNone_some, Bool.false_eq_true, if_false, if_true, exAreOut, and_self, bind, Except.bind, Arr.T_of, Arr.matmul_of, Arr.add_of, hc, e, Arr.solve_of, hd, Arr.sub_of, Except.ok.injEq, Prod.mk.injEq, Arr.of_inj, true_and]
  refine ⟨?_, ?_⟩
  · ext i j; fin_cases i; fin_cases j
    simp [mat1_inv, Matrix.mul_apply, Matrix.vecMul, dotProduct]
    norm_num
  · ext i j; fin_cases i; fin_cases j
    simp [mat1_inv, Matrix.mul_apply, Matrix.vecMul, dotProduct]
    norm_num

end Harold
