import Verif.Props.LqrLoop

/-!
# C113: `lqr` under changes of coordinates, units and weights
-/

namespace Harold

open Matrix Spec

variable {n m p p' : ℕ}

theorem isEig_of_conj {T A : Matrix (Fin n) (Fin n) ℝ} (hT : T.det ≠ 0) {z : ℂ} (h : IsEig (T⁻¹ * A * T) z) : IsEig A z := by
  have hu : IsUnit T.det := Ne.isUnit hT
  unfold IsEig at h ⊢
  have e : z • (1 : Matrix (Fin n) (Fin n) ℂ) - (T⁻¹ * A * T).map (algebraMap ℝ ℂ)
      = T⁻¹.map (algebraMap ℝ ℂ) * (z • 1 - A.map (algebraMap ℝ ℂ)) * T.map (algebraMap ℝ ℂ) := by
    have e1 : T⁻¹.map (algebraMap ℝ ℂ) * T.map (algebraMap ℝ ℂ) = 1 := by
      rw [← Matrix.map_mul, nonsing_inv_mul _ hu]
      simp
    rw [Matrix.map_mul, Matrix.map_mul, Matrix.mul_sub, Matrix.sub_mul, Matrix.mul_smul, Matrix.mul_one, Matrix.smul_mul, e1]
  have hTc : (T.map (algebraMap ℝ ℂ)).det ≠ 0 := by
    rw [show T.map (algebraMap ℝ ℂ) = (algebraMap ℝ ℂ).mapMatrix T from rfl, ← RingHom.map_det]
    simpa using hT
  have hTi : (T⁻¹.map (algebraMap ℝ ℂ)).det ≠ 0 := by
    rw [show T⁻¹.map (algebraMap ℝ ℂ) = (algebraMap ℝ ℂ).mapMatrix T⁻¹ from rfl, ← RingHom.map_det]
    simpa using isUnit_iff_ne_zero.1 (isUnit_nonsing_inv_det T hu)
  rw [e, det_mul, det_mul] at h
  rcases mul_eq_zero.1 h with h | h
  · exact (mul_eq_zero.1 h).resolve_left hTi
  · exact absurd h hTc

section
variable {T A X Q : Matrix (Fin n) (Fin n) ℝ} {B S : Matrix (Fin n) (Fin m) ℝ} {U R : Matrix (Fin m) (Fin m) ℝ} {Kg : Matrix (Fin m) (Fin n) ℝ} (α : ℝ)

theorem cancel_inv (hT : T.det ≠ 0) {k : ℕ} (M : Matrix (Fin n) (Fin k) ℝ) : T * (T⁻¹ * M) = M := mul_nonsing_inv_cancel_left _ _ (Ne.isUnit hT)

theorem cancel_invT (hT : T.det ≠ 0) {k : ℕ} (M : Matrix (Fin n) (Fin k) ℝ) : T⁻¹ᵀ * (Tᵀ * M) = M := by
  rw [transpose_nonsing_inv]
  exact nonsing_inv_mul_cancel_left _ _ (by rw [det_transpose]; exact Ne.isUnit hT)

theorem loop_conj (hT : T.det ≠ 0) (hU : U.det ≠ 0) : T⁻¹ * A * T - T⁻¹ * B * U * (U⁻¹ * Kg * T) = T⁻¹ * (A - B * Kg) * T := by
  simp only [Matrix.mul_assoc, cancel_inv hU, Matrix.mul_sub, Matrix.sub_mul]

theorem care_conj_gain (hT : T.det ≠ 0) (hU : U.det ≠ 0) (hα : α ≠ 0) (hR : R.det ≠ 0) :
    (α • (Uᵀ * R * U))⁻¹ * ((T⁻¹ * B * U)ᵀ * (α • (Tᵀ * X * T)) + (α • (Tᵀ * S * U))ᵀ) = U⁻¹ * (R⁻¹ * (Bᵀ * X + Sᵀ)) * T := by
  have hUu : IsUnit U.det := Ne.isUnit hU
  have e : (α • (Uᵀ * R * U)) * (U⁻¹ * (R⁻¹ * (Bᵀ * X + Sᵀ)) * T) = (T⁻¹ * B * U)ᵀ * (α • (Tᵀ * X * T)) + (α • (Tᵀ * S * U))ᵀ := by
    simp only [transpose_mul, transpose_smul, transpose_transpose, Matrix.mul_smul, Matrix.smul_mul, Matrix.mul_assoc, cancel_inv hU, cancel_inv hR, cancel_invT hT, Matrix.mul_add, Matrix.add_mul, smul_add]
  have hd : (α • (Uᵀ * R * U)).det ≠ 0 := by
    rw [det_smul, det_mul, det_mul, det_transpose]
    exact mul_ne_zero (pow_ne_zero _ hα) (mul_ne_zero (mul_ne_zero hU hR) hU)
  rw [← e, nonsing_inv_mul_cancel_left _ _ (Ne.isUnit hd)]

end

/-- `dare_unique` with the gain of the second solution written out. -/
theorem dare_unique_inv {A X₁ X₂ Q : Matrix (Fin n) (Fin n) ℝ} {B S : Matrix (Fin n) (Fin m) ℝ} {R : Matrix (Fin m) (Fin m) ℝ} {K₁ : Matrix (Fin m) (Fin n) ℝ} (hX₁ : X₁ᵀ = X₁) (hR : Rᵀ = R)
    (hk₁ : (R + Bᵀ * X₁ * B) * K₁ = Bᵀ * X₁ * A + Sᵀ) (hd : (R + Bᵀ * X₂ * B).det ≠ 0)
    (h₁ : Aᵀ * X₁ * A - X₁ - K₁ᵀ * (Bᵀ * X₁ * A + Sᵀ) + Q = 0)
    (h₂ : Aᵀ * X₂ * A - X₂ - (Aᵀ * X₂ * B + S) * (R + Bᵀ * X₂ * B)⁻¹ * (Bᵀ * X₂ * A + Sᵀ) + Q = 0)
    (hs₁ : Schur (A - B * K₁)) (hs₂ : Schur (A - B * ((R + Bᵀ * X₂ * B)⁻¹ * (Bᵀ * X₂ * A + Sᵀ)))) :
    X₁ = X₂ ∧ (R + Bᵀ * X₂ * B)⁻¹ * (Bᵀ * X₂ * A + Sᵀ) = K₁ := by
  obtain rfl : X₁ = X₂ := by
    refine dare_unique hX₁ hR hk₁ (mul_nonsing_inv_cancel_left _ _ (Ne.isUnit hd)) h₁ ?_ hs₁ hs₂
    rw [← Matrix.mul_assoc]
    exact h₂
  exact ⟨rfl, by rw [← hk₁, nonsing_inv_mul_cancel_left _ _ (Ne.isUnit hd)]⟩

section
variable {T A X Q : Matrix (Fin n) (Fin n) ℝ} {B S : Matrix (Fin n) (Fin m) ℝ} {U R : Matrix (Fin m) (Fin m) ℝ} (α : ℝ)

theorem dare_conj_gain (hT : T.det ≠ 0) (hU : U.det ≠ 0) (hd : (R + Bᵀ * X * B).det ≠ 0) :
    (α • (Uᵀ * R * U) + (T⁻¹ * B * U)ᵀ * (α • (Tᵀ * X * T)) * (T⁻¹ * B * U)) * (U⁻¹ * ((R + Bᵀ * X * B)⁻¹ * (Bᵀ * X * A + Sᵀ)) * T)
      = (T⁻¹ * B * U)ᵀ * (α • (Tᵀ * X * T)) * (T⁻¹ * A * T) + (α • (Tᵀ * S * U))ᵀ := by
  have eP : α • (Uᵀ * R * U) + (T⁻¹ * B * U)ᵀ * (α • (Tᵀ * X * T)) * (T⁻¹ * B * U) = α • (Uᵀ * (R + Bᵀ * X * B) * U) := by
    simp only [transpose_mul, Matrix.mul_smul, Matrix.smul_mul, Matrix.mul_assoc, cancel_inv hT, cancel_invT hT, Matrix.mul_add, Matrix.add_mul, smul_add]
  have eB : (T⁻¹ * B * U)ᵀ * (α • (Tᵀ * X * T)) * (T⁻¹ * A * T) + (α • (Tᵀ * S * U))ᵀ = α • (Uᵀ * (Bᵀ * X * A + Sᵀ) * T) := by
    simp only [transpose_mul, transpose_smul, transpose_transpose, Matrix.mul_smul, Matrix.smul_mul, Matrix.mul_assoc, cancel_inv hT, cancel_invT hT, Matrix.mul_add, Matrix.add_mul, smul_add]
  rw [eP, eB]
  generalize R + Bᵀ * X * B = P at hd
  simp only [Matrix.smul_mul, Matrix.mul_assoc, cancel_inv hU, cancel_inv hd]

theorem dare_conj (hT : T.det ≠ 0) (hU : U.det ≠ 0) (hX : Xᵀ = X) (hR : Rᵀ = R)
    (e : Aᵀ * X * A - X - (Aᵀ * X * B + S) * (R + Bᵀ * X * B)⁻¹ * (Bᵀ * X * A + Sᵀ) + Q = 0) :
    (T⁻¹ * A * T)ᵀ * (α • (Tᵀ * X * T)) * (T⁻¹ * A * T) - α • (Tᵀ * X * T) - (U⁻¹ * ((R + Bᵀ * X * B)⁻¹ * (Bᵀ * X * A + Sᵀ)) * T)ᵀ *
      ((T⁻¹ * B * U)ᵀ * (α • (Tᵀ * X * T)) * (T⁻¹ * A * T) + (α • (Tᵀ * S * U))ᵀ) + α • (Tᵀ * Q * T) = 0 := by
  have hPi : (R + Bᵀ * X * B)⁻¹ᵀ = (R + Bᵀ * X * B)⁻¹ := by
    rw [transpose_nonsing_inv, transpose_add, hR, transpose_mul, transpose_mul, transpose_transpose, hX, Matrix.mul_assoc]
  generalize (R + Bᵀ * X * B)⁻¹ = P at hPi e
  have e2 := congrArg (fun Y => α • (Tᵀ * Y * T)) e
  simp only [Matrix.mul_zero, Matrix.zero_mul, smul_zero] at e2
  rw [← e2]
  simp only [transpose_mul, transpose_add, transpose_smul, transpose_transpose, hPi, hX, Matrix.mul_smul, Matrix.smul_mul, Matrix.mul_assoc, cancel_invT hU, cancel_inv hT, cancel_invT hT, Matrix.mul_add, Matrix.add_mul,
    Matrix.mul_sub, Matrix.sub_mul, smul_add, smul_sub]

end

/-- **C113, continuous time.** Two calls whose closed loops are stable, the second one for the model in other coordinates of the states and inputs and with all weights multiplied by a number:
`x = T x'`, `u = U u'`. The gain and the closed loop are those of the first call in the new coordinates and do not depend on the number; `X` is transformed and multiplied. -/
theorem C113_continuous (N N' : AreNum ℝ) (A : Matrix (Fin n) (Fin n) ℝ) (B : Matrix (Fin n) (Fin m) ℝ) (C : Matrix (Fin p) (Fin n) ℝ) (D : Matrix (Fin p) (Fin m) ℝ)
    (C' : Matrix (Fin p') (Fin n) ℝ) (D' : Matrix (Fin p') (Fin m) ℝ) (T : Matrix (Fin n) (Fin n) ℝ) (U : Matrix (Fin m) (Fin m) ℝ) (hT : T.det ≠ 0) (hU : U.det ≠ 0) {α : ℝ} (hα : α ≠ 0)
    (Q : Matrix (Fin n) (Fin n) ℝ) (R R' : Option (Matrix (Fin m) (Fin m) ℝ)) (S S' : Option (Matrix (Fin n) (Fin m) ℝ)) (w w' : List Char)
    (hR' : R'.getD 1 = α • (Uᵀ * R.getD 1 * U)) (hS' : S'.getD 0 = α • (Tᵀ * S.getD 0 * U))
    (hw : w ≠ "output".toList) (hw' : w' ≠ "output".toList) (hN : CareOk N A B Q (R.getD 1) S)
    (hN' : CareOk N' (T⁻¹ * A * T) (T⁻¹ * B * U) (α • (Tᵀ * Q * T)) (R'.getD 1) S') {k x k' x' : Arr ℝ} {Acl Acl' : Matrix (Fin n) (Fin n) ℝ}
    (h : lqr N (stateOf A B C D none) (Arr.of Q) (R.map Arr.of) (S.map Arr.of) w = .ok (k, x, Arr.of Acl))
    (h' : lqr N' (stateOf (T⁻¹ * A * T) (T⁻¹ * B * U) C' D' none) (Arr.of (α • (Tᵀ * Q * T))) (R'.map Arr.of) (S'.map Arr.of) w' = .ok (k', x', Arr.of Acl'))
    (hH : Hurwitz Acl) (hH' : Hurwitz Acl') :
    ∃ (Kg : Matrix (Fin m) (Fin n) ℝ) (X : Matrix (Fin n) (Fin n) ℝ), k = Arr.of Kg ∧ x = Arr.of X ∧
      k' = Arr.of (U⁻¹ * Kg * T) ∧ x' = Arr.of (α • (Tᵀ * X * T)) ∧ Acl' = T⁻¹ * Acl * T := by
  obtain ⟨X, rfl, hX, hR, hd, rfl, hacl, e⟩ := lqr_cont_parts N hw hN h
  obtain ⟨X', rfl, hX', hRt', hd', rfl, hacl', e'⟩ := lqr_cont_parts N' hw' hN' h'
  obtain rfl := Arr.of_inj.1 hacl
  obtain rfl := Arr.of_inj.1 hacl'
  have hg := care_conj_gain (T := T) (X := X) (B := B) (S := S.getD 0) (U := U) α hT hU hα hd
  rw [← hR', ← hS'] at hg
  have key : α • (Tᵀ * X * T) = X' := by
    refine care_unique (A := T⁻¹ * A * T) (B := T⁻¹ * B * U) (S := S'.getD 0) (Q := α • (Tᵀ * Q * T)) ?_ hX' hRt' hd' ?_ e' ?_ hH'
    · simp only [transpose_smul, transpose_mul, transpose_transpose, hX, Matrix.mul_assoc]
    · rw [Matrix.mul_assoc ((α • (Tᵀ * X * T)) * (T⁻¹ * B * U) + S'.getD 0), hg, hS']
      have e2 := congrArg (fun Y => α • (Tᵀ * Y * T)) e
      simp only [Matrix.mul_zero, Matrix.zero_mul, smul_zero] at e2
      rw [← e2]
      simp only [transpose_mul, Matrix.mul_smul, Matrix.smul_mul, Matrix.mul_assoc, cancel_inv hU, cancel_inv hT, cancel_invT hT, Matrix.mul_add, Matrix.add_mul, Matrix.mul_sub, Matrix.sub_mul, smul_add, smul_sub]
    · rw [hg, loop_conj hT hU]
      exact fun z hz => hH z (isEig_of_conj hT hz)
  rw [← key, hg]
  exact ⟨_, X, rfl, rfl, rfl, rfl, loop_conj hT hU⟩

/-- **C113, discrete time.** -/
theorem C113_discrete (N N' : AreNum ℝ) (A : Matrix (Fin n) (Fin n) ℝ) (B : Matrix (Fin n) (Fin m) ℝ) (C : Matrix (Fin p) (Fin n) ℝ) (D : Matrix (Fin p) (Fin m) ℝ)
    (C' : Matrix (Fin p') (Fin n) ℝ) (D' : Matrix (Fin p') (Fin m) ℝ) (dt dt' : ℝ) (T : Matrix (Fin n) (Fin n) ℝ) (U : Matrix (Fin m) (Fin m) ℝ) (hT : T.det ≠ 0) (hU : U.det ≠ 0) {α : ℝ} (hα : α ≠ 0)
    (Q : Matrix (Fin n) (Fin n) ℝ) (R R' : Option (Matrix (Fin m) (Fin m) ℝ)) (S S' : Option (Matrix (Fin n) (Fin m) ℝ)) (w w' : List Char)
    (hR' : R'.getD 1 = α • (Uᵀ * R.getD 1 * U)) (hS' : S'.getD 0 = α • (Tᵀ * S.getD 0 * U))
    (hw : w ≠ "output".toList) (hw' : w' ≠ "output".toList) (hN : DareOk N A B Q (R.getD 1) S)
    (hN' : DareOk N' (T⁻¹ * A * T) (T⁻¹ * B * U) (α • (Tᵀ * Q * T)) (R'.getD 1) S') {k x k' x' : Arr ℝ} {Acl Acl' : Matrix (Fin n) (Fin n) ℝ}
    (h : lqr N (stateOf A B C D (some dt)) (Arr.of Q) (R.map Arr.of) (S.map Arr.of) w = .ok (k, x, Arr.of Acl))
    (h' : lqr N' (stateOf (T⁻¹ * A * T) (T⁻¹ * B * U) C' D' (some dt')) (Arr.of (α • (Tᵀ * Q * T))) (R'.map Arr.of) (S'.map Arr.of) w' = .ok (k', x', Arr.of Acl'))
    (hH : Schur Acl) (hH' : Schur Acl') :
    ∃ (Kg : Matrix (Fin m) (Fin n) ℝ) (X : Matrix (Fin n) (Fin n) ℝ), k = Arr.of Kg ∧ x = Arr.of X ∧
      k' = Arr.of (U⁻¹ * Kg * T) ∧ x' = Arr.of (α • (Tᵀ * X * T)) ∧ Acl' = T⁻¹ * Acl * T := by
  obtain ⟨X, rfl, hX, hR, hd, rfl, hacl, e⟩ := lqr_disc_parts N hw hN h
  obtain ⟨X', rfl, hX', hRt', hd', rfl, hacl', e'⟩ := lqr_disc_parts N' hw' hN' h'
  obtain rfl := Arr.of_inj.1 hacl
  obtain rfl := Arr.of_inj.1 hacl'
  have hk := dare_conj_gain (A := A) (S := S.getD 0) α hT hU hd
  have hq := dare_conj (S := S.getD 0) (Q := Q) α hT hU hX hR e
  rw [← hR', ← hS'] at hk
  rw [← hS'] at hq
  obtain ⟨key, hg⟩ := dare_unique_inv (by simp only [transpose_smul, transpose_mul, transpose_transpose, hX, Matrix.mul_assoc]) hRt' hk hd' hq e'
    (by rw [loop_conj hT hU]; exact fun z hz => hH z (isEig_of_conj hT hz)) hH'
  rw [hg, ← key]
  exact ⟨_, X, rfl, rfl, rfl, rfl, loop_conj hT hU⟩

/-- **C113, larger weights in continuous time.** If the weights of the second call cost at least as much as those of the first one for every state and input, then its least cost is at least as large. -/
theorem C113_larger_continuous (N N' : AreNum ℝ) (A : Matrix (Fin n) (Fin n) ℝ) (B : Matrix (Fin n) (Fin m) ℝ) (C : Matrix (Fin p) (Fin n) ℝ) (D : Matrix (Fin p) (Fin m) ℝ)
    (C' : Matrix (Fin p') (Fin n) ℝ) (D' : Matrix (Fin p') (Fin m) ℝ)
    (Q Q' : Matrix (Fin n) (Fin n) ℝ) (R R' : Option (Matrix (Fin m) (Fin m) ℝ)) (S S' : Option (Matrix (Fin n) (Fin m) ℝ)) (w w' : List Char)
    (hle : ∀ x u, cost Q (S.getD 0) (R.getD 1) x u ≤ cost Q' (S'.getD 0) (R'.getD 1) x u) (hR : ∀ v, 0 ≤ v ⬝ᵥ R.getD 1 *ᵥ v)
    (hw : w ≠ "output".toList) (hw' : w' ≠ "output".toList) (hN : CareOk N A B Q (R.getD 1) S) (hN' : CareOk N' A B Q' (R'.getD 1) S') {k x acl k' x' : Arr ℝ} {Acl' : Matrix (Fin n) (Fin n) ℝ}
    (h : lqr N (stateOf A B C D none) (Arr.of Q) (R.map Arr.of) (S.map Arr.of) w = .ok (k, x, acl))
    (h' : lqr N' (stateOf A B C' D' none) (Arr.of Q') (R'.map Arr.of) (S'.map Arr.of) w' = .ok (k', x', Arr.of Acl')) (hH' : Hurwitz Acl') :
    ∃ X X' : Matrix (Fin n) (Fin n) ℝ, x = Arr.of X ∧ x' = Arr.of X' ∧ ∀ x₀, x₀ ⬝ᵥ X *ᵥ x₀ ≤ x₀ ⬝ᵥ X' *ᵥ x₀ := by
  obtain ⟨Kg, X, -, hx, -, -, H⟩ := C57_continuous N A B C D Q R S w hw hN h
  have hR' : ∀ v, 0 ≤ v ⬝ᵥ R'.getD 1 *ᵥ v := fun v => by
    have := hle 0 v
    simp only [cost, zero_dotProduct, mulVec_zero, dotProduct_zero, zero_add] at this
    exact (hR v).trans this
  obtain ⟨Kg', X', -, hx', H'⟩ := C85_optimal_continuous N' A B C' D' Q' R' S' w' hw' hN' h' hR' hH'
  refine ⟨X, X', hx, hx', fun x₀ => ?_⟩
  obtain ⟨-, z, u, ⟨rfl, hu, hz, hz0⟩, -, hJ⟩ := H' x₀
  have hq := bil_tendsto hz0 hz0 X
  have hlim : Filter.Tendsto (fun T => z 0 ⬝ᵥ X *ᵥ z 0 - z T ⬝ᵥ X *ᵥ z T) Filter.atTop (nhds (z 0 ⬝ᵥ X *ᵥ z 0)) := by
    simpa using (tendsto_const_nhds (x := z 0 ⬝ᵥ X *ᵥ z 0)).sub hq
  refine le_of_tendsto_of_tendsto hlim hJ ?_
  filter_upwards [Filter.eventually_ge_atTop 0] with τ hτ
  have huτ : ContinuousOn u (Set.uIcc 0 τ) := by rw [Set.uIcc_of_le hτ]; exact hu.mono fun t ht => ht.1
  have hzτ : ContinuousOn z (Set.uIcc 0 τ) := by rw [Set.uIcc_of_le hτ]; exact fun t ht => (hz t ht.1).continuousAt.continuousWithinAt
  have hc : ∀ (Q : Matrix (Fin n) (Fin n) ℝ) (S : Matrix (Fin n) (Fin m) ℝ) (R : Matrix (Fin m) (Fin m) ℝ), ContinuousOn (fun t => cost Q S R (z t) (u t)) (Set.uIcc 0 τ) := fun Q S R =>
    (((continuousOn_bil _ hzτ hzτ).add (continuousOn_bil _ hzτ huτ)).add (continuousOn_bil _ huτ hzτ)).add (continuousOn_bil _ huτ huτ)
  have h1 := intervalIntegral.integral_mono_on (μ := MeasureTheory.volume) hτ (hc Q (S.getD 0) (R.getD 1)).intervalIntegrable (hc Q' (S'.getD 0) (R'.getD 1)).intervalIntegrable (fun t _ => hle (z t) (u t))
  rw [H z u τ hτ (hu.mono fun t ht => ht.1) fun t ht => hz t ht.1] at h1
  exact (le_add_of_nonneg_right (intervalIntegral.integral_nonneg hτ fun t _ => hR _)).trans h1

/-- **C113, larger weights in discrete time.** -/
theorem C113_larger_discrete (N N' : AreNum ℝ) (A : Matrix (Fin n) (Fin n) ℝ) (B : Matrix (Fin n) (Fin m) ℝ) (C : Matrix (Fin p) (Fin n) ℝ) (D : Matrix (Fin p) (Fin m) ℝ)
    (C' : Matrix (Fin p') (Fin n) ℝ) (D' : Matrix (Fin p') (Fin m) ℝ) (dt dt' : ℝ)
    (Q Q' : Matrix (Fin n) (Fin n) ℝ) (R R' : Option (Matrix (Fin m) (Fin m) ℝ)) (S S' : Option (Matrix (Fin n) (Fin m) ℝ)) (w w' : List Char)
    (hle : ∀ x u, cost Q (S.getD 0) (R.getD 1) x u ≤ cost Q' (S'.getD 0) (R'.getD 1) x u) (hc : CostNonneg Q (S.getD 0) (R.getD 1))
    (hw : w ≠ "output".toList) (hw' : w' ≠ "output".toList) (hN : DareOk N A B Q (R.getD 1) S) (hN' : DareOk N' A B Q' (R'.getD 1) S') {k x k' x' : Arr ℝ} {Acl Acl' : Matrix (Fin n) (Fin n) ℝ}
    (h : lqr N (stateOf A B C D (some dt)) (Arr.of Q) (R.map Arr.of) (S.map Arr.of) w = .ok (k, x, Arr.of Acl))
    (h' : lqr N' (stateOf A B C' D' (some dt')) (Arr.of Q') (R'.map Arr.of) (S'.map Arr.of) w' = .ok (k', x', Arr.of Acl')) (hH : Schur Acl) (hH' : Schur Acl') :
    ∃ X X' : Matrix (Fin n) (Fin n) ℝ, x = Arr.of X ∧ x' = Arr.of X' ∧ ∀ x₀, x₀ ⬝ᵥ X *ᵥ x₀ ≤ x₀ ⬝ᵥ X' *ᵥ x₀ := by
  obtain ⟨Kg, X, -, hx, -, -, H⟩ := C57_discrete N A B C D dt Q R S w hw hN h
  obtain ⟨Kg1, X1, -, hx1, H1⟩ := C85_optimal_discrete N A B C D dt Q R S w hw hN h hc hH
  obtain rfl := Arr.of_inj.1 (hx.symm.trans hx1)
  obtain ⟨Kg', X', -, hx', H'⟩ := C85_optimal_discrete N' A B C' D' dt' Q' R' S' w' hw' hN' h' (fun x u => (hc x u).trans (hle x u)) hH'
  have hpsd : ∀ v, 0 ≤ v ⬝ᵥ X *ᵥ v := fun v => by
    obtain ⟨-, z, u, -, -, hJ⟩ := H1 v
    exact ge_of_tendsto' hJ fun T => Finset.sum_nonneg fun t _ => hc _ _
  have hP : ∀ v, 0 ≤ v ⬝ᵥ (R.getD 1 + Bᵀ * X * B) *ᵥ v := fun v => by
    rw [add_mulVec, dotProduct_add, ← mulVec_mulVec, ← mulVec_mulVec, ← bil_left]
    exact add_nonneg (weight_psd hc v) (hpsd _)
  refine ⟨X, X', hx, hx', fun x₀ => ?_⟩
  obtain ⟨-, z, u, ⟨rfl, hz, hz0⟩, -, hJ⟩ := H' x₀
  have hq := bil_tendsto hz0 hz0 X
  have hlim : Filter.Tendsto (fun T => z 0 ⬝ᵥ X *ᵥ z 0 - z T ⬝ᵥ X *ᵥ z T) Filter.atTop (nhds (z 0 ⬝ᵥ X *ᵥ z 0)) := by
    simpa using (tendsto_const_nhds (x := z 0 ⬝ᵥ X *ᵥ z 0)).sub hq
  refine le_of_tendsto_of_tendsto' hlim hJ fun T => ?_
  have h1 := Finset.sum_le_sum (s := Finset.range T) fun t _ => hle (z t) (u t)
  rw [H z u hz T] at h1
  exact (le_add_of_nonneg_right (Finset.sum_nonneg fun t _ => hP _)).trans h1

/-! ## Instances -/

/-- `X` is a stabilizing solution of the continuous Riccati equation. -/
def CareSol (A : Matrix (Fin n) (Fin n) ℝ) (B : Matrix (Fin n) (Fin m) ℝ) (Q : Matrix (Fin n) (Fin n) ℝ) (R : Matrix (Fin m) (Fin m) ℝ) (S : Option (Matrix (Fin n) (Fin m) ℝ)) (X : Matrix (Fin n) (Fin n) ℝ) : Prop :=
  Xᵀ = X ∧ Rᵀ = R ∧ Aᵀ * X + X * A - (X * B + S.getD 0) * R⁻¹ * (Bᵀ * X + (S.getD 0)ᵀ) + Q = 0 ∧ Hurwitz (A - B * (R⁻¹ * (Bᵀ * X + (S.getD 0)ᵀ)))

/-- `X` is a stabilizing solution of the discrete Riccati equation. -/
def DareSol (A : Matrix (Fin n) (Fin n) ℝ) (B : Matrix (Fin n) (Fin m) ℝ) (Q : Matrix (Fin n) (Fin n) ℝ) (R : Matrix (Fin m) (Fin m) ℝ) (S : Option (Matrix (Fin n) (Fin m) ℝ)) (X : Matrix (Fin n) (Fin n) ℝ) : Prop :=
  Xᵀ = X ∧ Rᵀ = R ∧ Aᵀ * X * A - X - (Aᵀ * X * B + S.getD 0) * (R + Bᵀ * X * B)⁻¹ * (Bᵀ * X * A + (S.getD 0)ᵀ) + Q = 0 ∧
    (R + Bᵀ * X * B).det ≠ 0 ∧ Schur (A - B * ((R + Bᵀ * X * B)⁻¹ * (Bᵀ * X * A + (S.getD 0)ᵀ)))

/-- A relation on matrices, for arrays. -/
def OnArr (P : ∀ {n m : ℕ}, Matrix (Fin n) (Fin n) ℝ → Matrix (Fin n) (Fin m) ℝ → Matrix (Fin n) (Fin n) ℝ → Matrix (Fin m) (Fin m) ℝ → Option (Matrix (Fin n) (Fin m) ℝ) → Matrix (Fin n) (Fin n) ℝ → Prop)
    (a b q r : Arr ℝ) (s : Option (Arr ℝ)) (x : Arr ℝ) : Prop :=
  ∃ (n m : ℕ) (A : Matrix (Fin n) (Fin n) ℝ) (B : Matrix (Fin n) (Fin m) ℝ) (Q : Matrix (Fin n) (Fin n) ℝ) (R : Matrix (Fin m) (Fin m) ℝ) (S : Option (Matrix (Fin n) (Fin m) ℝ))
    (X : Matrix (Fin n) (Fin n) ℝ), a = Arr.of A ∧ b = Arr.of B ∧ q = Arr.of Q ∧ r = Arr.of R ∧ s = S.map Arr.of ∧ x = Arr.of X ∧ P A B Q R S X

theorem onArr_of {P : ∀ {n m : ℕ}, Matrix (Fin n) (Fin n) ℝ → Matrix (Fin n) (Fin m) ℝ → Matrix (Fin n) (Fin n) ℝ → Matrix (Fin m) (Fin m) ℝ → Option (Matrix (Fin n) (Fin m) ℝ) → Matrix (Fin n) (Fin n) ℝ → Prop}
    {A : Matrix (Fin n) (Fin n) ℝ} {B : Matrix (Fin n) (Fin m) ℝ} {Q : Matrix (Fin n) (Fin n) ℝ} {R : Matrix (Fin m) (Fin m) ℝ} {S : Option (Matrix (Fin n) (Fin m) ℝ)} {x : Arr ℝ}
    (h : OnArr P (Arr.of A) (Arr.of B) (Arr.of Q) (Arr.of R) (S.map Arr.of) x) : ∃ X, x = Arr.of X ∧ P A B Q R S X := by
  obtain ⟨n', m', A', B', Q', R', S', X, hA, hB, hQ, hR, hS, hx, h⟩ := h
  obtain rfl : n = n' := congrArg Arr.r hA
  obtain rfl : m = m' := congrArg Arr.r hR
  obtain rfl := Arr.of_inj.1 hA
  obtain rfl := Arr.of_inj.1 hB
  obtain rfl := Arr.of_inj.1 hQ
  obtain rfl := Arr.of_inj.1 hR
  obtain rfl := Option.map_injective (fun _ _ h => Arr.of_inj.1 h) hS
  exact ⟨X, hx, h⟩

open Classical in
/-- Riccati solvers that return a stabilizing solution whenever there is one. -/
noncomputable def exactAre : AreNum ℝ where
  care a b q r s := if h : ∃ x, OnArr CareSol a b q r s x then .ok h.choose else .error .linAlg
  dare a b q r s := if h : ∃ x, OnArr DareSol a b q r s x then .ok h.choose else .error .linAlg

section
variable (A : Matrix (Fin n) (Fin n) ℝ) (B : Matrix (Fin n) (Fin m) ℝ) (C : Matrix (Fin p) (Fin n) ℝ) (D : Matrix (Fin p) (Fin m) ℝ) (Q : Matrix (Fin n) (Fin n) ℝ)
  (R : Option (Matrix (Fin m) (Fin m) ℝ)) (S : Option (Matrix (Fin n) (Fin m) ℝ))

theorem exactAre_care (R : Matrix (Fin m) (Fin m) ℝ) : CareOk exactAre A B Q R S := by
  intro x hx
  unfold exactAre at hx
  simp only at hx
  split_ifs at hx with h
  obtain rfl := Except.ok.inj hx
  obtain ⟨X, hX, h1, h2, h3, -⟩ := onArr_of h.choose_spec
  exact ⟨X, hX, h1, h2, h3⟩

theorem exactAre_dare (R : Matrix (Fin m) (Fin m) ℝ) : DareOk exactAre A B Q R S := by
  intro x hx
  unfold exactAre at hx
  simp only at hx
  split_ifs at hx with h
  obtain rfl := Except.ok.inj hx
  obtain ⟨X, hX, h1, h2, h3, -⟩ := onArr_of h.choose_spec
  exact ⟨X, hX, h1, h2, h3⟩

/-- With such solvers `lqr` returns and stabilizes whenever there is a stabilizing solution. -/
theorem exactAre_lqr_cont (hd : (R.getD 1).det ≠ 0) {X : Matrix (Fin n) (Fin n) ℝ} (hX : CareSol A B Q (R.getD 1) S X) :
    ∃ (k x : Arr ℝ) (Acl : Matrix (Fin n) (Fin n) ℝ), lqr exactAre (stateOf A B C D none) (Arr.of Q) (R.map Arr.of) (S.map Arr.of) "state".toList = .ok (k, x, Arr.of Acl) ∧ Hurwitz Acl := by
  have hex : ∃ x, OnArr CareSol (Arr.of A) (Arr.of B) (Arr.of Q) (Arr.of (R.getD 1)) (S.map Arr.of) x := ⟨Arr.of X, n, m, A, B, Q, R.getD 1, S, X, rfl, rfl, rfl, rfl, rfl, rfl, hX⟩
  obtain ⟨Y, hY, -, -, -, hH⟩ := onArr_of hex.choose_spec
  have hc : exactAre.care (Arr.of A) (Arr.of B) (Arr.of Q) (Arr.of (R.getD 1)) (S.map Arr.of) = .ok (Arr.of Y) := by
    unfold exactAre
    simp only [dif_pos hex, hY]
  have eR : (R.map Arr.of).getD (Arr.eye (Arr.of D).c) = Arr.of (R.getD 1) := by cases R <;> rfl
  refine ⟨Arr.of ((R.getD 1)⁻¹ * (Bᵀ * Y + (S.getD 0)ᵀ)), Arr.of Y, _, ?_, hH⟩
  unfold lqr stateOf
  simp only [show weightAccepted "state".toList by decide, show "state".toList ≠ strOutput by decide, not_true, if_false, Bool.false_eq_true, eR]
  unfold lqrSolve
  simp only [Option.isNone_none, if_true, hc, bind, Except.bind, Arr.T_of, Arr.matmul_of, lqrAddCross_of, Arr.solve_of, hd, if_false, Arr.sub_of]

theorem exactAre_lqr_disc (dt : ℝ) {X : Matrix (Fin n) (Fin n) ℝ} (hX : DareSol A B Q (R.getD 1) S X) :
    ∃ (k x : Arr ℝ) (Acl : Matrix (Fin n) (Fin n) ℝ), lqr exactAre (stateOf A B C D (some dt)) (Arr.of Q) (R.map Arr.of) (S.map Arr.of) "state".toList = .ok (k, x, Arr.of Acl) ∧ Schur Acl := by
  have hex : ∃ x, OnArr DareSol (Arr.of A) (Arr.of B) (Arr.of Q) (Arr.of (R.getD 1)) (S.map Arr.of) x := ⟨Arr.of X, n, m, A, B, Q, R.getD 1, S, X, rfl, rfl, rfl, rfl, rfl, rfl, hX⟩
  obtain ⟨Y, hY, -, -, -, hd, hH⟩ := onArr_of hex.choose_spec
  have hc : exactAre.dare (Arr.of A) (Arr.of B) (Arr.of Q) (Arr.of (R.getD 1)) (S.map Arr.of) = .ok (Arr.of Y) := by
    unfold exactAre
    simp only [dif_pos hex, hY]
  have eR : (R.map Arr.of).getD (Arr.eye (Arr.of D).c) = Arr.of (R.getD 1) := by cases R <;> rfl
  refine ⟨Arr.of ((R.getD 1 + Bᵀ * Y * B)⁻¹ * (Bᵀ * Y * A + (S.getD 0)ᵀ)), Arr.of Y, _, ?_, hH⟩
  unfold lqr stateOf
  simp only [show weightAccepted "state".toList by decide, show "state".toList ≠ strOutput by decide, not_true, if_false, Bool.false_eq_true, eR]
  unfold lqrSolve
  rw [add_comm] at hd
  simp only [Option.isNone_some, Bool.false_eq_true, hc, bind, Except.bind, Arr.T_of, Arr.matmul_of, lqrAddCross_of, Arr.solve_of, Arr.add_of, hd, if_false, Arr.sub_of, add_comm (R.getD 1)]

end

/-- `x' = x + u` with the weights 3 and 1: `X = 3`. -/
theorem careSol_one : CareSol (!![1] : Matrix (Fin 1) (Fin 1) ℝ) (!![1] : Matrix (Fin 1) (Fin 1) ℝ) !![3] !![1] none !![3] := by
  refine ⟨by ext i j; fin_cases i; fin_cases j; rfl, by ext i j; fin_cases i; fin_cases j; rfl, ?_, ?_⟩
  · ext i j; fin_cases i; fin_cases j
    simp [mat1_inv, Matrix.mul_apply, Matrix.vecMul, dotProduct]; norm_num
  · convert hurwitz_one (a := -2) (by norm_num) using 1
    ext i j; fin_cases i; fin_cases j
    simp [mat1_inv, Matrix.mul_apply, Matrix.vecMul, dotProduct]; norm_num

/-- The same in other units, `x = 2 x'`, `u = 3 u'`, with the weights multiplied by 5: `X = 60`. -/
theorem careSol_two : CareSol ((!![2] : Matrix (Fin 1) (Fin 1) ℝ)⁻¹ * !![1] * !![2]) ((!![2] : Matrix (Fin 1) (Fin 1) ℝ)⁻¹ * !![1] * !![3]) ((5 : ℝ) • ((!![2] : Matrix (Fin 1) (Fin 1) ℝ)ᵀ * !![3] * !![2]))
    ((5 : ℝ) • ((!![3] : Matrix (Fin 1) (Fin 1) ℝ)ᵀ * !![1] * !![3])) none !![60] := by
  have e1 : (5 : ℝ) • ((!![3] : Matrix (Fin 1) (Fin 1) ℝ)ᵀ * !![1] * !![3]) = !![45] := by
    ext i j; fin_cases i; fin_cases j; simp [Matrix.mul_apply]; norm_num
  have e2 : (5 : ℝ) • ((!![2] : Matrix (Fin 1) (Fin 1) ℝ)ᵀ * !![3] * !![2]) = !![60] := by
    ext i j; fin_cases i; fin_cases j; simp [Matrix.mul_apply]; norm_num
  have e3 : ((!![2] : Matrix (Fin 1) (Fin 1) ℝ)⁻¹ * !![1] * !![2]) = !![1] := by
    ext i j; fin_cases i; fin_cases j; simp [mat1_inv, Matrix.mul_apply]
  have e4 : ((!![2] : Matrix (Fin 1) (Fin 1) ℝ)⁻¹ * !![1] * !![3]) = !![3 / 2] := by
    ext i j; fin_cases i; fin_cases j; simp [mat1_inv, Matrix.mul_apply]; norm_num
  rw [e1, e2, e3, e4]
  refine ⟨by ext i j; fin_cases i; fin_cases j; rfl, by ext i j; fin_cases i; fin_cases j; rfl, ?_, ?_⟩
  · ext i j; fin_cases i; fin_cases j
    simp [mat1_inv, Matrix.mul_apply, Matrix.vecMul, dotProduct]; norm_num
  · convert hurwitz_one (a := -2) (by norm_num) using 1
    ext i j; fin_cases i; fin_cases j
    simp [mat1_inv, Matrix.mul_apply, Matrix.vecMul, dotProduct]; norm_num

-- The hypotheses of `C113_continuous` are satisfiable.
example : ∃ (k x k' x' : Arr ℝ) (Acl Acl' : Matrix (Fin 1) (Fin 1) ℝ),
    lqr exactAre (stateOf (!![1] : Matrix (Fin 1) (Fin 1) ℝ) (!![1] : Matrix (Fin 1) (Fin 1) ℝ) (!![1] : Matrix (Fin 1) (Fin 1) ℝ) !![0] none) (Arr.of !![3])
      ((some !![1] : Option (Matrix (Fin 1) (Fin 1) ℝ)).map Arr.of) ((none : Option (Matrix (Fin 1) (Fin 1) ℝ)).map Arr.of) "state".toList = .ok (k, x, Arr.of Acl) ∧
    lqr exactAre (stateOf ((!![2] : Matrix (Fin 1) (Fin 1) ℝ)⁻¹ * !![1] * !![2]) ((!![2] : Matrix (Fin 1) (Fin 1) ℝ)⁻¹ * !![1] * !![3]) (!![1] : Matrix (Fin 1) (Fin 1) ℝ) !![0] none)
      (Arr.of ((5 : ℝ) • ((!![2] : Matrix (Fin 1) (Fin 1) ℝ)ᵀ * !![3] * !![2]))) ((some ((5 : ℝ) • ((!![3] : Matrix (Fin 1) (Fin 1) ℝ)ᵀ * !![1] * !![3])) : Option (Matrix (Fin 1) (Fin 1) ℝ)).map Arr.of)
      ((none : Option (Matrix (Fin 1) (Fin 1) ℝ)).map Arr.of) "state".toList = .ok (k', x', Arr.of Acl') ∧ Hurwitz Acl ∧ Hurwitz Acl' ∧
    ∃ Kg : Matrix (Fin 1) (Fin 1) ℝ, k = Arr.of Kg ∧ k' = Arr.of ((!![3] : Matrix (Fin 1) (Fin 1) ℝ)⁻¹ * Kg * !![2]) := by
  obtain ⟨k, x, Acl, h, hH⟩ := exactAre_lqr_cont !![1] !![1] (!![1] : Matrix (Fin 1) (Fin 1) ℝ) !![0] !![3] (some !![1]) none (by simp) careSol_one
  obtain ⟨k', x', Acl', h', hH'⟩ := exactAre_lqr_cont _ _ (!![1] : Matrix (Fin 1) (Fin 1) ℝ) !![0] _ (some ((5 : ℝ) • ((!![3] : Matrix (Fin 1) (Fin 1) ℝ)ᵀ * !![1] * !![3]))) none (by simp [Matrix.mul_apply]) careSol_two
  obtain ⟨Kg, X, h1, -, h2, -⟩ := C113_continuous exactAre exactAre !![1] !![1] (!![1] : Matrix (Fin 1) (Fin 1) ℝ) !![0] (!![1] : Matrix (Fin 1) (Fin 1) ℝ) !![0] !![2] !![3] (by simp) (by simp) (α := 5) (by norm_num) !![3]
    (some !![1]) (some ((5 : ℝ) • ((!![3] : Matrix (Fin 1) (Fin 1) ℝ)ᵀ * !![1] * !![3]))) none none _ _ rfl (by simp) (by decide) (by decide) (exactAre_care _ _ _ _ _) (exactAre_care _ _ _ _ _) h h' hH hH'
  exact ⟨k, x, k', x', Acl, Acl', h, h', hH, hH', Kg, h1, h2⟩

/-- `x(t + 1) = x(t) + u(t)` with the weights `q` and `2 q`: `X = 2 q`. -/
theorem dareSol_one {q : ℝ} (hq : q ≠ 0) : DareSol (!![1] : Matrix (Fin 1) (Fin 1) ℝ) (!![1] : Matrix (Fin 1) (Fin 1) ℝ) !![q] !![2 * q] none !![2 * q] := by
  have e : (!![2 * q] + (!![1] : Matrix (Fin 1) (Fin 1) ℝ)ᵀ * !![2 * q] * !![1] : Matrix (Fin 1) (Fin 1) ℝ) = !![4 * q] := by
    ext i j; fin_cases i; fin_cases j; simp [Matrix.mul_apply]; ring
  refine ⟨by ext i j; fin_cases i; fin_cases j; rfl, by ext i j; fin_cases i; fin_cases j; rfl, ?_, ?_, ?_⟩
  · rw [e, mat1_inv]
    ext i j; fin_cases i; fin_cases j
    simp [Matrix.mul_apply]
    field_simp
    ring
  · rw [e]; simpa using hq
  · rw [e, mat1_inv]
    convert schur_one (a := 1 / 2) (by rw [abs_of_pos] <;> norm_num) using 1
    ext i j; fin_cases i; fin_cases j
    simp [Matrix.mul_apply, Matrix.vecMul, dotProduct]
    field_simp
    norm_num

-- The hypotheses of `C113_larger_discrete` (and, with the unit matrix for `T` and `U` and `α = 3`, of `C113_discrete`) are satisfiable.
example : ∃ (k x k' x' : Arr ℝ) (Acl Acl' : Matrix (Fin 1) (Fin 1) ℝ),
    lqr exactAre (stateOf (!![1] : Matrix (Fin 1) (Fin 1) ℝ) (!![1] : Matrix (Fin 1) (Fin 1) ℝ) (!![1] : Matrix (Fin 1) (Fin 1) ℝ) !![0] (some 1)) (Arr.of !![1])
      ((some !![2 * 1] : Option (Matrix (Fin 1) (Fin 1) ℝ)).map Arr.of) ((none : Option (Matrix (Fin 1) (Fin 1) ℝ)).map Arr.of) "state".toList = .ok (k, x, Arr.of Acl) ∧
    lqr exactAre (stateOf (!![1] : Matrix (Fin 1) (Fin 1) ℝ) (!![1] : Matrix (Fin 1) (Fin 1) ℝ) (!![1] : Matrix (Fin 1) (Fin 1) ℝ) !![0] (some 1)) (Arr.of !![3])
      ((some !![2 * 3] : Option (Matrix (Fin 1) (Fin 1) ℝ)).map Arr.of) ((none : Option (Matrix (Fin 1) (Fin 1) ℝ)).map Arr.of) "state".toList = .ok (k', x', Arr.of Acl') ∧ Schur Acl ∧ Schur Acl' ∧
    ∃ X X' : Matrix (Fin 1) (Fin 1) ℝ, x = Arr.of X ∧ x' = Arr.of X' ∧ ∀ x₀, x₀ ⬝ᵥ X *ᵥ x₀ ≤ x₀ ⬝ᵥ X' *ᵥ x₀ := by
  obtain ⟨k, x, Acl, h, hH⟩ := exactAre_lqr_disc _ _ (!![1] : Matrix (Fin 1) (Fin 1) ℝ) !![0] _ (some !![2 * 1]) none 1 (dareSol_one one_ne_zero)
  obtain ⟨k', x', Acl', h', hH'⟩ := exactAre_lqr_disc _ _ (!![1] : Matrix (Fin 1) (Fin 1) ℝ) !![0] _ (some !![2 * 3]) none 1 (dareSol_one three_ne_zero)
  refine ⟨k, x, k', x', Acl, Acl', h, h', hH, hH', ?_⟩
  refine C113_larger_discrete exactAre exactAre !![1] !![1] (!![1] : Matrix (Fin 1) (Fin 1) ℝ) !![0] (!![1] : Matrix (Fin 1) (Fin 1) ℝ) !![0] 1 1 !![1] !![3]
    (some !![2 * 1]) (some !![2 * 3]) none none _ _ ?_ ?_ (by decide) (by decide) (exactAre_dare _ _ _ _ _) (exactAre_dare _ _ _ _ _) h h' hH hH'
  · intro x u
    simp [cost, mulVec, dotProduct]
    nlinarith [mul_self_nonneg (x 0), mul_self_nonneg (u 0)]
  · intro x u
    simp [cost, mulVec, dotProduct]
    nlinarith [mul_self_nonneg (x 0), mul_self_nonneg (u 0)]

end Harold
