import Verif.Props.LqrChange
import Verif.Props.TustinLqr

/-!
# C113: `lqr` with weights on the outputs
-/

namespace Harold

open Matrix Spec

variable {n m p : ℕ}

/-- Weights on the outputs as weights on the states. -/
theorem lqr_output_state (N : AreNum ℝ) (A : Matrix (Fin n) (Fin n) ℝ) (B : Matrix (Fin n) (Fin m) ℝ) (C : Matrix (Fin p) (Fin n) ℝ) (D : Matrix (Fin p) (Fin m) ℝ) (dt : Option ℝ) (Q : Matrix (Fin p) (Fin p) ℝ)
    (R : Option (Matrix (Fin m) (Fin m) ℝ)) (S : Option (Matrix (Fin p) (Fin m) ℝ)) : lqr N (stateOf A B C D dt) (Arr.of Q) (R.map Arr.of) (S.map Arr.of) "output".toList =
      lqr N (stateOf A B C D dt) (Arr.of (Cᵀ * Q * C)) ((some (Dᵀ * Q * D + (S.getD 0)ᵀ * D + Dᵀ * S.getD 0 + R.getD 1)).map Arr.of) ((some (Cᵀ * Q * D + Cᵀ * S.getD 0)).map Arr.of) "state".toList := by
  rw [lqr_output_eq]
  have e1 : weightAccepted "state".toList := by decide
  have e2 : "state".toList ≠ strOutput := by decide
  unfold lqr
  simp only [e1, e2, not_true, if_false, Bool.false_eq_true, Option.getD_some, Option.map_some]

section

variable {A T : Matrix (Fin n) (Fin n) ℝ} {B : Matrix (Fin n) (Fin m) ℝ} {C : Matrix (Fin p) (Fin n) ℝ} {D : Matrix (Fin p) (Fin m) ℝ} {U : Matrix (Fin m) (Fin m) ℝ} {V Q : Matrix (Fin p) (Fin p) ℝ} {α : ℝ}

theorem unit_cancel (hV : V.det ≠ 0) {r c : ℕ} (X : Matrix (Fin r) (Fin p) ℝ) (Y : Matrix (Fin p) (Fin c) ℝ) : X * V * (V⁻¹ * Y) = X * Y := by
  rw [Matrix.mul_assoc, ← Matrix.mul_assoc V, Matrix.mul_nonsing_inv _ (isUnit_iff_ne_zero.mpr hV), Matrix.one_mul]

theorem unit_weight (hV : V.det ≠ 0) {r c : ℕ} (X : Matrix (Fin p) (Fin r) ℝ) (Y : Matrix (Fin p) (Fin c) ℝ) : (V⁻¹ * X)ᵀ * (α • (Vᵀ * Q * V)) * (V⁻¹ * Y) = α • (Xᵀ * Q * Y) := by
  have h1 : Xᵀ * V⁻¹ᵀ * Vᵀ = Xᵀ := by
    rw [Matrix.mul_assoc, ← transpose_mul, Matrix.mul_nonsing_inv _ (isUnit_iff_ne_zero.mpr hV), transpose_one, Matrix.mul_one]
  rw [transpose_mul, Matrix.mul_smul, Matrix.smul_mul, ← Matrix.mul_assoc (Xᵀ * V⁻¹ᵀ), unit_cancel hV, ← Matrix.mul_assoc (Xᵀ * V⁻¹ᵀ), h1]

theorem unit_cross (hV : V.det ≠ 0) {r c : ℕ} (X : Matrix (Fin p) (Fin r) ℝ) (Y : Matrix (Fin p) (Fin c) ℝ) : (V⁻¹ * X)ᵀ * (α • (Vᵀ * Y)) = α • (Xᵀ * Y) := by
  rw [transpose_mul, Matrix.mul_smul, ← Matrix.mul_assoc, Matrix.mul_assoc Xᵀ, ← transpose_mul, Matrix.mul_nonsing_inv _ (isUnit_iff_ne_zero.mpr hV), transpose_one, Matrix.mul_one]

/-- The weights on the states belonging to changed weights on the outputs. -/
theorem output_weights (hV : V.det ≠ 0) {R R' : Matrix (Fin m) (Fin m) ℝ} {S S' : Matrix (Fin p) (Fin m) ℝ} (hR' : R' = α • (Uᵀ * R * U)) (hS' : S' = α • (Vᵀ * S * U)) :
    (V⁻¹ * C * T)ᵀ * (α • (Vᵀ * Q * V)) * (V⁻¹ * C * T) = α • (Tᵀ * (Cᵀ * Q * C) * T) ∧
      (V⁻¹ * D * U)ᵀ * (α • (Vᵀ * Q * V)) * (V⁻¹ * D * U) + S'ᵀ * (V⁻¹ * D * U) + (V⁻¹ * D * U)ᵀ * S' + R' = α • (Uᵀ * (Dᵀ * Q * D + Sᵀ * D + Dᵀ * S + R) * U) ∧
      (V⁻¹ * C * T)ᵀ * (α • (Vᵀ * Q * V)) * (V⁻¹ * D * U) + (V⁻¹ * C * T)ᵀ * S' = α • (Tᵀ * (Cᵀ * Q * D + Cᵀ * S) * U) := by
  have h1 : S'ᵀ * (V⁻¹ * D * U) = α • (Uᵀ * Sᵀ * D * U) := by
    rw [hS', transpose_smul, Matrix.smul_mul, transpose_mul, transpose_mul, transpose_transpose, Matrix.mul_assoc V⁻¹, ← Matrix.mul_assoc Uᵀ, unit_cancel hV, ← Matrix.mul_assoc]
  have h2 : (V⁻¹ * D * U)ᵀ * S' = α • (Uᵀ * Dᵀ * S * U) := by
    rw [hS', Matrix.mul_assoc V⁻¹, Matrix.mul_assoc Vᵀ, unit_cross hV, transpose_mul, ← Matrix.mul_assoc]
  have h3 : (V⁻¹ * C * T)ᵀ * S' = α • (Tᵀ * Cᵀ * S * U) := by
    rw [hS', Matrix.mul_assoc V⁻¹, Matrix.mul_assoc Vᵀ, unit_cross hV, transpose_mul, ← Matrix.mul_assoc]
  refine ⟨?_, ?_, ?_⟩
  · rw [Matrix.mul_assoc V⁻¹ C, unit_weight hV, transpose_mul]
    simp only [Matrix.mul_assoc]
  · rw [h1, h2, hR', Matrix.mul_assoc V⁻¹ D, unit_weight hV, transpose_mul, ← smul_add, ← smul_add, ← smul_add]
    congr 1
    simp only [Matrix.mul_add, Matrix.add_mul, Matrix.mul_assoc]
  · rw [h3, Matrix.mul_assoc V⁻¹ C, Matrix.mul_assoc V⁻¹ D, unit_weight hV, transpose_mul, ← smul_add]
    congr 1
    simp only [Matrix.mul_add, Matrix.add_mul, Matrix.mul_assoc]

end

/-- **C113**, weights on the outputs, continuous models: other coordinates `T` of the state, units `U` of the inputs and `V` of the outputs and a factor `α` of the cost change gain and solution accordingly. -/
theorem C113_output_continuous (N N' : AreNum ℝ) (A : Matrix (Fin n) (Fin n) ℝ) (B : Matrix (Fin n) (Fin m) ℝ) (C : Matrix (Fin p) (Fin n) ℝ) (D : Matrix (Fin p) (Fin m) ℝ)
    (T : Matrix (Fin n) (Fin n) ℝ) (U : Matrix (Fin m) (Fin m) ℝ) (V : Matrix (Fin p) (Fin p) ℝ) (hT : T.det ≠ 0) (hU : U.det ≠ 0) (hV : V.det ≠ 0) {α : ℝ} (hα : α ≠ 0)
    (Q : Matrix (Fin p) (Fin p) ℝ) (R R' : Option (Matrix (Fin m) (Fin m) ℝ)) (S S' : Option (Matrix (Fin p) (Fin m) ℝ))
    (hR' : R'.getD 1 = α • (Uᵀ * R.getD 1 * U)) (hS' : S'.getD 0 = α • (Vᵀ * S.getD 0 * U)) (hN : ∀ Q R S, CareOk N A B Q R (some S)) (hN' : ∀ Q R S, CareOk N' (T⁻¹ * A * T) (T⁻¹ * B * U) Q R (some S))
    {k x k' x' : Arr ℝ} {Acl Acl' : Matrix (Fin n) (Fin n) ℝ}
    (h : lqr N (stateOf A B C D none) (Arr.of Q) (R.map Arr.of) (S.map Arr.of) "output".toList = .ok (k, x, Arr.of Acl))
    (h' : lqr N' (stateOf (T⁻¹ * A * T) (T⁻¹ * B * U) (V⁻¹ * C * T) (V⁻¹ * D * U) none) (Arr.of (α • (Vᵀ * Q * V))) (R'.map Arr.of) (S'.map Arr.of) "output".toList = .ok (k', x', Arr.of Acl'))
    (hH : Hurwitz Acl) (hH' : Hurwitz Acl') :
    ∃ (Kg : Matrix (Fin m) (Fin n) ℝ) (X : Matrix (Fin n) (Fin n) ℝ), k = Arr.of Kg ∧ x = Arr.of X ∧ k' = Arr.of (U⁻¹ * Kg * T) ∧ x' = Arr.of (α • (Tᵀ * X * T)) ∧ Acl' = T⁻¹ * Acl * T := by
  obtain ⟨e1, e2, e3⟩ := output_weights (C := C) (D := D) (T := T) (Q := Q) hV hR' hS'
  rw [lqr_output_state] at h h'
  rw [e1, e2, e3] at h'
  have hw : "state".toList ≠ "output".toList := by decide
  exact C113_continuous N N' A B C D _ _ T U hT hU hα (Cᵀ * Q * C) (some _) (some _) (some _) (some _) _ _ rfl rfl hw hw (hN _ _ _) (hN' _ _ _) h h' hH hH'

/-- **C113**, weights on the outputs, discrete models. -/
theorem C113_output_discrete (N N' : AreNum ℝ) (A : Matrix (Fin n) (Fin n) ℝ) (B : Matrix (Fin n) (Fin m) ℝ) (C : Matrix (Fin p) (Fin n) ℝ) (D : Matrix (Fin p) (Fin m) ℝ) (dt dt' : ℝ)
    (T : Matrix (Fin n) (Fin n) ℝ) (U : Matrix (Fin m) (Fin m) ℝ) (V : Matrix (Fin p) (Fin p) ℝ) (hT : T.det ≠ 0) (hU : U.det ≠ 0) (hV : V.det ≠ 0) {α : ℝ} (hα : α ≠ 0)
    (Q : Matrix (Fin p) (Fin p) ℝ) (R R' : Option (Matrix (Fin m) (Fin m) ℝ)) (S S' : Option (Matrix (Fin p) (Fin m) ℝ))
    (hR' : R'.getD 1 = α • (Uᵀ * R.getD 1 * U)) (hS' : S'.getD 0 = α • (Vᵀ * S.getD 0 * U)) (hN : ∀ Q R S, DareOk N A B Q R (some S)) (hN' : ∀ Q R S, DareOk N' (T⁻¹ * A * T) (T⁻¹ * B * U) Q R (some S))
    {k x k' x' : Arr ℝ} {Acl Acl' : Matrix (Fin n) (Fin n) ℝ}
    (h : lqr N (stateOf A B C D (some dt)) (Arr.of Q) (R.map Arr.of) (S.map Arr.of) "output".toList = .ok (k, x, Arr.of Acl))
    (h' : lqr N' (stateOf (T⁻¹ * A * T) (T⁻¹ * B * U) (V⁻¹ * C * T) (V⁻¹ * D * U) (some dt')) (Arr.of (α • (Vᵀ * Q * V))) (R'.map Arr.of) (S'.map Arr.of) "output".toList = .ok (k', x', Arr.of Acl'))
    (hH : Schur Acl) (hH' : Schur Acl') :
    ∃ (Kg : Matrix (Fin m) (Fin n) ℝ) (X : Matrix (Fin n) (Fin n) ℝ), k = Arr.of Kg ∧ x = Arr.of X ∧ k' = Arr.of (U⁻¹ * Kg * T) ∧ x' = Arr.of (α • (Tᵀ * X * T)) ∧ Acl' = T⁻¹ * Acl * T := by
  obtain ⟨e1, e2, e3⟩ := output_weights (C := C) (D := D) (T := T) (Q := Q) hV hR' hS'
  rw [lqr_output_state] at h h'
  rw [e1, e2, e3] at h'
  have hw : "state".toList ≠ "output".toList := by decide
  exact C113_discrete N N' A B C D _ _ dt dt' T U hT hU hα (Cᵀ * Q * C) (some _) (some _) (some _) (some _) _ _ rfl rfl hw hw (hN _ _ _) (hN' _ _ _) h h' hH hH'

-- The hypotheses of `C113_output_continuous` are satisfiable: `x' = x + u`, `y = x`, in other units `x = 2 x'`, `u = 3 u'`, `y = 7 y'` with the weights multiplied by 5.
example : ∃ (k x k' x' : Arr ℝ) (Acl Acl' : Matrix (Fin 1) (Fin 1) ℝ),
    lqr exactAre (stateOf (!![1] : Matrix (Fin 1) (Fin 1) ℝ) (!![1] : Matrix (Fin 1) (Fin 1) ℝ) (1 : Matrix (Fin 1) (Fin 1) ℝ) 0 none) (Arr.of !![3])
      ((some !![1] : Option (Matrix (Fin 1) (Fin 1) ℝ)).map Arr.of) ((none : Option (Matrix (Fin 1) (Fin 1) ℝ)).map Arr.of) "output".toList = .ok (k, x, Arr.of Acl) ∧
    lqr exactAre (stateOf ((!![2] : Matrix (Fin 1) (Fin 1) ℝ)⁻¹ * !![1] * !![2]) ((!![2] : Matrix (Fin 1) (Fin 1) ℝ)⁻¹ * !![1] * !![3]) ((!![7] : Matrix (Fin 1) (Fin 1) ℝ)⁻¹ * 1 * !![2]) ((!![7] : Matrix (Fin 1) (Fin 1) ℝ)⁻¹ * 0 * !![3]) none)
      (Arr.of ((5 : ℝ) • ((!![7] : Matrix (Fin 1) (Fin 1) ℝ)ᵀ * !![3] * !![7]))) ((some ((5 : ℝ) • ((!![3] : Matrix (Fin 1) (Fin 1) ℝ)ᵀ * !![1] * !![3])) : Option (Matrix (Fin 1) (Fin 1) ℝ)).map Arr.of)
      ((none : Option (Matrix (Fin 1) (Fin 1) ℝ)).map Arr.of) "output".toList = .ok (k', x', Arr.of Acl') ∧ Hurwitz Acl ∧ Hurwitz Acl' ∧
    ∃ Kg : Matrix (Fin 1) (Fin 1) ℝ, k = Arr.of Kg ∧ k' = Arr.of ((!![3] : Matrix (Fin 1) (Fin 1) ℝ)⁻¹ * Kg * !![2]) := by
  have hV : (!![7] : Matrix (Fin 1) (Fin 1) ℝ).det ≠ 0 := by simp
  obtain ⟨e1, e2, e3⟩ := output_weights (C := (1 : Matrix (Fin 1) (Fin 1) ℝ)) (D := (0 : Matrix (Fin 1) (Fin 1) ℝ)) (T := !![2]) (U := !![3]) (Q := !![3]) (R := !![1]) (S := 0) (α := 5) hV rfl rfl
  have e4 : (5 : ℝ) • ((!![7] : Matrix (Fin 1) (Fin 1) ℝ)ᵀ * 0 * !![3]) = 0 := by simp
  rw [e4] at e2 e3
  obtain ⟨k, x, Acl, h, hH⟩ := exactAre_output_cont !![1] !![1] (1 : Matrix (Fin 1) (Fin 1) ℝ) 0 !![3] (some !![1]) none (by simp) (X := !![3]) (by
    have := careSol_one
    simpa [CareSol] using this)
  obtain ⟨k', x', Acl', h', hH'⟩ := exactAre_output_cont ((!![2] : Matrix (Fin 1) (Fin 1) ℝ)⁻¹ * !![1] * !![2]) ((!![2] : Matrix (Fin 1) (Fin 1) ℝ)⁻¹ * !![1] * !![3]) ((!![7] : Matrix (Fin 1) (Fin 1) ℝ)⁻¹ * 1 * !![2])
    ((!![7] : Matrix (Fin 1) (Fin 1) ℝ)⁻¹ * 0 * !![3]) ((5 : ℝ) • ((!![7] : Matrix (Fin 1) (Fin 1) ℝ)ᵀ * !![3] * !![7])) (some ((5 : ℝ) • ((!![3] : Matrix (Fin 1) (Fin 1) ℝ)ᵀ * !![1] * !![3]))) none
    (by rw [Option.getD_none, Option.getD_some, e2]; simp [Matrix.mul_apply]) (X := !![60]) (by
      rw [Option.getD_none, Option.getD_some, e1, e2, e3]
      have := careSol_two
      have z : (5 : ℝ) • ((!![2] : Matrix (Fin 1) (Fin 1) ℝ)ᵀ * (1ᵀ * !![3] * 0 + 1ᵀ * 0) * !![3]) = 0 := by simp
      have z' : (0 : Matrix (Fin 1) (Fin 1) ℝ)ᵀ * !![3] * 0 + (0 : Matrix (Fin 1) (Fin 1) ℝ)ᵀ * 0 + (0 : Matrix (Fin 1) (Fin 1) ℝ)ᵀ * 0 + !![1] = !![1] := by simp
      rw [z, z', transpose_one, Matrix.one_mul, Matrix.mul_one]
      exact this)
  obtain ⟨Kg, X, h1, -, h2, -⟩ := C113_output_continuous exactAre exactAre !![1] !![1] 1 0 !![2] !![3] !![7] (by simp) (by simp) hV (α := 5) (by norm_num) !![3]
    (some !![1]) (some ((5 : ℝ) • ((!![3] : Matrix (Fin 1) (Fin 1) ℝ)ᵀ * !![1] * !![3]))) none none rfl (by simp) (fun _ _ _ => exactAre_care _ _ _ _ _) (fun _ _ _ => exactAre_care _ _ _ _ _) h h' hH hH'
  exact ⟨k, x, k', x', Acl, Acl', h, h', hH, hH', Kg, h1, h2⟩

end Harold
