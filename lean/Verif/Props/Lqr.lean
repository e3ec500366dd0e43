import Verif.Spec.Lqr
import Verif.Props.MatrixSlice
import Verif.Lemmas.TransferMk
import Mathlib.Analysis.Calculus.Deriv.Prod
import Mathlib.Analysis.Calculus.Deriv.Mul
import Mathlib.MeasureTheory.Integral.IntervalIntegral.FundThmCalculus

/-!
# C57: `lqr`
-/

namespace Harold

open Matrix

section field
variable {K : Type} [Field K] {n m p : ℕ}

theorem bil_transpose {a b : ℕ} (M : Matrix (Fin a) (Fin b) K) (x : Fin b → K) (y : Fin a → K) : x ⬝ᵥ Mᵀ *ᵥ y = y ⬝ᵥ M *ᵥ x := by
  rw [dotProduct_comm, mulVec_transpose, ← dotProduct_mulVec]

theorem bil_left {a b : ℕ} (M : Matrix (Fin a) (Fin b) K) (x : Fin b → K) (y : Fin a → K) : (M *ᵥ x) ⬝ᵥ y = x ⬝ᵥ Mᵀ *ᵥ y := by
  rw [bil_transpose, dotProduct_comm]

/-- Completing the square in continuous time. -/
theorem care_square {A X Q : Matrix (Fin n) (Fin n) K} {B S : Matrix (Fin n) (Fin m) K} {R : Matrix (Fin m) (Fin m) K}
    (hX : Xᵀ = X) (hR : Rᵀ = R) (hd : R.det ≠ 0) (h : Aᵀ * X + X * A - (X * B + S) * R⁻¹ * (Bᵀ * X + Sᵀ) + Q = 0) (x : Fin n → K) (u : Fin m → K) :
    (A *ᵥ x + B *ᵥ u) ⬝ᵥ X *ᵥ x + x ⬝ᵥ X *ᵥ (A *ᵥ x + B *ᵥ u) + Spec.cost Q S R x u
      = (u + (R⁻¹ * (Bᵀ * X + Sᵀ)) *ᵥ x) ⬝ᵥ R *ᵥ (u + (R⁻¹ * (Bᵀ * X + Sᵀ)) *ᵥ x) := by
  set W := Bᵀ * X + Sᵀ with hW
  have hWT : X * B + S = Wᵀ := by rw [hW, transpose_add, transpose_mul, transpose_transpose, transpose_transpose, hX]
  have hu : IsUnit R.det := isUnit_iff_ne_zero.2 hd
  have e : Aᵀ * X + X * A + Q = Wᵀ * R⁻¹ * W := by
    rw [hWT] at h
    rw [← sub_eq_zero, ← h]; abel
  have e1 := congrArg (fun M => x ⬝ᵥ M *ᵥ x) e
  have e2 : x ⬝ᵥ Wᵀ *ᵥ u = x ⬝ᵥ (X * B) *ᵥ u + x ⬝ᵥ S *ᵥ u := by rw [← hWT, add_mulVec, dotProduct_add]
  have e3 : u ⬝ᵥ W *ᵥ x = u ⬝ᵥ (Bᵀ * X) *ᵥ x + u ⬝ᵥ Sᵀ *ᵥ x := by rw [hW, add_mulVec, dotProduct_add]
  simp only [add_mulVec, dotProduct_add, ← mulVec_mulVec] at e1 e2 e3
  have e4 : R *ᵥ (R⁻¹ *ᵥ (W *ᵥ x)) = W *ᵥ x := by rw [mulVec_mulVec, mul_nonsing_inv _ hu, one_mulVec]
  have e5 : (R⁻¹ *ᵥ (W *ᵥ x)) ⬝ᵥ (R *ᵥ u) = u ⬝ᵥ W *ᵥ x := by rw [← bil_transpose, hR, e4]
  have e6 : (R⁻¹ *ᵥ (W *ᵥ x)) ⬝ᵥ (W *ᵥ x) = x ⬝ᵥ Wᵀ *ᵥ (R⁻¹ *ᵥ (W *ᵥ x)) := by rw [bil_transpose, dotProduct_comm]
  have e7 : (A *ᵥ x) ⬝ᵥ X *ᵥ x = x ⬝ᵥ Aᵀ *ᵥ X *ᵥ x := bil_left _ _ _
  have e8 : (B *ᵥ u) ⬝ᵥ X *ᵥ x = u ⬝ᵥ Bᵀ *ᵥ X *ᵥ x := bil_left _ _ _
  have e9 : x ⬝ᵥ Wᵀ *ᵥ u = u ⬝ᵥ W *ᵥ x := bil_transpose _ _ _
  simp only [Spec.cost, ← mulVec_mulVec, mulVec_add, dotProduct_add, add_dotProduct, e4, e5, e6, e7, e8]
  rw [← e1]
  linear_combination e9 - e2 - e3 + (0 : K)

/-- Completing the square in discrete time. -/
theorem dare_square {A X Q : Matrix (Fin n) (Fin n) K} {B S : Matrix (Fin n) (Fin m) K} {R : Matrix (Fin m) (Fin m) K}
    (hX : Xᵀ = X) (hR : Rᵀ = R) (hd : (R + Bᵀ * X * B).det ≠ 0)
    (h : Aᵀ * X * A - X - (Aᵀ * X * B + S) * (R + Bᵀ * X * B)⁻¹ * (Bᵀ * X * A + Sᵀ) + Q = 0) (x : Fin n → K) (u : Fin m → K) :
    (A *ᵥ x + B *ᵥ u) ⬝ᵥ X *ᵥ (A *ᵥ x + B *ᵥ u) - x ⬝ᵥ X *ᵥ x + Spec.cost Q S R x u
      = (u + ((R + Bᵀ * X * B)⁻¹ * (Bᵀ * X * A + Sᵀ)) *ᵥ x) ⬝ᵥ (R + Bᵀ * X * B) *ᵥ (u + ((R + Bᵀ * X * B)⁻¹ * (Bᵀ * X * A + Sᵀ)) *ᵥ x) := by
  set W := Bᵀ * X * A + Sᵀ with hW
  set P := R + Bᵀ * X * B with hP
  have hPT : Pᵀ = P := by rw [hP, transpose_add, hR, transpose_mul, transpose_mul, transpose_transpose, hX, Matrix.mul_assoc]
  have hWT : Aᵀ * X * B + S = Wᵀ := by
    rw [hW, transpose_add, transpose_mul, transpose_mul, transpose_transpose, transpose_transpose, hX, Matrix.mul_assoc]
  have hu : IsUnit P.det := isUnit_iff_ne_zero.2 hd
  have e : Aᵀ * X * A + Q = Wᵀ * P⁻¹ * W + X := by
    rw [hWT] at h
    rw [← sub_eq_zero, ← h]; abel
  have e1 := congrArg (fun M => x ⬝ᵥ M *ᵥ x) e
  have e2 : x ⬝ᵥ Wᵀ *ᵥ u = x ⬝ᵥ (Aᵀ * X * B) *ᵥ u + x ⬝ᵥ S *ᵥ u := by rw [← hWT, add_mulVec, dotProduct_add]
  have e3 : u ⬝ᵥ W *ᵥ x = u ⬝ᵥ (Bᵀ * X * A) *ᵥ x + u ⬝ᵥ Sᵀ *ᵥ x := by rw [hW, add_mulVec, dotProduct_add]
  have e0 : u ⬝ᵥ P *ᵥ u = u ⬝ᵥ R *ᵥ u + u ⬝ᵥ (Bᵀ * X * B) *ᵥ u := by rw [hP, add_mulVec, dotProduct_add]
  simp only [add_mulVec, dotProduct_add, ← mulVec_mulVec] at e0 e1 e2 e3
  have e4 : P *ᵥ (P⁻¹ *ᵥ (W *ᵥ x)) = W *ᵥ x := by rw [mulVec_mulVec, mul_nonsing_inv _ hu, one_mulVec]
  have e5 : (P⁻¹ *ᵥ (W *ᵥ x)) ⬝ᵥ (P *ᵥ u) = u ⬝ᵥ W *ᵥ x := by rw [← bil_transpose, hPT, e4]
  have e6 : (P⁻¹ *ᵥ (W *ᵥ x)) ⬝ᵥ (W *ᵥ x) = x ⬝ᵥ Wᵀ *ᵥ (P⁻¹ *ᵥ (W *ᵥ x)) := by rw [bil_transpose, dotProduct_comm]
  have e9 : x ⬝ᵥ Wᵀ *ᵥ u = u ⬝ᵥ W *ᵥ x := bil_transpose _ _ _
  simp only [Spec.cost, ← mulVec_mulVec, mulVec_add, dotProduct_add, add_dotProduct, e4, e5, e6, bil_left A, bil_left B]
  linear_combination e1 + e9 - e2 - e3 - e0

/-- A `State` model with typed matrices. -/
abbrev stateOf (A : Matrix (Fin n) (Fin n) K) (B : Matrix (Fin n) (Fin m) K) (C : Matrix (Fin p) (Fin n) K) (D : Matrix (Fin p) (Fin m) K) (dt : Option K) : StateM K :=
  ⟨Arr.of A, Arr.of B, Arr.of C, Arr.of D, dt, false⟩

variable [LinearOrder K]

theorem lqrAddCross_of (M : Matrix (Fin m) (Fin n) K) (S : Option (Matrix (Fin n) (Fin m) K)) :
    lqrAddCross (Arr.of M) (S.map Arr.of) = .ok (Arr.of (M + (S.getD 0)ᵀ)) := by
  cases S with
  | none => simp [lqrAddCross]
  | some S => simp [lqrAddCross, Arr.T_of, Arr.add_of]

theorem lqrSolve_cont (N : AreNum K) {A Q : Matrix (Fin n) (Fin n) K} {B : Matrix (Fin n) (Fin m) K} {C : Matrix (Fin p) (Fin n) K} {D : Matrix (Fin p) (Fin m) K}
    {R : Matrix (Fin m) (Fin m) K} {S : Option (Matrix (Fin n) (Fin m) K)} (hN : Spec.CareOk N A B Q R S) {k x acl : Arr K}
    (h : lqrSolve N (stateOf A B C D none) (Arr.of Q) (Arr.of R) (S.map Arr.of) = .ok (k, x, acl)) :
    ∃ X : Matrix (Fin n) (Fin n) K, x = Arr.of X ∧ Xᵀ = X ∧ Rᵀ = R ∧ R.det ≠ 0 ∧ k = Arr.of (R⁻¹ * (Bᵀ * X + (S.getD 0)ᵀ)) ∧
      acl = Arr.of (A - B * (R⁻¹ * (Bᵀ * X + (S.getD 0)ᵀ))) ∧
      Aᵀ * X + X * A - (X * B + S.getD 0) * R⁻¹ * (Bᵀ * X + (S.getD 0)ᵀ) + Q = 0 := by
  unfold lqrSolve at h
  obtain ⟨x', hx, h⟩ := bind_ok' h
  simp only [Option.isNone_none, if_true] at hx
  obtain ⟨X, rfl, hX, hR, e⟩ := hN x' hx
  simp only [Option.isNone_none, if_true, Arr.T_of, Arr.matmul_of, bind, Except.bind, lqrAddCross_of, Arr.solve_of] at h
  by_cases hd : R.det = 0
  · simp [hd] at h
  · simp only [hd, if_false, Arr.matmul_of, Arr.sub_of, Except.ok.injEq, Prod.mk.injEq] at h
    exact ⟨X, h.2.1.symm, hX, hR, hd, h.1.symm, h.2.2.symm, e⟩

theorem lqrSolve_disc (N : AreNum K) {A Q : Matrix (Fin n) (Fin n) K} {B : Matrix (Fin n) (Fin m) K} {C : Matrix (Fin p) (Fin n) K} {D : Matrix (Fin p) (Fin m) K}
    {R : Matrix (Fin m) (Fin m) K} {S : Option (Matrix (Fin n) (Fin m) K)} {dt : K} (hN : Spec.DareOk N A B Q R S) {k x acl : Arr K}
    (h : lqrSolve N (stateOf A B C D (some dt)) (Arr.of Q) (Arr.of R) (S.map Arr.of) = .ok (k, x, acl)) :
    ∃ X : Matrix (Fin n) (Fin n) K, x = Arr.of X ∧ Xᵀ = X ∧ Rᵀ = R ∧ (R + Bᵀ * X * B).det ≠ 0 ∧
      k = Arr.of ((R + Bᵀ * X * B)⁻¹ * (Bᵀ * X * A + (S.getD 0)ᵀ)) ∧
      acl = Arr.of (A - B * ((R + Bᵀ * X * B)⁻¹ * (Bᵀ * X * A + (S.getD 0)ᵀ))) ∧
      Aᵀ * X * A - X - (Aᵀ * X * B + S.getD 0) * (R + Bᵀ * X * B)⁻¹ * (Bᵀ * X * A + (S.getD 0)ᵀ) + Q = 0 := by
  unfold lqrSolve at h
  obtain ⟨x', hx, h⟩ := bind_ok' h
  simp only [Option.isNone_some, Bool.false_eq_true, if_false] at hx
  obtain ⟨X, rfl, hX, hR, e⟩ := hN x' hx
  simp only [Option.isNone_some, Bool.false_eq_true, if_false, Arr.T_of, Arr.matmul_of, Arr.add_of, bind, Except.bind, lqrAddCross_of, Arr.solve_of] at h
  rw [add_comm (Bᵀ * X * B) R] at h
  by_cases hd : (R + Bᵀ * X * B).det = 0
  · simp [hd] at h
  · simp only [hd, if_false, Arr.matmul_of, Arr.sub_of, Except.ok.injEq, Prod.mk.injEq] at h
    exact ⟨X, h.2.1.symm, hX, hR, hd, h.1.symm, h.2.2.symm, e⟩

/-- An accepted word other than `'output'`. -/
theorem lqr_state (N : AreNum K) {G : StateM K} {q : Arr K} {r s : Option (Arr K)} {w : List Char} {o} (hw : w ≠ strOutput) (h : lqr N G q r s w = .ok o) :
    lqrSolve N G q (r.getD (Arr.eye G.d.c)) s = .ok o := by
  unfold lqr at h
  split_ifs at h
  exact h

/-- **C57, rejected words.** A word whose lower case form is not part of `'state, output'` is rejected. -/
theorem C57_rejects (N : AreNum K) (G : StateM K) (q : Arr K) (r s : Option (Arr K)) (w : List Char)
    (h : ¬ w.map Char.toLower <:+: "state, output".toList) : lqr N G q r s w = .error .value := by
  have : ¬ weightAccepted w := h
  unfold lqr
  split_ifs <;> rfl

/-- **C57, static gains are rejected.** -/
theorem C57_gain (N : AreNum K) (G : StateM K) (q : Arr K) (r s : Option (Arr K)) (w : List Char) (h : G.isgain = true) :
    lqr N G q r s w = .error .value := by
  unfold lqr
  rw [if_pos h]

/-- **C57, any other accepted word means state weighting.** -/
theorem C57_other (N : AreNum K) (G : StateM K) (q : Arr K) (r s : Option (Arr K)) (w : List Char) (h : weightAccepted w) (hw : w ≠ "output".toList) :
    lqr N G q r s w = lqr N G q r s "state".toList := by
  have e1 : weightAccepted "state".toList := by decide
  have e2 : "state".toList ≠ strOutput := by decide
  have e3 : w ≠ strOutput := hw
  unfold lqr
  simp only [h, e1, not_true, if_false, e2, e3]

theorem matrixSlice_se {r₁ r₂ c₁ c₂ : ℕ} (A : Matrix (Fin r₁) (Fin c₁) K) (B : Matrix (Fin r₁) (Fin c₂) K) (C : Matrix (Fin r₂) (Fin c₁) K)
    (D : Matrix (Fin r₂) (Fin c₂) K) : matrixSlice (Arr.of (blk A B C D)) r₂ c₂ "se" = .ok (Arr.of A, Arr.of B, Arr.of C, Arr.of D) := by
  have : matrixSlice (Arr.of (blk A B C D)) r₂ c₂ "se" = .ok ((Arr.of (blk A B C D)).cut4 (((r₁ + r₂ : ℕ) : ℤ) - r₂) (((c₁ + c₂ : ℕ) : ℤ) - c₂)) := rfl
  rw [this, Arr.cut4]
  have e1 : cutAt (r₁ + r₂) (((r₁ + r₂ : ℕ) : ℤ) - r₂) = r₁ := by rw [cutAt_sub (by omega)]; omega
  have e2 : cutAt (c₁ + c₂) (((c₁ + c₂ : ℕ) : ℤ) - c₂) = c₁ := by rw [cutAt_sub (by omega)]; omega
  simp only [Arr.of_r, Arr.of_c, e1, e2]
  rw [split4_blk]

/-- The weights computed for `weight_on='output'`. -/
theorem lqr_output_eq (N : AreNum K) (A : Matrix (Fin n) (Fin n) K) (B : Matrix (Fin n) (Fin m) K) (C : Matrix (Fin p) (Fin n) K) (D : Matrix (Fin p) (Fin m) K)
    (dt : Option K) (Q : Matrix (Fin p) (Fin p) K) (R : Option (Matrix (Fin m) (Fin m) K)) (S : Option (Matrix (Fin p) (Fin m) K)) :
    lqr N (stateOf A B C D dt) (Arr.of Q) (R.map Arr.of) (S.map Arr.of) "output".toList
      = lqrSolve N (stateOf A B C D dt) (Arr.of (Cᵀ * Q * C)) (Arr.of (Dᵀ * Q * D + (S.getD 0)ᵀ * D + Dᵀ * S.getD 0 + R.getD 1))
          (some (Arr.of (Cᵀ * Q * D + Cᵀ * S.getD 0))) := by
  have eR : (R.map Arr.of).getD (Arr.eye m) = Arr.of (R.getD 1) := by cases R <;> rfl
  generalize hRg : R.getD 1 = Rm at *
  have hfact : lqrFact p m (Arr.of Q) (Arr.of Rm) (S.map Arr.of) = .ok (Arr.of (blk Q (S.getD 0) (S.getD 0)ᵀ Rm)) := by
    cases S with
    | none => simp [lqrFact, Arr.blockDiag_of]
    | some S =>
      simp only [lqrFact, Option.map_some, Arr.T_of, Arr.hstack_of, Arr.vstack_of, bind, Except.bind, Option.getD_some, vcat_hcat]
      simp
  have hmat : (blk C D 0 1 : Matrix (Fin (p + m)) (Fin (n + m)) K)ᵀ * blk Q (S.getD 0) (S.getD 0)ᵀ Rm * blk C D 0 1
      = blk (Cᵀ * Q * C) (Cᵀ * Q * D + Cᵀ * S.getD 0) (Dᵀ * Q * C + (S.getD 0)ᵀ * C) (Dᵀ * Q * D + (S.getD 0)ᵀ * D + Dᵀ * S.getD 0 + Rm) := by
    unfold blk
    rw [transpose_submatrix, submatrix_mul_equiv, submatrix_mul_equiv, fromBlocks_transpose, fromBlocks_multiply, fromBlocks_multiply]
    congr 2
    all_goals simp [Matrix.add_mul, add_assoc]
  have ho : lqrOutput (stateOf A B C D dt) (Arr.of Q) (Arr.of Rm) (S.map Arr.of)
      = .ok (Arr.of (Cᵀ * Q * C), Arr.of (Cᵀ * Q * D + Cᵀ * S.getD 0), Arr.of (Dᵀ * Q * D + (S.getD 0)ᵀ * D + Dᵀ * S.getD 0 + Rm)) := by
    unfold lqrOutput
    rw [if_neg (by simp), if_neg (by simp)]
    simp only [Arr.hstack_of, Arr.vstack_of, Arr.zeros, Arr.eye, bind, Except.bind, vcat_hcat, hfact, Arr.T_of, Arr.matmul_of]
    rw [hmat]
    simp only [matrixSlice_se]
  have e3 : weightAccepted "output".toList := by decide
  have e4 : "output".toList = strOutput := by decide
  unfold lqr
  simp only [e3, e4, not_true, if_false, if_true, Bool.false_eq_true]
  have eR' : (R.map Arr.of).getD (Arr.eye (Arr.of D).c) = Arr.of Rm := eR
  rw [eR', ho]
  rfl

/-- **C57, output weights.** Weighting the outputs is weighting the states with the cost in which `y = C x + D u` is
substituted. -/
theorem C57_output (N : AreNum K) (A : Matrix (Fin n) (Fin n) K) (B : Matrix (Fin n) (Fin m) K) (C : Matrix (Fin p) (Fin n) K) (D : Matrix (Fin p) (Fin m) K)
    (dt : Option K) (Q : Matrix (Fin p) (Fin p) K) (R : Option (Matrix (Fin m) (Fin m) K)) (S : Option (Matrix (Fin p) (Fin m) K)) (hQ : Qᵀ = Q) :
    ∃ (Q' : Matrix (Fin n) (Fin n) K) (R' : Matrix (Fin m) (Fin m) K) (S' : Matrix (Fin n) (Fin m) K),
      lqr N (stateOf A B C D dt) (Arr.of Q) (R.map Arr.of) (S.map Arr.of) "output".toList
        = lqr N (stateOf A B C D dt) (Arr.of Q') (some (Arr.of R')) (some (Arr.of S')) "state".toList ∧
      ∀ x u, Spec.cost Q' S' R' x u = Spec.cost Q (S.getD 0) (R.getD 1) (C *ᵥ x + D *ᵥ u) u := by
  refine ⟨Cᵀ * Q * C, Dᵀ * Q * D + (S.getD 0)ᵀ * D + Dᵀ * S.getD 0 + R.getD 1, Cᵀ * Q * D + Cᵀ * S.getD 0, ?_, ?_⟩
  · rw [lqr_output_eq]
    have e1 : weightAccepted "state".toList := by decide
    have e2 : "state".toList ≠ strOutput := by decide
    unfold lqr
    simp only [e1, e2, not_true, if_false, Bool.false_eq_true, Option.getD_some]
  · intro x u
    simp only [Spec.cost, add_mulVec, mulVec_add, dotProduct_add, add_dotProduct, ← mulVec_mulVec, transpose_add, transpose_mul, bil_left C, bil_left D, transpose_transpose]
    rw [hQ]
    ring

/-- **C57, output weights of the wrong shape are rejected.** -/
theorem C57_output_rejects (N : AreNum K) (A : Matrix (Fin n) (Fin n) K) (B : Matrix (Fin n) (Fin m) K) (C : Matrix (Fin p) (Fin n) K) (D : Matrix (Fin p) (Fin m) K)
    (dt : Option K) (q : Arr K) (r s : Option (Arr K))
    (h : (q.r, q.c) ≠ (p, p) ∨ (∃ r', r = some r' ∧ (r'.r, r'.c) ≠ (m, m)) ∨ ∃ s', s = some s' ∧ (s'.r, s'.c) ≠ (p, m)) :
    lqr N (stateOf A B C D dt) q r s "output".toList = .error .value := by
  have e3 : weightAccepted "output".toList := by decide
  have e4 : "output".toList = strOutput := by decide
  unfold lqr
  simp only [e3, e4, not_true, if_false, if_true, Bool.false_eq_true]
  suffices ho : lqrOutput (stateOf A B C D dt) q (r.getD (Arr.eye (Arr.of D).c)) s = .error .value by rw [ho]; rfl
  unfold lqrOutput
  by_cases h1 : q.r ≠ p ∨ q.r ≠ q.c
  · rw [if_pos h1]
  rw [if_neg h1]
  by_cases h2 : (r.getD (Arr.eye (Arr.of D).c)).r ≠ m ∨ (r.getD (Arr.eye (Arr.of D).c)).r ≠ (r.getD (Arr.eye (Arr.of D).c)).c
  · rw [if_pos h2]
  rw [if_neg h2]
  push Not at h1 h2
  have hs : ∃ s', s = some s' ∧ (s'.r, s'.c) ≠ (p, m) := by
    rcases h with h | ⟨r', rfl, h⟩ | h
    · exact absurd (by rw [Prod.mk.injEq]; exact ⟨h1.1, h1.2.symm.trans h1.1⟩) h
    · simp only [Option.getD_some] at h2
      exact absurd (by rw [Prod.mk.injEq]; exact ⟨h2.1, h2.2.symm.trans h2.1⟩) h
    · exact h
  obtain ⟨s', rfl, hs⟩ := hs
  have hf : lqrFact p m q (r.getD (Arr.eye (Arr.of D).c)) (some s') = .error .value := by
    simp only [lqrFact]
    rw [if_pos]
    by_contra hc
    push Not at hc
    exact hs (by rw [hc.1, hc.2])
  simp only [Arr.hstack_of, Arr.vstack_of, Arr.zeros, Arr.eye, bind, Except.bind, vcat_hcat] at hf ⊢
  simp only [hf]

/-- **C57, discrete time.** For the returned `K` and `X`, and every trajectory, the cost of the first `T` steps is
`x(0)' X x(0) - x(T)' X x(T)` plus a quadratic form in `u + K x`. -/
theorem C57_discrete (N : AreNum K) (A : Matrix (Fin n) (Fin n) K) (B : Matrix (Fin n) (Fin m) K) (C : Matrix (Fin p) (Fin n) K) (D : Matrix (Fin p) (Fin m) K)
    (dt : K) (Q : Matrix (Fin n) (Fin n) K) (R : Option (Matrix (Fin m) (Fin m) K)) (S : Option (Matrix (Fin n) (Fin m) K)) (w : List Char)
    (hw : w ≠ "output".toList) (hN : Spec.DareOk N A B Q (R.getD 1) S) {k x acl : Arr K}
    (h : lqr N (stateOf A B C D (some dt)) (Arr.of Q) (R.map Arr.of) (S.map Arr.of) w = .ok (k, x, acl)) :
    ∃ (Kg : Matrix (Fin m) (Fin n) K) (X : Matrix (Fin n) (Fin n) K), k = Arr.of Kg ∧ x = Arr.of X ∧ acl = Arr.of (A - B * Kg) ∧ Xᵀ = X ∧
      ∀ (z : ℕ → Fin n → K) (u : ℕ → Fin m → K), (∀ t, z (t + 1) = A *ᵥ z t + B *ᵥ u t) → ∀ T,
        ∑ t ∈ Finset.range T, Spec.cost Q (S.getD 0) (R.getD 1) (z t) (u t)
          = z 0 ⬝ᵥ X *ᵥ z 0 - z T ⬝ᵥ X *ᵥ z T +
            ∑ t ∈ Finset.range T, (u t + Kg *ᵥ z t) ⬝ᵥ (R.getD 1 + Bᵀ * X * B) *ᵥ (u t + Kg *ᵥ z t) := by
  have h' := lqr_state N hw h
  have eR : (R.map Arr.of).getD (Arr.eye (Arr.of D).c) = Arr.of (R.getD 1) := by cases R <;> rfl
  rw [eR] at h'
  obtain ⟨X, hx, hX, hR, hd, hk, hacl, e⟩ := lqrSolve_disc N hN h'
  refine ⟨_, X, hk, hx, hacl, hX, fun z u hz T => ?_⟩
  induction T with
  | zero => simp
  | succ T ih =>
    rw [Finset.sum_range_succ, Finset.sum_range_succ, ih, ← dare_square hX hR hd e, hz T]
    ring

end field

section real
variable {n m p : ℕ}

open MeasureTheory intervalIntegral

theorem hasDerivAt_quad {x : ℝ → Fin n → ℝ} {v : Fin n → ℝ} {t : ℝ} (X : Matrix (Fin n) (Fin n) ℝ) (h : HasDerivAt x v t) :
    HasDerivAt (fun t => x t ⬝ᵥ X *ᵥ x t) (v ⬝ᵥ X *ᵥ x t + x t ⬝ᵥ X *ᵥ v) t := by
  have h1 : ∀ i, HasDerivAt (fun t => x t i) (v i) t := hasDerivAt_pi.1 h
  have h2 : ∀ i, HasDerivAt (fun t => (X *ᵥ x t) i) ((X *ᵥ v) i) t := by
    intro i
    simp only [mulVec, dotProduct]
    exact HasDerivAt.fun_sum fun j _ => (h1 j).const_mul _
  have h3 : HasDerivAt (fun t => ∑ i, x t i * (X *ᵥ x t) i) (∑ i, (v i * (X *ᵥ x t) i + x t i * (X *ᵥ v) i)) t :=
    HasDerivAt.fun_sum fun i _ => (h1 i).mul (h2 i)
  rw [Finset.sum_add_distrib] at h3
  exact h3

theorem continuousOn_bil {a b : ℕ} {x : ℝ → Fin a → ℝ} {y : ℝ → Fin b → ℝ} {s : Set ℝ} (M : Matrix (Fin a) (Fin b) ℝ) (hx : ContinuousOn x s) (hy : ContinuousOn y s) :
    ContinuousOn (fun t => x t ⬝ᵥ M *ᵥ y t) s := by
  have h1 : ∀ i, ContinuousOn (fun t => x t i) s := continuousOn_pi.1 hx
  have h2 : ∀ i, ContinuousOn (fun t => y t i) s := continuousOn_pi.1 hy
  simp only [mulVec, dotProduct]
  exact continuousOn_finset_sum _ fun i _ => (h1 i).mul (continuousOn_finset_sum _ fun j _ => continuousOn_const.mul (h2 j))

/-- **C57, continuous time.** For the returned `K` and `X`, and every trajectory, the cost up to the time `T` is
`x(0)' X x(0) - x(T)' X x(T)` plus the integral of a quadratic form in `u + K x`. -/
theorem C57_continuous (N : AreNum ℝ) (A : Matrix (Fin n) (Fin n) ℝ) (B : Matrix (Fin n) (Fin m) ℝ) (C : Matrix (Fin p) (Fin n) ℝ) (D : Matrix (Fin p) (Fin m) ℝ)
    (Q : Matrix (Fin n) (Fin n) ℝ) (R : Option (Matrix (Fin m) (Fin m) ℝ)) (S : Option (Matrix (Fin n) (Fin m) ℝ)) (w : List Char)
    (hw : w ≠ "output".toList) (hN : Spec.CareOk N A B Q (R.getD 1) S) {k x acl : Arr ℝ}
    (h : lqr N (stateOf A B C D none) (Arr.of Q) (R.map Arr.of) (S.map Arr.of) w = .ok (k, x, acl)) :
    ∃ (Kg : Matrix (Fin m) (Fin n) ℝ) (X : Matrix (Fin n) (Fin n) ℝ), k = Arr.of Kg ∧ x = Arr.of X ∧ acl = Arr.of (A - B * Kg) ∧ Xᵀ = X ∧
      ∀ (z : ℝ → Fin n → ℝ) (u : ℝ → Fin m → ℝ) (T : ℝ), 0 ≤ T → ContinuousOn u (Set.Icc 0 T) →
        (∀ t ∈ Set.Icc 0 T, HasDerivAt z (A *ᵥ z t + B *ᵥ u t) t) →
        ∫ t in 0..T, Spec.cost Q (S.getD 0) (R.getD 1) (z t) (u t)
          = z 0 ⬝ᵥ X *ᵥ z 0 - z T ⬝ᵥ X *ᵥ z T + ∫ t in 0..T, (u t + Kg *ᵥ z t) ⬝ᵥ R.getD 1 *ᵥ (u t + Kg *ᵥ z t) := by
  have h' := lqr_state N hw h
  have eR : (R.map Arr.of).getD (Arr.eye (Arr.of D).c) = Arr.of (R.getD 1) := by cases R <;> rfl
  rw [eR] at h'
  obtain ⟨X, hx, hX, hR, hd, hk, hacl, e⟩ := lqrSolve_cont N hN h'
  refine ⟨_, X, hk, hx, hacl, hX, fun z u T hT hu hz => ?_⟩
  have hz' : ContinuousOn z (Set.uIcc 0 T) := by
    rw [Set.uIcc_of_le hT]; exact fun t ht => (hz t ht).continuousAt.continuousWithinAt
  rw [← Set.uIcc_of_le hT] at hu hz
  have hc : ContinuousOn (fun t => Spec.cost Q (S.getD 0) (R.getD 1) (z t) (u t)) (Set.uIcc 0 T) :=
    (((continuousOn_bil _ hz' hz').add (continuousOn_bil _ hz' hu)).add (continuousOn_bil _ hu hz')).add (continuousOn_bil _ hu hu)
  have hv : ContinuousOn (fun t => A *ᵥ z t + B *ᵥ u t) (Set.uIcc 0 T) :=
    ((Matrix.mulVecLin A).continuous_of_finiteDimensional.comp_continuousOn hz').add ((Matrix.mulVecLin B).continuous_of_finiteDimensional.comp_continuousOn hu)
  have hder : ContinuousOn (fun t => (A *ᵥ z t + B *ᵥ u t) ⬝ᵥ X *ᵥ z t + z t ⬝ᵥ X *ᵥ (A *ᵥ z t + B *ᵥ u t)) (Set.uIcc 0 T) :=
    (continuousOn_bil _ hv hz').add (continuousOn_bil _ hz' hv)
  have hF := integral_eq_sub_of_hasDerivAt (fun t ht => hasDerivAt_quad X (hz t ht)) hder.intervalIntegrable
  have hsum := integral_add (μ := volume) hder.intervalIntegrable hc.intervalIntegrable
  rw [integral_congr (g := fun t => (u t + ((R.getD 1)⁻¹ * (Bᵀ * X + (S.getD 0)ᵀ)) *ᵥ z t) ⬝ᵥ R.getD 1 *ᵥ (u t + ((R.getD 1)⁻¹ * (Bᵀ * X + (S.getD 0)ᵀ)) *ᵥ z t))
    (fun t _ => care_square hX hR hd e (z t) (u t)), hF] at hsum
  rw [hsum]
  ring

/-- **C57, optimality.** With the returned `K` and `X` and `R ≥ 0`, no input that drives the state to zero has a cost below `x(0)' X x(0)`, and `u = - K x`, if it
drives the state to zero, has exactly this cost. -/
theorem C57_continuous_optimal (N : AreNum ℝ) (A : Matrix (Fin n) (Fin n) ℝ) (B : Matrix (Fin n) (Fin m) ℝ) (C : Matrix (Fin p) (Fin n) ℝ) (D : Matrix (Fin p) (Fin m) ℝ)
    (Q : Matrix (Fin n) (Fin n) ℝ) (R : Option (Matrix (Fin m) (Fin m) ℝ)) (S : Option (Matrix (Fin n) (Fin m) ℝ)) (w : List Char)
    (hw : w ≠ "output".toList) (hN : Spec.CareOk N A B Q (R.getD 1) S) {k x acl : Arr ℝ}
    (h : lqr N (stateOf A B C D none) (Arr.of Q) (R.map Arr.of) (S.map Arr.of) w = .ok (k, x, acl)) (hR : ∀ v, 0 ≤ v ⬝ᵥ R.getD 1 *ᵥ v) :
    ∃ (Kg : Matrix (Fin m) (Fin n) ℝ) (X : Matrix (Fin n) (Fin n) ℝ), k = Arr.of Kg ∧ x = Arr.of X ∧
      ∀ (z : ℝ → Fin n → ℝ) (u : ℝ → Fin m → ℝ) (J : ℝ), ContinuousOn u (Set.Ici 0) → (∀ t, 0 ≤ t → HasDerivAt z (A *ᵥ z t + B *ᵥ u t) t) →
        Filter.Tendsto z Filter.atTop (nhds 0) →
        Filter.Tendsto (fun T => ∫ t in 0..T, Spec.cost Q (S.getD 0) (R.getD 1) (z t) (u t)) Filter.atTop (nhds J) →
        z 0 ⬝ᵥ X *ᵥ z 0 ≤ J ∧ ((∀ t, 0 ≤ t → u t = -(Kg *ᵥ z t)) → J = z 0 ⬝ᵥ X *ᵥ z 0) := by
  obtain ⟨Kg, X, hk, hx, -, -, H⟩ := C57_continuous N A B C D Q R S w hw hN h
  refine ⟨Kg, X, hk, hx, fun z u J hu hz hz0 hJ => ?_⟩
  have hq : Filter.Tendsto (fun T => z T ⬝ᵥ X *ᵥ z T) Filter.atTop (nhds 0) := by
    have h1 : ∀ i, Filter.Tendsto (fun t => z t i) Filter.atTop (nhds 0) := fun i => by simpa using tendsto_pi_nhds.1 hz0 i
    simp only [mulVec, dotProduct]
    have h2 : ∀ i, Filter.Tendsto (fun t => z t i * ∑ j, X i j * z t j) Filter.atTop (nhds (0 * ∑ j, X i j * 0)) := fun i =>
      (h1 i).mul (tendsto_finset_sum _ fun j _ => (h1 j).const_mul _)
    simpa using tendsto_finset_sum Finset.univ fun i _ => h2 i
  have hlim : Filter.Tendsto (fun T => z 0 ⬝ᵥ X *ᵥ z 0 - z T ⬝ᵥ X *ᵥ z T) Filter.atTop (nhds (z 0 ⬝ᵥ X *ᵥ z 0)) := by
    simpa using (tendsto_const_nhds (x := z 0 ⬝ᵥ X *ᵥ z 0)).sub hq
  have key : ∀ T : ℝ, 0 ≤ T → _ := fun T hT => H z u T hT (hu.mono fun t ht => ht.1) fun t ht => hz t ht.1
  constructor
  · refine le_of_tendsto_of_tendsto hlim hJ ?_
    filter_upwards [Filter.eventually_ge_atTop 0] with T hT
    rw [key T hT]
    exact le_add_of_nonneg_right (integral_nonneg hT fun t _ => hR _)
  · intro hK
    refine tendsto_nhds_unique hJ (hlim.congr' ?_)
    filter_upwards [Filter.eventually_ge_atTop 0] with T hT
    rw [key T hT, integral_congr (g := fun _ => (0 : ℝ))]
    · simp
    · intro t ht
      rw [Set.uIcc_of_le hT] at ht
      simp only [hK t ht.1, neg_add_cancel, zero_dotProduct]

/-- **C57, optimality in discrete time.** -/
theorem C57_discrete_optimal (N : AreNum ℝ) (A : Matrix (Fin n) (Fin n) ℝ) (B : Matrix (Fin n) (Fin m) ℝ) (C : Matrix (Fin p) (Fin n) ℝ) (D : Matrix (Fin p) (Fin m) ℝ)
    (dt : ℝ) (Q : Matrix (Fin n) (Fin n) ℝ) (R : Option (Matrix (Fin m) (Fin m) ℝ)) (S : Option (Matrix (Fin n) (Fin m) ℝ)) (w : List Char)
    (hw : w ≠ "output".toList) (hN : Spec.DareOk N A B Q (R.getD 1) S) {k : Arr ℝ} {X : Matrix (Fin n) (Fin n) ℝ} {acl : Arr ℝ}
    (h : lqr N (stateOf A B C D (some dt)) (Arr.of Q) (R.map Arr.of) (S.map Arr.of) w = .ok (k, Arr.of X, acl))
    (hR : ∀ v, 0 ≤ v ⬝ᵥ (R.getD 1 + Bᵀ * X * B) *ᵥ v) :
    ∃ Kg : Matrix (Fin m) (Fin n) ℝ, k = Arr.of Kg ∧
      ∀ (z : ℕ → Fin n → ℝ) (u : ℕ → Fin m → ℝ) (J : ℝ), (∀ t, z (t + 1) = A *ᵥ z t + B *ᵥ u t) → Filter.Tendsto z Filter.atTop (nhds 0) →
        Filter.Tendsto (fun T => ∑ t ∈ Finset.range T, Spec.cost Q (S.getD 0) (R.getD 1) (z t) (u t)) Filter.atTop (nhds J) →
        z 0 ⬝ᵥ X *ᵥ z 0 ≤ J ∧ ((∀ t, u t = -(Kg *ᵥ z t)) → J = z 0 ⬝ᵥ X *ᵥ z 0) := by
  obtain ⟨Kg, X', hk, hx, -, -, H⟩ := C57_discrete N A B C D dt Q R S w hw hN h
  obtain rfl := Arr.of_inj.1 hx
  refine ⟨Kg, hk, fun z u J hz hz0 hJ => ?_⟩
  have hq : Filter.Tendsto (fun T => z T ⬝ᵥ X *ᵥ z T) Filter.atTop (nhds 0) := by
    have h1 : ∀ i, Filter.Tendsto (fun t => z t i) Filter.atTop (nhds 0) := fun i => by simpa using tendsto_pi_nhds.1 hz0 i
    simp only [mulVec, dotProduct]
    have h2 : ∀ i, Filter.Tendsto (fun t => z t i * ∑ j, X i j * z t j) Filter.atTop (nhds (0 * ∑ j, X i j * 0)) := fun i =>
      (h1 i).mul (tendsto_finset_sum _ fun j _ => (h1 j).const_mul _)
    simpa using tendsto_finset_sum Finset.univ fun i _ => h2 i
  have hlim : Filter.Tendsto (fun T => z 0 ⬝ᵥ X *ᵥ z 0 - z T ⬝ᵥ X *ᵥ z T) Filter.atTop (nhds (z 0 ⬝ᵥ X *ᵥ z 0)) := by
    simpa using (tendsto_const_nhds (x := z 0 ⬝ᵥ X *ᵥ z 0)).sub hq
  constructor
  · refine le_of_tendsto_of_tendsto' hlim hJ fun T => ?_
    rw [H z u hz T]
    exact le_add_of_nonneg_right (Finset.sum_nonneg fun t _ => hR _)
  · intro hK
    refine tendsto_nhds_unique hJ (hlim.congr fun T => ?_)
    rw [H z u hz T, Finset.sum_eq_zero]
    · simp
    · intro t _
      rw [hK t, neg_add_cancel, zero_dotProduct]

/-! ## Instances -/

/-- A Riccati solver for two scalar equations each. -/
noncomputable def exAre : AreNum ℝ where
  care _ _ q _ _ := open Classical in
    if q = Arr.of (!![3] : Matrix (Fin 1) (Fin 1) ℝ) then .ok (Arr.of (!![3] : Matrix (Fin 1) (Fin 1) ℝ))
    else if q = Arr.of (!![48] : Matrix (Fin 1) (Fin 1) ℝ) then .ok (Arr.of (!![8] : Matrix (Fin 1) (Fin 1) ℝ)) else .error .linAlg
  dare _ _ _ _ _ := .ok (Arr.of (!![2] : Matrix (Fin 1) (Fin 1) ℝ))

theorem mat1_inv (a : ℝ) : (!![a] : Matrix (Fin 1) (Fin 1) ℝ)⁻¹ = !![a⁻¹] := by
  rw [Matrix.inv_def, adjugate_fin_one]; ext i j; fin_cases i; fin_cases j; simp [Ring.inverse_eq_inv']

theorem exAre_care3 : Spec.CareOk exAre (!![1] : Matrix (Fin 1) (Fin 1) ℝ) (!![1] : Matrix (Fin 1) (Fin 1) ℝ) !![3] 1 none := by
  intro x hx
  simp only [exAre, if_true, Except.ok.injEq] at hx
  refine ⟨!![3], hx.symm, by ext i j; fin_cases i; fin_cases j; rfl, transpose_one, ?_⟩
  ext i j; fin_cases i; fin_cases j
  simp [Matrix.mul_apply, Matrix.vecMul, dotProduct]
  norm_num

theorem exAre_care48 : Spec.CareOk exAre (!![1] : Matrix (Fin 1) (Fin 1) ℝ) (!![1] : Matrix (Fin 1) (Fin 1) ℝ) !![48] !![1] (some !![0]) := by
  intro x hx
  have hne : Arr.of (!![48] : Matrix (Fin 1) (Fin 1) ℝ) ≠ Arr.of (!![3] : Matrix (Fin 1) (Fin 1) ℝ) := by
    intro h; have := congrFun (congrFun (Arr.of_inj.1 h) 0) 0; norm_num at this
  simp only [exAre, hne, if_false, if_true, Except.ok.injEq] at hx
  refine ⟨!![8], hx.symm, by ext i j; fin_cases i; fin_cases j; rfl, by ext i j; fin_cases i; fin_cases j; rfl, ?_⟩
  ext i j; fin_cases i; fin_cases j
  simp [mat1_inv, Matrix.mul_apply, Matrix.vecMul, dotProduct]
  norm_num

theorem exAre_dare : Spec.DareOk exAre (!![1] : Matrix (Fin 1) (Fin 1) ℝ) (!![1] : Matrix (Fin 1) (Fin 1) ℝ) !![1] !![2] none := by
  intro x hx
  simp only [exAre, Except.ok.injEq] at hx
  refine ⟨!![2], hx.symm, by ext i j; fin_cases i; fin_cases j; rfl, by ext i j; fin_cases i; fin_cases j; rfl, ?_⟩
  have e : (!![2] + (!![1] : Matrix (Fin 1) (Fin 1) ℝ)ᵀ * !![2] * !![1] : Matrix (Fin 1) (Fin 1) ℝ) = !![4] := by
    ext i j; fin_cases i; fin_cases j; simp [Matrix.mul_apply]; norm_num
  rw [e, mat1_inv]
  ext i j; fin_cases i; fin_cases j
  simp [Matrix.mul_apply, Matrix.vecMul, dotProduct]
  norm_num

theorem exAre_lqr_cont {R S : Option (Matrix (Fin 1) (Fin 1) ℝ)} {w : List Char} (hw : weightAccepted w) (hw' : w ≠ strOutput) (hR : (R.getD 1).det ≠ 0) :
    ∃ k acl, lqr exAre (stateOf (!![1] : Matrix (Fin 1) (Fin 1) ℝ) (!![1] : Matrix (Fin 1) (Fin 1) ℝ) (!![4] : Matrix (Fin 1) (Fin 1) ℝ) !![0] none) (Arr.of !![3])
      (R.map Arr.of) (S.map Arr.of) w = .ok (k, Arr.of !![3], acl) := by
  have eR : (R.map Arr.of).getD (Arr.eye (Arr.of (!![0] : Matrix (Fin 1) (Fin 1) ℝ)).c) = Arr.of (R.getD 1) := by cases R <;> rfl
  unfold lqr
  simp only [hw, hw', not_true, if_false, Bool.false_eq_true, eR]
  unfold lqrSolve
  simp only [Option.isNone_none, if_true, exAre, bind, Except.bind, Arr.T_of, Arr.matmul_of, lqrAddCross_of, Arr.solve_of, hR, if_false, Arr.sub_of]
  exact ⟨_, _, rfl⟩

-- The hypotheses of `C57_continuous` and `C57_continuous_optimal` are satisfiable.
example : ∃ k x acl, lqr exAre (stateOf (!![1] : Matrix (Fin 1) (Fin 1) ℝ) (!![1] : Matrix (Fin 1) (Fin 1) ℝ) (!![4] : Matrix (Fin 1) (Fin 1) ℝ) !![0] none) (Arr.of !![3])
      (Option.map Arr.of (none : Option (Matrix (Fin 1) (Fin 1) ℝ))) (Option.map Arr.of (none : Option (Matrix (Fin 1) (Fin 1) ℝ))) "state".toList = .ok (k, x, acl) ∧
    Spec.CareOk exAre (!![1] : Matrix (Fin 1) (Fin 1) ℝ) (!![1] : Matrix (Fin 1) (Fin 1) ℝ) !![3] ((none : Option (Matrix (Fin 1) (Fin 1) ℝ)).getD 1) none := by
  obtain ⟨k, acl, h⟩ := exAre_lqr_cont (R := none) (S := none) (w := "state".toList) (by decide) (by decide) (by simp)
  exact ⟨k, _, acl, h, exAre_care3⟩

-- The hypotheses of `C57_discrete` and `C57_discrete_optimal` are satisfiable.
example : ∃ k acl, lqr exAre (stateOf (!![1] : Matrix (Fin 1) (Fin 1) ℝ) (!![1] : Matrix (Fin 1) (Fin 1) ℝ) (!![4] : Matrix (Fin 1) (Fin 1) ℝ) !![0] (some 1)) (Arr.of !![1])
      (Option.map Arr.of (some !![2])) (Option.map Arr.of (none : Option (Matrix (Fin 1) (Fin 1) ℝ))) "state".toList
        = .ok (k, Arr.of (!![2] : Matrix (Fin 1) (Fin 1) ℝ), acl) ∧
    Spec.DareOk exAre (!![1] : Matrix (Fin 1) (Fin 1) ℝ) (!![1] : Matrix (Fin 1) (Fin 1) ℝ) !![1] ((some !![2] : Option (Matrix (Fin 1) (Fin 1) ℝ)).getD 1) none := by
  have e1 : weightAccepted "state".toList := by decide
  have e2 : "state".toList ≠ strOutput := by decide
  have e : ((!![1] : Matrix (Fin 1) (Fin 1) ℝ)ᵀ * !![2] * !![1] + !![2] : Matrix (Fin 1) (Fin 1) ℝ) = !![4] := by
    ext i j; fin_cases i; fin_cases j; simp [Matrix.mul_apply]; norm_num
  have hd : ((!![1] : Matrix (Fin 1) (Fin 1) ℝ)ᵀ * !![2] * !![1] + !![2] : Matrix (Fin 1) (Fin 1) ℝ).det ≠ 0 := by rw [e]; simp
  unfold lqr
  simp only [e1, e2, not_true, if_false, Bool.false_eq_true, Option.map_some, Option.getD_some]
  unfold lqrSolve
  simp only [Option.isNone_some, Bool.false_eq_true, if_false, exAre, bind, Except.bind, Arr.T_of, Arr.matmul_of, Arr.add_of, lqrAddCross_of, Arr.solve_of, hd, Arr.sub_of]
  exact ⟨_, _, rfl, exAre_dare⟩

/-- **C57, not every other spelling is rejected.** The empty word, and `'tat'`, are accepted. -/
theorem C57_spelling_violated : ∃ k acl, ∀ w ∈ [[], ['t', 'a', 't'], ['E', ',']],
    lqr exAre (stateOf (!![1] : Matrix (Fin 1) (Fin 1) ℝ) (!![1] : Matrix (Fin 1) (Fin 1) ℝ) (!![4] : Matrix (Fin 1) (Fin 1) ℝ) !![0] none) (Arr.of !![3]) none none w
      = .ok (k, Arr.of !![3], acl) := by
  obtain ⟨k, acl, h⟩ := exAre_lqr_cont (R := none) (S := none) (w := []) (by decide) (by decide) (by simp)
  refine ⟨k, acl, fun w hw => ?_⟩
  simp only [List.mem_cons, List.not_mem_nil, or_false] at hw
  rw [C57_other _ _ _ _ _ [] (by decide) (by decide)] at h
  rcases hw with rfl | rfl | rfl
  all_goals
    rw [C57_other _ _ _ _ _ _ (by decide) (by decide)]
    exact h

/-- **C57, `'Output'` weights the states.** It is accepted, but its result is the one of `'state'` and not the one of `'output'`. -/
theorem C57_case_violated : ∃ (k acl k' acl' : Arr ℝ),
    lqr exAre (stateOf (!![1] : Matrix (Fin 1) (Fin 1) ℝ) (!![1] : Matrix (Fin 1) (Fin 1) ℝ) (!![4] : Matrix (Fin 1) (Fin 1) ℝ) !![0] none) (Arr.of !![3]) none none
      "Output".toList = .ok (k, Arr.of !![3], acl) ∧
    lqr exAre (stateOf (!![1] : Matrix (Fin 1) (Fin 1) ℝ) (!![1] : Matrix (Fin 1) (Fin 1) ℝ) (!![4] : Matrix (Fin 1) (Fin 1) ℝ) !![0] none) (Arr.of !![3]) none none
      "output".toList = .ok (k', Arr.of !![8], acl') ∧
    Spec.CareOk exAre (!![1] : Matrix (Fin 1) (Fin 1) ℝ) (!![1] : Matrix (Fin 1) (Fin 1) ℝ) !![3] 1 none ∧
    Spec.CareOk exAre (!![1] : Matrix (Fin 1) (Fin 1) ℝ) (!![1] : Matrix (Fin 1) (Fin 1) ℝ) !![48] !![1] (some !![0]) := by
  obtain ⟨k, acl, h⟩ := exAre_lqr_cont (R := none) (S := none) (w := "Output".toList) (by decide) (by decide) (by simp)
  have h2 := lqr_output_eq exAre (!![1] : Matrix (Fin 1) (Fin 1) ℝ) (!![1] : Matrix (Fin 1) (Fin 1) ℝ) (!![4] : Matrix (Fin 1) (Fin 1) ℝ) !![0] none !![3] none none
  have eq : ((!![4] : Matrix (Fin 1) (Fin 1) ℝ)ᵀ * !![3] * !![4] : Matrix (Fin 1) (Fin 1) ℝ) = !![48] := by
    ext i j; fin_cases i; fin_cases j; simp [Matrix.mul_apply]; norm_num
  have er : ((!![0] : Matrix (Fin 1) (Fin 1) ℝ)ᵀ * !![3] * !![0] + ((none : Option (Matrix (Fin 1) (Fin 1) ℝ)).getD 0)ᵀ * !![0]
      + (!![0] : Matrix (Fin 1) (Fin 1) ℝ)ᵀ * (none : Option (Matrix (Fin 1) (Fin 1) ℝ)).getD 0 + (none : Option (Matrix (Fin 1) (Fin 1) ℝ)).getD 1 : Matrix (Fin 1) (Fin 1) ℝ) = !![1] := by
    ext i j; fin_cases i; fin_cases j; simp [Matrix.mul_apply]
  have es : ((!![4] : Matrix (Fin 1) (Fin 1) ℝ)ᵀ * !![3] * !![0] + (!![4] : Matrix (Fin 1) (Fin 1) ℝ)ᵀ * (none : Option (Matrix (Fin 1) (Fin 1) ℝ)).getD 0 : Matrix (Fin 1) (Fin 1) ℝ) = !![0] := by
    ext i j; fin_cases i; fin_cases j; simp [Matrix.mul_apply]
  rw [eq, er, es] at h2
  have hne : Arr.of (!![48] : Matrix (Fin 1) (Fin 1) ℝ) ≠ Arr.of (!![3] : Matrix (Fin 1) (Fin 1) ℝ) := by
    intro h; have := congrFun (congrFun (Arr.of_inj.1 h) 0) 0; norm_num at this
  have hd : (!![1] : Matrix (Fin 1) (Fin 1) ℝ).det ≠ 0 := by simp
  have hc := fun M => lqrAddCross_of (K := ℝ) M (some (!![0] : Matrix (Fin 1) (Fin 1) ℝ))
  simp only [Option.map_some] at hc
  unfold lqrSolve at h2
  simp only [Option.isNone_none, if_true, exAre, hne, if_false, bind, Except.bind, Arr.T_of, Arr.matmul_of, hc, Arr.solve_of, hd, Arr.sub_of] at h2
  exact ⟨k, acl, _, _, h, h2, exAre_care3, exAre_care48⟩

-- Words that are rejected, and symmetric output weights.
example : ¬ "outputs".toList.map Char.toLower <:+: "state, output".toList := by decide

example : (!![(2 : ℚ), 1; 1, 3] : Matrix (Fin 2) (Fin 2) ℚ)ᵀ = !![2, 1; 1, 3] := by ext i j; fin_cases i <;> fin_cases j <;> rfl

end real

end Harold
