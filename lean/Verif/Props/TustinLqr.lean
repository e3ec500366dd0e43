import Verif.Lemmas.Cayley
import Verif.Props.Passive
import Verif.Props.LyapTest

/-!
# C131: the bilinear transformation keeps gramians and regulators
-/

namespace Harold

open Matrix Harold.Spec

variable {n m p : ℕ} {Pt : Type} {Nm : Numerics ℝ Pt} {E : DNum} {g S : StateObj ℝ Pt} {dt pw : ℝ} {method : String} {qq : Option (Arr ℝ)}
  {A : Matrix (Fin n) (Fin n) ℝ} {B : Matrix (Fin n) (Fin m) ℝ} {C : Matrix (Fin p) (Fin n) ℝ} {D : Matrix (Fin p) (Fin m) ℝ}

/-- The time step of the bilinear transformation in seconds, warped if there is a prewarping frequency. -/
noncomputable def warped (dt pw : ℝ) : ℝ := if pw = 0 then dt else 2 * Real.tan (2 * Real.pi * pw * dt / 2) / (2 * Real.pi * pw)

/-- The matrices of the discretized model. -/
theorem tustin_matrices (hm : method = "tustin" ∨ method = "bilinear") (hG : g.g = stateOf A B C D none) (hpw : 0 ≤ pw) (hny : pw < 1 / (2 * dt)) (h : discretize Nm E g dt method pw qq = .ok S) :
    0 < dt ∧ ∃ y w : ℝ, 0 < y ∧ 0 < w ∧ y * y = w + w ∧ y * y = warped dt pw ∧ (1 - w • A).det ≠ 0 ∧
      S.g = stateOf (1 + (y * y) • (A * (1 - w • A)⁻¹)) (y • ((1 - w • A)⁻¹ * B)) (y • (C * (1 - w • A)⁻¹)) (D + w • (C * (1 - w • A)⁻¹ * B)) (some dt) := by
  obtain ⟨hk, hdt0, hdt⟩ := discretize_pre h
  obtain ⟨y, hy, hargs, hyw⟩ := tustin_args_all (E := E) (qq := qq) hm hdt hpw hny
  obtain ⟨h1, h2⟩ := discretize_lft_ok (N := Nm) (hargs g.g) (fun _ _ => hny.le) hG hk
  have hd : (1 - (y ^ 2 / 2) • A).det ≠ 0 := fun h0 => by rw [h1 h0] at h; cases h
  obtain ⟨S', h3, h4, -⟩ := h2 hd hdt
  rw [h] at h3
  cases h3
  refine ⟨hdt, y, y ^ 2 / 2, hy, by positivity, by ring, by rw [← sq]; exact hyw, hd, ?_⟩
  rw [h4, one_smul]

/-- **C131**, gramians: for a stable model and its bilinear discretization `lyapunov_eq_solver` returns the same observability gramian, from the continuous equation with `C'C` and from the discrete equation with the transformed
matrices, and the same controllability gramian. -/
theorem C131_gramians {N N' : LyapNum ℝ} {X0 X0' : Wk ℝ} (h0 : 0 < n) (hm : method = "tustin" ∨ method = "bilinear") (hG : g.g = stateOf A B C D none) (hst : StableModel g.g) (hpw : 0 ≤ pw)
    (hny : pw < 1 / (2 * dt)) (h : discretize Nm E g dt method pw qq = .ok S) : ∃ (A' : Matrix (Fin n) (Fin n) ℝ) (B' : Matrix (Fin n) (Fin m) ℝ) (C' : Matrix (Fin p) (Fin n) ℝ) (D' : Matrix (Fin p) (Fin m) ℝ),
      S.g = stateOf A' B' C' D' (some dt) ∧
      (SchurOk N A → SchurOk N' A' → ∃ X : Matrix (Fin n) (Fin n) ℝ, lyapunovEqSolver N id X0 (Arr.of A) (Arr.of (Cᵀ * C)) none "c" = .ok (some (Arr.of X)) ∧ lyapunovEqSolver N' id X0' (Arr.of A') (Arr.of (C'ᵀ * C')) none "d" = .ok (some (Arr.of X))) ∧
      (SchurOk N Aᵀ → SchurOk N' A'ᵀ → ∃ X : Matrix (Fin n) (Fin n) ℝ, lyapunovEqSolver N id X0 (Arr.of Aᵀ) (Arr.of (B * Bᵀ)) none "c" = .ok (some (Arr.of X)) ∧
        lyapunovEqSolver N' id X0' (Arr.of A'ᵀ) (Arr.of (B' * B'ᵀ)) none "d" = .ok (some (Arr.of X))) := by
  obtain ⟨hdt, y, w, hy, hw, hyw, -, hd, hS⟩ := tustin_matrices hm hG hpw hny h
  have hA : Hurwitz A := by
    rw [hG] at hst
    rcases hst with h0 | ⟨n', A', hA, hM⟩
    · cases h0
    · obtain rfl : n = n' := congrArg Arr.r hA
      obtain rfl := Arr.of_inj.mp hA
      exact fun z hz => by simpa [StablePoint] using motions_iff.mp hM z hz
  have hA' : Schur (1 + (y * y) • (A * (1 - w • A)⁻¹)) := by
    have := (hurwitz_iff_schur (A := A) (h := y * y) (by linarith) (by rwa [show y * y / 2 = w by linarith])).mp hA
    rwa [one_smul, show y * y / 2 = w by linarith] at this
  have hAt : Hurwitz Aᵀ := fun z hz => hA z (by
    unfold IsEig at hz ⊢
    rw [← det_transpose, transpose_sub, transpose_smul, transpose_one] at hz
    exact hz)
  have hAt' : Schur (1 + (y * y) • (A * (1 - w • A)⁻¹))ᵀ := fun z hz => hA' z (by
    unfold IsEig at hz ⊢
    rw [← det_transpose, transpose_sub, transpose_smul, transpose_one] at hz
    exact hz)
  refine ⟨_, _, _, _, hS, fun hN hN' => ?_, fun hN hN' => ?_⟩
  · obtain ⟨X, h1, h2, -⟩ := C53_continuous_stable_partial (X0 := X0) hN h0 (Y := Cᵀ * C) (by rw [transpose_mul, transpose_transpose]) (form := "c") (by simp) hA
    obtain ⟨X', h4, h5, -, h6⟩ := C53_discrete_stable_partial (X0 := X0') hN' h0 (Y := (y • (C * (1 - w • A)⁻¹))ᵀ * (y • (C * (1 - w • A)⁻¹))) (by rw [transpose_mul, transpose_transpose]) (form := "d") (by simp) hA'
    refine ⟨X, h1, ?_⟩
    rw [h6 X]
    · exact h4
    · obtain ⟨p1, -, p3, -⟩ := cayley_parts (B := (0 : Matrix (Fin n) (Fin 0) ℝ)) (y := y) hd
      rw [p3]
      have := cayley_lyap (X := X) (Q := Cᵀ * C) hyw p1 rfl
      rw [h2, Matrix.mul_zero, Matrix.zero_mul] at this
      rw [← this]
      congr 1
      rw [← Matrix.mul_smul, transpose_mul]
      simp only [Matrix.mul_assoc]
  · obtain ⟨X, h1, h2, -⟩ := C53_continuous_stable_partial (X0 := X0) hN h0 (Y := B * Bᵀ) (by rw [transpose_mul, transpose_transpose]) (form := "c") (by simp) hAt
    obtain ⟨X', h4, h5, -, h6⟩ := C53_discrete_stable_partial (X0 := X0') hN' h0 (Y := (y • ((1 - w • A)⁻¹ * B)) * (y • ((1 - w • A)⁻¹ * B))ᵀ) (by rw [transpose_mul, transpose_transpose]) (form := "d") (by simp) hAt'
    refine ⟨X, h1, ?_⟩
    rw [h6 X]
    · exact h4
    · have hdt' : (1 - w • Aᵀ).det ≠ 0 := by
        rw [← det_transpose, transpose_sub, transpose_smul, transpose_one, transpose_transpose]
        exact hd
      have ei : (1 - w • Aᵀ)⁻¹ = ((1 - w • A)⁻¹)ᵀ := by rw [transpose_nonsing_inv, transpose_sub, transpose_smul, transpose_one]
      have ec : A * (1 - w • A)⁻¹ = (1 - w • A)⁻¹ * A := by
        have hu := isUnit_iff_ne_zero.mpr hd
        have hcomm : (1 - w • A) * A = A * (1 - w • A) := by rw [Matrix.sub_mul, Matrix.mul_sub, Matrix.one_mul, Matrix.mul_one, Matrix.smul_mul, Matrix.mul_smul]
        calc A * (1 - w • A)⁻¹ = (1 - w • A)⁻¹ * ((1 - w • A) * A) * (1 - w • A)⁻¹ := by rw [nonsing_inv_mul_cancel_left _ _ hu]
          _ = (1 - w • A)⁻¹ * A := by rw [hcomm, Matrix.mul_assoc, Matrix.mul_assoc A, mul_nonsing_inv _ hu, Matrix.mul_one]
      have et : (1 + (y * y) • (A * (1 - w • A)⁻¹))ᵀ = 1 + (y * y) • (Aᵀ * (1 - w • Aᵀ)⁻¹) := by
        rw [transpose_add, transpose_one, transpose_smul, ec, transpose_mul, ei]
      obtain ⟨p1, -, p3, -⟩ := cayley_parts (A := Aᵀ) (B := (0 : Matrix (Fin n) (Fin 0) ℝ)) (y := y) hdt'
      rw [et, p3]
      have := cayley_lyap (X := X) (Q := B * Bᵀ) hyw p1 rfl
      rw [h2, Matrix.mul_zero, Matrix.zero_mul] at this
      rw [← this]
      congr 1
      simp only [ei, transpose_smul, transpose_transpose, transpose_mul]
      simp only [Matrix.mul_assoc, Matrix.smul_mul, Matrix.mul_smul]

/-- The gramians of `1/(s + 1)`. -/
example {P : Type} {Nm : Numerics ℝ P} {E : DNum} {X0 : Wk ℝ} : ∃ (N : LyapNum ℝ) (S : StateObj ℝ P) (A' : Matrix (Fin 1) (Fin 1) ℝ) (B' : Matrix (Fin 1) (Fin 1) ℝ) (C' : Matrix (Fin 1) (Fin 1) ℝ) (D' : Matrix (Fin 1) (Fin 1) ℝ)
    (X : Matrix (Fin 1) (Fin 1) ℝ), discretize Nm E ({ lagObj P with g := lagR } : StateObj ℝ P) (1 / 10) "tustin" 0 none = .ok S ∧ S.g = stateOf A' B' C' D' (some (1 / 10)) ∧
      lyapunovEqSolver N id X0 (Arr.of !![-1]) (Arr.of ((!![1] : Matrix (Fin 1) (Fin 1) ℝ)ᵀ * !![1])) none "c" = .ok (some (Arr.of X)) ∧
      lyapunovEqSolver N id X0 (Arr.of A') (Arr.of (C'ᵀ * C')) none "d" = .ok (some (Arr.of X)) := by
  have hA : Hurwitz !![(-1 : ℝ)] := one_state_hurwitz (by norm_num)
  obtain ⟨y, hy, hargs, -⟩ := tustin_args_all (method := "tustin") (dt := 1 / 10) (pw := 0) (E := E) (qq := none) (Or.inl rfl) (by norm_num) le_rfl (by norm_num)
  obtain ⟨S, h1, -, -⟩ := (discretize_lft_ok (N := Nm) (G := ({ lagObj P with g := lagR } : StateObj ℝ P)) (hargs lagR) (fun _ _ => by norm_num) rfl (by decide)).2 (Hurwitz.det_ne_zero hA (by positivity)) (by norm_num)
  obtain ⟨N, -, hN, -⟩ := exists_lyapNum
  obtain ⟨A', B', C', D', h2, h3, -⟩ := C131_gramians (N := N) (N' := N) (X0 := X0) (X0' := X0) one_pos (Or.inl rfl) rfl lagR_stable le_rfl (by norm_num) h1
  obtain ⟨X, h4, h5⟩ := h3 (hN _) (hN _)
  exact ⟨N, S, A', B', C', D', X, h1, h2, h4, h5⟩

section regulator

variable {Q : Matrix (Fin p) (Fin p) ℝ} {R : Option (Matrix (Fin m) (Fin m) ℝ)} {Sx : Option (Matrix (Fin p) (Fin m) ℝ)}

/-- The weights of the outputs as weights of the states and inputs. -/
theorem weights_transformed (P : Matrix (Fin n) (Fin n) ℝ) (L : Matrix (Fin n) (Fin m) ℝ) (Q : Matrix (Fin p) (Fin p) ℝ) (R : Matrix (Fin m) (Fin m) ℝ) (M : Matrix (Fin p) (Fin m) ℝ) (hQ : Qᵀ = Q) :
    (C * P)ᵀ * Q * (C * P) = Pᵀ * (Cᵀ * Q * C) * P ∧ (C * P)ᵀ * Q * (D + C * L) + (C * P)ᵀ * M = Pᵀ * ((Cᵀ * Q * C) * L + (Cᵀ * Q * D + Cᵀ * M)) ∧
    (D + C * L)ᵀ * Q * (D + C * L) + Mᵀ * (D + C * L) + (D + C * L)ᵀ * M + R =
      Lᵀ * (Cᵀ * Q * C) * L + Lᵀ * (Cᵀ * Q * D + Cᵀ * M) + (Cᵀ * Q * D + Cᵀ * M)ᵀ * L + (Dᵀ * Q * D + Mᵀ * D + Dᵀ * M + R) := by
  refine ⟨?_, ?_, ?_⟩
  · simp only [transpose_mul, Matrix.mul_assoc]
  · simp only [transpose_mul, Matrix.mul_assoc, Matrix.mul_add]
    abel
  · simp only [transpose_mul, transpose_add, transpose_transpose, hQ, Matrix.mul_assoc, Matrix.mul_add, Matrix.add_mul]
    abel

/-- A Riccati solver that finds the stabilizing solution whenever there is one. -/
def DareComplete (N : AreNum ℝ) (A : Matrix (Fin n) (Fin n) ℝ) (B : Matrix (Fin n) (Fin m) ℝ) (Q : Matrix (Fin n) (Fin n) ℝ) (R : Matrix (Fin m) (Fin m) ℝ) (S : Option (Matrix (Fin n) (Fin m) ℝ)) : Prop :=
  (∃ X, DareSol A B Q R S X) → ∃ X, N.dare (Arr.of A) (Arr.of B) (Arr.of Q) (Arr.of R) (S.map Arr.of) = .ok (Arr.of X) ∧ DareSol A B Q R S X

/-- `lqr` after the solver has returned. -/
theorem lqrSolve_disc_ok {N : AreNum ℝ} {A Q X : Matrix (Fin n) (Fin n) ℝ} {B S : Matrix (Fin n) (Fin m) ℝ} {R : Matrix (Fin m) (Fin m) ℝ} {dt : ℝ}
    (h : N.dare (Arr.of A) (Arr.of B) (Arr.of Q) (Arr.of R) (some (Arr.of S)) = .ok (Arr.of X)) (hd : (R + Bᵀ * X * B).det ≠ 0) :
    lqrSolve N (stateOf A B C D (some dt)) (Arr.of Q) (Arr.of R) (some (Arr.of S)) =
      .ok (Arr.of ((R + Bᵀ * X * B)⁻¹ * (Bᵀ * X * A + Sᵀ)), Arr.of X, Arr.of (A - B * ((R + Bᵀ * X * B)⁻¹ * (Bᵀ * X * A + Sᵀ)))) := by
  have hc := lqrAddCross_of (Bᵀ * X * A) (some S)
  simp only [Option.map_some, Option.getD_some] at hc
  unfold lqrSolve stateOf
  rw [add_comm] at hd
  simp only [Option.isNone_some, Bool.false_eq_true, h, bind, Except.bind, Arr.T_of, Arr.matmul_of, hc, Arr.solve_of, Arr.add_of, hd, if_false, Arr.sub_of, add_comm R]

/-- With the exact solver `lqr` succeeds if there is a stabilizing solution. -/
theorem exactAre_output_cont (A : Matrix (Fin n) (Fin n) ℝ) (B : Matrix (Fin n) (Fin m) ℝ) (C : Matrix (Fin p) (Fin n) ℝ) (D : Matrix (Fin p) (Fin m) ℝ) (Q : Matrix (Fin p) (Fin p) ℝ)
    (R : Option (Matrix (Fin m) (Fin m) ℝ)) (S : Option (Matrix (Fin p) (Fin m) ℝ)) (hd : (Dᵀ * Q * D + (S.getD 0)ᵀ * D + Dᵀ * S.getD 0 + R.getD 1).det ≠ 0) {X : Matrix (Fin n) (Fin n) ℝ}
    (hX : CareSol A B (Cᵀ * Q * C) (Dᵀ * Q * D + (S.getD 0)ᵀ * D + Dᵀ * S.getD 0 + R.getD 1) (some (Cᵀ * Q * D + Cᵀ * S.getD 0)) X) :
    ∃ (k x : Arr ℝ) (Acl : Matrix (Fin n) (Fin n) ℝ), lqr exactAre (stateOf A B C D none) (Arr.of Q) (R.map Arr.of) (S.map Arr.of) "output".toList = .ok (k, x, Arr.of Acl) ∧ Hurwitz Acl := by
  rw [lqr_output_eq]
  set R' := Dᵀ * Q * D + (S.getD 0)ᵀ * D + Dᵀ * S.getD 0 + R.getD 1
  set S' := Cᵀ * Q * D + Cᵀ * S.getD 0
  have hex : ∃ x, OnArr CareSol (Arr.of A) (Arr.of B) (Arr.of (Cᵀ * Q * C)) (Arr.of R') (some (Arr.of S')) x := ⟨Arr.of X, n, m, A, B, _, R', some S', X, rfl, rfl, rfl, rfl, rfl, rfl, hX⟩
  obtain ⟨Y, hY, -, -, -, hH⟩ := onArr_of (S := some S') hex.choose_spec
  have hc : exactAre.care (Arr.of A) (Arr.of B) (Arr.of (Cᵀ * Q * C)) (Arr.of R') (some (Arr.of S')) = .ok (Arr.of Y) := by
    unfold exactAre
    simp only [dif_pos hex, hY]
  have hl := lqrAddCross_of (Bᵀ * Y) (some S')
  simp only [Option.map_some, Option.getD_some] at hl
  refine ⟨Arr.of (R'⁻¹ * (Bᵀ * Y + S'ᵀ)), Arr.of Y, _, ?_, hH⟩
  unfold lqrSolve stateOf
  simp only [Option.isNone_none, if_true, hc, bind, Except.bind, Arr.T_of, Arr.matmul_of, hl, Arr.solve_of, hd, if_false, Arr.sub_of, Option.getD_some]

/-- **C131**, regulators: if the output-weighted regulator of a continuous model with the gain `K` stabilizes it, with the closed loop matrix `Acl`, then `lqr` succeeds on the bilinear discretization with the same weights and
returns the same cost matrix `X`, the bilinear transform of `Acl` and the gain `√τ K (1 - τ/2 Acl)⁻¹`. -/
theorem C131_lqr (hm : method = "tustin" ∨ method = "bilinear") (hG : g.g = stateOf A B C D none) (hpw : 0 ≤ pw) (hny : pw < 1 / (2 * dt)) (h : discretize Nm E g dt method pw qq = .ok S) (hQ : Qᵀ = Q)
    (N N' : AreNum ℝ) (hN : ∀ Q' R' S', CareOk N A B Q' R' (some S')) (hN' : ∀ (A' : Matrix (Fin n) (Fin n) ℝ) (B' : Matrix (Fin n) (Fin m) ℝ) Q' R' S', DareComplete N' A' B' Q' R' (some S'))
    {k x : Arr ℝ} {Acl : Matrix (Fin n) (Fin n) ℝ} (h1 : lqr N g.g (Arr.of Q) (R.map Arr.of) (Sx.map Arr.of) "output".toList = .ok (k, x, Arr.of Acl)) (hH : Hurwitz Acl) :
    ∃ K : Matrix (Fin m) (Fin n) ℝ, k = Arr.of K ∧ lqr N' S.g (Arr.of Q) (R.map Arr.of) (Sx.map Arr.of) "output".toList =
      .ok (Arr.of (√(warped dt pw) • (K * (1 - (warped dt pw / 2) • Acl)⁻¹)), x, Arr.of (1 + warped dt pw • (Acl * (1 - (warped dt pw / 2) • Acl)⁻¹))) := by
  obtain ⟨hdt, y, w, hy, hw, hyw, hyd, hd, hS⟩ := tustin_matrices hm hG hpw hny h
  rw [hG, lqr_output_eq] at h1
  rw [hS, lqr_output_eq]
  obtain ⟨X, rfl, hX, hR, hRd, hk, hacl, e1⟩ := lqrSolve_cont N (hN _ _ _) (S := some _) h1
  obtain rfl := Arr.of_inj.mp hacl
  simp only [Option.getD_some] at hH hk e1 ⊢
  refine ⟨_, hk, ?_⟩
  have hsq : √(y * y) = y := by rw [← sq, Real.sqrt_sq hy.le]
  rw [← hyd, hsq, show y * y / 2 = w by linarith]
  obtain ⟨p1, p2, p3, p4⟩ := cayley_parts (B := B) (y := y) hd
  set P := y • (1 - w • A)⁻¹ with hPdef
  set L := w • ((1 - w • A)⁻¹ * B) with hLdef
  have hCd : y • (C * (1 - w • A)⁻¹) = C * P := by rw [hPdef, Matrix.mul_smul]
  have hDd : D + w • (C * (1 - w • A)⁻¹ * B) = D + C * L := by rw [hLdef, Matrix.mul_smul, Matrix.mul_assoc]
  obtain ⟨w1, w2, w3⟩ := weights_transformed (C := C) (D := D) P L Q (R.getD 1) (Sx.getD 0) hQ
  rw [p3, p4, hCd, hDd, w1, w2, w3]
  set Q' := Cᵀ * Q * C with hQ'
  set S' := Cᵀ * Q * D + Cᵀ * Sx.getD 0 with hS'
  set R' := Dᵀ * Q * D + (Sx.getD 0)ᵀ * D + Dᵀ * Sx.getD 0 + R.getD 1 with hR'
  set K := R'⁻¹ * (Bᵀ * X + S'ᵀ) with hK
  have hu := isUnit_iff_ne_zero.mpr hRd
  have hK1 : R' * K = Bᵀ * X + S'ᵀ := mul_nonsing_inv_cancel_left _ _ hu
  have hKt : Kᵀ = (X * B + S') * R'⁻¹ := by
    rw [hK, transpose_mul, transpose_add, transpose_mul, transpose_transpose, transpose_transpose, hX, transpose_nonsing_inv, hR]
  rw [← hKt] at e1
  have hcl : (1 - w • (A - B * K)).det ≠ 0 := Hurwitz.det_ne_zero hH hw
  have hW : (1 + K * L).det ≠ 0 := by
    intro h0
    apply hcl
    have e3 : 1 - w • (A - B * K) = (1 - w • A) * (1 + L * K) := by
      have e4 : (1 - w • A) * L = w • B := by rw [hLdef, Matrix.mul_smul, mul_nonsing_inv_cancel_left _ _ (isUnit_iff_ne_zero.mpr hd)]
      rw [Matrix.mul_add, Matrix.mul_one, ← Matrix.mul_assoc (1 - w • A), e4, Matrix.smul_mul, smul_sub]
      abel
    rw [e3, det_mul, det_one_add_mul_comm, h0, mul_zero]
  obtain ⟨r1, r2, r3⟩ := cayley_riccati (X := X) (Q := Q') (S := S') (R := R') hyw p1 rfl p2 rfl hX hR hK1 e1 hW
  obtain ⟨hloop, hgain⟩ := cayley_loop (K := K) p1 rfl p2 rfl hW hcl
  have hsch : Schur ((1 + y • (A * P)) - (y • (A * L + B)) * ((1 + K * L)⁻¹ * (K * P))) := by
    rw [hloop]
    have := (hurwitz_iff_schur (A := A - B * K) (h := y * y) (by linarith) (by rwa [show y * y / 2 = w by linarith])).mp hH
    rwa [one_smul, show y * y / 2 = w by linarith] at this
  have hRt : (Lᵀ * Q' * L + Lᵀ * S' + S'ᵀ * L + R')ᵀ = Lᵀ * Q' * L + Lᵀ * S' + S'ᵀ * L + R' := by
    have hQt : Q'ᵀ = Q' := by rw [hQ', transpose_mul, transpose_mul, transpose_transpose, hQ, Matrix.mul_assoc]
    simp only [transpose_add, transpose_mul, transpose_transpose, hQt, hR, Matrix.mul_assoc]
    abel
  have hdet : (Lᵀ * Q' * L + Lᵀ * S' + S'ᵀ * L + R' + (y • (A * L + B))ᵀ * X * (y • (A * L + B))).det ≠ 0 := by
    rw [r3, det_mul, det_mul, det_transpose]
    exact mul_ne_zero (mul_ne_zero hW hRd) hW
  have hgk : (Lᵀ * Q' * L + Lᵀ * S' + S'ᵀ * L + R' + (y • (A * L + B))ᵀ * X * (y • (A * L + B)))⁻¹ * ((y • (A * L + B))ᵀ * X * (1 + y • (A * P)) + (Pᵀ * (Q' * L + S'))ᵀ) = (1 + K * L)⁻¹ * (K * P) := by
    rw [← r1, nonsing_inv_mul_cancel_left _ _ (isUnit_iff_ne_zero.mpr hdet)]
  have hsol : DareSol (1 + y • (A * P)) (y • (A * L + B)) (Pᵀ * Q' * P) (Lᵀ * Q' * L + Lᵀ * S' + S'ᵀ * L + R') (some (Pᵀ * (Q' * L + S'))) X := by
    refine ⟨hX, hRt, ?_, hdet, ?_⟩
    · simp only [Option.getD_some]
      rw [← r2, Matrix.mul_assoc _ (_⁻¹), hgk]
      have : ((1 + y • (A * P))ᵀ * X * (y • (A * L + B)) + Pᵀ * (Q' * L + S')) = ((y • (A * L + B))ᵀ * X * (1 + y • (A * P)) + (Pᵀ * (Q' * L + S'))ᵀ)ᵀ := by
        simp only [transpose_add, transpose_mul, transpose_transpose, hX, Matrix.mul_assoc]
      rw [this, ← r1, transpose_mul, transpose_add _ ((y • (A * L + B))ᵀ * X * _), hRt]
      congr 2
      simp only [transpose_mul, transpose_transpose, hX, Matrix.mul_assoc]
    · simp only [Option.getD_some]
      rwa [hgk]
  obtain ⟨X', hX', hs1, hs2, hs3, hs4, hs5⟩ := hN' (1 + y • (A * P)) (y • (A * L + B)) (Pᵀ * Q' * P) (Lᵀ * Q' * L + Lᵀ * S' + S'ᵀ * L + R') (Pᵀ * (Q' * L + S')) ⟨X, hsol⟩
  simp only [Option.getD_some, Option.map_some] at hX' hs3 hs4 hs5
  obtain ⟨u1, u2⟩ := dare_unique_inv hX hRt r1 hs4 r2 hs3 hsch hs5
  subst u1
  rw [lqrSolve_disc_ok hX' hs4, u2, hloop, hgain]

/-- The exact solver is complete. -/
theorem exactAre_complete (A : Matrix (Fin n) (Fin n) ℝ) (B : Matrix (Fin n) (Fin m) ℝ) (Q : Matrix (Fin n) (Fin n) ℝ) (R : Matrix (Fin m) (Fin m) ℝ) (S : Option (Matrix (Fin n) (Fin m) ℝ)) : DareComplete exactAre A B Q R S := by
  rintro ⟨X, hX⟩
  have hex : ∃ x, OnArr DareSol (Arr.of A) (Arr.of B) (Arr.of Q) (Arr.of R) (S.map Arr.of) x := ⟨Arr.of X, n, m, A, B, Q, R, S, X, rfl, rfl, rfl, rfl, rfl, rfl, hX⟩
  obtain ⟨Y, hY, h⟩ := onArr_of hex.choose_spec
  refine ⟨Y, ?_, h⟩
  unfold exactAre
  simp only [dif_pos hex, hY]

/-- `x' = x + u`, `y = x` with the weights 3 and 1, and its discretization with the period `0.1`. -/
example {P : Type} {Nm : Numerics ℝ P} {E : DNum} : ∃ (S : StateObj ℝ P) (K X Acl : Matrix (Fin 1) (Fin 1) ℝ), discretize Nm E ({ lagObj P with g := stateOf !![1] !![1] !![1] !![0] none } : StateObj ℝ P) (1 / 10) "tustin" 0 none = .ok S ∧
    lqr exactAre (stateOf (!![1] : Matrix (Fin 1) (Fin 1) ℝ) (!![1] : Matrix (Fin 1) (Fin 1) ℝ) (!![1] : Matrix (Fin 1) (Fin 1) ℝ) !![0] none) (Arr.of (!![3] : Matrix (Fin 1) (Fin 1) ℝ))
      ((none : Option (Matrix (Fin 1) (Fin 1) ℝ)).map Arr.of) ((none : Option (Matrix (Fin 1) (Fin 1) ℝ)).map Arr.of) "output".toList = .ok (Arr.of K, Arr.of X, Arr.of Acl) ∧ Hurwitz Acl ∧
    lqr exactAre S.g (Arr.of (!![3] : Matrix (Fin 1) (Fin 1) ℝ)) ((none : Option (Matrix (Fin 1) (Fin 1) ℝ)).map Arr.of) ((none : Option (Matrix (Fin 1) (Fin 1) ℝ)).map Arr.of) "output".toList =
      .ok (Arr.of (√(warped (1 / 10) 0) • (K * (1 - (warped (1 / 10) 0 / 2) • Acl)⁻¹)), Arr.of X, Arr.of (1 + warped (1 / 10) 0 • (Acl * (1 - (warped (1 / 10) 0 / 2) • Acl)⁻¹))) := by
  obtain ⟨y, hy, hargs, hyw⟩ := tustin_args_all (method := "tustin") (dt := 1 / 10) (pw := 0) (E := E) (qq := none) (Or.inl rfl) (by norm_num) le_rfl (by norm_num)
  obtain ⟨S, h1, -, -⟩ := (discretize_lft_ok (N := Nm) (G := ({ lagObj P with g := stateOf !![1] !![1] !![1] !![0] none } : StateObj ℝ P)) (hargs _) (fun _ _ => by norm_num) rfl (by decide)).2
    (by rw [hyw]; simp; norm_num) (by norm_num)
  have hsol : CareSol (!![1] : Matrix (Fin 1) (Fin 1) ℝ) (!![1] : Matrix (Fin 1) (Fin 1) ℝ) ((!![1] : Matrix (Fin 1) (Fin 1) ℝ)ᵀ * !![3] * !![1])
      ((!![0] : Matrix (Fin 1) (Fin 1) ℝ)ᵀ * !![3] * !![0] + (0 : Matrix (Fin 1) (Fin 1) ℝ)ᵀ * !![0] + (!![0] : Matrix (Fin 1) (Fin 1) ℝ)ᵀ * 0 + 1)
      (some ((!![1] : Matrix (Fin 1) (Fin 1) ℝ)ᵀ * !![3] * !![0] + (!![1] : Matrix (Fin 1) (Fin 1) ℝ)ᵀ * 0)) !![3] := by
    have e1 : (!![1] : Matrix (Fin 1) (Fin 1) ℝ)ᵀ * !![3] * !![1] = !![3] := by ext i j; fin_cases i; fin_cases j; simp [Matrix.mul_apply]
    have e2 : (!![0] : Matrix (Fin 1) (Fin 1) ℝ)ᵀ * !![3] * !![0] + (0 : Matrix (Fin 1) (Fin 1) ℝ)ᵀ * !![0] + (!![0] : Matrix (Fin 1) (Fin 1) ℝ)ᵀ * 0 + 1 = !![1] := by
      ext i j; fin_cases i; fin_cases j; simp [Matrix.mul_apply]
    have e3 : (!![1] : Matrix (Fin 1) (Fin 1) ℝ)ᵀ * !![3] * !![0] + (!![1] : Matrix (Fin 1) (Fin 1) ℝ)ᵀ * 0 = 0 := by
      ext i j; fin_cases i; fin_cases j; simp [Matrix.mul_apply]
    rw [e1, e2, e3]
    exact careSol_one
  obtain ⟨k, x, Acl, h2, hH⟩ := exactAre_output_cont !![1] !![1] !![1] !![0] !![3] none none (by simp [Matrix.det_fin_one, Matrix.mul_apply]) hsol
  obtain ⟨K, rfl, h3⟩ := C131_lqr (m := 1) (Or.inl rfl) rfl le_rfl (by norm_num) h1 (Q := !![3]) (by ext i j; fin_cases i; fin_cases j; rfl) exactAre exactAre (fun _ _ _ => exactAre_care _ _ _ _ _)
    (fun _ _ _ _ _ => exactAre_complete _ _ _ _ _) h2 hH
  obtain ⟨X, rfl, -⟩ := lqrSolve_cont exactAre (exactAre_care _ _ _ _ _) (S := some _) ((lqr_output_eq _ _ _ _ _ _ _ _ _).symm.trans h2)
  exact ⟨S, K, X, Acl, h1, h2, hH, h3⟩

end regulator

end Harold
