import Verif.Model.Feedback
import Verif.Lemmas.FeedbackTF
import Verif.Props.MatrixSlice
import Verif.Props.StateAlgebra
import Verif.Props.StateObj

/-!
# C30, C31: feedback
-/

namespace Harold

open Matrix Harold.Spec

variable {K : Type} [Field K] [LinearOrder K] [IsStrictOrderedRing K]

theorem det_ne_zero_of_not_sv {τ : K} {n : ℕ} {D : Matrix (Fin n) (Fin n) K}
    (h : ¬ HasSVAtMost τ D) : D.det ≠ 0 := by
  intro h0
  obtain ⟨x, hx, hx0⟩ := exists_mulVec_eq_zero_iff.mpr h0
  apply h
  refine ⟨x, hx, ?_⟩
  rw [hx0]
  simp only [dotProduct_zero]
  exact mul_nonneg (sq_nonneg _) (Finset.sum_nonneg fun i _ => mul_self_nonneg _)

section
variable {n₁ n₂ m p : ℕ} {dt : Option K}

/-- The sign of the feedback. -/
def fbSign (negative : Bool) : K := if negative then -1 else 1

omit [IsStrictOrderedRing K] in
theorem closeWith_of {s t : ℕ} (hdt : DtOk dt) (A : Matrix (Fin s) (Fin s) K)
    (B : Matrix (Fin s) (Fin m) K) (C : Matrix (Fin p) (Fin s) K) (D : Matrix (Fin p) (Fin m) K)
    (b₁ : Matrix (Fin s) (Fin t) K) (b₂ : Matrix (Fin p) (Fin t) K) (n₁ : Matrix (Fin t) (Fin s) K)
    (n₂ : Matrix (Fin t) (Fin m) K) (Δ : Matrix (Fin t) (Fin t) K) (hΔ : Δ.det ≠ 0) (σ : K) :
    closeWith (Arr.of (blk A B C D)) (Arr.of (vcat b₁ b₂)) (Arr.of (hcat n₁ n₂)) (Arr.of Δ) σ s dt
      = .ok ⟨Arr.of (A + σ • b₁ * (Δ⁻¹ * n₁)), Arr.of (B + σ • b₁ * (Δ⁻¹ * n₂)),
          Arr.of (C + σ • b₂ * (Δ⁻¹ * n₁)), Arr.of (D + σ • b₂ * (Δ⁻¹ * n₂)), dt, false⟩ := by
  have hs : ∀ (X : Matrix (Fin s) (Fin s) K) (Y : Matrix (Fin s) (Fin m) K)
      (Z : Matrix (Fin p) (Fin s) K) (W : Matrix (Fin p) (Fin m) K),
      matrixSlice (Arr.of (blk X Y Z W)) s s "nw" = .ok (Arr.of X, Arr.of Y, Arr.of Z, Arr.of W) := by
    intro X Y Z W
    have : matrixSlice (Arr.of (blk X Y Z W)) s s "nw"
        = .ok ((Arr.of (blk X Y Z W)).cut4 (s : ℤ) (s : ℤ)) := rfl
    rw [this, Arr.cut4]
    have h1 : cutAt (Arr.of (blk X Y Z W)).r (s : ℤ) = s := cutAt_of_le (by simp)
    have h2 : cutAt (Arr.of (blk X Y Z W)).c (s : ℤ) = s := cutAt_of_le (by simp)
    simp only [h1, h2]
    rw [split4_blk]
  unfold closeWith
  rw [Arr.solve_of, if_neg hΔ]
  simp only [bind, Except.bind, Arr.smul_of, Arr.matmul_of, Arr.add_of]
  rw [mul_hcat Δ⁻¹, smul_vcat, vcat_mul_hcat, blk_add, hs]
  simp only []
  rw [mkState_of hdt]

omit [IsStrictOrderedRing K] in
theorem closeLoop_of (g h : StateM K) (D : Matrix (Fin p) (Fin m) K) (N : Matrix (Fin m) (Fin p) K)
    (hg : g.d = Arr.of D) (hh : h.d = Arr.of N)
    (hwp : ¬ HasSVAtMost (m * spacing10 : K) (1 - N * D)) (neg : Bool) :
    closeLoop g h neg
      = closeBody g h (fbSign neg) (Arr.of (N * D)) (Arr.of (1 - N * D)) := by
  have e1 : (Arr.eye m : Arr K) = Arr.of 1 := rfl
  have hm : g.m = m := by simp [StateM.m, hg]
  unfold closeLoop
  rw [hm, hg, hh, Arr.matmul_of]
  simp only [bind, Except.bind, e1, Arr.sub_of]
  rw [if_neg]
  · rfl
  · rintro ⟨h1, h2⟩
    exact hwp h2

omit [IsStrictOrderedRing K] in
theorem closeLoop_ill (g h : StateM K) (D : Matrix (Fin p) (Fin m) K) (N : Matrix (Fin m) (Fin p) K)
    (hg : g.d = Arr.of D) (hh : h.d = Arr.of N)
    (hwp : HasSVAtMost (m * spacing10 : K) (1 - N * D)) (neg : Bool) :
    closeLoop g h neg = .error .value := by
  have e1 : (Arr.eye m : Arr K) = Arr.of 1 := rfl
  have hm : g.m = m := by simp [StateM.m, hg]
  unfold closeLoop
  rw [hm, hg, hh, Arr.matmul_of]
  simp only [bind, Except.bind, e1, Arr.sub_of]
  rw [if_pos]
  exact ⟨rfl, hwp⟩

omit [IsStrictOrderedRing K] in
theorem closeBody_dd (hdt : DtOk dt) {dt' : Option K} (A : Matrix (Fin n₁) (Fin n₁) K)
    (B : Matrix (Fin n₁) (Fin m) K)
    (C : Matrix (Fin p) (Fin n₁) K) (D : Matrix (Fin p) (Fin m) K) (Ka : Matrix (Fin n₂) (Fin n₂) K)
    (Lb : Matrix (Fin n₂) (Fin p) K) (Mc : Matrix (Fin m) (Fin n₂) K) (Nd : Matrix (Fin m) (Fin p) K)
    (P Δ : Matrix (Fin m) (Fin m) K) (hΔ : Δ.det ≠ 0) (σ : K) :
    closeBody ⟨Arr.of A, Arr.of B, Arr.of C, Arr.of D, dt, false⟩
      ⟨Arr.of Ka, Arr.of Lb, Arr.of Mc, Arr.of Nd, dt', false⟩ σ (Arr.of P) (Arr.of Δ)
    = .ok ⟨Arr.of (blk A 0 (Lb * C) Ka + σ • vcat B (Lb * D) * (Δ⁻¹ * hcat (Nd * C) Mc)),
        Arr.of (vcat B (Lb * D) + σ • vcat B (Lb * D) * (Δ⁻¹ * P)),
        Arr.of (hcat C 0 + σ • D * (Δ⁻¹ * hcat (Nd * C) Mc)),
        Arr.of (D + σ • D * (Δ⁻¹ * P)), dt, false⟩ := by
  have e2 : ∀ a b, (Arr.zeros a b : Arr K) = Arr.of 0 := fun _ _ => rfl
  simp only [closeBody, StateM.n, StateM.p, Arr.matmul_of, e2, bind, Except.bind, Bool.and_self,
    Bool.not_false, if_true, Arr.hstack_of, Arr.vstack_of, Bool.false_eq_true, if_false, Arr.of_r]
  rw [vcat_hcat_swap (hcat A 0) B, vcat_hcat (vcat (hcat A 0) (hcat (Lb * C) Ka)), vcat_hcat,
    closeWith_of hdt _ _ _ _ _ _ _ _ _ hΔ]

omit [IsStrictOrderedRing K] in
theorem closeBody_sd (hdt : DtOk dt) {dt' : Option K} (a b c : Arr K)
    (D : Matrix (Fin p) (Fin m) K) (Ka : Matrix (Fin n₂) (Fin n₂) K)
    (Lb : Matrix (Fin n₂) (Fin p) K) (Mc : Matrix (Fin m) (Fin n₂) K) (Nd : Matrix (Fin m) (Fin p) K)
    (P Δ : Matrix (Fin m) (Fin m) K) (hΔ : Δ.det ≠ 0) (σ : K) :
    closeBody ⟨a, b, c, Arr.of D, dt, true⟩
      ⟨Arr.of Ka, Arr.of Lb, Arr.of Mc, Arr.of Nd, dt', false⟩ σ (Arr.of P) (Arr.of Δ)
    = .ok ⟨Arr.of (Ka + σ • (Lb * D) * (Δ⁻¹ * Mc)), Arr.of (Lb * D + σ • (Lb * D) * (Δ⁻¹ * P)),
        Arr.of (0 + σ • D * (Δ⁻¹ * Mc)), Arr.of (D + σ • D * (Δ⁻¹ * P)), dt, false⟩ := by
  have e2 : ∀ a b, (Arr.zeros a b : Arr K) = Arr.of 0 := fun _ _ => rfl
  simp only [closeBody, StateM.n, StateM.p, Arr.matmul_of, e2, bind, Except.bind, Bool.and_self,
    Bool.not_false, if_true, Arr.hstack_of, Arr.vstack_of, Bool.false_eq_true, if_false, Arr.of_r,
    Bool.and_false, Bool.not_true, Bool.false_and, block22]
  rw [vcat_hcat, closeWith_of hdt _ _ _ _ _ _ _ _ _ hΔ]

omit [IsStrictOrderedRing K] in
theorem closeBody_ds (hdt : DtOk dt) {dt' : Option K} (a b c : Arr K) (A : Matrix (Fin n₁) (Fin n₁) K)
    (B : Matrix (Fin n₁) (Fin m) K)
    (C : Matrix (Fin p) (Fin n₁) K) (D : Matrix (Fin p) (Fin m) K) (Nd : Matrix (Fin m) (Fin p) K)
    (P Δ : Matrix (Fin m) (Fin m) K) (hΔ : Δ.det ≠ 0) (σ : K) :
    closeBody ⟨Arr.of A, Arr.of B, Arr.of C, Arr.of D, dt, false⟩
      ⟨a, b, c, Arr.of Nd, dt', true⟩ σ (Arr.of P) (Arr.of Δ)
    = .ok ⟨Arr.of (A + σ • B * (Δ⁻¹ * (Nd * C))), Arr.of (B + σ • B * (Δ⁻¹ * P)),
        Arr.of (C + σ • D * (Δ⁻¹ * (Nd * C))), Arr.of (D + σ • D * (Δ⁻¹ * P)), dt, false⟩ := by
  simp only [closeBody, StateM.n, StateM.p, Arr.matmul_of, bind, Except.bind, Bool.and_self,
    Bool.not_false, if_true, Arr.hstack_of, Arr.vstack_of, Bool.false_eq_true, if_false, Arr.of_r,
    Bool.and_false, Bool.not_true, Bool.false_and, Bool.and_true, block22]
  rw [vcat_hcat, closeWith_of hdt _ _ _ _ _ _ _ _ _ hΔ]

omit [IsStrictOrderedRing K] in
theorem closeBody_ss (hdt : DtOk dt) {dt' : Option K} (a b c a' b' c' : Arr K)
    (D : Matrix (Fin p) (Fin m) K) (Nd : Matrix (Fin m) (Fin p) K) (hD : D ≠ 0) (hN : Nd ≠ 0)
    (P Δ : Matrix (Fin m) (Fin m) K) (hΔ : Δ.det ≠ 0) (σ : K) :
    closeBody ⟨a, b, c, Arr.of D, dt, true⟩ ⟨a', b', c', Arr.of Nd, dt', true⟩ σ (Arr.of P) (Arr.of Δ)
    = .ok ⟨Arr.empty, Arr.empty, Arr.empty, Arr.of (D + σ • (D * (Δ⁻¹ * P))), dt, true⟩ := by
  have any_of : ∀ {r c : ℕ} (X : Matrix (Fin r) (Fin c) K), X ≠ 0 → (Arr.of X).any = true := by
    intro r c X hX
    rw [Arr.any_iff]
    by_contra h
    push Not at h
    exact hX (by ext i j; exact h i j)
  simp only [closeBody, Bool.and_self, if_true, any_of D hD, any_of Nd hN, Arr.solve_of, if_neg hΔ,
    bind, Except.bind, Arr.matmul_of, Arr.smul_of, Arr.add_of, mkGain_of hdt]

end

section main
variable {L : Type} [Field L] [Algebra K L] {n₁ n₂ m p : ℕ} {s : L}

local notation "φ" => algebraMap K L

theorem _root_.Harold.Spec.IsTF.smul_out {n m p : Type} [Fintype n] [DecidableEq n] [Fintype m]
    [Fintype p] {A : Matrix n n L} {B : Matrix n m L} {C : Matrix p n L} {D : Matrix p m L}
    {M : Matrix p m L} (h : IsTF A B C D s M) (k : L) : IsTF A B (k • C) (k • D) s (k • M) := by
  refine ⟨h.1, ?_⟩
  rw [h.2, smul_add, smul_mul, smul_mul]

omit [LinearOrder K] [IsStrictOrderedRing K] in
/-- `1 + σ Δ⁻¹ (N D) = Δ⁻¹`. -/
theorem one_add_inv {D : Matrix (Fin p) (Fin m) K} {N : Matrix (Fin m) (Fin p) K} {σ : K}
    (hσ : σ • (N * D) = N * D) (hΔ : (1 - N * D).det ≠ 0) {r : ℕ} (X : Matrix (Fin r) (Fin m) K) :
    X + σ • X * ((1 - N * D)⁻¹ * (N * D)) = X * (1 - N * D)⁻¹ := by
  have h1 : (1 - N * D)⁻¹ * (1 - N * D) = 1 := nonsing_inv_mul _ (Ne.isUnit hΔ)
  have h2 : (1 - N * D)⁻¹ * (N * D) = (1 - N * D)⁻¹ - 1 := by
    rw [mul_sub, mul_one] at h1
    rw [eq_sub_iff_add_eq, ← sub_eq_iff_eq_add'.mp h1]
  rw [smul_mul, ← Matrix.mul_smul, ← Matrix.mul_smul, hσ, h2, Matrix.mul_sub, Matrix.mul_one]
  abel

/-- `D` and `N` are the direct feedthrough terms of the two operands. -/
theorem closeLoop_hasTF {G H : StateM K} {Gs : Matrix (Fin p) (Fin m) L} {Hs : Matrix (Fin m) (Fin p) L}
    (hG : HasTF G p m s Gs) (hH : HasTF H m p s Hs) (hdt : DtOk G.dt) (neg : Bool)
    (D : Matrix (Fin p) (Fin m) K) (N : Matrix (Fin m) (Fin p) K)
    (hGd : G.d = Arr.of D) (hHd : H.d = Arr.of N) (hσ : neg = false ∨ N * D = 0)
    (hz : G.isgain = true → H.isgain = true → D ≠ 0 ∧ N ≠ 0)
    (hwp : ¬ HasSVAtMost (m * spacing10 : K) (1 - N * D))
    (hw : (1 - (fbSign neg : L) • (Hs * Gs)).det ≠ 0) :
    ∃ R, closeLoop G H neg = .ok R ∧
      HasTF R p m s (Gs * (1 - (fbSign neg : L) • (Hs * Gs))⁻¹) ∧ R.dt = G.dt := by
  have hΔ := det_ne_zero_of_not_sv hwp
  have hσK : (fbSign neg : K) • (N * D) = N * D := by
    rcases hσ with h | h
    · simp [h, fbSign]
    · simp [h]
  have hφσ : φ (fbSign neg) = (fbSign neg : L) := by cases neg <;> simp [fbSign]
  rw [closeLoop_of G H D N hGd hHd hwp]
  set E := (1 - N * D)⁻¹ with hEdef
  have hE : E.map φ * (1 - ((fbSign neg : L) • N.map φ) * D.map φ) = 1 := by
    have h1 : E * (1 - N * D) = 1 := nonsing_inv_mul _ (Ne.isUnit hΔ)
    have h2 := congrArg (fun X => X.map φ) h1
    simp only [map_mul', map_sub'] at h2
    rw [smul_mul, ← hφσ, ← map_mul', ← map_smul', hσK, map_mul']
    simpa using h2
  have hw' : (1 - ((fbSign neg : L) • Hs) * Gs).det ≠ 0 := by rwa [smul_mul]
  rw [← smul_mul]
  obtain ⟨a₁, b₁, c₁, d₁, dt₁, i₁⟩ := G
  obtain ⟨a₂, b₂, c₂, d₂, dt₂, i₂⟩ := H
  simp only at hGd hHd hdt hz
  subst hGd hHd
  rcases hG with ⟨h1, D', hD', rfl⟩ | ⟨h1, n₁, A, B, C, D', hA, hB, hC, hD', hT₁⟩
  · obtain rfl : D = D' := Arr.of_inj.mp hD'
    simp only at h1
    subst h1
    rcases hH with ⟨h2, N', hN', rfl⟩ | ⟨h2, n₂, Ka, Lb, Mc, N', hKa, hLb, hMc, hN', hT₂⟩
    · obtain rfl : N = N' := Arr.of_inj.mp hN'
      simp only at h2
      subst h2
      obtain ⟨hD0, hN0⟩ := hz rfl rfl
      refine ⟨_, closeBody_ss hdt _ _ _ _ _ _ _ _ hD0 hN0 _ _ hΔ _, ?_, rfl⟩
      rw [← smul_mul, one_add_inv hσK hΔ]
      have h : D.map φ * (1 - ((fbSign neg : L) • N.map φ) * D.map φ)⁻¹
          = (D * (1 - N * D)⁻¹).map φ := by
        rw [map_mul', ← Matrix.inv_eq_left_inv hE]
      rw [h]
      exact HasTF.of_gain
    · obtain rfl : N = N' := Arr.of_inj.mp hN'
      simp only at h2 hKa hLb hMc
      subst h2 hKa hLb hMc
      refine ⟨_, closeBody_sd hdt _ _ _ _ _ _ _ _ _ _ hΔ _, HasTF.of_dyn ?_, rfl⟩
      rw [one_add_inv hσK hΔ, one_add_inv hσK hΔ]
      have := IsTF.feedback_static_g (hT₂.smul_out (fbSign neg)) hE hw'
      convert this using 1
      all_goals
        simp only [map_add', map_mul', map_smul', hφσ, smul_mul, Matrix.mul_smul, Matrix.mul_assoc,
          zero_add, ← hEdef]
  · obtain rfl : D = D' := Arr.of_inj.mp hD'
    simp only at h1 hA hB hC
    subst h1 hA hB hC
    rcases hH with ⟨h2, N', hN', rfl⟩ | ⟨h2, n₂, Ka, Lb, Mc, N', hKa, hLb, hMc, hN', hT₂⟩
    · obtain rfl : N = N' := Arr.of_inj.mp hN'
      simp only at h2
      subst h2
      refine ⟨_, closeBody_ds hdt _ _ _ _ _ _ _ _ _ _ hΔ _, HasTF.of_dyn ?_, rfl⟩
      rw [one_add_inv hσK hΔ, one_add_inv hσK hΔ]
      have := IsTF.feedback_static_h hT₁ hE hw'
      convert this using 1
      all_goals
        simp only [map_add', map_mul', map_smul', hφσ, smul_mul, Matrix.mul_smul, Matrix.mul_assoc,
          zero_add, ← hEdef]
    · obtain rfl : N = N' := Arr.of_inj.mp hN'
      simp only at h2 hKa hLb hMc
      subst h2 hKa hLb hMc
      refine ⟨_, closeBody_dd hdt _ _ _ _ _ _ _ _ _ _ hΔ _, HasTF.of_dyn ?_, rfl⟩
      rw [one_add_inv hσK hΔ, one_add_inv hσK hΔ]
      have := isTF_feedback hT₁ (hT₂.smul_out (fbSign neg)) hE hw'
      convert this using 1
      · rw [mul_hcat, smul_vcat, vcat_mul_hcat]
        simp only [blk_add, blk_map, map_add', map_mul', map_smul', hφσ, smul_mul, Matrix.mul_smul,
          Matrix.mul_assoc, zero_add, ← hEdef]
      · rw [vcat_mul, vcat_map, map_mul', map_mul', map_mul']
      · rw [mul_hcat, mul_hcat, hcat_add, hcat_map]
        simp only [map_add', map_mul', map_smul', hφσ, smul_mul, Matrix.mul_smul, Matrix.mul_assoc,
          zero_add, ← hEdef]
      · rw [map_mul']

end main

omit [Field K] [LinearOrder K] [IsStrictOrderedRing K] in
/-- A consistent model is a static gain or has matching matrices. -/
theorem consistent_cases {G : StateM K} {p m : ℕ} (h : Consistent G p m) :
    (∃ (a b c : Arr K) (D : Matrix (Fin p) (Fin m) K) (dt : Option K),
      G = ⟨a, b, c, Arr.of D, dt, true⟩) ∨
    ∃ (n : ℕ) (A : Matrix (Fin n) (Fin n) K) (B : Matrix (Fin n) (Fin m) K)
      (C : Matrix (Fin p) (Fin n) K) (D : Matrix (Fin p) (Fin m) K) (dt : Option K),
      G = ⟨Arr.of A, Arr.of B, Arr.of C, Arr.of D, dt, false⟩ := by
  obtain ⟨a, b, c, d, dt, i⟩ := G
  obtain ⟨⟨h1, h2⟩, h3⟩ := h
  simp only at h1 h2 h3
  obtain ⟨D, rfl⟩ := Arr.exists_of h1 h2
  cases i with
  | true => exact Or.inl ⟨a, b, c, D, dt, rfl⟩
  | false =>
    obtain ⟨e1, e2, e3, e4, e5⟩ := h3 rfl
    obtain ⟨n, A, rfl⟩ := Arr.exists_square e1
    obtain ⟨B, rfl⟩ := Arr.exists_of (x := b) e2 e3
    obtain ⟨C, rfl⟩ := Arr.exists_of (x := c) e4 e5
    exact Or.inr ⟨n, A, B, C, D, dt, rfl⟩

section total
variable {m p : ℕ} {G H : StateM K}

omit [IsStrictOrderedRing K] in
theorem closeBody_total (hG : Consistent G p m) (hH : Consistent H m p) (hdt : DtOk G.dt)
    {P Δ : Matrix (Fin m) (Fin m) K} (hΔ : Δ.det ≠ 0) {σ : K} :
    (∃ R, closeBody G H σ (Arr.of P) (Arr.of Δ) = .ok R ∧ Consistent R p m ∧ R.dt = G.dt) ∨
      (G.isgain = true ∧ H.isgain = true ∧ ¬ ((∃ i j, G.d.m i j ≠ 0) ∧ ∃ i j, H.d.m i j ≠ 0) ∧
        closeBody G H σ (Arr.of P) (Arr.of Δ) = .error .unboundLocal) := by
  rcases consistent_cases hG with ⟨a, b, c, D, dt, rfl⟩ | ⟨n, A, B, C, D, dt, rfl⟩ <;>
  rcases consistent_cases hH with ⟨a', b', c', N, dt', rfl⟩ | ⟨n', A', B', C', N, dt', rfl⟩
  · by_cases h : D ≠ 0 ∧ N ≠ 0
    · left
      refine ⟨_, closeBody_ss hdt _ _ _ _ _ _ _ _ h.1 h.2 _ _ hΔ _, ?_, rfl⟩
      simp [Consistent]
    · right
      have key : ∀ {r c : ℕ} (X : Matrix (Fin r) (Fin c) K), (∃ i j, X i j ≠ 0) → X ≠ 0 := by
        rintro r c X ⟨i, j, h⟩ rfl; exact h rfl
      have h' : ¬ ((∃ i j, D i j ≠ 0) ∧ ∃ i j, N i j ≠ 0) :=
        fun hh => h ⟨key D hh.1, key N hh.2⟩
      refine ⟨rfl, rfl, h', ?_⟩
      have h2 : ¬ (((Arr.of D).any && (Arr.of N).any) = true) := by
        rw [Bool.and_eq_true, Arr.any_iff, Arr.any_iff]; exact h'
      simp only [closeBody, Bool.and_self, if_true]
      rw [if_neg h2]
  · left
    refine ⟨_, closeBody_sd hdt _ _ _ _ _ _ _ _ _ _ hΔ _, ?_, rfl⟩
    simp [Consistent]
  · left
    refine ⟨_, closeBody_ds hdt _ _ _ _ _ _ _ _ _ _ hΔ _, ?_, rfl⟩
    simp [Consistent]
  · left
    refine ⟨_, closeBody_dd hdt _ _ _ _ _ _ _ _ _ _ hΔ _, ?_, rfl⟩
    simp [Consistent]

end total

section api
variable {L : Type} [Field L] [Algebra K L] {m p p' m' : ℕ} {s : L} {G H : StateM K}

local notation "φ" => algebraMap K L

/-! ## C30 -/

/-- **C30**: `feedback(G, H, negative)` is `G(s) (I ∓ H(s) G(s))⁻¹` wherever `G(s)` and `H(s)` are
defined and the loop is not singular, and keeps the sampling period. `D`, `N` are the feedthrough
matrices. Missing from the full claim: negative feedback with `N D ≠ 0` (`C30_negative_violated`) and
two static gains one of which is zero (`C31_zero_gain_violated`). -/
theorem C30_feedback_partial {Gs : Matrix (Fin p) (Fin m) L} {Hs : Matrix (Fin m) (Fin p) L}
    (hG : HasTF G p m s Gs) (hH : HasTF H m p s Hs) (hdt : DtOk G.dt) (hdt' : G.dt = H.dt)
    (neg : Bool) (D : Matrix (Fin p) (Fin m) K) (N : Matrix (Fin m) (Fin p) K)
    (hGd : G.d = Arr.of D) (hHd : H.d = Arr.of N) (hσ : neg = false ∨ N * D = 0)
    (hz : G.isgain = true → H.isgain = true → D ≠ 0 ∧ N ≠ 0)
    (hwp : ¬ HasSVAtMost (m * spacing10 : K) (1 - N * D))
    (hw : (1 - (if neg then -1 else 1 : L) • (Hs * Gs)).det ≠ 0) :
    ∃ R, feedback (.state G) (.state H) neg = .ok R ∧
      HasTF R p m s (Gs * (1 - (if neg then -1 else 1 : L) • (Hs * Gs))⁻¹) ∧ R.dt = G.dt := by
  obtain ⟨R, h1, h2, h3⟩ := closeLoop_hasTF hG hH hdt neg D N hGd hHd hσ hz hwp hw
  refine ⟨R, ?_, h2, h3⟩
  have : checkFeedbackIc (.state G) (.state H) = .ok (G, H) := by
    have e1 : ¬ (G.p ≠ H.m ∨ G.m ≠ H.p) := by simp [StateM.p, StateM.m, hGd, hHd]
    simp only [checkFeedbackIc, hdt', ne_eq, not_true_eq_false, if_false, bind, Except.bind]
    rw [if_neg e1]
  simp only [feedback, this, bind, Except.bind, h1]

/-- The matrix of a scalar, a 1-D array (a row) or a 2-D array. -/
def Gain.toArr : Gain K → Arr K
  | .scalar k => Arr.scalar k
  | .vec v => rowArr v
  | .arr x => x

omit [IsStrictOrderedRing K] in
theorem gainState_eq (g : Gain K) {dt : Option K} (h : DtOk dt) :
    gainState g dt = .ok ⟨Arr.empty, Arr.empty, Arr.empty, g.toArr, dt, true⟩ := by
  cases g <;> simp [gainState, Gain.toArr, mkGain_of h]

/-- **C30**, gain in the return path: like the static model with the sampling period of `G`. Missing: as in `C30_feedback_partial`. -/
theorem C30_gain_right_partial {Gs : Matrix (Fin p) (Fin m) L} (g : Gain K)
    (hG : HasTF G p m s Gs) (hdt : DtOk G.dt) (neg : Bool) (D : Matrix (Fin p) (Fin m) K)
    (N : Matrix (Fin m) (Fin p) K)
    (hGd : G.d = Arr.of D) (hg : g.toArr = Arr.of N) (hσ : neg = false ∨ N * D = 0)
    (hz : G.isgain = true → D ≠ 0 ∧ N ≠ 0)
    (hwp : ¬ HasSVAtMost (m * spacing10 : K) (1 - N * D))
    (hw : (1 - (if neg then -1 else 1 : L) • (N.map φ * Gs)).det ≠ 0) :
    ∃ R, feedback (.state G) (.gain g) neg = .ok R ∧
      HasTF R p m s (Gs * (1 - (if neg then -1 else 1 : L) • (N.map φ * Gs))⁻¹) ∧ R.dt = G.dt := by
  have e : feedback (.state G) (.gain g) neg = feedback (.state G)
      (.state ⟨Arr.empty, Arr.empty, Arr.empty, g.toArr, G.dt, true⟩) neg := by
    simp only [feedback, checkFeedbackIc, gainState_eq g hdt, bind, Except.bind, ne_eq,
      not_true_eq_false, if_false]
  rw [e, hg]
  exact C30_feedback_partial hG HasTF.of_gain hdt rfl neg D N hGd rfl hσ (fun h _ => hz h) hwp hw

/-- **C30**, gain in the forward path. Missing: as in `C30_feedback_partial`. -/
theorem C30_gain_left_partial {Hs : Matrix (Fin m) (Fin p) L} (g : Gain K)
    (hH : HasTF H m p s Hs) (hdt : DtOk H.dt) (neg : Bool) (D : Matrix (Fin p) (Fin m) K)
    (N : Matrix (Fin m) (Fin p) K)
    (hg : g.toArr = Arr.of D) (hHd : H.d = Arr.of N) (hσ : neg = false ∨ N * D = 0)
    (hz : H.isgain = true → D ≠ 0 ∧ N ≠ 0)
    (hwp : ¬ HasSVAtMost (m * spacing10 : K) (1 - N * D))
    (hw : (1 - (if neg then -1 else 1 : L) • (Hs * D.map φ)).det ≠ 0) :
    ∃ R, feedback (.gain g) (.state H) neg = .ok R ∧
      HasTF R p m s (D.map φ * (1 - (if neg then -1 else 1 : L) • (Hs * D.map φ))⁻¹) ∧
        R.dt = H.dt := by
  have e : feedback (.gain g) (.state H) neg = feedback
      (.state ⟨Arr.empty, Arr.empty, Arr.empty, g.toArr, H.dt, true⟩) (.state H) neg := by
    simp only [feedback, checkFeedbackIc, gainState_eq g hdt, bind, Except.bind, ne_eq,
      not_true_eq_false, if_false]
  rw [e, hg]
  exact C30_feedback_partial HasTF.of_gain hH hdt rfl neg D N rfl hHd hσ (fun _ h => hz h) hwp hw

theorem not_sv_scalar {τ k : ℚ} (h : τ ^ 2 < k ^ 2) :
    ¬ HasSVAtMost τ (!![k] : Matrix (Fin 1) (Fin 1) ℚ) := by
  rintro ⟨x, hx, h1⟩
  have hx0 : x 0 ≠ 0 := fun h0 => hx (by ext i; fin_cases i; exact h0)
  simp only [mulVec, dotProduct, Fin.sum_univ_one, Fin.isValue, cons_val', cons_val_fin_one,
    Matrix.of_apply] at h1
  have : 0 < x 0 * x 0 := mul_self_pos.mpr hx0
  nlinarith

example : ∃ R, feedback (.state lag) (.state lag) true = .ok R ∧
    HasTF R 1 1 (1 : ℚ) (!![1 / 2] * (1 - (-1 : ℚ) • (!![1 / 2] * !![1 / 2]))⁻¹) ∧ R.dt = none := by
  have e : (1 - !![0] * !![0] : Matrix (Fin 1) (Fin 1) ℚ) = !![1] := by
    ext i j; fin_cases i; fin_cases j; simp
  refine C30_feedback_partial lag_hasTF lag_hasTF dtOk_none rfl true !![0] !![0] rfl rfl
    (Or.inr ?_) (by simp [lag]) ?_ ?_
  · ext i j; fin_cases i; fin_cases j; simp
  · rw [e]; exact not_sv_scalar (by norm_num [spacing10])
  · simp [Matrix.det_fin_one]; norm_num

/-- The static loop `d / n` over `ℚ`. -/
theorem feedback_scalars (d n : ℚ) (neg : Bool) :
    feedback (K := ℚ) (.gain (.scalar d)) (.gain (.scalar n)) neg
      = closeLoop ⟨Arr.empty, Arr.empty, Arr.empty, Arr.of !![d], none, true⟩
          ⟨Arr.empty, Arr.empty, Arr.empty, Arr.of !![n], none, true⟩ neg := by
  have e : ∀ k : ℚ, (Gain.scalar k).toArr = Arr.of !![k] := by
    intro k
    simp only [Gain.toArr, Arr.scalar]
    congr 1
    ext i j; fin_cases i; fin_cases j; rfl
  simp only [feedback, checkFeedbackIc, gainState_eq _ dtOk_none, bind, Except.bind, e, StateM.p,
    StateM.m, Arr.of_r, Arr.of_c, ne_eq, not_true_eq_false, or_self, if_false]

theorem one_sub_scalars (d n : ℚ) :
    (1 - !![n] * !![d] : Matrix (Fin 1) (Fin 1) ℚ) = !![1 - n * d] := by
  ext i j; fin_cases i; fin_cases j; simp

theorem closeLoop_scalars (d n : ℚ) (neg : Bool) (hd : d ≠ 0) (hn : n ≠ 0)
    (h : ((1 : ℕ) * spacing10 : ℚ) ^ 2 < (1 - n * d) ^ 2) :
    feedback (K := ℚ) (.gain (.scalar d)) (.gain (.scalar n)) neg
      = .ok ⟨Arr.empty, Arr.empty, Arr.empty,
          Arr.of !![d + fbSign neg * (d * ((1 - n * d)⁻¹ * (n * d)))], none, true⟩ := by
  have hsv : ¬ HasSVAtMost ((1 : ℕ) * spacing10 : ℚ) (1 - !![n] * !![d] : Matrix (Fin 1) (Fin 1) ℚ) := by
    rw [one_sub_scalars]; exact not_sv_scalar h
  have h1 : (1 - n * d) ≠ 0 := by
    intro h0
    rw [h0] at h
    have := sq_nonneg ((1 : ℕ) * spacing10 : ℚ)
    linarith
  rw [feedback_scalars, closeLoop_of _ _ !![d] !![n] rfl rfl hsv,
    closeBody_ss dtOk_none _ _ _ _ _ _ _ _ (fun h => hd (by simpa using congrFun (congrFun h 0) 0))
      (fun h => hn (by simpa using congrFun (congrFun h 0) 0)) _ _ (det_ne_zero_of_not_sv hsv)]
  congr 3
  have hinv : (1 - !![n] * !![d] : Matrix (Fin 1) (Fin 1) ℚ)⁻¹ = !![(1 - n * d)⁻¹] := by
    apply Matrix.inv_eq_left_inv
    rw [one_sub_scalars]
    ext i j; fin_cases i; fin_cases j; simp [h1]
  rw [hinv]
  congr 1
  ext i j; fin_cases i; fin_cases j; simp

/-- **C30** fails: `feedback(5, 5)` has the negative closed loop `5 / (1 + 25)`, the code returns
`5 + 125 / 24`. -/
theorem C30_negative_violated :
    ∃ R, feedback (K := ℚ) (.gain (.scalar 5)) (.gain (.scalar 5)) true = .ok R ∧
      ¬ HasTF R 1 1 (0 : ℚ) (!![5] * (1 + !![5] * !![5])⁻¹) := by
  refine ⟨_, closeLoop_scalars 5 5 true (by norm_num) (by norm_num) (by norm_num [spacing10]), ?_⟩
  have hinv : (1 + !![5] * !![5] : Matrix (Fin 1) (Fin 1) ℚ)⁻¹ = !![1 / 26] := by
    have e : (1 + !![5] * !![5] : Matrix (Fin 1) (Fin 1) ℚ) = !![26] := by
      ext i j; fin_cases i; fin_cases j; simp; norm_num
    rw [e]
    apply Matrix.inv_eq_left_inv
    ext i j; fin_cases i; fin_cases j; simp
  rw [hinv]
  rintro (⟨-, D, hD, h⟩ | ⟨h, -⟩)
  · have hD' := Arr.of_inj.mp hD
    rw [← hD'] at h
    have := congrFun (congrFun h 0) 0
    simp [fbSign] at this
    norm_num at this
  · simp at h

/-! ## C31 -/

/-- **C31**, what the code does for both signs: `ValueError` is raised exactly for unequal sampling
periods, incompatible shapes or a (numerically) singular `I - N D`. -/
theorem C31_code_iff (hG : Consistent G p m) (hH : Consistent H m' p') (neg : Bool)
    (hdt : DtOk G.dt) :
    feedback (.state G) (.state H) neg = .error .value ↔
      G.dt ≠ H.dt ∨ p ≠ p' ∨ m ≠ m' ∨ ∃ (D : Matrix (Fin p) (Fin m) K) (N : Matrix (Fin m) (Fin p) K),
        G.d = Arr.of D ∧ H.d = Arr.of N ∧ HasSVAtMost (m * spacing10 : K) (1 - N * D) := by
  have hGp : G.p = p := hG.1.1
  have hGm : G.m = m := hG.1.2
  have hHp : H.p = m' := hH.1.1
  have hHm : H.m = p' := hH.1.2
  by_cases h1 : G.dt = H.dt
  swap
  · simp [feedback, checkFeedbackIc, h1, bind, Except.bind]
  by_cases h2 : p = p'
  swap
  · simp [feedback, checkFeedbackIc, h1, bind, Except.bind, hGp, hHm, h2]
  by_cases h3 : m = m'
  swap
  · simp [feedback, checkFeedbackIc, h1, bind, Except.bind, hGm, hHp, h3]
  subst h2 h3
  have e : feedback (.state G) (.state H) neg = closeLoop G H neg := by
    simp [feedback, checkFeedbackIc, h1, bind, Except.bind, hGm, hHp, hGp, hHm]
  obtain ⟨D, hD⟩ := Arr.exists_of hG.1.1 hG.1.2
  obtain ⟨N, hN⟩ := Arr.exists_of hH.1.1 hH.1.2
  rw [e]
  by_cases h4 : HasSVAtMost (m * spacing10 : K) (1 - N * D)
  · rw [closeLoop_ill G H D N hD hN h4]
    simp only [true_iff]
    exact Or.inr (Or.inr (Or.inr ⟨D, N, hD, hN, h4⟩))
  · have hΔ := det_ne_zero_of_not_sv h4
    have hr : ¬ (G.dt ≠ H.dt ∨ p ≠ p ∨ m ≠ m ∨ ∃ (D : Matrix (Fin p) (Fin m) K)
        (N : Matrix (Fin m) (Fin p) K), G.d = Arr.of D ∧ H.d = Arr.of N ∧
          HasSVAtMost (m * spacing10 : K) (1 - N * D)) := by
      rintro (h | h | h | ⟨D', N', hD', hN', h⟩)
      · exact h h1
      · exact h rfl
      · exact h rfl
      · rw [hD] at hD'; rw [hN] at hN'
        rw [← Arr.of_inj.mp hD', ← Arr.of_inj.mp hN'] at h
        exact h4 h
    refine iff_of_false ?_ hr
    rw [closeLoop_of G H D N hD hN h4]
    rcases closeBody_total hG hH hdt hΔ (P := N * D) (σ := fbSign neg) with ⟨R, h, -⟩ | ⟨-, -, -, h⟩ <;>
      simp [h]

/-- **C31**: with positive feedback, or with feedthrough product zero, `ValueError` is raised exactly
for unequal sampling periods, incompatible shapes or a (numerically) singular `I ∓ N D`.
Missing: negative feedback with `N D ≠ 0` (`C31_negative_violated`). -/
theorem C31_rejects_iff_partial (hG : Consistent G p m) (hH : Consistent H m' p') (neg : Bool)
    (hdt : DtOk G.dt)
    (hσ : neg = false ∨ ∀ (D : Matrix (Fin p) (Fin m) K) (N : Matrix (Fin m) (Fin p) K),
      G.d = Arr.of D → H.d = Arr.of N → N * D = 0) :
    feedback (.state G) (.state H) neg = .error .value ↔
      G.dt ≠ H.dt ∨ p ≠ p' ∨ m ≠ m' ∨ ∃ (D : Matrix (Fin p) (Fin m) K) (N : Matrix (Fin m) (Fin p) K),
        G.d = Arr.of D ∧ H.d = Arr.of N ∧
          HasSVAtMost (m * spacing10 : K) (1 - (if neg then -1 else 1 : K) • (N * D)) := by
  rw [C31_code_iff hG hH neg hdt]
  have key : ∀ (D : Matrix (Fin p) (Fin m) K) (N : Matrix (Fin m) (Fin p) K), G.d = Arr.of D →
      H.d = Arr.of N → (if neg then -1 else 1 : K) • (N * D) = N * D := by
    intro D N hD hN
    rcases hσ with h | h
    · simp [h]
    · simp [h D N hD hN]
  refine or_congr_right (or_congr_right (or_congr_right (exists_congr fun D => exists_congr fun N => ?_)))
  constructor
  · rintro ⟨hD, hN, h⟩
    exact ⟨hD, hN, by rwa [key D N hD hN]⟩
  · rintro ⟨hD, hN, h⟩
    exact ⟨hD, hN, by rwa [key D N hD hN] at h⟩

/-- **C31**, "otherwise returns a model": every call returns a model of the shape and sampling period
of `G`, or raises `ValueError`, except when both models are static and one gain is zero. Missing: this exception, see `C31_zero_gain_violated`. -/
theorem C31_returns_partial (hG : Consistent G p m) (hH : Consistent H m' p') (neg : Bool)
    (hdt : DtOk G.dt)
    (hz : G.isgain = true → H.isgain = true → (∃ i j, G.d.m i j ≠ 0) ∧ ∃ i j, H.d.m i j ≠ 0) :
    (∃ R, feedback (.state G) (.state H) neg = .ok R ∧ Consistent R p m ∧ R.dt = G.dt) ∨
      feedback (.state G) (.state H) neg = .error .value := by
  by_cases h0 : feedback (.state G) (.state H) neg = .error .value
  · exact Or.inr h0
  left
  rw [C31_code_iff hG hH neg hdt] at h0
  push Not at h0
  obtain ⟨h1, rfl, rfl, h4⟩ := h0
  have hGp : G.p = p := hG.1.1
  have hGm : G.m = m := hG.1.2
  have hHp : H.p = m := hH.1.1
  have hHm : H.m = p := hH.1.2
  have e : feedback (.state G) (.state H) neg = closeLoop G H neg := by
    simp [feedback, checkFeedbackIc, h1, bind, Except.bind, hGm, hHp, hGp, hHm]
  obtain ⟨D, hD⟩ := Arr.exists_of hG.1.1 hG.1.2
  obtain ⟨N, hN⟩ := Arr.exists_of hH.1.1 hH.1.2
  have h4 := h4 D N hD hN
  rw [e, closeLoop_of G H D N hD hN h4]
  rcases closeBody_total hG hH hdt (det_ne_zero_of_not_sv h4) (P := N * D) (σ := fbSign neg) with
    h | ⟨g1, g2, g3, -⟩
  · exact h
  · exact absurd (hz g1 g2) g3

example : Consistent lag21 2 1 ∧ Consistent gain12 1 2 ∧ DtOk lag21.dt ∧
    (lag21.isgain = true → gain12.isgain = true →
      (∃ i j, lag21.d.m i j ≠ 0) ∧ ∃ i j, gain12.d.m i j ≠ 0) :=
  ⟨by simp [Consistent, lag21], by simp [Consistent, gain12], dtOk_none, by simp [lag21]⟩

/-- **C31**, numerical value of the threshold: a loop in which `I - N D` shortens no vector by more than the factor `m 2⁻⁴⁹` (`m` inputs) is not rejected as singular. -/
theorem C31_accepts {G H : StateM K} (hG : Consistent G p m) (hH : Consistent H m p) (neg : Bool) (hdt : DtOk G.dt) (ht : G.dt = H.dt)
    {D : Matrix (Fin p) (Fin m) K} {N : Matrix (Fin m) (Fin p) K} (hD : G.d = Arr.of D) (hN : H.d = Arr.of N)
    (hs : ∀ x : Fin m → K, x ≠ 0 → (m / 2 ^ 49 : K) ^ 2 * (x ⬝ᵥ x) < ((1 - N * D) *ᵥ x) ⬝ᵥ ((1 - N * D) *ᵥ x)) :
    feedback (.state G) (.state H) neg ≠ .error .value := by
  intro h
  rw [C31_code_iff hG hH neg hdt] at h
  rcases h with h | h | h | ⟨D', N', h1, h2, x, hx, h3⟩
  · exact h ht
  · exact h rfl
  · exact h rfl
  · rw [hD, Arr.of_inj] at h1
    rw [hN, Arr.of_inj] at h2
    subst h1 h2
    have h4 := hs x hx
    have h5 : (m * spacing10 : K) = m / 2 ^ 49 := by unfold spacing10; ring
    rw [h5] at h3
    exact absurd h3 (not_le.mpr h4)

/-- **C31** fails: two static gains one of which is zero form the loop `I`, but the code raises
`UnboundLocalError`. -/
theorem C31_zero_gain_violated :
    feedback (K := ℚ) (.gain (.scalar 0)) (.gain (.scalar 1)) false = .error .unboundLocal := by
  rw [feedback_scalars, closeLoop_of _ _ !![0] !![1] rfl rfl]
  · simp [closeBody, Arr.any]
  · rw [one_sub_scalars]; exact not_sv_scalar (by norm_num [spacing10])

/-- **C31** fails for negative feedback with feedthrough: `feedback(1, 1)` is `1/2` but is rejected;
`feedback(1, -1)` has the singular loop `1 + 1 * (-1) = 0` but returns a model. -/
theorem C31_negative_violated :
    feedback (K := ℚ) (.gain (.scalar 1)) (.gain (.scalar 1)) true = .error .value ∧
    ∃ R, feedback (K := ℚ) (.gain (.scalar 1)) (.gain (.scalar (-1))) true = .ok R := by
  constructor
  · rw [feedback_scalars, closeLoop_ill _ _ !![1] !![1] rfl rfl]
    rw [one_sub_scalars]
    refine ⟨fun _ => 1, fun h => by simpa using congrFun h 0, ?_⟩
    simp [mulVec, dotProduct]
    positivity
  · exact ⟨_, closeLoop_scalars 1 (-1) true (by norm_num) (by norm_num) (by norm_num [spacing10])⟩

end api

end Harold
