import Verif.Lemmas.StateTF
import Mathlib.LinearAlgebra.Matrix.ToLinearEquiv

/-!
# Transfer matrix of a feedback loop
-/

namespace Harold

open Matrix Harold.Spec

variable {L n₁ n₂ m p : Type} [Field L] [Fintype n₁] [DecidableEq n₁] [Fintype n₂] [DecidableEq n₂]
  [Fintype m] [DecidableEq m] [Fintype p] [DecidableEq p]

/-- The loop `e = r + H y`, `y = G e`; `E` is the inverse of `1 - N D`. -/
theorem IsTF.feedback {A : Matrix n₁ n₁ L} {B : Matrix n₁ m L} {C : Matrix p n₁ L} {D : Matrix p m L}
    {Ka : Matrix n₂ n₂ L} {Lb : Matrix n₂ p L} {Mc : Matrix m n₂ L} {Nd : Matrix m p L} {s : L}
    {G : Matrix p m L} {H : Matrix m p L} {E : Matrix m m L}
    (h₁ : IsTF A B C D s G) (h₂ : IsTF Ka Lb Mc Nd s H) (hE : E * (1 - Nd * D) = 1)
    (hw : (1 - H * G).det ≠ 0) :
    IsTF (fromBlocks (A + B * E * Nd * C) (B * E * Mc) (Lb * C + Lb * D * E * Nd * C)
        (Ka + Lb * D * E * Mc))
      (fromRows (B * E) (Lb * D * E)) (fromCols (C + D * E * Nd * C) (D * E * Mc)) (D * E) s
      (G * (1 - H * G)⁻¹) := by
  obtain ⟨hd₁, X₁, hX₁, hG⟩ := isTF_iff_sol.mp h₁
  obtain ⟨hd₂, X₂, hX₂, hH⟩ := isTF_iff_sol.mp h₂
  have hE' : (1 - Nd * D) * E = 1 := mul_eq_one_comm.mp hE
  have key : s • (1 : Matrix (n₁ ⊕ n₂) (n₁ ⊕ n₂) L) - fromBlocks (A + B * E * Nd * C) (B * E * Mc)
        (Lb * C + Lb * D * E * Nd * C) (Ka + Lb * D * E * Mc)
      = fromBlocks (s • 1 - A - B * E * Nd * C) (-(B * E * Mc)) (-(Lb * C + Lb * D * E * Nd * C))
        (s • 1 - Ka - Lb * D * E * Mc) := by
    rw [← fromBlocks_one, fromBlocks_smul, sub_eq_add_neg, fromBlocks_neg, fromBlocks_add]
    congr 1 <;> (try simp only [smul_zero, zero_add]) <;> abel
  set W := (1 - H * G)⁻¹ with hWdef
  have hW : (1 - H * G) * W = 1 := Matrix.mul_nonsing_inv _ (isUnit_iff_ne_zero.mpr hw)
  -- `W = E + E (N C X₁ + M X₂ G) W`
  have hWE : W = E + E * Nd * C * X₁ * W + E * Mc * X₂ * G * W := by
    have h1 : (1 - Nd * D) * W = 1 + (Nd * C * X₁ + Mc * X₂ * G) * W := by
      have h2 : W = 1 + H * G * W := by
        rw [Matrix.sub_mul, Matrix.one_mul] at hW
        rw [← hW]; abel
      have h3 : H * G = Nd * C * X₁ + Nd * D + Mc * X₂ * G := by
        conv_lhs => rw [hH, Matrix.add_mul]
        conv_lhs => rw [show Nd * G = Nd * C * X₁ + Nd * D by
          rw [hG, Matrix.mul_add, Matrix.mul_assoc]]
        abel
      rw [Matrix.sub_mul, Matrix.one_mul]
      conv_lhs => lhs; rw [h2, h3]
      simp only [Matrix.add_mul]
      abel
    have h4 := congrArg (fun Z => E * Z) h1
    simp only [← Matrix.mul_assoc, hE, Matrix.one_mul, Matrix.mul_add, Matrix.add_mul,
      Matrix.mul_one] at h4
    conv_lhs => rw [h4]
    abel
  refine isTF_iff_sol.mpr ⟨?_, fromRows (X₁ * W) (X₂ * G * W), ?_, ?_⟩
  · intro hdet
    obtain ⟨v, hv, hv0⟩ := exists_mulVec_eq_zero_iff.mpr hdet
    apply hv
    rw [key, fromBlocks_mulVec] at hv0
    set x₁ := v ∘ Sum.inl with hx₁
    set x₂ := v ∘ Sum.inr with hx₂
    set e := E *ᵥ (Nd *ᵥ (C *ᵥ x₁) + Mc *ᵥ x₂) with he
    have e1 : (s • (1 : Matrix n₁ n₁ L) - A) *ᵥ x₁ = B *ᵥ e := by
      have := congrArg (fun f => f ∘ Sum.inl) hv0
      simp only [Sum.elim_comp_inl, sub_mulVec, neg_mulVec] at this
      have h0 : (0 : n₁ ⊕ n₂ → L) ∘ Sum.inl = 0 := rfl
      rw [h0] at this
      rw [sub_mulVec, he, mulVec_add, mulVec_add]
      simp only [mulVec_mulVec, ← Matrix.mul_assoc] at this ⊢
      rw [← sub_eq_zero, ← this]
      abel
    have e2 : (s • (1 : Matrix n₂ n₂ L) - Ka) *ᵥ x₂ = Lb *ᵥ (C *ᵥ x₁ + D *ᵥ e) := by
      have := congrArg (fun f => f ∘ Sum.inr) hv0
      simp only [Sum.elim_comp_inr, sub_mulVec, neg_mulVec, add_mulVec] at this
      have h0 : (0 : n₁ ⊕ n₂ → L) ∘ Sum.inr = 0 := rfl
      rw [h0] at this
      rw [sub_mulVec, he]
      simp only [mulVec_add, mulVec_mulVec, ← Matrix.mul_assoc] at this ⊢
      rw [← sub_eq_zero, ← this]
      abel
    have e3 : e = Nd *ᵥ (C *ᵥ x₁ + D *ᵥ e) + Mc *ᵥ x₂ := by
      have h3 : (1 - Nd * D) *ᵥ e = Nd *ᵥ (C *ᵥ x₁) + Mc *ᵥ x₂ := by
        rw [he, mulVec_mulVec, hE', one_mulVec]
      rw [sub_mulVec, one_mulVec, ← mulVec_mulVec, sub_eq_iff_eq_add] at h3
      rw [mulVec_add]
      conv_lhs => rw [h3]
      abel
    have e4 : x₁ = X₁ *ᵥ e := by
      rw [← sub_eq_zero]
      apply Matrix.eq_zero_of_mulVec_eq_zero hd₁
      rw [mulVec_sub, e1, mulVec_mulVec e _ X₁, hX₁, sub_self]
    have e5 : C *ᵥ x₁ + D *ᵥ e = G *ᵥ e := by
      rw [e4, hG, add_mulVec, mulVec_mulVec]
    rw [e5] at e2 e3
    have e6 : x₂ = X₂ *ᵥ (G *ᵥ e) := by
      rw [← sub_eq_zero]
      apply Matrix.eq_zero_of_mulVec_eq_zero hd₂
      rw [mulVec_sub, e2, mulVec_mulVec _ _ X₂, hX₂, sub_self]
    have e7 : (1 - H * G) *ᵥ e = 0 := by
      rw [sub_mulVec, one_mulVec, ← mulVec_mulVec, hH, add_mulVec, ← mulVec_mulVec, ← e6,
        sub_eq_zero]
      conv_lhs => rw [e3]
      abel
    have e8 : e = 0 := Matrix.eq_zero_of_mulVec_eq_zero hw e7
    rw [e8, mulVec_zero] at e4
    rw [e8, mulVec_zero, mulVec_zero] at e6
    funext i
    rcases i with i | i
    · exact congrFun e4 i
    · exact congrFun e6 i
  · rw [key, fromBlocks_mul_fromRows]
    have hB : B * W = B * E + B * E * Nd * C * X₁ * W + B * E * Mc * X₂ * G * W := by
      conv_lhs => rw [hWE]
      simp only [Matrix.mul_add, ← Matrix.mul_assoc]
    have hLD : Lb * D * W = Lb * D * E + Lb * D * E * Nd * C * X₁ * W
        + Lb * D * E * Mc * X₂ * G * W := by
      conv_lhs => rw [hWE]
      simp only [Matrix.mul_add, ← Matrix.mul_assoc]
    congr 1
    · rw [Matrix.sub_mul, ← Matrix.mul_assoc, hX₁, hB, Matrix.neg_mul]
      simp only [← Matrix.mul_assoc]
      abel
    · have h5 : (s • 1 - Ka) * (X₂ * G * W) = Lb * C * X₁ * W + Lb * D * W := by
        rw [← Matrix.mul_assoc, ← Matrix.mul_assoc, hX₂]
        conv_lhs => rw [hG]
        simp only [Matrix.mul_add, Matrix.add_mul, ← Matrix.mul_assoc]
      rw [Matrix.sub_mul _ _ (X₂ * G * W), h5, hLD, Matrix.neg_mul, Matrix.add_mul]
      simp only [← Matrix.mul_assoc]
      abel
  · have hD : D * W = D * E + D * E * Nd * C * X₁ * W + D * E * Mc * X₂ * G * W := by
      conv_lhs => rw [hWE]
      simp only [Matrix.mul_add, ← Matrix.mul_assoc]
    have hGW : G * W = C * X₁ * W + D * W := by
      conv_lhs => rw [hG]
      rw [Matrix.add_mul]
    rw [fromCols_mul_fromRows, hGW, hD, Matrix.add_mul]
    simp only [← Matrix.mul_assoc]
    abel

theorem isTF_empty (D : Matrix p m L) (s : L) :
    IsTF (0 : Matrix (Fin 0) (Fin 0) L) (0 : Matrix (Fin 0) m L) (0 : Matrix p (Fin 0) L) D s D := by
  refine ⟨by simp, by simp⟩

/-- The forward path is static. -/
theorem IsTF.feedback_static_g {D : Matrix p m L}
    {Ka : Matrix n₂ n₂ L} {Lb : Matrix n₂ p L} {Mc : Matrix m n₂ L} {Nd : Matrix m p L} {s : L}
    {H : Matrix m p L} {E : Matrix m m L}
    (h₂ : IsTF Ka Lb Mc Nd s H) (hE : E * (1 - Nd * D) = 1)
    (hw : (1 - H * D).det ≠ 0) :
    IsTF (Ka + Lb * D * E * Mc) (Lb * D * E) (D * E * Mc) (D * E) s (D * (1 - H * D)⁻¹) := by
  have h := (IsTF.feedback (isTF_empty D s) h₂ hE hw).reindex
    (Equiv.emptySum (Fin 0) n₂).symm
  exact h

/-- The feedback path is static. -/
theorem IsTF.feedback_static_h {A : Matrix n₁ n₁ L} {B : Matrix n₁ m L} {C : Matrix p n₁ L}
    {D : Matrix p m L} {Nd : Matrix m p L} {s : L} {G : Matrix p m L} {E : Matrix m m L}
    (h₁ : IsTF A B C D s G) (hE : E * (1 - Nd * D) = 1) (hw : (1 - Nd * G).det ≠ 0) :
    IsTF (A + B * E * Nd * C) (B * E) (C + D * E * Nd * C) (D * E) s (G * (1 - Nd * G)⁻¹) := by
  have h := (IsTF.feedback h₁ (isTF_empty Nd s) hE hw).reindex
    (Equiv.sumEmpty n₁ (Fin 0)).symm
  exact h

section fin
variable {K : Type} {r r₁ r₂ c c₁ c₂ n : ℕ}

theorem vcat_hcat_swap (A : Matrix (Fin r₁) (Fin c₁) K) (B : Matrix (Fin r₁) (Fin c₂) K)
    (C : Matrix (Fin r₂) (Fin c₁) K) (D : Matrix (Fin r₂) (Fin c₂) K) :
    vcat (hcat A B) (hcat C D) = hcat (vcat A C) (vcat B D) := by
  ext i j
  rcases h : finSumFinEquiv.symm i with i' | i' <;>
  rcases h' : finSumFinEquiv.symm j with j' | j' <;> simp [hcat, vcat, h, h']

variable [CommRing K]

theorem vcat_mul_hcat (A : Matrix (Fin r₁) (Fin n) K) (B : Matrix (Fin r₂) (Fin n) K)
    (C : Matrix (Fin n) (Fin c₁) K) (D : Matrix (Fin n) (Fin c₂) K) :
    vcat A B * hcat C D = blk (A * C) (A * D) (B * C) (B * D) := by
  ext i j
  rcases h : finSumFinEquiv.symm i with i' | i' <;>
  rcases h' : finSumFinEquiv.symm j with j' | j' <;>
    simp [hcat, vcat, blk, h, h', Matrix.mul_apply]

theorem mul_hcat (E : Matrix (Fin r) (Fin n) K) (C : Matrix (Fin n) (Fin c₁) K)
    (D : Matrix (Fin n) (Fin c₂) K) : E * hcat C D = hcat (E * C) (E * D) := by
  ext i j
  rcases h' : finSumFinEquiv.symm j with j' | j' <;> simp [hcat, h', Matrix.mul_apply]

theorem vcat_mul (A : Matrix (Fin r₁) (Fin n) K) (B : Matrix (Fin r₂) (Fin n) K)
    (E : Matrix (Fin n) (Fin c) K) : vcat A B * E = vcat (A * E) (B * E) := by
  ext i j
  rcases h' : finSumFinEquiv.symm i with j' | j' <;> simp [vcat, h', Matrix.mul_apply]

theorem smul_vcat (k : K) (A : Matrix (Fin r₁) (Fin n) K) (B : Matrix (Fin r₂) (Fin n) K) :
    k • vcat A B = vcat (k • A) (k • B) := by
  ext i j
  rcases h' : finSumFinEquiv.symm i with j' | j' <;> simp [vcat, h']

theorem blk_add (A A' : Matrix (Fin r₁) (Fin c₁) K) (B B' : Matrix (Fin r₁) (Fin c₂) K)
    (C C' : Matrix (Fin r₂) (Fin c₁) K) (D D' : Matrix (Fin r₂) (Fin c₂) K) :
    blk A B C D + blk A' B' C' D' = blk (A + A') (B + B') (C + C') (D + D') := by
  ext i j
  rcases h : finSumFinEquiv.symm i with i' | i' <;>
  rcases h' : finSumFinEquiv.symm j with j' | j' <;> simp [blk, h, h']

theorem vcat_add (A A' : Matrix (Fin r₁) (Fin c) K) (B B' : Matrix (Fin r₂) (Fin c) K) :
    vcat A B + vcat A' B' = vcat (A + A') (B + B') := by
  ext i j
  rcases h : finSumFinEquiv.symm i with i' | i' <;> simp [vcat, h]

theorem hcat_add (A A' : Matrix (Fin r) (Fin c₁) K) (B B' : Matrix (Fin r) (Fin c₂) K) :
    hcat A B + hcat A' B' = hcat (A + A') (B + B') := by
  ext i j
  rcases h : finSumFinEquiv.symm j with i' | i' <;> simp [hcat, h]

end fin

theorem isTF_feedback {n₁ n₂ m p : ℕ} {A : Matrix (Fin n₁) (Fin n₁) L} {B : Matrix (Fin n₁) (Fin m) L}
    {C : Matrix (Fin p) (Fin n₁) L} {D : Matrix (Fin p) (Fin m) L}
    {Ka : Matrix (Fin n₂) (Fin n₂) L} {Lb : Matrix (Fin n₂) (Fin p) L}
    {Mc : Matrix (Fin m) (Fin n₂) L} {Nd : Matrix (Fin m) (Fin p) L} {s : L}
    {G : Matrix (Fin p) (Fin m) L} {H : Matrix (Fin m) (Fin p) L} {E : Matrix (Fin m) (Fin m) L}
    (h₁ : IsTF A B C D s G) (h₂ : IsTF Ka Lb Mc Nd s H) (hE : E * (1 - Nd * D) = 1)
    (hw : (1 - H * G).det ≠ 0) :
    IsTF (blk (A + B * E * Nd * C) (B * E * Mc) (Lb * C + Lb * D * E * Nd * C)
        (Ka + Lb * D * E * Mc))
      (vcat (B * E) (Lb * D * E)) (hcat (C + D * E * Nd * C) (D * E * Mc)) (D * E) s
      (G * (1 - H * G)⁻¹) :=
  (IsTF.feedback h₁ h₂ hE hw).reindex finSumFinEquiv.symm

end Harold
