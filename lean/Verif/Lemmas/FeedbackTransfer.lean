import Verif.Spec.FeedbackTransfer
import Verif.Props.Mixed
import Verif.Lemmas.TransferInv
import Mathlib.Topology.Instances.Matrix
import Mathlib.Analysis.SpecificLimits.Basic

/-!
# `transfer_to_state` keeps the limit for large arguments
-/

namespace Harold

open Matrix Spec Polynomial Filter Topology

variable {E : TNum ℝ} {n p m : ℕ}

theorem tendsto_resolvent_real (A : Matrix (Fin n) (Fin n) ℝ) :
    Tendsto (fun s : ℝ => (s • (1 : Matrix (Fin n) (Fin n) ℝ) - A)⁻¹) atTop (𝓝 0) := by
  have h1 : Tendsto (fun t : ℝ => (1 - t • A)⁻¹) (𝓝 0) (𝓝 1) := by
    have hc : Continuous fun t : ℝ => (1 : Matrix (Fin n) (Fin n) ℝ) - t • A := by fun_prop
    have hd : Tendsto (fun t : ℝ => Ring.inverse (1 - t • A).det) (𝓝 0) (𝓝 1) := by
      have : Tendsto (fun t : ℝ => (1 - t • A).det) (𝓝 0) (𝓝 1) := by
        have := hc.matrix_det.tendsto 0
        simpa using this
      have := this.inv₀ one_ne_zero
      simpa [Ring.inverse_eq_inv'] using this
    have ha : Tendsto (fun t : ℝ => (1 - t • A).adjugate) (𝓝 0) (𝓝 1) := by
      have := hc.matrix_adjugate.tendsto 0
      simpa using this
    have := hd.smul ha
    simpa [Matrix.inv_def] using this
  have h2 : Tendsto (fun s : ℝ => s⁻¹ • (1 - s⁻¹ • A)⁻¹) atTop (𝓝 ((0 : ℝ) • 1)) :=
    tendsto_inv_atTop_zero.smul (h1.comp tendsto_inv_atTop_zero)
  rw [zero_smul] at h2
  refine h2.congr' ?_
  filter_upwards [eventually_gt_atTop 0] with s hs
  have e : s • (1 : Matrix (Fin n) (Fin n) ℝ) - A = s • (1 - s⁻¹ • A) := by
    rw [smul_sub, smul_smul, mul_inv_cancel₀ hs.ne', one_smul]
  rw [e]
  by_cases hu : IsUnit (1 - s⁻¹ • A).det
  · symm
    apply Matrix.inv_eq_left_inv
    rw [smul_mul, Matrix.mul_smul, smul_smul, inv_mul_cancel₀ hs.ne', one_smul, Matrix.nonsing_inv_mul _ hu]
  · have hu' : ¬ IsUnit (s • (1 - s⁻¹ • A)).det := by
      rw [det_smul]
      intro h
      exact hu (isUnit_of_mul_isUnit_right h)
    rw [Matrix.nonsing_inv_apply_not_isUnit _ hu, Matrix.nonsing_inv_apply_not_isUnit _ hu', smul_zero]

/-- The values of a `State` model tend to its feedthrough. -/
theorem hasTF_tendsto {S : StateM ℝ} {D : Matrix (Fin p) (Fin m) ℝ} (hD : S.d = Arr.of D) {f : ℝ → Matrix (Fin p) (Fin m) ℝ}
    (h : ∀ᶠ s in atTop, HasTF S p m s (f s)) : Tendsto f atTop (𝓝 D) := by
  obtain ⟨s₀, h0⟩ := h.exists
  rcases h0 with ⟨hg, -⟩ | ⟨hg, n, A, B, C, D', hA, hB, hC, hD', -⟩
  · refine tendsto_const_nhds.congr' ?_
    filter_upwards [h] with s hs
    rcases hs with ⟨-, D', hD', e⟩ | ⟨h', -⟩
    · obtain rfl := Arr.of_inj.mp (hD.symm.trans hD')
      rw [e]
      ext i j; simp
    · rw [hg] at h'; cases h'
  · obtain rfl := Arr.of_inj.mp (hD.symm.trans hD')
    have h1 : Tendsto (fun s : ℝ => C * (s • (1 : Matrix (Fin n) (Fin n) ℝ) - A)⁻¹ * B + D) atTop (𝓝 (C * (0 : Matrix (Fin n) (Fin n) ℝ) * B + D)) := by
      have hc : Continuous fun X : Matrix (Fin n) (Fin n) ℝ => C * X * B + D := by fun_prop
      exact (hc.tendsto 0).comp (tendsto_resolvent_real A)
    have e0 : C * (0 : Matrix (Fin n) (Fin n) ℝ) * B + D = D := by simp
    rw [e0] at h1
    refine h1.congr' ?_
    filter_upwards [h] with s hs
    rcases hs with ⟨h', -⟩ | ⟨-, n', A', B', C', D', hA', hB', hC', hD'', -, hs⟩
    · rw [hg] at h'; cases h'
    · have en : n = n' := by
        have := congrArg Arr.r (hA.symm.trans hA')
        simpa using this
      subst en
      obtain rfl := Arr.of_inj.mp (hA.symm.trans hA')
      obtain rfl := Arr.of_inj.mp (hB.symm.trans hB')
      obtain rfl := Arr.of_inj.mp (hC.symm.trans hC')
      obtain rfl := Arr.of_inj.mp (hD.symm.trans hD'')
      have id_map : ∀ {a b : ℕ} (X : Matrix (Fin a) (Fin b) ℝ), X.map (algebraMap ℝ ℝ) = X := fun X => by ext; simp
      rw [hs]
      simp only [id_map]

theorem hasTF_consistent {K L : Type} [Field K] [Field L] [Algebra K L] {S : StateM K} {s : L} {M : Matrix (Fin p) (Fin m) L}
    (h : HasTF S p m s M) : Consistent S p m := by
  rcases h with ⟨hg, D, hD, -⟩ | ⟨hg, n, A, B, C, D, hA, hB, hC, hD, -⟩
  · simp [Consistent, hg, hD]
  · simp [Consistent, hA, hB, hC, hD]

/-- `transfer_to_state` of a model in normal form, with the feedthrough. -/
theorem t2s_parts (hbal : ∀ polys i, E.bal polys i ≠ 0) (hthr : E.lcmTol ≤ 1) {G : TransferM ℝ} (htol : ClearModel E.lcmTol E.remTol G)
    {A B : Matrix (Fin p) (Fin m) (List ℝ)} (hG : Normal G p m A B) :
    ∃ S H, transferToState E G = .ok S ∧ S.dt = G.dt ∧ S.d = Arr.of H ∧ AtInfinity A B H ∧ Consistent S p m ∧
      (S.isgain = true → AllConstant A B) ∧
      ∀ {L : Type} [Field L] [Algebra ℝ L] (s : L) (M : Matrix (Fin p) (Fin m) L), HasVal G p m s M → HasTF S p m s M := by
  obtain ⟨S, h1, h2, h3⟩ := t2s_normal (L := ℝ) hbal hthr htol hG
  have hv : ∀ s : ℝ, (∀ i j, polyAt s (B i j) ≠ 0) →
      HasTF S p m s (Matrix.of fun i j => polyAt s (A i j) / polyAt s (B i j)) := fun s hs =>
    h3 s _ ⟨A, B, hG.num, hG.den, fun i j => ⟨hs i j, rfl⟩⟩
  have hev : ∀ᶠ s : ℝ in atTop, ∀ i j, polyAt s (B i j) ≠ 0 := by
    rw [eventually_all]; intro i
    rw [eventually_all]; intro j
    filter_upwards [Polynomial.eventually_no_roots (toPoly (B i j)) (toPoly_ne_zero_of_head (hG.lead i j)).1] with s hs
    rwa [polyAt_real]
  obtain ⟨s₀, hs₀⟩ := hev.exists
  have hcons := hasTF_consistent (hv s₀ hs₀)
  obtain ⟨H, hH⟩ := Arr.exists_of hcons.1.1 hcons.1.2
  refine ⟨S, H, h1, h2, hH, ?_, hcons, ?_, ?_⟩
  · have := hasTF_tendsto hH (hev.mono hv)
    intro i j
    exact (tendsto_pi_nhds.mp (tendsto_pi_nhds.mp this i) j)
  · intro hg
    refine allConstant_of_values (H := H) hG.lead fun s hs i j => ?_
    rcases hv s hs with ⟨-, D', hD', e⟩ | ⟨h', -⟩
    · obtain rfl := Arr.of_inj.mp (hH.symm.trans hD')
      have := congrFun (congrFun e i) j
      simpa using this.symm
    · rw [hg] at h'; cases h'
  · intro L _ _ s M hM
    obtain ⟨S', h1', -, h3'⟩ := t2s_normal (L := L) hbal hthr htol hG
    obtain rfl : S = S' := Except.ok.inj (h1.symm.trans h1')
    exact h3' s M hM

end Harold
