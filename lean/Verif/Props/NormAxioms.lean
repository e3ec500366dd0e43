import Verif.Props.NormTransfer
import Verif.Props.Minimality
import Verif.Props.StateAlgebra

/-!
# C114: the H2 norm is a norm
-/

namespace Harold

open Matrix Spec Filter Topology

variable {n n' m p : ℕ}

/-- A weighted form of the triangle inequality. -/
theorem fro2_add_le {ε : ℝ} (hε : 0 < ε) (M M' : Matrix (Fin p) (Fin m) ℝ) : fro2 (M + M') ≤ (1 + ε) * fro2 M + (1 + ε⁻¹) * fro2 M' := by
  unfold fro2
  simp only [Finset.mul_sum, ← Finset.sum_add_distrib]
  refine Finset.sum_le_sum fun i _ => Finset.sum_le_sum fun j _ => ?_
  rw [Matrix.add_apply]
  generalize M i j = a
  generalize M' i j = b
  have h1 : 0 ≤ (ε * a - b) ^ 2 * ε⁻¹ := mul_nonneg (sq_nonneg _) (inv_nonneg.mpr hε.le)
  have h2 : (ε * a - b) ^ 2 * ε⁻¹ = ε * a ^ 2 - 2 * a * b + ε⁻¹ * b ^ 2 := by
    field_simp
    ring
  nlinarith

theorem fro2_smul (k : ℝ) (M : Matrix (Fin p) (Fin m) ℝ) : fro2 (k • M) = k ^ 2 * fro2 M := by
  simp [fro2, Finset.mul_sum, mul_pow]

theorem fro2_zero : fro2 (0 : Matrix (Fin p) (Fin m) ℝ) = 0 := by simp [fro2]

theorem fro2_eq_zero {M : Matrix (Fin p) (Fin m) ℝ} (h : fro2 M = 0) : M = 0 := by
  ext i j
  unfold fro2 at h
  have h1 := (Finset.sum_eq_zero_iff_of_nonneg fun i _ => Finset.sum_nonneg fun j _ => sq_nonneg (M i j)).mp h i (Finset.mem_univ _)
  have h2 := (Finset.sum_eq_zero_iff_of_nonneg fun j _ => sq_nonneg (M i j)).mp h1 j (Finset.mem_univ _)
  simpa using h2

/-- From the weighted forms to the triangle inequality. -/
theorem le_add_of_weighted {x y z : ℝ} (hx : 0 ≤ x) (hy : 0 ≤ y) (h : ∀ ε, 0 < ε → z ^ 2 ≤ (1 + ε) * x ^ 2 + (1 + ε⁻¹) * y ^ 2) : z ≤ x + y := by
  refine le_of_forall_pos_le_add fun δ hδ => ?_
  have hx1 : 0 < x + δ / 2 := by linarith
  have hy1 : 0 < y + δ / 2 := by linarith
  have h1 := h ((y + δ / 2) / (x + δ / 2)) (div_pos hy1 hx1)
  have h2 : (1 + (y + δ / 2) / (x + δ / 2)) * (x + δ / 2) ^ 2 + (1 + ((y + δ / 2) / (x + δ / 2))⁻¹) * (y + δ / 2) ^ 2 = (x + y + δ) ^ 2 := by
    field_simp
    ring
  have h3 : (1 + (y + δ / 2) / (x + δ / 2)) * x ^ 2 ≤ (1 + (y + δ / 2) / (x + δ / 2)) * (x + δ / 2) ^ 2 :=
    mul_le_mul_of_nonneg_left (by nlinarith) (by positivity)
  have h4 : (1 + ((y + δ / 2) / (x + δ / 2))⁻¹) * y ^ 2 ≤ (1 + ((y + δ / 2) / (x + δ / 2))⁻¹) * (y + δ / 2) ^ 2 :=
    mul_le_mul_of_nonneg_left (by nlinarith) (by positivity)
  exact le_of_sq_le_sq (by linarith) (by linarith)

section
variable {A : Matrix (Fin n) (Fin n) ℝ} {B : Matrix (Fin n) (Fin m) ℝ} {C : Matrix (Fin p) (Fin n) ℝ} {A' : Matrix (Fin n') (Fin n') ℝ} {B' : Matrix (Fin n') (Fin m) ℝ} {C' : Matrix (Fin p) (Fin n') ℝ}

theorem continuous_impulse (A : Matrix (Fin n) (Fin n) ℝ) (B : Matrix (Fin n) (Fin m) ℝ) (C : Matrix (Fin p) (Fin n) ℝ) : Continuous fun t : ℝ => fro2 (C * NormedSpace.exp (t • A) * B) := by
  have hc : Continuous fun t : ℝ => NormedSpace.exp (t • A) := by
    open scoped Matrix.Norms.Operator in
    exact continuous_iff_continuousAt.mpr fun t => (hasDerivAt_exp_smul_const (𝕂 := ℝ) A t).continuousAt
  have h1 : Continuous fun t : ℝ => C * NormedSpace.exp (t • A) * B := (continuous_const.matrix_mul hc).matrix_mul continuous_const
  unfold fro2
  exact continuous_finsetSum _ fun i _ => continuous_finsetSum _ fun j _ => (h1.matrix_elem i j).pow 2

theorem impulse_parallel (t : ℝ) : hcat C C' * NormedSpace.exp (t • blk A 0 0 A') * vcat B B' = C * NormedSpace.exp (t • A) * B + C' * NormedSpace.exp (t • A') * B' := by
  have e : t • blk A 0 0 A' = blk (t • A) 0 0 (t • A') := by
    rw [smul_blk]; simp
  rw [e, diag_exp, hcat_mul_blk, hcat_mul_vcat']
  simp

theorem energy_parallel {x y z : ℝ} (hx : 0 ≤ x) (hy : 0 ≤ y) (h1 : CEnergy A B C (x ^ 2)) (h2 : CEnergy A' B' C' (y ^ 2)) (h3 : CEnergy (blk A 0 0 A') (vcat B B') (hcat C C') (z ^ 2)) : z ≤ x + y := by
  refine le_add_of_weighted hx hy fun ε hε => ?_
  unfold CEnergy at h1 h2 h3
  refine le_of_tendsto_of_tendsto h3 ((h1.const_mul (1 + ε)).add (h2.const_mul (1 + ε⁻¹))) ?_
  filter_upwards [eventually_ge_atTop 0] with T hT
  have i1 := (continuous_impulse A B C).intervalIntegrable (μ := MeasureTheory.volume) 0 T
  have i2 := (continuous_impulse A' B' C').intervalIntegrable (μ := MeasureTheory.volume) 0 T
  rw [← intervalIntegral.integral_const_mul, ← intervalIntegral.integral_const_mul, ← intervalIntegral.integral_add (i1.const_mul _) (i2.const_mul _)]
  refine intervalIntegral.integral_mono_on hT ((continuous_impulse _ _ _).intervalIntegrable _ _) ((i1.const_mul _).add (i2.const_mul _)) fun t _ => ?_
  rw [impulse_parallel]
  exact fro2_add_le hε _ _

theorem cenergy_smul {x z k : ℝ} (h1 : CEnergy A B C x) (h2 : CEnergy A B (k • C) z) : z = k ^ 2 * x := by
  unfold CEnergy at h1 h2
  refine tendsto_nhds_unique h2 ?_
  simp only [Matrix.smul_mul, fro2_smul, intervalIntegral.integral_const_mul]
  exact h1.const_mul _

theorem denergy_smul {D : Matrix (Fin p) (Fin m) ℝ} {x z k : ℝ} (h1 : DEnergy A B C D x) (h2 : DEnergy A B (k • C) (k • D) z) : z = k ^ 2 * x := by
  unfold DEnergy at h1 h2
  refine h2.unique ?_
  have e : ∀ i, fro2 (dimpulse A B (k • C) (k • D) i) = k ^ 2 * fro2 (dimpulse A B C D i) := fun i => by
    rw [← fro2_smul]
    cases i <;> simp [dimpulse]
  simp only [e]
  exact h1.mul_left _

/-- An impulse response without energy has no derivatives at zero. -/
theorem markov_of_energy_zero (h : CEnergy A B C 0) (k : ℕ) : C * A ^ k * B = 0 := by
  have hpos : ∀ T : ℝ, 0 < T → C * NormedSpace.exp (T • A) * B = 0 := by
    intro T hT
    refine fro2_eq_zero (le_antisymm ?_ (fro2_nonneg _))
    by_contra hne
    push Not at hne
    have hi : ∀ a b, IntervalIntegrable (fun t : ℝ => fro2 (C * NormedSpace.exp (t • A) * B)) MeasureTheory.volume a b := fun a b => (continuous_impulse A B C).intervalIntegrable a b
    have h1 : 0 < ∫ t in 0..(T + 1), fro2 (C * NormedSpace.exp (t • A) * B) := by
      refine intervalIntegral.integral_pos (by linarith) (continuous_impulse A B C).continuousOn (fun t _ => fro2_nonneg _) ⟨T, ⟨hT.le, by linarith⟩, hne⟩
    have h2 : ∀ᶠ S in atTop, (∫ t in 0..(T + 1), fro2 (C * NormedSpace.exp (t • A) * B)) ≤ ∫ t in 0..S, fro2 (C * NormedSpace.exp (t • A) * B) := by
      filter_upwards [eventually_ge_atTop (T + 1)] with S hS
      rw [← intervalIntegral.integral_add_adjacent_intervals (hi 0 (T + 1)) (hi (T + 1) S)]
      exact le_add_of_nonneg_right (intervalIntegral.integral_nonneg hS fun t _ => fro2_nonneg _)
    exact absurd (ge_of_tendsto h h2) (not_le.mpr h1)
  have hall : ∀ k (T : ℝ), 0 < T → C * A ^ k * NormedSpace.exp (T • A) * B = 0 := by
    intro k
    induction k with
    | zero => simpa using hpos
    | succ k ih =>
      intro T hT
      ext i j
      have h1 : HasDerivAt (fun t : ℝ => (C * A ^ k * NormedSpace.exp (t • A) * B) i j) ((C * A ^ (k + 1) * NormedSpace.exp (T • A) * B) i j) T := by
        have h2 := hasDerivAt_exp_mulVec A (fun l => B l j) T
        have h3 : HasDerivAt (fun t : ℝ => ∑ l, (C * A ^ k) i l * (NormedSpace.exp (t • A) *ᵥ fun l => B l j) l)
            (∑ l, (C * A ^ k) i l * (A *ᵥ (NormedSpace.exp (T • A) *ᵥ fun l => B l j)) l) T :=
          HasDerivAt.fun_sum fun l _ => (hasDerivAt_pi.mp h2 l).const_mul _
        convert h3 using 1
        · funext t
          rw [Matrix.mul_assoc, Matrix.mul_apply]
          rfl
        · rw [pow_succ, ← Matrix.mul_assoc C, Matrix.mul_assoc, Matrix.mul_assoc, Matrix.mul_apply]
          refine Finset.sum_congr rfl fun l _ => ?_
          congr 1
      have h4 : HasDerivAt (fun t : ℝ => (C * A ^ k * NormedSpace.exp (t • A) * B) i j) 0 T := by
        refine (hasDerivAt_const T (0 : ℝ)).congr_of_eventuallyEq ?_
        filter_upwards [eventually_gt_nhds hT] with t ht
        rw [ih t ht]
        rfl
      exact h1.unique h4
  have hc : Continuous fun t : ℝ => C * A ^ k * NormedSpace.exp (t • A) * B := by
    have hc : Continuous fun t : ℝ => NormedSpace.exp (t • A) := by
      open scoped Matrix.Norms.Operator in
      exact continuous_iff_continuousAt.mpr fun t => (hasDerivAt_exp_smul_const (𝕂 := ℝ) A t).continuousAt
    exact (continuous_const.matrix_mul hc).matrix_mul continuous_const
  have h5 : Tendsto (fun t : ℝ => C * A ^ k * NormedSpace.exp (t • A) * B) (𝓝[>] 0) (𝓝 (C * A ^ k * B)) := by
    have := (hc.tendsto 0).mono_left (nhdsWithin_le_nhds (s := Set.Ioi 0))
    simpa using this
  refine tendsto_nhds_unique h5 (tendsto_const_nhds.congr' ?_)
  filter_upwards [self_mem_nhdsWithin] with t ht
  exact (hall k t ht).symm

end

/-- The 2-norm of a stable model with states and without feedthrough. -/
theorem norm_fin_of {N : Numerics ℝ ℂ} (hN : EigExact N) (hR : RegionExact N) {L : LyapNum ℝ} (hL : ∀ {n : ℕ} (A : Matrix (Fin n) (Fin n) ℝ), SchurOk L A) (X0 : Wk ℝ) {close : ℝ} (hcl : 0 ≤ close)
    (F : HinfNum) (eigTol : ℝ) {A : Matrix (Fin n) (Fin n) ℝ} (B : Matrix (Fin n) (Fin m) ℝ) (C : Matrix (Fin p) (Fin n) ℝ) {dt : Option ℝ} (hn : 0 < n) (hA : MotionsVanish dt A) :
    ∃ x, systemNorm L X0 close F eigTol (StateObj.built N (stateOf A B C 0 dt)) .two = .ok (.fin x) ∧ 0 ≤ x ∧
      (dt = none → CEnergy A B C (x ^ 2)) ∧ ∀ t, dt = some t → DEnergy A B C 0 (x ^ 2) := by
  have hf : (StateObj.built N (stateOf A B C 0 dt)).isstable = true :=
    (flag_motions (p := p) (m := m) (T := StateObj.built N (stateOf A B C 0 dt)) hN hR (recalc_current N _).1 (recalc_current N _).2 ⟨⟨rfl, rfl⟩, fun _ => ⟨rfl, rfl, rfl, rfl, rfl⟩⟩).mpr
      (Or.inr ⟨n, A, rfl, hA⟩)
  have hD : ∀ (i : Fin p) (j : Fin m), |(0 : Matrix (Fin p) (Fin m) ℝ) i j| ≤ close := fun i j => by simpa using hcl
  cases dt with
  | none =>
    obtain ⟨x, h1, h2, h3⟩ := C55_continuous_partial L X0 close (StateObj.built N (stateOf A B C 0 none)) A B C 0 rfl hn (hL _) hf (hurwitz_iff_motions.mpr hA) hD
    exact ⟨x, h1, h2, fun _ => h3, fun t h => by cases h⟩
  | some t =>
    obtain ⟨x, h1, h2, h3⟩ := C55_discrete_partial L X0 close (StateObj.built N (stateOf A B C 0 (some t))) A B C 0 t rfl hn (hL _) hf (schur_iff_motions.mpr hA) hD
    exact ⟨x, h1, h2, fun h => (by cases h), fun _ _ => h3⟩

/-- What a finite 2-norm says about a model with states and without feedthrough. -/
theorem norm_fin_parts {N : Numerics ℝ ℂ} (hN : EigExact N) (hR : RegionExact N) {L : LyapNum ℝ} (hL : ∀ {n : ℕ} (A : Matrix (Fin n) (Fin n) ℝ), SchurOk L A) {X0 : Wk ℝ} {close : ℝ} (hcl : 0 ≤ close)
    {F : HinfNum} {eigTol : ℝ} {G : StateM ℝ} (hc : Consistent G p m) (hg : G.isgain = false) (hn : 0 < G.a.r) (hd : ∀ i j, G.d.m i j = 0) {x : ℝ}
    (hx : systemNorm L X0 close F eigTol (StateObj.built N G) .two = .ok (.fin x)) :
    ∃ (n : ℕ) (A : Matrix (Fin n) (Fin n) ℝ) (B : Matrix (Fin n) (Fin m) ℝ) (C : Matrix (Fin p) (Fin n) ℝ), 0 < n ∧ G = stateOf A B C 0 G.dt ∧ MotionsVanish G.dt A ∧ 0 ≤ x ∧
      (G.dt = none → CEnergy A B C (x ^ 2)) ∧ ∀ t, G.dt = some t → DEnergy A B C 0 (x ^ 2) := by
  have hs : (StateObj.built N G).isstable = true := by
    by_contra h
    rw [Bool.not_eq_true] at h
    have h1 := (C55_infinite_partial L X0 close (StateObj.built N G)).mpr (Or.inl h)
    rw [show systemNorm L X0 close F eigTol (StateObj.built N G) .two = systemNorm2 L X0 close (StateObj.built N G) from rfl, h1] at hx
    cases hx
  obtain ⟨n, A, B, C, D, h1, h2⟩ := stable_parts hN hR (S := StateObj.built N G) (recalc_current N _).1 (recalc_current N _).2 hc hs hg
  change G = stateOf A B C D G.dt at h1
  change MotionsVanish G.dt A at h2
  have hn' : 0 < n := by rw [h1] at hn; exact hn
  have hD : D = 0 := by
    ext i j
    rw [h1] at hd
    exact hd i j
  subst hD
  obtain ⟨y, k1, k2, k3, k4⟩ := norm_fin_of hN hR hL X0 hcl F eigTol B C hn' h2
  rw [← h1, hx] at k1
  injection k1 with k1
  injection k1 with k1
  subst k1
  exact ⟨n, A, B, C, hn', h1, h2, k2, k3, k4⟩

section
variable {N : Numerics ℝ ℂ} {L : LyapNum ℝ} {X0 : Wk ℝ} {close : ℝ} {F : HinfNum} {eigTol : ℝ} {G H : StateM ℝ} {x y : ℝ}

/-- **C114**, the triangle inequality for continuous time models with states and without feedthrough: the 2-norm of a sum is finite and at most the sum of the 2-norms. Missing from the full claim:
discrete time models, whose sums lose the sampling period (`C114_discrete_sum_violated`), and models without states (`C55_gain_violated`). -/
theorem C114_triangle_partial (hN : EigExact N) (hR : RegionExact N) (hL : ∀ {n : ℕ} (A : Matrix (Fin n) (Fin n) ℝ), SchurOk L A) (hcl : 0 ≤ close) (hc : Consistent G p m) (hc' : Consistent H p m)
    (hg : G.isgain = false ∧ 0 < G.a.r) (hg' : H.isgain = false ∧ 0 < H.a.r) (hd : ∀ i j, G.d.m i j = 0) (hd' : ∀ i j, H.d.m i j = 0) (hdt : G.dt = none) (hdt' : H.dt = none)
    (hx : systemNorm L X0 close F eigTol (StateObj.built N G) .two = .ok (.fin x)) (hy : systemNorm L X0 close F eigTol (StateObj.built N H) .two = .ok (.fin y)) (fuel : ℕ) :
    ∃ R z, G.add (fuel + 1) H = .ok R ∧ systemNorm L X0 close F eigTol (StateObj.built N R) .two = .ok (.fin z) ∧ z ≤ x + y := by
  obtain ⟨n, A, B, C, h1, h2, h3, h4, h5, -⟩ := norm_fin_parts hN hR hL hcl hc hg.1 hg.2 hd hx
  obtain ⟨n', A', B', C', h1', h2', h3', h4', h5', -⟩ := norm_fin_parts hN hR hL hcl hc' hg'.1 hg'.2 hd' hy
  rw [hdt] at h2 h3
  rw [hdt'] at h2' h3'
  have hA : MotionsVanish none (blk A 0 0 A') := by
    rw [← hurwitz_iff_motions] at h3 h3' ⊢
    intro z hz
    rcases isEig_blk.mp hz with hz | hz
    exacts [h3 z hz, h3' z hz]
  obtain ⟨z, k1, -, k3, -⟩ := norm_fin_of hN hR hL X0 hcl F eigTol (vcat B B') (hcat C C') (by omega) hA
  refine ⟨stateOf (blk A 0 0 A') (vcat B B') (hcat C C') 0 none, z, ?_, k1, energy_parallel h4 h4' (h5 hdt) (h5' hdt') (k3 rfl)⟩
  rw [h2, h2', StateM.add]
  by_cases hs : p = 1 ∧ m = 1
  · obtain ⟨rfl, rfl⟩ := hs
    simp [stateOf, StateM.isSISO, StateM.parallel, Bind.bind, Except.bind, mkState_of dtOk_none]
  · simp [stateOf, StateM.isSISO, StateM.p, StateM.m, hs, StateM.parallel, Bind.bind, Except.bind, mkState_of dtOk_none]

/-- **C114**, scaling, in continuous and in discrete time: the 2-norm of `k * G` is `|k|` times that of `G`. Missing from the full claim: `0 * G` for models with one input and one output
(`C114_zero_violated`), and models without states (`C55_gain_violated`). -/
theorem C114_scale_partial (hN : EigExact N) (hR : RegionExact N) (hL : ∀ {n : ℕ} (A : Matrix (Fin n) (Fin n) ℝ), SchurOk L A) (hcl : 0 ≤ close) (hc : Consistent G p m)
    (hg : G.isgain = false ∧ 0 < G.a.r) (hd : ∀ i j, G.d.m i j = 0) (hdt : DtOk G.dt) (hx : systemNorm L X0 close F eigTol (StateObj.built N G) .two = .ok (.fin x))
    {k : ℝ} (hk : k ≠ 0 ∨ ¬ (p = 1 ∧ m = 1)) :
    ∃ R, StateM.rmatmulGain (.scalar k) G = .ok R ∧ systemNorm L X0 close F eigTol (StateObj.built N R) .two = .ok (.fin (|k| * x)) := by
  obtain ⟨n, A, B, C, h1, h2, h3, h4, h5, h6⟩ := norm_fin_parts hN hR hL hcl hc hg.1 hg.2 hd hx
  obtain ⟨z, k1, k2, k3, k4⟩ := norm_fin_of hN hR hL X0 hcl F eigTol B (k • C) h1 h3
  have hz : z = |k| * x := by
    rw [← abs_of_nonneg k2, ← abs_of_nonneg h4, ← abs_mul, ← sq_eq_sq_iff_abs_eq_abs, mul_pow]
    cases hd : G.dt with
    | none => exact cenergy_smul (h5 hd) (k3 hd)
    | some t =>
      have h7 := h6 t hd
      have h8 := k4 t hd
      rw [show (0 : Matrix (Fin p) (Fin m) ℝ) = k • 0 from (smul_zero k).symm] at h8
      exact denergy_smul h7 h8
  subst hz
  refine ⟨stateOf A B (k • C) 0 G.dt, ?_, k1⟩
  generalize G.dt = dt at h2 hdt
  subst h2
  by_cases hs : p = 1 ∧ m = 1
  · obtain ⟨rfl, rfl⟩ := hs
    have hk : k ≠ 0 := hk.resolve_right (by simp)
    simp [StateM.rmatmulGain, stateOf, StateM.isSISO, hk, mkState_of hdt]
  · simp [StateM.rmatmulGain, stateOf, StateM.isSISO, StateM.p, StateM.m, hs, mkState_of hdt]

/-- **C114**, definiteness, in continuous and in discrete time: the 2-norm is zero exactly for the models whose transfer function is zero. Missing from the full claim: models without states
(`C55_gain_violated`), and feedthroughs below the tolerance (`C55_continuous_feedthrough_violated`). -/
theorem C114_zero_partial (hN : EigExact N) (hR : RegionExact N) (hL : ∀ {n : ℕ} (A : Matrix (Fin n) (Fin n) ℝ), SchurOk L A) (hcl : 0 ≤ close) (hc : Consistent G p m)
    (hg : G.isgain = false ∧ 0 < G.a.r) (hd : ∀ i j, G.d.m i j = 0) (hx : systemNorm L X0 close F eigTol (StateObj.built N G) .two = .ok (.fin x)) :
    0 ≤ x ∧ (x = 0 ↔ ∀ (s : ℝ) (M : Matrix (Fin p) (Fin m) ℝ), HasTF G p m s M → M = 0) := by
  obtain ⟨n, A, B, C, h1, h2, h3, h4, h5, h6⟩ := norm_fin_parts hN hR hL hcl hc hg.1 hg.2 hd hx
  have hr : Rep G A B C 0 := by rw [h2]; exact rep_dyn A B C 0 G.dt
  refine ⟨h4, fun h => ?_, fun h => ?_⟩
  · subst h
    rw [zero_pow (by norm_num)] at h5 h6
    have hm : ∀ k, C * A ^ k * B = 0 := by
      cases hdt : G.dt with
      | none => exact markov_of_energy_zero (h5 hdt)
      | some t =>
        intro k
        have h7 := h6 t hdt
        have h8 := (hasSum_zero_iff_of_nonneg fun i => fro2_nonneg (dimpulse A B C 0 i)).mp h7
        exact fro2_eq_zero (congrFun h8 (k + 1))
    intro s M hM
    rw [h2] at hM
    rcases hM with ⟨h, -⟩ | ⟨-, n', A', B', C', D', e1, e2, e3, e4, hM⟩
    · cases h
    · obtain rfl : n = n' := congrArg Arr.r e1
      obtain rfl := Arr.of_inj.mp e1
      obtain rfl := Arr.of_inj.mp e2
      obtain rfl := Arr.of_inj.mp e3
      obtain rfl := Arr.of_inj.mp e4
      obtain ⟨hM1, rfl⟩ := isTF_real.mp hM
      rw [tf_of_markov (A' := A) (B' := B) (C' := (0 : Matrix (Fin p) (Fin n) ℝ)) (D' := 0) (fun k => ?_) hM1 hM1]
      · simp [tfReal]
      · cases k with
        | zero => rfl
        | succ k => simp [markov, hm k]
  · have hm : ∀ k, markov A B C 0 k = markov A B 0 0 k := by
      refine fun k => markov_of_tf k ?_
      filter_upwards [eventually_det A] with s hs
      rw [h s _ (hr.tf s hs)]
      simp [tfReal]
    have h0 : x ^ 2 = 0 := by
      cases hdt : G.dt with
      | none =>
        have h7 := h5 hdt
        unfold CEnergy at h7
        simp only [impulse_same hm, Matrix.zero_mul, fro2_zero, intervalIntegral.integral_zero] at h7
        exact tendsto_nhds_unique h7 tendsto_const_nhds
      | some t =>
        have h7 := h6 t hdt
        unfold DEnergy at h7
        have e : ∀ i, fro2 (dimpulse A B C 0 i) = 0 := fun i => by
          cases i with
          | zero => exact fro2_zero
          | succ i =>
            rw [show dimpulse A B C 0 (i + 1) = markov A B C 0 (i + 1) from rfl, hm]
            simp [markov, fro2_zero]
        simp only [e] at h7
        exact h7.unique hasSum_zero
    simpa using h0

/-- The code violates **C114** in discrete time: the model `1/(z - 1/2)` has a finite 2-norm, but for its sum with itself the result is infinite. -/
theorem C114_discrete_sum_violated (hN : EigExact N) (hR : RegionExact N) (hL : ∀ {n : ℕ} (A : Matrix (Fin n) (Fin n) ℝ), SchurOk L A) (hcl : 0 ≤ close) (fuel : ℕ) : ∃ (G R : StateM ℝ) (x : ℝ),
    G = stateOf !![1 / 2] !![1] !![1] !![0] (some 1) ∧ systemNorm L X0 close F eigTol (StateObj.built N G) .two = .ok (.fin x) ∧ G.add (fuel + 1) G = .ok R ∧
      systemNorm L X0 close F eigTol (StateObj.built N R) .two = .ok .inf := by
  have hA : MotionsVanish (some (1 : ℝ)) !![(1 / 2 : ℝ)] := by
    rw [← schur_iff_motions]
    intro z hz
    have : z = ((1 / 2 : ℝ) : ℂ) := by simpa [IsEig, sub_eq_zero] using hz
    rw [this, Complex.norm_real]
    norm_num
  have e0 : (!![0] : Matrix (Fin 1) (Fin 1) ℝ) = 0 := by ext i j; fin_cases i; fin_cases j; rfl
  obtain ⟨x, h1, -⟩ := norm_fin_of hN hR hL X0 hcl F eigTol !![(1 : ℝ)] !![(1 : ℝ)] (by norm_num) hA
  refine ⟨_, stateOf (blk !![1 / 2] 0 0 !![1 / 2]) (vcat !![1] !![1]) (hcat !![1] !![1]) 0 none, x, rfl, by rw [e0]; exact h1, ?_, ?_⟩
  · rw [StateM.add]
    simp [stateOf, e0, StateM.isSISO, StateM.parallel, Bind.bind, Except.bind, mkState_of dtOk_none]
  · refine (C55_infinite_partial L X0 close _).mpr (Or.inl ?_)
    rw [Bool.eq_false_iff]
    intro hst
    have hst : (StateObj.built N (stateOf (blk !![1 / 2] 0 0 !![(1 / 2 : ℝ)]) (vcat !![1] !![(1 : ℝ)]) (hcat !![(1 : ℝ)] !![1]) 0 none)).isstable = true := hst
    have hm := (flag_motions (p := 1) (m := 1) hN hR (recalc_current N _).1 (recalc_current N _).2 ⟨⟨rfl, rfl⟩, fun _ => ⟨rfl, rfl, rfl, rfl, rfl⟩⟩).mp hst
    rcases hm with h | ⟨n', A', hA', hm⟩
    · cases h
    · obtain rfl : 1 + 1 = n' := congrArg Arr.r hA'
      obtain rfl := Arr.of_inj.mp hA'
      have := hurwitz_iff_motions.mpr hm ((1 / 2 : ℝ) : ℂ) (isEig_blk.mpr (Or.inl (by simp [IsEig])))
      rw [Complex.ofReal_re] at this
      norm_num at this

/-- The code violates **C114**: zero times a model with one input and one output is a model without states, whose 2-norm raises `ValueError`. -/
theorem C114_zero_violated (hN : EigExact N) (hR : RegionExact N) (hcl : 0 ≤ close) (hc : Consistent G 1 1) (hg : G.isgain = false) (hdt : DtOk G.dt) :
    ∃ R, StateM.rmatmulGain (.scalar 0) G = .ok R ∧ systemNorm L X0 close F eigTol (StateObj.built N R) .two = .error .value := by
  have hs : G.isSISO = true := by simp [StateM.isSISO, hc.1.1, hc.1.2]
  refine ⟨⟨Arr.empty, Arr.empty, Arr.empty, Arr.scalar 0, G.dt, true⟩, ?_, ?_⟩
  · simp [StateM.rmatmulGain, hg, hs, mkGain_of hdt]
  · have hst : (StateObj.built N (⟨Arr.empty, Arr.empty, Arr.empty, Arr.scalar 0, G.dt, true⟩ : StateM ℝ)).isstable = true :=
      (flag_motions (p := 1) (m := 1) (T := StateObj.built N (⟨Arr.empty, Arr.empty, Arr.empty, Arr.scalar 0, G.dt, true⟩ : StateM ℝ)) hN hR (recalc_current N _).1 (recalc_current N _).2
        ⟨⟨rfl, rfl⟩, fun h => by cases h⟩).mpr (Or.inl rfl)
    have hb : ¬ (¬ allCloseZero close (StateObj.built N (⟨Arr.empty, Arr.empty, Arr.empty, Arr.scalar 0, G.dt, true⟩ : StateM ℝ)).g.d ∨
        (StateObj.built N (⟨Arr.empty, Arr.empty, Arr.empty, Arr.scalar 0, G.dt, true⟩ : StateM ℝ)).isstable = false) := by
      rw [hst]
      push Not
      exact ⟨fun i j => le_of_eq_of_le (abs_zero : |(0 : ℝ)| = 0) hcl, by simp⟩
    change systemNorm2 _ _ _ _ = _
    unfold systemNorm2
    rw [if_neg hb]
    clear hb hst
    have e : (Arr.empty : Arr ℝ) = Arr.of (0 : Matrix (Fin 0) (Fin 0) ℝ) := by
      unfold Arr.empty Arr.of
      congr 1
      funext i
      exact i.elim0
    rw [e]
    generalize G.dt = dt
    cases dt with
    | none => simp [StateObj.built, StateObj.recalc, Bind.bind, Except.bind, lyapunovEqSolver, lyapCheck, solveContinuous, smallRes, Arr.shape]
    | some dt => simp [StateObj.built, StateObj.recalc, Bind.bind, Except.bind, lyapunovEqSolver, lyapCheck, solveDiscrete, smallRes, Arr.shape]

end

theorem lag_motions (a : ℝ) (ha : a < 0) : MotionsVanish none !![a] := by
  rw [← hurwitz_iff_motions]
  intro z hz
  have : z = (a : ℂ) := by simpa [IsEig, sub_eq_zero] using hz
  rw [this, Complex.ofReal_re]
  exact ha

-- The hypotheses of `C114_triangle_partial`, `C114_scale_partial` and `C114_zero_partial` are satisfiable: `1/(s+1)` and `1/(s+2)`.
example (X0 : Wk ℝ) (F : HinfNum) (eigTol : ℝ) : ∃ (N : Numerics ℝ ℂ) (L : LyapNum ℝ) (G H R R' : StateM ℝ) (x y z : ℝ), G = stateOf !![-1] !![1] !![1] 0 none ∧ H = stateOf !![-2] !![1] !![1] 0 none ∧
    systemNorm L X0 (1 / 10 ^ 8) F eigTol (StateObj.built N G) .two = .ok (.fin x) ∧ 0 < x ∧ systemNorm L X0 (1 / 10 ^ 8) F eigTol (StateObj.built N H) .two = .ok (.fin y) ∧
    G.add 1 H = .ok R ∧ systemNorm L X0 (1 / 10 ^ 8) F eigTol (StateObj.built N R) .two = .ok (.fin z) ∧ z ≤ x + y ∧
    StateM.rmatmulGain (.scalar (-3)) G = .ok R' ∧ systemNorm L X0 (1 / 10 ^ 8) F eigTol (StateObj.built N R') .two = .ok (.fin (|-3| * x)) := by
  obtain ⟨N, -, hN, hR, -⟩ := exists_pole_numerics
  obtain ⟨L, -, hL, -⟩ := exists_lyapNum
  have hcl : (0 : ℝ) ≤ 1 / 10 ^ 8 := by norm_num
  obtain ⟨x, hx, -⟩ := norm_fin_of hN hR hL X0 hcl F eigTol !![(1 : ℝ)] !![(1 : ℝ)] (by norm_num) (lag_motions (-1) (by norm_num))
  obtain ⟨y, hy, -⟩ := norm_fin_of hN hR hL X0 hcl F eigTol !![(1 : ℝ)] !![(1 : ℝ)] (by norm_num) (lag_motions (-2) (by norm_num))
  have hc : ∀ a : ℝ, Consistent (stateOf !![a] !![1] !![1] (0 : Matrix (Fin 1) (Fin 1) ℝ) none) 1 1 := fun a => ⟨⟨rfl, rfl⟩, fun _ => ⟨rfl, rfl, rfl, rfl, rfl⟩⟩
  obtain ⟨R, z, h1, h2, h3⟩ := C114_triangle_partial hN hR hL hcl (hc (-1)) (hc (-2)) ⟨rfl, by norm_num [stateOf]⟩ ⟨rfl, by norm_num [stateOf]⟩ (fun i j => rfl) (fun i j => rfl) rfl rfl hx hy 0
  obtain ⟨R', h4, h5⟩ := C114_scale_partial hN hR hL hcl (hc (-1)) ⟨rfl, by norm_num [stateOf]⟩ (fun i j => rfl) dtOk_none hx (k := -3) (Or.inl (by norm_num))
  obtain ⟨h6, h7⟩ := C114_zero_partial hN hR hL hcl (hc (-1)) ⟨rfl, by norm_num [stateOf]⟩ (fun i j => rfl) hx
  refine ⟨N, L, _, _, R, R', x, y, z, rfl, rfl, hx, lt_of_le_of_ne h6 fun h => ?_, hy, h1, h2, h3, h4, h5⟩
  have h8 := h7.mp h.symm 0 _ ((rep_dyn !![(-1 : ℝ)] !![1] !![1] 0 none).tf 0 (by simp))
  have h9 := congrFun (congrFun h8 0) 0
  simp [tfReal, Matrix.inv_def] at h9

-- The hypotheses of `C114_discrete_sum_violated` and `C114_zero_violated` are satisfiable.
example (X0 : Wk ℝ) (F : HinfNum) (eigTol : ℝ) : ∃ (N : Numerics ℝ ℂ) (L : LyapNum ℝ) (G R R' : StateM ℝ), G.add 1 G = .ok R ∧ systemNorm L X0 (1 / 10 ^ 8) F eigTol (StateObj.built N R) .two = .ok .inf ∧
    StateM.rmatmulGain (.scalar 0) G = .ok R' ∧ systemNorm L X0 (1 / 10 ^ 8) F eigTol (StateObj.built N R') .two = .error .value := by
  obtain ⟨N, -, hN, hR, -⟩ := exists_pole_numerics
  obtain ⟨L, -, hL, -⟩ := exists_lyapNum
  have hcl : (0 : ℝ) ≤ 1 / 10 ^ 8 := by norm_num
  obtain ⟨G, R, x, rfl, -, h1, h2⟩ := C114_discrete_sum_violated (N := N) (X0 := X0) (F := F) (eigTol := eigTol) hN hR hL hcl 0
  obtain ⟨R', h3, h4⟩ := C114_zero_violated (N := N) (L := L) (X0 := X0) (F := F) (eigTol := eigTol) (G := stateOf !![1 / 2] !![1] !![1] !![0] (some 1)) hN hR hcl
    ⟨⟨rfl, rfl⟩, fun _ => ⟨rfl, rfl, rfl, rfl, rfl⟩⟩ rfl (fun t h => by cases h; norm_num)
  exact ⟨N, L, _, R, R', h1, h2, h3, h4⟩

end Harold
