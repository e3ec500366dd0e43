import Verif.Lemmas.Minimality
import Verif.Props.SimTransfer
import Verif.Props.KalmanArg
import Verif.Props.SysNorm
import Verif.Props.Motion
import Mathlib.Analysis.Calculus.MeanValue

/-!
# Bounds of convolutions, decay of matrix exponentials
-/

namespace Harold

open Matrix Spec Filter Topology

variable {n m p N : ℕ}

/-- A convolution with summable weights. -/
theorem convOut_le (hm : 0 < m) {w : ℕ → Matrix (Fin p) (Fin m) ℝ} {κ : ℝ} (hw : ∀ (M : ℕ) (i : Fin p), ∑ k ∈ Finset.range M, ∑ j, |w k i j| ≤ κ) {U : Matrix (Fin N) (Fin m) ℝ} {b : ℝ}
    (hU : ∀ k j, |U k j| ≤ b) (i : Fin N) (l : Fin p) : |convOut w U i l| ≤ κ * b := by
  have hb : 0 ≤ b := (abs_nonneg _).trans (hU i ⟨0, hm⟩)
  have e : convOut w U i l = ∑ j : Fin N with j ≤ i, ∑ q, w ((i : ℕ) - j) l q * U j q := by
    simp [convOut, Finset.sum_apply, mulVec, dotProduct]
  rw [e]
  calc |∑ j : Fin N with j ≤ i, ∑ q, w ((i : ℕ) - j) l q * U j q|
      ≤ ∑ j : Fin N with j ≤ i, ∑ q, |w ((i : ℕ) - j) l q| * b := by
        refine (Finset.abs_sum_le_sum_abs _ _).trans (Finset.sum_le_sum fun j _ => (Finset.abs_sum_le_sum_abs _ _).trans (Finset.sum_le_sum fun q _ => ?_))
        rw [abs_mul]
        exact mul_le_mul_of_nonneg_left (hU _ _) (abs_nonneg _)
    _ = (∑ j : Fin N with j ≤ i, ∑ q, |w ((i : ℕ) - j) l q|) * b := by
        rw [Finset.sum_mul]
        exact Finset.sum_congr rfl fun j _ => by rw [Finset.sum_mul]
    _ = (∑ k ∈ Finset.range (i + 1), ∑ q, |w k l q|) * b := by
        congr 1
        refine Finset.sum_bij' (fun j _ => (i : ℕ) - j) (fun k hk => ⟨i - k, by omega⟩) ?_ ?_ ?_ ?_ ?_
        · intro j hj; simp
        · intro k hk
          simp only [Finset.mem_filter, Finset.mem_univ, true_and]
          exact Fin.mk_le_of_le_val (by omega)
        · intro j hj
          have : j ≤ i := (Finset.mem_filter.mp hj).2
          ext
          have : (j : ℕ) ≤ i := this
          simp; omega
        · intro k hk
          have := Finset.mem_range.mp hk
          simp; omega
        · intro j hj; rfl
    _ ≤ κ * b := mul_le_mul_of_nonneg_right (hw _ _) hb

/-- If all responses to inputs bounded by 1 are bounded, the weights are absolutely summable. -/
theorem weight_sum_le {w : ℕ → Matrix (Fin p) (Fin m) ℝ} {κ : ℝ} (hN : 0 < N) (i : Fin p) (j : Fin m)
    (h : ∀ U : Matrix (Fin N) (Fin m) ℝ, (∀ k j, |U k j| ≤ 1) → |convOut w U ⟨N - 1, by omega⟩ i| ≤ κ) : ∑ k ∈ Finset.range N, |w k i j| ≤ κ := by
  have h1 := h (Matrix.of fun k q => if q = j then (SignType.sign (w (N - 1 - k) i j) : ℝ) else 0) fun k q => by
    rw [Matrix.of_apply]
    split_ifs
    · rcases SignType.sign (w (N - 1 - k) i j) with _ | _ | _ <;> simp
    · simp
  have e : convOut w (Matrix.of fun (k : Fin N) q => if q = j then (SignType.sign (w (N - 1 - k) i j) : ℝ) else 0) ⟨N - 1, by omega⟩ i
      = ∑ k : Fin N, |w (N - 1 - k) i j| := by
    have hf : (Finset.univ.filter fun k : Fin N => k ≤ ⟨N - 1, by omega⟩) = Finset.univ := by
      ext k
      simp only [Finset.mem_filter, Finset.mem_univ, true_and, iff_true]
      exact Fin.mk_le_mk.mpr (by omega)
    simp only [convOut, Matrix.of_apply, hf, Finset.sum_apply, mulVec, dotProduct]
    refine Finset.sum_congr rfl fun k _ => ?_
    simp only [Matrix.of_apply, mul_ite, mul_zero, Finset.sum_ite_eq', Finset.mem_univ, if_true]
    exact self_mul_sign _
  rw [e, abs_of_nonneg (Finset.sum_nonneg fun _ _ => abs_nonneg _)] at h1
  rw [Fin.sum_univ_eq_sum_range (fun k => |w (N - 1 - k) i j|), Finset.sum_range_reflect (fun k => |w k i j|)] at h1
  exact h1

/-- Bounded responses of a reachable and observable discrete model: its motions die out. -/
theorem schur_of_weights {A : Matrix (Fin n) (Fin n) ℝ} {B : Matrix (Fin n) (Fin m) ℝ} {C : Matrix (Fin p) (Fin n) ℝ} (hr : Reachable A B) (ho : Observable A C)
    (h : ∀ i j, Tendsto (fun k : ℕ => (C * A ^ k * B) i j) atTop (𝓝 0)) : Schur A := by
  rw [schur_iff_motions (h := 1)]
  intro x hx
  have hpow : ∀ k, x k = A ^ k *ᵥ x 0 := by
    intro k
    induction k with
    | zero => simp
    | succ k ih => rw [hx, ih, pow_succ', mulVec_mulVec]
  have hout : ∀ (z : Fin n → ℝ) (j : ℕ), Tendsto (fun k : ℕ => C *ᵥ (A ^ (j + k) *ᵥ z)) atTop (𝓝 0) := by
    intro z j
    obtain ⟨v, rfl⟩ := reachLin_surjective hr z
    induction v using Finsupp.induction_linear with
    | zero => simp
    | add f g hf hg =>
      have := hf.add hg
      rw [add_zero] at this
      refine this.congr fun k => ?_
      rw [map_add, mulVec_add, mulVec_add]
    | single q u =>
      rw [tendsto_pi_nhds]
      intro i
      have h1 : Tendsto (fun k : ℕ => ∑ l, (C * A ^ (j + k + q) * B) i l * u l) atTop (𝓝 0) := by
        have : Tendsto (fun k : ℕ => ∑ l, (C * A ^ (j + k + q) * B) i l * u l) atTop (𝓝 (∑ l, 0 * u l)) := by
          refine tendsto_finsetSum _ fun l _ => Tendsto.mul_const _ ?_
          have h0 : Tendsto (fun k : ℕ => j + k + q) atTop atTop := (tendsto_add_atTop_nat (j + q)).congr fun k => by omega
          exact (h i l).comp h0
        simpa using this
      refine h1.congr fun k => ?_
      rw [reachLin_single, mulVec_mulVec, mulVec_mulVec, ← Matrix.mul_assoc, pow_add A (j + k) q, ← Matrix.mul_assoc]
      rfl
  have hinj : Function.Injective (obsvM A C (n - 1)).mulVecLin := by
    rw [← LinearMap.ker_eq_bot, LinearMap.ker_eq_bot']
    intro z hz
    exact ho z ((unobservable_iff A C z).mpr hz)
  obtain ⟨L, hL⟩ := LinearMap.exists_leftInverse_of_injective _ (LinearMap.ker_eq_bot.mpr hinj)
  have hz : Tendsto (fun k => (obsvM A C (n - 1)).mulVecLin (x k)) atTop (𝓝 0) := by
    rcases Nat.eq_zero_or_pos n with rfl | hn
    · rw [tendsto_pi_nhds]
      intro l
      refine tendsto_const_nhds.congr fun k => ?_
      simp [mulVec, dotProduct]
    rw [tendsto_pi_nhds]
    intro l
    obtain ⟨hq, he⟩ := isObsv_obsvM A C hn
    have hp : 0 < p := by
      rcases Nat.eq_zero_or_pos p with rfl | hp
      · rw [Nat.mul_zero] at hq
        exact absurd l.2 (by omega)
      · exact hp
    have h1 := tendsto_pi_nhds.mp (hout (x 0) (l / p)) ⟨l % p, Nat.mod_lt _ hp⟩
    refine h1.congr fun k => ?_
    rw [hpow k, pow_add, ← mulVec_mulVec, mulVec_mulVec _ C]
    simp only [mulVecLin_apply, mulVec, dotProduct, Pi.zero_apply]
    refine Finset.sum_congr rfl fun q _ => ?_
    rw [he (l / p) ⟨l % p, Nat.mod_lt _ hp⟩ q l (by simp [Nat.div_add_mod'])]
  have h2 := (LinearMap.continuous_of_finiteDimensional L).tendsto 0 |>.comp hz
  rw [map_zero] at h2
  refine h2.congr fun k => ?_
  exact LinearMap.congr_fun hL (x k)

section decay
open NormedSpace

attribute [local instance] Matrix.linftyOpNormedAddCommGroup Matrix.linftyOpNormedRing Matrix.linftyOpNormedAlgebra

/-- Exponential decay. -/
theorem exp_decay {A : Matrix (Fin n) (Fin n) ℝ} (h : Hurwitz A) : ∃ M a : ℝ, 0 ≤ M ∧ 0 < a ∧ ∀ t : ℝ, 0 ≤ t → ‖exp (t • A)‖ ≤ M * Real.exp (-(a * t)) := by
  have hc : Continuous fun t : ℝ => exp (t • A) := continuous_iff_continuousAt.mpr fun t => (hasDerivAt_exp_smul_const (𝕂 := ℝ) A t).continuousAt
  obtain ⟨K, hK0, hK⟩ : ∃ K : ℝ, 0 < K ∧ ‖exp (K • A)‖ ≤ 1 / 2 := by
    have h1 : Tendsto (fun t : ℝ => ‖exp (t • A)‖) atTop (𝓝 0) := by
      have := (continuous_norm.tendsto (0 : Matrix (Fin n) (Fin n) ℝ)).comp (hurwitz_exp_tendsto_matrix h)
      rw [norm_zero] at this
      exact this
    obtain ⟨K, h2, h3⟩ := ((h1.eventually (ge_mem_nhds (show (0 : ℝ) < 1 / 2 by norm_num))).and (eventually_gt_atTop 0)).exists
    exact ⟨K, h3, h2⟩
  obtain ⟨M, hM⟩ := (isCompact_Icc (a := (0 : ℝ)) (b := K)).exists_bound_of_continuousOn hc.continuousOn
  have hM0 : 0 ≤ M := (norm_nonneg _).trans (hM 0 ⟨le_rfl, hK0.le⟩)
  refine ⟨M * 2, Real.log 2 / K, by positivity, div_pos (Real.log_pos (by norm_num)) hK0, fun t ht => ?_⟩
  have h1 : exp (t • A) = exp (K • A) ^ ⌊t / K⌋₊ * exp ((t - ⌊t / K⌋₊ * K) • A) := by
    rw [← Matrix.exp_nsmul, ← Matrix.exp_add_of_commute, ← Nat.cast_smul_eq_nsmul ℝ, smul_smul, ← add_smul, add_sub_cancel]
    rw [← Nat.cast_smul_eq_nsmul ℝ]
    exact (((Commute.refl A).smul_left _).smul_left _).smul_right _
  have h2 : (⌊t / K⌋₊ : ℝ) * K ≤ t := by
    have := Nat.floor_le (div_nonneg ht hK0.le)
    rwa [le_div_iff₀ hK0] at this
  have h3 : t < (⌊t / K⌋₊ + 1) * K := by
    have := Nat.lt_floor_add_one (t / K)
    rwa [div_lt_iff₀ hK0] at this
  have h4 : ∀ q : ℕ, ‖exp (K • A) ^ q * exp ((t - ⌊t / K⌋₊ * K) • A)‖ ≤ (1 / 2) ^ q * M := by
    intro q
    induction q with
    | zero =>
      rw [pow_zero, pow_zero, one_mul, one_mul]
      exact hM _ ⟨by linarith, by linarith⟩
    | succ q ih =>
      rw [pow_succ', pow_succ', Matrix.mul_assoc, mul_assoc (1 / 2 : ℝ)]
      exact (norm_mul_le _ _).trans (mul_le_mul hK ih (norm_nonneg _) (by norm_num))
  rw [h1]
  refine (h4 _).trans ?_
  have h5 : ((1 : ℝ) / 2) ^ ⌊t / K⌋₊ ≤ 2 * Real.exp (-(Real.log 2 / K * t)) := by
    have e1 : ((1 : ℝ) / 2) ^ ⌊t / K⌋₊ = Real.exp (-(⌊t / K⌋₊ * Real.log 2)) := by
      rw [Real.exp_neg, ← Real.log_pow, Real.exp_log (by positivity), one_div, inv_pow]
    have e2 : 2 * Real.exp (-(Real.log 2 / K * t)) = Real.exp (Real.log 2 + -(Real.log 2 / K * t)) := by
      rw [Real.exp_add, Real.exp_log (by norm_num)]
    rw [e1, e2, Real.exp_le_exp]
    have e3 : Real.log 2 / K * t = Real.log 2 * (t / K) := by ring
    rw [e3]
    have := (Nat.lt_floor_add_one (t / K)).le
    nlinarith [Real.log_pos (show (1 : ℝ) < 2 by norm_num)]
  calc (1 / 2) ^ ⌊t / K⌋₊ * M ≤ 2 * Real.exp (-(Real.log 2 / K * t)) * M := mul_le_mul_of_nonneg_right h5 hM0
    _ = _ := by ring

/-- The weights of the sampled model, summed, are bounded for all sampling periods together. -/
theorem hold_sum {A : Matrix (Fin n) (Fin n) ℝ} (h : Hurwitz A) (B : Matrix (Fin n) (Fin m) ℝ) (C : Matrix (Fin p) (Fin n) ℝ) : ∃ κ : ℝ, 0 ≤ κ ∧ ∀ dt : ℝ, 0 < dt → ∀ (N : ℕ) (i : Fin p),
    ∑ k ∈ Finset.range N, ∑ j, |(C * exp (dt • A) ^ k * gam (dt • A) (dt • B) 0) i j| ≤ κ := by
  obtain ⟨M, a, hM0, ha, hd⟩ := exp_decay h
  have hdet : IsUnit A.det := by
    rw [isUnit_iff_ne_zero]
    intro h0
    have : IsEig A 0 := by
      unfold IsEig
      obtain ⟨v, hv, h1⟩ := exists_mulVec_eq_zero_iff.mpr h0
      refine exists_mulVec_eq_zero_iff.mp ⟨fun i => (v i : ℂ), fun h2 => hv ?_, ?_⟩
      · funext i
        have h4 : ((v i : ℝ) : ℂ) = 0 := congrFun h2 i
        exact_mod_cast h4
      · funext i
        have h3 := congrFun h1 i
        simp only [mulVec, dotProduct, Pi.zero_apply] at h3
        rw [zero_smul, zero_sub, neg_mulVec]
        simp only [Pi.neg_apply, mulVec, dotProduct, map_apply, Pi.zero_apply, neg_eq_zero, Complex.coe_algebraMap]
        exact_mod_cast h3
    have := h 0 this
    simp at this
  have hrow : ∀ (X : Matrix (Fin p) (Fin m) ℝ) (i : Fin p), ∑ j, |X i j| ≤ ‖X‖ := by
    intro X i
    rw [linfty_opNorm_def]
    have h1 : (∑ j, ‖X i j‖₊) ≤ Finset.univ.sup fun i => ∑ j, ‖X i j‖₊ := Finset.le_sup (f := fun i => ∑ j, ‖X i j‖₊) (Finset.mem_univ i)
    have h2 : ((∑ j, ‖X i j‖₊ : NNReal) : ℝ) = ∑ j, |X i j| := by
      push_cast
      rfl
    rw [← h2]
    exact_mod_cast h1
  refine ⟨‖C‖ * M * (‖A⁻¹‖ * ‖B‖ * ((M + ‖(1 : Matrix (Fin n) (Fin n) ℝ)‖) + M * ‖A‖ / a)), by positivity, fun dt hdt N i => ?_⟩
  have hM1 : ∀ t : ℝ, 0 ≤ t → ‖exp (t • A)‖ ≤ M := fun t ht => (hd t ht).trans (by
    have : Real.exp (-(a * t)) ≤ 1 := Real.exp_le_one_iff.mpr (by nlinarith)
    nlinarith)
  have hE1 : ‖exp (dt • A) - 1‖ ≤ M + ‖(1 : Matrix (Fin n) (Fin n) ℝ)‖ := (norm_sub_le _ _).trans (by linarith [hM1 dt hdt.le])
  have hE2 : ‖exp (dt • A) - 1‖ ≤ M * ‖A‖ * dt := by
    have h1 := norm_image_sub_le_of_norm_deriv_le_segment' (f := fun t : ℝ => exp (t • A)) (f' := fun t => exp (t • A) * A) (a := 0) (b := dt) (C := M * ‖A‖)
      (fun t _ => (hasDerivAt_exp_smul_const (𝕂 := ℝ) A t).hasDerivWithinAt)
      (fun t ht => (norm_mul_le _ _).trans (mul_le_mul_of_nonneg_right (hM1 t ht.1) (norm_nonneg _))) dt ⟨hdt.le, le_rfl⟩
    simpa using h1
  have hG : gam (dt • A) (dt • B) 0 = A⁻¹ * ((exp (dt • A) - 1) * B) := by
    have h1 := gam_hold (dt • A) (dt • B)
    rw [Matrix.smul_mul, Matrix.mul_smul] at h1
    have h2 := smul_right_injective _ hdt.ne' h1
    rw [← h2, ← Matrix.mul_assoc, nonsing_inv_mul A hdet, Matrix.one_mul]
  have hGn : ∀ c, ‖exp (dt • A) - 1‖ ≤ c → ‖gam (dt • A) (dt • B) 0‖ ≤ ‖A⁻¹‖ * ‖B‖ * c := by
    intro c hc
    rw [hG]
    refine (linfty_opNorm_mul _ _).trans ?_
    have := (linfty_opNorm_mul (exp (dt • A) - 1) B).trans (mul_le_mul_of_nonneg_right hc (norm_nonneg _))
    calc ‖A⁻¹‖ * ‖(exp (dt • A) - 1) * B‖ ≤ ‖A⁻¹‖ * (c * ‖B‖) := mul_le_mul_of_nonneg_left this (norm_nonneg _)
      _ = _ := by ring
  set g := ‖gam (dt • A) (dt • B) 0‖ with hg
  set ρ := Real.exp (-(a * dt)) with hρ
  have hy : 0 < a * dt := by positivity
  have hρ0 : 0 ≤ ρ := (Real.exp_pos _).le
  have hρ1 : ρ < 1 := Real.exp_lt_one_iff.mpr (by linarith)
  have hterm : ∀ k : ℕ, ∑ j, |(C * exp (dt • A) ^ k * gam (dt • A) (dt • B) 0) i j| ≤ ‖C‖ * M * g * ρ ^ k := by
    intro k
    refine (hrow _ i).trans ((linfty_opNorm_mul _ _).trans ?_)
    have e1 : exp (dt • A) ^ k = exp ((k * dt) • A) := by
      rw [← Matrix.exp_nsmul, ← Nat.cast_smul_eq_nsmul ℝ, smul_smul]
    have e2 : ρ ^ k = Real.exp (-(a * (k * dt))) := by
      rw [hρ, ← Real.exp_nat_mul]
      congr 1
      ring
    have h1 := (linfty_opNorm_mul C (exp (dt • A) ^ k)).trans (mul_le_mul_of_nonneg_left (b := ‖exp (dt • A) ^ k‖) (c := M * ρ ^ k) (by
      rw [e1, e2]; exact hd _ (by positivity)) (norm_nonneg C))
    calc ‖C * exp (dt • A) ^ k‖ * g ≤ ‖C‖ * (M * ρ ^ k) * g := mul_le_mul_of_nonneg_right h1 (norm_nonneg _)
      _ = _ := by ring
  have hgeo : ∑ k ∈ Finset.range N, ρ ^ k ≤ 1 + 1 / (a * dt) := by
    have h1 : ∑ k ∈ Finset.range N, ρ ^ k ≤ (1 - ρ)⁻¹ := by
      rw [← tsum_geometric_of_lt_one hρ0 hρ1]
      exact (summable_geometric_of_lt_one hρ0 hρ1).sum_le_tsum _ fun k _ => by positivity
    refine h1.trans ?_
    have h2 : 1 + a * dt ≤ Real.exp (a * dt) := by linarith [Real.add_one_le_exp (a * dt)]
    have h3 : ρ ≤ (1 + a * dt)⁻¹ := by
      rw [hρ, Real.exp_neg]
      exact inv_anti₀ (by positivity) h2
    have h4 : a * dt / (1 + a * dt) ≤ 1 - ρ := by
      have : a * dt / (1 + a * dt) = 1 - (1 + a * dt)⁻¹ := by rw [eq_sub_iff_add_eq, ← one_div, ← add_div, div_eq_one_iff_eq (by positivity), add_comm]
      rw [this]; linarith
    calc (1 - ρ)⁻¹ ≤ (a * dt / (1 + a * dt))⁻¹ := inv_anti₀ (by positivity) h4
      _ = 1 + 1 / (a * dt) := by rw [inv_div, add_div, div_self hy.ne', add_comm]
  have g1 := hGn _ hE1
  have g2 := hGn _ hE2
  calc ∑ k ∈ Finset.range N, ∑ j, |(C * exp (dt • A) ^ k * gam (dt • A) (dt • B) 0) i j|
      ≤ ∑ k ∈ Finset.range N, ‖C‖ * M * g * ρ ^ k := Finset.sum_le_sum fun k _ => hterm k
    _ = ‖C‖ * M * g * ∑ k ∈ Finset.range N, ρ ^ k := by rw [Finset.mul_sum]
    _ ≤ ‖C‖ * M * g * (1 + 1 / (a * dt)) := mul_le_mul_of_nonneg_left hgeo (by positivity)
    _ = ‖C‖ * M * (g + g / dt / a) := by rw [div_div, mul_comm dt a]; ring
    _ ≤ ‖C‖ * M * (‖A⁻¹‖ * ‖B‖ * (M + ‖(1 : Matrix (Fin n) (Fin n) ℝ)‖) + ‖A⁻¹‖ * ‖B‖ * (M * ‖A‖) / a) := by
        refine mul_le_mul_of_nonneg_left (add_le_add g1 ?_) (by positivity)
        refine div_le_div_of_nonneg_right ?_ ha.le
        rw [div_le_iff₀ hdt]
        linarith
    _ = _ := by ring

end decay

end Harold
