import Verif.Props.DiscReach
import Verif.Props.SimConv
import Verif.Lemmas.Duality
import Mathlib.Analysis.SpecialFunctions.Trigonometric.ArctanDeriv

/-!
# Discretization with small sampling periods
-/

namespace Harold

open Matrix Spec NormedSpace Filter Topology

variable {n m p : ℕ} {A : Matrix (Fin n) (Fin n) ℝ} {B : Matrix (Fin n) (Fin m) ℝ} {C : Matrix (Fin p) (Fin n) ℝ} {D : Matrix (Fin p) (Fin m) ℝ}

/-- The matrices `1 + h A + o(h)`, `β (B + o(1))`, `h/β (C + o(1))`, `D + o(1)` for the period `h`. -/
structure LimitOf (A : Matrix (Fin n) (Fin n) ℝ) (B : Matrix (Fin n) (Fin m) ℝ) (C : Matrix (Fin p) (Fin n) ℝ) (D : Matrix (Fin p) (Fin m) ℝ)
    (Ah : ℝ → Matrix (Fin n) (Fin n) ℝ) (Bh : ℝ → Matrix (Fin n) (Fin m) ℝ) (Ch : ℝ → Matrix (Fin p) (Fin n) ℝ) (Dh : ℝ → Matrix (Fin p) (Fin m) ℝ) (β : ℝ → ℝ) : Prop where
  hβ : ∀ᶠ h in 𝓝[>] 0, β h ≠ 0
  hA : Tendsto (fun h => h⁻¹ • (Ah h - 1)) (𝓝[>] 0) (𝓝 A)
  hB : Tendsto (fun h => (β h)⁻¹ • Bh h) (𝓝[>] 0) (𝓝 B)
  hC : Tendsto (fun h => (β h * h⁻¹) • Ch h) (𝓝[>] 0) (𝓝 C)
  hD : Tendsto Dh (𝓝[>] 0) (𝓝 D)

theorem inv_tendsto {L : Type} [NormedField L] {ι : Type} {l : Filter ι} {f : ι → Matrix (Fin n) (Fin n) L} {M : Matrix (Fin n) (Fin n) L} (h : Tendsto f l (𝓝 M)) (hM : M.det ≠ 0) :
    Tendsto (fun i => (f i)⁻¹) l (𝓝 M⁻¹) := by
  have e : ∀ X : Matrix (Fin n) (Fin n) L, X⁻¹ = X.det⁻¹ • X.adjugate := fun X => by rw [inv_def, Ring.inverse_eq_inv']
  simp only [e]
  have h1 : Tendsto (fun i => (f i).det) l (𝓝 M.det) := ((continuous_id.matrix_det).tendsto M).comp h
  have h2 : Tendsto (fun i => (f i).adjugate) l (𝓝 M.adjugate) := ((continuous_id.matrix_adjugate).tendsto M).comp h
  exact (h1.inv₀ hM).smul h2

theorem map_tendsto {ι : Type} {l : Filter ι} {r c : ℕ} {f : ι → Matrix (Fin r) (Fin c) ℝ} {M : Matrix (Fin r) (Fin c) ℝ} (h : Tendsto f l (𝓝 M)) :
    Tendsto (fun i => (f i).map (algebraMap ℝ ℂ)) l (𝓝 (M.map (algebraMap ℝ ℂ))) :=
  ((continuous_id.matrix_map Complex.continuous_ofReal).tendsto M).comp h

theorem mul_tendsto {L : Type} [NormedField L] {ι : Type} {l : Filter ι} {r s c : ℕ} {f : ι → Matrix (Fin r) (Fin s) L} {g : ι → Matrix (Fin s) (Fin c) L} {M : Matrix (Fin r) (Fin s) L} {N : Matrix (Fin s) (Fin c) L}
    (hf : Tendsto f l (𝓝 M)) (hg : Tendsto g l (𝓝 N)) : Tendsto (fun i => f i * g i) l (𝓝 (M * N)) := by
  refine tendsto_pi_nhds.mpr fun i => tendsto_pi_nhds.mpr fun j => ?_
  simp only [Matrix.mul_apply]
  exact tendsto_finset_sum _ fun k _ => ((tendsto_pi_nhds.mp (tendsto_pi_nhds.mp hf i)) k).mul ((tendsto_pi_nhds.mp (tendsto_pi_nhds.mp hg k)) j)

theorem point_tendsto (ω : ℝ) : Tendsto (fun h : ℝ => (h : ℂ)⁻¹ * (Complex.exp (Complex.I * (ω * h)) - 1)) (𝓝[>] 0) (𝓝 (Complex.I * ω)) := by
  have h1 : HasDerivAt (fun h : ℝ => Complex.exp (Complex.I * (ω * h))) (Complex.exp (Complex.I * (ω * (0 : ℝ))) * (Complex.I * (ω * 1))) 0 := by
    have h2 : HasDerivAt (fun h : ℝ => (h : ℂ)) 1 0 := Complex.ofRealCLM.hasDerivAt
    exact ((h2.const_mul (ω : ℂ)).const_mul Complex.I).cexp
  rw [hasDerivAt_iff_tendsto_slope_zero] at h1
  have h3 := h1.mono_left (nhdsGT_le_nhdsNE (0 : ℝ))
  simp only [zero_add, Complex.ofReal_zero, mul_zero, Complex.exp_zero, one_mul, mul_one] at h3
  refine h3.congr fun h => ?_
  rw [Complex.real_smul, Complex.ofReal_inv]

/-- The frequency response converges. -/
theorem tf_limit {Ah : ℝ → Matrix (Fin n) (Fin n) ℝ} {Bh : ℝ → Matrix (Fin n) (Fin m) ℝ} {Ch : ℝ → Matrix (Fin p) (Fin n) ℝ} {Dh : ℝ → Matrix (Fin p) (Fin m) ℝ} {β : ℝ → ℝ}
    (hl : LimitOf A B C D Ah Bh Ch Dh β) {ω : ℝ} {M : Matrix (Fin p) (Fin m) ℂ}
    (hM : IsTF (A.map (algebraMap ℝ ℂ)) (B.map (algebraMap ℝ ℂ)) (C.map (algebraMap ℝ ℂ)) (D.map (algebraMap ℝ ℂ)) (Complex.I * ω) M) :
    ∃ F : ℝ → Matrix (Fin p) (Fin m) ℂ, (∀ᶠ h in 𝓝[>] 0, IsTF ((Ah h).map (algebraMap ℝ ℂ)) ((Bh h).map (algebraMap ℝ ℂ)) ((Ch h).map (algebraMap ℝ ℂ)) ((Dh h).map (algebraMap ℝ ℂ))
      (Complex.exp (Complex.I * (ω * h))) (F h)) ∧ Tendsto F (𝓝[>] 0) (𝓝 M) := by
  obtain ⟨hd, rfl⟩ := hM
  set z : ℝ → ℂ := fun h => Complex.exp (Complex.I * (ω * h)) with hz
  set Nh : ℝ → Matrix (Fin n) (Fin n) ℂ := fun h => ((h : ℂ)⁻¹ * (z h - 1)) • 1 - (h⁻¹ • (Ah h - 1)).map (algebraMap ℝ ℂ) with hNh
  have hN : Tendsto Nh (𝓝[>] 0) (𝓝 ((Complex.I * ω) • 1 - A.map (algebraMap ℝ ℂ))) := ((point_tendsto ω).smul tendsto_const_nhds).sub (map_tendsto hl.hA)
  have hNi := inv_tendsto hN hd
  have hdet : ∀ᶠ h in 𝓝[>] 0, (Nh h).det ≠ 0 := (((continuous_id.matrix_det).tendsto _).comp hN).eventually_ne hd
  have hpos : ∀ᶠ h : ℝ in 𝓝[>] 0, 0 < h := self_mem_nhdsWithin
  have key : ∀ h : ℝ, 0 < h → z h • 1 - (Ah h).map (algebraMap ℝ ℂ) = (h : ℂ) • Nh h := fun h hh => by
    have hc : (h : ℂ) ≠ 0 := Complex.ofReal_ne_zero.mpr hh.ne'
    ext i j
    simp only [hNh, Matrix.sub_apply, Matrix.smul_apply, Matrix.map_apply, smul_eq_mul, Complex.coe_algebraMap, Matrix.one_apply]
    split_ifs <;> simp <;> field_simp <;> ring
  refine ⟨fun h => (Ch h).map (algebraMap ℝ ℂ) * (z h • 1 - (Ah h).map (algebraMap ℝ ℂ))⁻¹ * (Bh h).map (algebraMap ℝ ℂ) + (Dh h).map (algebraMap ℝ ℂ), ?_, ?_⟩
  · filter_upwards [hdet, hpos] with h h1 h2
    refine ⟨?_, rfl⟩
    rw [key h h2, det_smul]
    exact mul_ne_zero (pow_ne_zero _ (Complex.ofReal_ne_zero.mpr h2.ne')) h1
  · refine Tendsto.congr' ?_ ((mul_tendsto (mul_tendsto (map_tendsto hl.hC) hNi) (map_tendsto hl.hB)).add (map_tendsto hl.hD))
    filter_upwards [hdet, hpos, hl.hβ] with h h1 h2 h3
    have hc : (h : ℂ) ≠ 0 := Complex.ofReal_ne_zero.mpr h2.ne'
    have hb : ((β h : ℝ) : ℂ) ≠ 0 := Complex.ofReal_ne_zero.mpr h3
    rw [key h h2]
    congr 1
    have e1 : ((h : ℂ) • Nh h)⁻¹ = (h : ℂ)⁻¹ • (Nh h)⁻¹ := by
      refine inv_eq_right_inv ?_
      rw [Matrix.smul_mul, Matrix.mul_smul, smul_smul, mul_inv_cancel₀ hc, one_smul, mul_nonsing_inv _ (isUnit_iff_ne_zero.mpr h1)]
    have e2 : ∀ {r c : ℕ} (t : ℝ) (X : Matrix (Fin r) (Fin c) ℝ), (t • X).map (algebraMap ℝ ℂ) = (t : ℂ) • X.map (algebraMap ℝ ℂ) := fun t X => by ext i j; simp
    rw [e1, e2, e2]
    simp only [Matrix.smul_mul, Matrix.mul_smul, smul_smul]
    congr 1
    push_cast
    field_simp

section families

/-- Tustin's and Euler's methods. -/
theorem limit_lft {y w : ℝ → ℝ} (hy0 : ∀ᶠ h in 𝓝[>] 0, y h ≠ 0) (hy : Tendsto (fun h => h⁻¹ * (y h * y h)) (𝓝[>] 0) (𝓝 1)) (hw : Tendsto w (𝓝[>] 0) (𝓝 0))
    (A : Matrix (Fin n) (Fin n) ℝ) (B : Matrix (Fin n) (Fin m) ℝ) (C : Matrix (Fin p) (Fin n) ℝ) (D : Matrix (Fin p) (Fin m) ℝ) :
    (∀ᶠ h in 𝓝[>] 0, (1 - w h • A).det ≠ 0) ∧
    LimitOf A B C D (fun h => (1 : ℝ) • 1 + (y h * y h) • (A * (1 - w h • A)⁻¹)) (fun h => y h • ((1 - w h • A)⁻¹ * B)) (fun h => y h • (C * (1 - w h • A)⁻¹))
      (fun h => D + w h • (C * (1 - w h • A)⁻¹ * B)) y := by
  have hv : Tendsto (fun h => 1 - w h • A) (𝓝[>] 0) (𝓝 1) := by
    have := (tendsto_const_nhds (x := (1 : Matrix (Fin n) (Fin n) ℝ))).sub (hw.smul (tendsto_const_nhds (x := A)))
    rwa [zero_smul, sub_zero] at this
  have hd1 : (1 : Matrix (Fin n) (Fin n) ℝ).det ≠ 0 := by rw [det_one]; exact one_ne_zero
  have hi : Tendsto (fun h : ℝ => (1 - w h • A)⁻¹) (𝓝[>] 0) (𝓝 1) := by
    have := inv_tendsto hv hd1
    rwa [inv_one] at this
  refine ⟨(((continuous_id.matrix_det).tendsto _).comp hv).eventually_ne hd1, hy0, ?_, ?_, ?_, ?_⟩
  · have h1 := hy.smul (mul_tendsto (tendsto_const_nhds (x := A)) hi)
    rw [Matrix.mul_one, one_smul] at h1
    refine h1.congr fun h => ?_
    rw [one_smul, add_sub_cancel_left, smul_smul]
  · have h1 := mul_tendsto hi (tendsto_const_nhds (x := B))
    rw [Matrix.one_mul] at h1
    refine h1.congr' ?_
    filter_upwards [hy0] with h hh
    rw [smul_smul, inv_mul_cancel₀ hh, one_smul]
  · have h1 := hy.smul (mul_tendsto (tendsto_const_nhds (x := C)) hi)
    rw [Matrix.mul_one, one_smul] at h1
    refine h1.congr fun h => ?_
    rw [smul_smul]
    congr 1
    ring
  · have h1 := mul_tendsto (mul_tendsto (tendsto_const_nhds (x := C)) hi) (tendsto_const_nhds (x := B))
    have h3 := (tendsto_const_nhds (x := D)).add (hw.smul h1)
    rwa [zero_smul, add_zero] at h3

theorem sqrt_slope : (∀ᶠ h in 𝓝[>] (0 : ℝ), √h ≠ 0) ∧ Tendsto (fun h : ℝ => h⁻¹ * (√h * √h)) (𝓝[>] 0) (𝓝 1) := by
  have hpos : ∀ᶠ h : ℝ in 𝓝[>] 0, 0 < h := self_mem_nhdsWithin
  constructor
  · filter_upwards [hpos] with h hh using (Real.sqrt_pos.mpr hh).ne'
  · refine (tendsto_const_nhds (x := (1 : ℝ))).congr' ?_
    filter_upwards [hpos] with h hh
    rw [Real.mul_self_sqrt hh.le, inv_mul_cancel₀ hh.ne']

/-- The effective period of the bilinear method with prewarping. -/
noncomputable def warpPeriod (pw h : ℝ) : ℝ := if pw = 0 then h else 2 * Real.tan (2 * Real.pi * pw * h / 2) / (2 * Real.pi * pw)

theorem warpPeriod_slope {pw : ℝ} : Tendsto (fun h => h⁻¹ * warpPeriod pw h) (𝓝[>] 0) (𝓝 1) := by
  have hpos : ∀ᶠ h : ℝ in 𝓝[>] 0, 0 < h := self_mem_nhdsWithin
  by_cases h0 : pw = 0
  · refine (tendsto_const_nhds (x := (1 : ℝ))).congr' ?_
    filter_upwards [hpos] with h hh
    rw [warpPeriod, if_pos h0, inv_mul_cancel₀ hh.ne']
  · have hpi := Real.pi_ne_zero
    have h1 : HasDerivAt (fun h : ℝ => 2 * Real.tan (2 * Real.pi * pw * h / 2) / (2 * Real.pi * pw)) 1 0 := by
      have h2 : HasDerivAt (fun h : ℝ => 2 * Real.pi * pw * h / 2) (2 * Real.pi * pw * 1 / 2) 0 := ((hasDerivAt_id (0 : ℝ)).const_mul _).div_const _
      have h3 : HasDerivAt Real.tan (1 / Real.cos (2 * Real.pi * pw * 0 / 2) ^ 2) (2 * Real.pi * pw * 0 / 2) := Real.hasDerivAt_tan (by simp)
      have h4 := ((h3.comp 0 h2).const_mul 2).div_const (2 * Real.pi * pw)
      simp only [mul_zero, zero_div, Real.cos_zero, one_pow, div_one, one_mul, mul_one] at h4
      have e : 2 * (2 * Real.pi * pw / 2) / (2 * Real.pi * pw) = 1 := by field_simp
      rw [e] at h4
      exact h4
    rw [hasDerivAt_iff_tendsto_slope_zero] at h1
    have h3 := h1.mono_left (nhdsGT_le_nhdsNE (0 : ℝ))
    simp only [zero_add, mul_zero, zero_div, Real.tan_zero, sub_zero, smul_eq_mul] at h3
    refine h3.congr fun h => ?_
    rw [warpPeriod, if_neg h0]

theorem warpPeriod_pos {pw : ℝ} : ∀ᶠ h in 𝓝[>] 0, 0 < warpPeriod pw h := by
  have hpos : ∀ᶠ h : ℝ in 𝓝[>] 0, 0 < h := self_mem_nhdsWithin
  filter_upwards [hpos, (warpPeriod_slope (pw := pw)).eventually (lt_mem_nhds one_pos)] with h hh h1
  have := mul_pos hh h1
  rwa [← mul_assoc, mul_inv_cancel₀ hh.ne', one_mul] at this

theorem warpPeriod_zero {pw : ℝ} : Tendsto (fun h => warpPeriod pw h) (𝓝[>] 0) (𝓝 0) := by
  have hpos : ∀ᶠ h : ℝ in 𝓝[>] 0, 0 < h := self_mem_nhdsWithin
  have h1 := (tendsto_id.mono_left (nhdsWithin_le_nhds (a := (0 : ℝ)) (s := Set.Ioi 0))).mul (warpPeriod_slope (pw := pw))
  rw [zero_mul] at h1
  refine h1.congr' ?_
  filter_upwards [hpos] with h hh
  rw [id, ← mul_assoc, mul_inv_cancel₀ hh.ne', one_mul]

attribute [local instance] Matrix.linftyOpNormedAddCommGroup Matrix.linftyOpNormedRing Matrix.linftyOpNormedAlgebra

theorem exp_entry_tendsto {k : ℕ} {f : ℝ → Matrix (Fin k) (Fin k) ℝ} (hf : Continuous f) : Continuous fun h => exp (f h) :=
  (exp_continuous (𝔸 := Matrix (Fin k) (Fin k) ℝ)).comp hf

theorem tendsto_bound {ι : Type} {l : Filter ι} {r c : ℕ} {f : ι → Matrix (Fin r) (Fin c) ℝ} {M : Matrix (Fin r) (Fin c) ℝ} (h : Tendsto f l (𝓝 M)) {ε : ℝ} (hε : 0 < ε) :
    ∀ᶠ i in l, ∀ v, ‖f i *ᵥ v - M *ᵥ v‖ ≤ ε * ‖v‖ := by
  filter_upwards [h.eventually (Metric.ball_mem_nhds M hε)] with i hi v
  rw [← sub_mulVec]
  refine (Matrix.linfty_opNorm_mulVec _ _).trans (mul_le_mul_of_nonneg_right ?_ (norm_nonneg _))
  rw [← dist_eq_norm]
  exact (Metric.mem_ball.mp hi).le

end families

theorem blk_continuous {r₁ r₂ c₁ c₂ : ℕ} {a : ℝ → Matrix (Fin r₁) (Fin c₁) ℝ} {b : ℝ → Matrix (Fin r₁) (Fin c₂) ℝ} {c : ℝ → Matrix (Fin r₂) (Fin c₁) ℝ} {d : ℝ → Matrix (Fin r₂) (Fin c₂) ℝ}
    (ha : Continuous a) (hb : Continuous b) (hc : Continuous c) (hd : Continuous d) : Continuous fun h => blk (a h) (b h) (c h) (d h) := by
  unfold blk
  exact (ha.matrix_fromBlocks hb hc hd).matrix_submatrix _ _

theorem smul_A_continuous (A : Matrix (Fin n) (Fin n) ℝ) : Continuous fun h : ℝ => h • A := continuous_id.smul continuous_const

theorem exp_smul_continuous (A : Matrix (Fin n) (Fin n) ℝ) : Continuous fun h : ℝ => exp (h • A) := exp_entry_tendsto (smul_A_continuous A)

theorem phi1_continuous (A : Matrix (Fin n) (Fin n) ℝ) : Continuous fun h : ℝ => phi1 (h • A) := by
  unfold phi1 gam
  exact (exp_entry_tendsto (blk_continuous (smul_A_continuous A) continuous_const continuous_const continuous_const)).matrix_submatrix _ _

theorem phi2_continuous (A : Matrix (Fin n) (Fin n) ℝ) : Continuous fun h : ℝ => phi2 (h • A) := by
  have e : ∀ h : ℝ, phi2 (h • A) = (gam (h • A) (hcat (1 : Matrix (Fin n) (Fin n) ℝ) 0) (shiftN n)).submatrix id (Fin.natAdd n) := fun h => by
    rw [phi2_spec, hcat_right]
  simp only [e]
  unfold gam
  exact ((exp_entry_tendsto (blk_continuous (smul_A_continuous A) continuous_const continuous_const continuous_const)).matrix_submatrix _ _).matrix_submatrix _ _

theorem phi1_zero : phi1 (0 : Matrix (Fin n) (Fin n) ℝ) = 1 := by
  obtain ⟨g, -, h⟩ := gam_foh (0 : Matrix (Fin n) (Fin n) ℝ) (1 : Matrix (Fin n) (Fin n) ℝ)
  rw [Matrix.zero_mul, zero_add] at h
  exact h.symm

theorem exp_slope (A : Matrix (Fin n) (Fin n) ℝ) : Tendsto (fun h : ℝ => h⁻¹ • (exp (h • A) - 1)) (𝓝[>] 0) (𝓝 A) := by
  refine tendsto_pi_nhds.mpr fun i => tendsto_pi_nhds.mpr fun j => ?_
  have h1 := hasDerivAt_iff_tendsto_slope_zero.mp (hasDerivAt_exp_entry A 0 i j)
  have h3 := h1.mono_left (nhdsGT_le_nhdsNE (0 : ℝ))
  simp only [zero_add, zero_smul, exp_zero, Matrix.one_mul] at h3
  exact h3

theorem limit_zoh (A : Matrix (Fin n) (Fin n) ℝ) (B : Matrix (Fin n) (Fin m) ℝ) (C : Matrix (Fin p) (Fin n) ℝ) (D : Matrix (Fin p) (Fin m) ℝ) :
    LimitOf A B C D (fun h => exp (h • A)) (fun h => gam (h • A) (h • B) 0) (fun _ => C) (fun _ => D) (fun h => h) := by
  have hpos : ∀ᶠ h : ℝ in 𝓝[>] 0, 0 < h := self_mem_nhdsWithin
  refine ⟨hpos.mono fun h hh => hh.ne', exp_slope A, ?_, ?_, tendsto_const_nhds⟩
  · have h1 := mul_tendsto (((phi1_continuous A).tendsto 0).mono_left (nhdsWithin_le_nhds (s := Set.Ioi 0))) (tendsto_const_nhds (x := B))
    rw [zero_smul, phi1_zero, Matrix.one_mul] at h1
    refine h1.congr' ?_
    filter_upwards [hpos] with h hh
    rw [gam_phi1, Matrix.mul_smul, smul_smul, inv_mul_cancel₀ hh.ne', one_smul]
  · refine (tendsto_const_nhds (x := C)).congr' ?_
    filter_upwards [hpos] with h hh
    rw [mul_inv_cancel₀ hh.ne', one_smul]

theorem limit_foh (A : Matrix (Fin n) (Fin n) ℝ) (B : Matrix (Fin n) (Fin m) ℝ) (C : Matrix (Fin p) (Fin n) ℝ) (D : Matrix (Fin p) (Fin m) ℝ) :
    LimitOf A B C D (fun h => exp (h • A)) (fun h => gam (h • A) (h • B) 0 + exp (h • A) * (phi2 (h • A) * (h • B)) - phi2 (h • A) * (h • B)) (fun _ => C) (fun h => D + C * (phi2 (h • A) * (h • B))) (fun h => h) := by
  have hpos : ∀ᶠ h : ℝ in 𝓝[>] 0, 0 < h := self_mem_nhdsWithin
  have hw : 𝓝[>] (0 : ℝ) ≤ 𝓝 0 := nhdsWithin_le_nhds
  have hp2 := ((phi2_continuous A).tendsto 0).mono_left hw
  refine ⟨hpos.mono fun h hh => hh.ne', exp_slope A, ?_, (limit_zoh A B C D).hC, ?_⟩
  · have h1 := mul_tendsto (((phi1_continuous A).tendsto 0).mono_left hw) (tendsto_const_nhds (x := B))
    have h2 := mul_tendsto (((exp_smul_continuous A).tendsto 0).mono_left hw) (mul_tendsto hp2 (tendsto_const_nhds (x := B)))
    have h3 := (h1.add h2).sub (mul_tendsto hp2 (tendsto_const_nhds (x := B)))
    rw [zero_smul, phi1_zero, exp_zero, Matrix.one_mul, Matrix.one_mul, add_sub_cancel_right] at h3
    refine h3.congr' ?_
    filter_upwards [hpos] with h hh
    rw [gam_phi1]
    simp only [Matrix.mul_smul, ← smul_add, ← smul_sub, smul_smul, inv_mul_cancel₀ hh.ne', one_smul]
  · have hb : Tendsto (fun h : ℝ => h • B) (𝓝[>] 0) (𝓝 ((0 : ℝ) • B)) := ((by fun_prop : Continuous fun h : ℝ => h • B).tendsto 0).mono_left hw
    have h2 := mul_tendsto (tendsto_const_nhds (x := C)) (mul_tendsto hp2 hb)
    have h3 := (tendsto_const_nhds (x := D)).add h2
    rwa [zero_smul, zero_smul, Matrix.mul_zero, Matrix.mul_zero, add_zero] at h3

/-- The response from rest converges on every bounded interval. -/
theorem lax {Ah : ℝ → Matrix (Fin n) (Fin n) ℝ} {Bh : ℝ → Matrix (Fin n) (Fin m) ℝ} {Ch : ℝ → Matrix (Fin p) (Fin n) ℝ} {Dh : ℝ → Matrix (Fin p) (Fin m) ℝ} {β : ℝ → ℝ}
    (hl : LimitOf A B C D Ah Bh Ch Dh β) {T : ℝ} {u : ℝ → Fin m → ℝ} (hu : ContinuousOn u (Set.Icc 0 T)) {x : ℝ → Fin n → ℝ} (hx : IsSolution A B u x 0 T) (hx0 : x 0 = 0) {δ : ℝ} (hδ : 0 < δ) :
    ∀ᶠ h in 𝓝[>] 0, ∀ z : ℕ → Fin n → ℝ, z 0 = 0 → (∀ k, z (k + 1) = Ah h *ᵥ z k + Bh h *ᵥ u (k * h)) → ∀ k : ℕ, k * h ≤ T →
      ‖Ch h *ᵥ z k + Dh h *ᵥ u (k * h) - (C *ᵥ x (k * h) + D *ᵥ u (k * h))‖ ≤ δ := by
  obtain ⟨α, hα0, hα⟩ := matrix_bound A
  obtain ⟨γ, hγ0, hγ⟩ := matrix_bound C
  obtain ⟨X, hX⟩ := isCompact_Icc.exists_bound_of_continuousOn hx.1
  obtain ⟨U, hU⟩ := isCompact_Icc.exists_bound_of_continuousOn hu
  by_cases hT : 0 ≤ T
  swap
  · filter_upwards [self_mem_nhdsWithin] with h hh z _ _ k hk
    have : (0 : ℝ) ≤ k * h := mul_nonneg (Nat.cast_nonneg k) (le_of_lt hh)
    linarith
  have hX0 : 0 ≤ X := (norm_nonneg _).trans (hX 0 ⟨le_rfl, hT⟩)
  have hU0 : 0 ≤ U := (norm_nonneg _).trans (hU 0 ⟨le_rfl, hT⟩)
  set K := α + 1 with hK
  set W := X + U + 1 with hW
  set Q := T * W * Real.exp (K * T) with hQ
  have hQ0 : 0 ≤ Q := by positivity
  set η := min 1 (δ / ((γ + 1) * Q + X + U + 1)) with hη
  have hη0 : 0 < η := lt_min one_pos (by positivity)
  have hη1 : η ≤ 1 := min_le_left _ _
  have hηδ : η * ((γ + 1) * Q + X + U) ≤ δ := by
    have h1 : η * ((γ + 1) * Q + X + U + 1) ≤ δ := (le_div_iff₀ (by positivity)).mp (min_le_right _ _)
    nlinarith
  have hg : ContinuousOn (fun t => A *ᵥ x t + B *ᵥ u t) (Set.Icc 0 T) :=
    ((Continuous.matrix_mulVec continuous_const continuous_id).comp_continuousOn hx.1).add ((Continuous.matrix_mulVec continuous_const continuous_id).comp_continuousOn hu)
  obtain ⟨h₀, h01, h02⟩ := Metric.uniformContinuousOn_iff_le.mp (isCompact_Icc.uniformContinuousOn_of_continuous hg) η hη0
  have hpos : ∀ᶠ h : ℝ in 𝓝[>] 0, 0 < h := self_mem_nhdsWithin
  have hsmall : ∀ᶠ h : ℝ in 𝓝[>] 0, h < h₀ := nhdsWithin_le_nhds (gt_mem_nhds h01)
  filter_upwards [hpos, hsmall, tendsto_bound hl.hA hη0, tendsto_bound hl.hB hη0, tendsto_bound hl.hC hη0, tendsto_bound hl.hD hη0, hl.hβ] with h hh hlt bA bB bC bD hb z hz0 hz
  have hmem : ∀ k : ℕ, k * h ≤ T → (k : ℝ) * h ∈ Set.Icc 0 T := fun k hk => ⟨by positivity, hk⟩
  -- one step of the true response
  have step : ∀ k : ℕ, ((k + 1 : ℕ) : ℝ) * h ≤ T → ‖x ((k + 1 : ℕ) * h) - x (k * h) - h • (A *ᵥ x (k * h) + B *ᵥ u (k * h))‖ ≤ η * h := fun k hk => by
    have hk0 : (0 : ℝ) ≤ k * h := by positivity
    have hk1 : ((k + 1 : ℕ) : ℝ) * h = k * h + h := by push_cast; ring
    have hs := hx.mono hk0 hk
    have h1 := norm_image_sub_le_of_norm_deriv_right_le_segment (f := fun t => x t - (t - k * h) • (A *ᵥ x (k * h) + B *ᵥ u (k * h)))
      (f' := fun t => A *ᵥ x t + B *ᵥ u t - (1 : ℝ) • (A *ᵥ x (k * h) + B *ᵥ u (k * h))) (a := k * h) (b := (k + 1 : ℕ) * h) (C := η)
      (hs.1.sub (Continuous.continuousOn (by fun_prop)))
      (fun t ht => (hs.2 t ht).sub ((((hasDerivAt_id t).sub_const _).hasDerivWithinAt).smul_const _))
      (fun t ht => by
        rw [one_smul, ← dist_eq_norm]
        refine h02 t ⟨hk0.trans ht.1, ht.2.le.trans hk⟩ _ ⟨hk0, by linarith [ht.1, ht.2]⟩ ?_
        rw [Real.dist_eq, abs_of_nonneg (by linarith [ht.1])]
        linarith [ht.2])
      _ ⟨by linarith, le_rfl⟩
    have e1 : ((k + 1 : ℕ) : ℝ) * h - k * h = h := by rw [hk1]; ring
    simp only [e1, sub_self, zero_smul, sub_zero] at h1
    rwa [sub_right_comm] at h1
  set ξ : ℕ → Fin n → ℝ := fun k => (h * (β h)⁻¹) • z k with hξ
  have hξs : ∀ k, ξ (k + 1) = ξ k + h • ((h⁻¹ • (Ah h - 1)) *ᵥ ξ k) + h • (((β h)⁻¹ • Bh h) *ᵥ u (k * h)) := fun k => by
    have e1 : ξ k + h • ((h⁻¹ • (Ah h - 1)) *ᵥ ξ k) = Ah h *ᵥ ξ k := by
      rw [smul_mulVec, smul_smul, mul_inv_cancel₀ hh.ne', one_smul, sub_mulVec, one_mulVec, add_sub_cancel]
    have e2 : h • (((β h)⁻¹ • Bh h) *ᵥ u (k * h)) = (h * (β h)⁻¹) • (Bh h *ᵥ u (k * h)) := by rw [smul_mulVec, smul_smul]
    rw [e1, e2]
    simp only [hξ]
    rw [hz, smul_add, mulVec_smul]
  have key : ∀ k : ℕ, k * h ≤ T → ‖ξ k - x (k * h)‖ ≤ (k * h) * (η * W) * Real.exp (K * (k * h)) := by
    intro k
    induction k with
    | zero => intro _; simp [hξ, hz0, hx0]
    | succ k ih =>
      intro hk
      have hkT : (k : ℝ) * h ≤ T := by push_cast at hk; linarith
      have hi := ih hkT
      set e := ξ k - x (k * h) with he
      have e1 : ξ (k + 1) - x ((k + 1 : ℕ) * h) = e + h • (((h⁻¹ • (Ah h - 1)) *ᵥ e - A *ᵥ e) + A *ᵥ e) + h • ((h⁻¹ • (Ah h - 1)) *ᵥ x (k * h) - A *ᵥ x (k * h))
          + h • (((β h)⁻¹ • Bh h) *ᵥ u (k * h) - B *ᵥ u (k * h)) - (x ((k + 1 : ℕ) * h) - x (k * h) - h • (A *ᵥ x (k * h) + B *ᵥ u (k * h))) := by
        rw [hξs k, he, mulVec_sub]
        module
      have n1 : ‖h • (((h⁻¹ • (Ah h - 1)) *ᵥ e - A *ᵥ e) + A *ᵥ e)‖ ≤ h * (K * ‖e‖) := by
        rw [norm_smul, Real.norm_eq_abs, abs_of_pos hh]
        refine mul_le_mul_of_nonneg_left ((norm_add_le _ _).trans ?_) hh.le
        have := bA e
        have := hα e
        have := mul_le_mul_of_nonneg_right hη1 (norm_nonneg e)
        rw [hK]
        linarith
      have n2 : ‖h • ((h⁻¹ • (Ah h - 1)) *ᵥ x (k * h) - A *ᵥ x (k * h))‖ ≤ h * (η * X) := by
        rw [norm_smul, Real.norm_eq_abs, abs_of_pos hh]
        exact mul_le_mul_of_nonneg_left ((bA _).trans (mul_le_mul_of_nonneg_left (hX _ (hmem k hkT)) hη0.le)) hh.le
      have n3 : ‖h • (((β h)⁻¹ • Bh h) *ᵥ u (k * h) - B *ᵥ u (k * h))‖ ≤ h * (η * U) := by
        rw [norm_smul, Real.norm_eq_abs, abs_of_pos hh]
        exact mul_le_mul_of_nonneg_left ((bB _).trans (mul_le_mul_of_nonneg_left (hU _ (hmem k hkT)) hη0.le)) hh.le
      have n4 := step k hk
      have n5 : ‖ξ (k + 1) - x ((k + 1 : ℕ) * h)‖ ≤ (1 + h * K) * ‖e‖ + h * (η * W) := by
        rw [e1]
        refine (norm_sub_le _ _).trans ?_
        refine (add_le_add ((norm_add_le _ _).trans (add_le_add ((norm_add_le _ _).trans (add_le_add ((norm_add_le _ _).trans (add_le_add le_rfl n1)) n2)) n3)) n4).trans (le_of_eq ?_)
        rw [hW]
        ring
      refine n5.trans ?_
      have hKh : 0 ≤ K * h := by positivity
      have x1 : 1 + h * K ≤ Real.exp (K * h) := by have := Real.add_one_le_exp (K * h); linarith
      have x2 : Real.exp (K * ((k + 1 : ℕ) * h)) = Real.exp (K * h) * Real.exp (K * (k * h)) := by rw [← Real.exp_add]; congr 1; push_cast; ring
      have x3 : 1 ≤ Real.exp (K * ((k + 1 : ℕ) * h)) := Real.one_le_exp (by positivity)
      calc (1 + h * K) * ‖e‖ + h * (η * W) ≤ Real.exp (K * h) * ((k * h) * (η * W) * Real.exp (K * (k * h))) + h * (η * W) * Real.exp (K * ((k + 1 : ℕ) * h)) := by
            refine add_le_add (mul_le_mul x1 hi (norm_nonneg _) (Real.exp_pos _).le) (le_mul_of_one_le_right (by positivity) x3)
        _ = _ := by rw [x2]; push_cast; ring
  intro k hk
  have hkey : ‖ξ k - x (k * h)‖ ≤ η * Q := by
    refine (key k hk).trans ?_
    have x1 : Real.exp (K * (k * h)) ≤ Real.exp (K * T) := Real.exp_le_exp.mpr (mul_le_mul_of_nonneg_left hk (by positivity))
    calc (k * h) * (η * W) * Real.exp (K * (k * h)) ≤ T * (η * W) * Real.exp (K * T) := by gcongr
      _ = η * Q := by rw [hQ]; ring
  have e0 : Ch h *ᵥ z k = ((β h * h⁻¹) • Ch h) *ᵥ ξ k := by
    simp only [hξ]
    rw [smul_mulVec, mulVec_smul, smul_smul]
    have : β h * h⁻¹ * (h * (β h)⁻¹) = 1 := by have := hh.ne'; field_simp
    rw [this, one_smul]
  have e1 : Ch h *ᵥ z k + Dh h *ᵥ u (k * h) - (C *ᵥ x (k * h) + D *ᵥ u (k * h))
      = ((((β h * h⁻¹) • Ch h) *ᵥ (ξ k - x (k * h)) - C *ᵥ (ξ k - x (k * h))) + C *ᵥ (ξ k - x (k * h))) + (((β h * h⁻¹) • Ch h) *ᵥ x (k * h) - C *ᵥ x (k * h)) + (Dh h *ᵥ u (k * h) - D *ᵥ u (k * h)) := by
    rw [e0, mulVec_sub]
    abel
  rw [e1]
  refine (norm_add_le _ _).trans ((add_le_add ((norm_add_le _ _).trans (add_le_add ((norm_add_le _ _).trans (add_le_add (bC _) (hγ _))) (bC _))) (bD _)).trans (le_trans ?_ hηδ))
  have y1 := hX _ (hmem k hk)
  have y2 := hU _ (hmem k hk)
  have y3 := norm_nonneg (ξ k - x (k * h))
  have z1 : (η + γ) * ‖ξ k - x (k * h)‖ ≤ (1 + γ) * (η * Q) := mul_le_mul (by linarith) hkey y3 (by positivity)
  have z2 := mul_le_mul_of_nonneg_left y1 hη0.le
  have z3 := mul_le_mul_of_nonneg_left y2 hη0.le
  nlinarith

end Harold
