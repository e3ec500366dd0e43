import Verif.Props.Delay

/-!
# C137: the beginning of responses of continuous models
-/

namespace Harold

open Matrix Spec Filter Topology

variable {P : Type} {Nm : Numerics ℝ P} {Bn : DNum} {S : StateObj ℝ P} {n p m d : ℕ} {h : ℝ} {L : Matrix (Fin p) (Fin m) ℝ}

/-- A power series whose first `d` coefficients vanish is its next term up to a higher power. -/
theorem series_start {c : ℕ → ℝ} {K : ℝ} (hK : ∀ r, |c r| ≤ K) (h0 : ∀ r < d, c r = 0) (hh : 0 ≤ h) (hh' : h ≤ 1 / 2) {s : ℝ} (hs : HasSum (fun r => h ^ r * c r) s) :
    |s - h ^ d * c d| ≤ 2 * K * h ^ (d + 1) := by
  have h1 := (hasSum_nat_add_iff' (d + 1)).mpr hs
  have h2 : ∑ i ∈ Finset.range (d + 1), h ^ i * c i = h ^ d * c d := by
    rw [Finset.sum_range_succ, Finset.sum_eq_zero fun r hr => by rw [h0 r (Finset.mem_range.mp hr), mul_zero], zero_add]
  rw [h2] at h1
  have hlt : h < 1 := by linarith
  have h3 : HasSum (fun r : ℕ => h ^ (d + 1) * K * h ^ r) (h ^ (d + 1) * K * (1 - h)⁻¹) := (hasSum_geometric_of_lt_one hh hlt).mul_left _
  have h4 : ∀ r : ℕ, ‖h ^ (r + (d + 1)) * c (r + (d + 1))‖ ≤ h ^ (d + 1) * K * h ^ r := fun r => by
    rw [Real.norm_eq_abs, abs_mul, abs_of_nonneg (pow_nonneg hh _), pow_add]
    have := mul_le_mul_of_nonneg_left (hK (r + (d + 1))) (mul_nonneg (pow_nonneg hh r) (pow_nonneg hh (d + 1)))
    linarith
  have h5 := h1.norm_le_of_bounded h3 h4
  rw [Real.norm_eq_abs] at h5
  have hK0 : 0 ≤ K := (abs_nonneg _).trans (hK 0)
  have h6 : (1 - h)⁻¹ ≤ 2 := by
    rw [inv_le_comm₀ (by linarith) (by norm_num)]
    linarith
  have h7 := mul_le_mul_of_nonneg_left h6 (mul_nonneg (pow_nonneg hh (d + 1)) hK0)
  linarith

/-- **C137**, continuous models: if the transfer matrix decays like `L / s^d` with `d > 0`, simulations from rest begin with zero, and after one step of the grid the output is `h^d / d!` times `L` times the input, up
to a multiple of `h^(d+1)` that does not depend on grid and input. -/
theorem C137_start (hE : BalanceOk Bn) (hc : Consistent S.g p m) (hm : 1 ≤ m) (hdt : S.g.dt = none) (hd : 0 < d) (hL : HasDelay S.g p m d L) :
    ∃ K, 0 ≤ K ∧ ∀ (h : ℝ), 0 < h → h ≤ 1 / 2 → ∀ (N : ℕ) (hN : 2 ≤ N) (t0 : ℝ) (U : Matrix (Fin N) (Fin m) ℝ),
      ∃ Y : Matrix (Fin N) (Fin p) ℝ, simulate Nm Bn S (Arr.of U) (some (eqGrid N t0 h)) none false = .ok (.flat (Arr.of Y), eqGrid N t0 h) ∧ Y ⟨0, by omega⟩ = 0 ∧
        ∀ i, |Y ⟨1, by omega⟩ i - h ^ d / d.factorial * (L *ᵥ U ⟨0, by omega⟩) i| ≤ K * h ^ (d + 1) * ∑ j, |U ⟨0, by omega⟩ j| := by
  obtain ⟨f, w, hw, -⟩ := exists_weights hc
  obtain ⟨hz, rfl⟩ := (hasDelay_iff hw).mp hL
  let c : Fin p → Fin m → ℕ → ℝ := fun i j r => (r.factorial : ℝ)⁻¹ * if r = 0 then 0 else w r i j
  have hb : ∀ i j, ∃ K, ∀ r, |c i j r| ≤ K := fun i j => by
    obtain ⟨v, hv⟩ := hw.held 1
    have h1 := (hv.2 1 i j).summable.tendsto_atTop_zero
    have h2 : (fun r : ℕ => (r.factorial : ℝ)⁻¹ * ((((1 : ℕ) : ℝ) * 1) ^ r * if r = 0 then 0 else w r i j)) = c i j := by
      funext r
      simp [c]
    rw [h2] at h1
    obtain ⟨K, hK⟩ := h1.abs.bddAbove_range
    exact ⟨K, fun r => hK ⟨r, rfl⟩⟩
  choose K hK using hb
  have hK0 : ∀ i j, 0 ≤ K i j := fun i j => (abs_nonneg _).trans (hK i j 0)
  refine ⟨2 * ∑ i, ∑ j, K i j, mul_nonneg (by norm_num) (Finset.sum_nonneg fun i _ => Finset.sum_nonneg fun j _ => hK0 i j), fun h hh hh' N hN t0 U => ?_⟩
  have hg : GridOk (eqGrid N t0 h) := eqGrid_ok hN hh
  have hstep : (eqGrid N t0 h).getD 1 0 - (eqGrid N t0 h).getD 0 0 = h := by
    rw [eqGrid_get (by omega), eqGrid_get (by omega)]
    push_cast
    ring
  obtain ⟨v, hv⟩ := hw.held h
  have hv0 : v 0 = 0 := hv.1.trans (hz 0 hd)
  have hsim := hw.simulated_held (Nm := Nm) hE hm hdt hN hg (by simp [eqGrid]) (by rw [hstep]; exact hv) U S rfl
  refine ⟨_, hsim, conv_early (d := 1) (fun k hk => by obtain rfl : k = 0 := by omega
                                                       exact hv0) U (by simp), fun i => ?_⟩
  rw [conv_first (d := 1) (fun k hk => by obtain rfl : k = 0 := by omega
                                          exact hv0) U (k := ⟨1, by omega⟩) rfl]
  have hent : ∀ j, |v 1 i j - h ^ d / d.factorial * w d i j| ≤ 2 * (∑ i, ∑ j, K i j) * h ^ (d + 1) := fun j => by
    have h1 := hv.2 1 i j
    have h2 : (fun r : ℕ => (r.factorial : ℝ)⁻¹ * ((((1 : ℕ) : ℝ) * h) ^ r * if r = 0 then 0 else w r i j)) = fun r => h ^ r * c i j r := by
      funext r
      simp only [c, Nat.cast_one, one_mul]
      ring
    rw [h2, Finset.sum_range_one] at h1
    have h3 := series_start (d := d) (hK i j) (fun r hr => by
      simp only [c]
      rw [hz r hr]
      simp) hh.le hh' h1
    have h4 : h ^ d * c i j d = h ^ d / d.factorial * w d i j := by
      simp only [c, if_neg hd.ne']
      ring
    rw [h4] at h3
    refine h3.trans ?_
    have h5 : K i j ≤ ∑ i, ∑ j, K i j :=
      (Finset.single_le_sum (f := fun j => K i j) (fun j _ => hK0 i j) (Finset.mem_univ j)).trans
        (Finset.single_le_sum (f := fun i => ∑ j, K i j) (fun i _ => Finset.sum_nonneg fun j _ => hK0 i j) (Finset.mem_univ i))
    have h6 : 0 ≤ h ^ (d + 1) := pow_nonneg hh.le _
    nlinarith
  have e : (v 1 *ᵥ U ⟨0, by omega⟩) i - h ^ d / d.factorial * (w d *ᵥ U ⟨0, by omega⟩) i = ∑ j, (v 1 i j - h ^ d / d.factorial * w d i j) * U ⟨0, by omega⟩ j := by
    simp only [mulVec, dotProduct]
    rw [Finset.mul_sum, ← Finset.sum_sub_distrib]
    exact Finset.sum_congr rfl fun j _ => by ring
  rw [e, Finset.mul_sum]
  refine (Finset.abs_sum_le_sum_abs _ _).trans (Finset.sum_le_sum fun j _ => ?_)
  rw [abs_mul]
  exact mul_le_mul_of_nonneg_right (hent j) (abs_nonneg _)

/-- The double integrator `1/s²` has the delay 2 with `L = 1`. -/
example : HasDelay (stateOf !![0, 1; 0, 0] !![0; 1] !![1, 0] (0 : Matrix (Fin 1) (Fin 1) ℝ) none) 1 1 2 !![1] := by
  refine hasDelay_stateOf.mpr ⟨fun k hk => ?_, ?_⟩
  · interval_cases k
    · rfl
    · ext i j; fin_cases i; fin_cases j; simp [markov, Matrix.mul_apply, Fin.sum_univ_two]
  · ext i j; fin_cases i; fin_cases j; simp [markov, Matrix.mul_apply, Fin.sum_univ_two]

end Harold
