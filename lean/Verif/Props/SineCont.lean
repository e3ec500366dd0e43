import Verif.Props.Sine
import Verif.Props.DiscLimit
import Verif.Props.Refine
import Verif.Props.Steer

/-!
# C95 for continuous-time models

`simulate_linear_system` holds the samples of the input. The steady state therefore belongs to the model discretized with `'zoh'`; as the
grid is refined it tends to what `frequency_response` says about the continuous model.
-/

namespace Harold

open Matrix Filter Topology Harold.Spec NormedSpace

variable {P : Type} {Nm : Numerics ℝ P} {E : DNum} {S : StateObj ℝ P} {n m p : ℕ} {h : ℝ}
  {A : Matrix (Fin n) (Fin n) ℝ} {B : Matrix (Fin n) (Fin m) ℝ} {C : Matrix (Fin p) (Fin n) ℝ} {D : Matrix (Fin p) (Fin m) ℝ}

theorem hurwitz_of_stable (hst : StableModel (stateOf A B C D none)) : Hurwitz A := by
  rcases hst with h' | ⟨n', A', h1, h2⟩
  · cases h'
  · obtain rfl : n = n' := congrArg Arr.r h1
    obtain rfl := Arr.of_inj.mp h1
    exact hurwitz_iff_motions.mpr h2

/-- **C95**, continuous time: the simulated answer of a stable model to a sinusoid, from any initial state, tends to the sinusoid whose amplitudes are multiplied by the frequency response of the model that
`discretize(…, method='zoh')` returns for the step of the grid. -/
theorem C95_held (hE : BalanceOk E) (hm : 1 ≤ m) (hG : S.g = stateOf A B C D none) (hst : StableModel S.g) (hh : 0 < h) (ω : ℝ) :
    ∃ (T : StateObj ℝ P) (F : Matrix (Fin p) (Fin m) ℂ), discretize Nm E S h "zoh" 0 none = .ok T ∧ HasTF T.g p m (evalPoint (some h) ω) F ∧
      ∀ (a : Fin m → ℂ) (xarg : Option (List ℝ)) (x0 : Fin n → ℝ), InitArg xarg x0 → ∃ d : ℕ → Fin p → ℝ, Tendsto d atTop (𝓝 0) ∧ ∀ (N : ℕ) (t0 : ℝ), 2 ≤ N →
        simulate Nm E S (Arr.of (Matrix.of fun (k : Fin N) j => sineAt ω h a k j)) (some (eqGrid N t0 h)) xarg false =
          .ok (.flat (Arr.of (Matrix.of fun (k : Fin N) i => sineAt ω h (F *ᵥ a) k i + d k i)), eqGrid N t0 h) := by
  have hA : Hurwitz A := by rw [hG] at hst; exact hurwitz_of_stable hst
  have hS : Schur (exp (h • A)) := hold_schur hA hh
  obtain ⟨T, h1, h2⟩ := zoh_model (Nm := Nm) (pw := 0) (q := none) hE hh hG
  have hdet : (evalPoint (some h) ω • (1 : Matrix (Fin n) (Fin n) ℂ) - (exp (h • A)).map (algebraMap ℝ ℂ)).det ≠ 0 := fun h0 => by
    have := hS _ h0
    rw [norm_evalPoint] at this
    exact lt_irrefl _ this
  refine ⟨T, _, h1, by rw [h2, hasTF_stateOf]; exact ⟨hdet, rfl⟩, fun a xarg x0 hx => ?_⟩
  obtain ⟨d, h3, h4⟩ := conv_sine (ω := ω) (h := h) (A := exp (h • A)) (B := gam (h • A) (h • B) 0) (C := C) (D := D) ⟨hdet, rfl⟩ hS a
  have h5 : Tendsto (fun k : ℕ => C *ᵥ (exp (h • A) ^ k *ᵥ x0)) atTop (𝓝 0) := by
    have h6 : Continuous fun v : Fin n → ℝ => C *ᵥ v := by fun_prop
    have h7 := (h6.tendsto 0).comp (pow_mulVec_tendsto hS x0)
    rw [mulVec_zero] at h7
    exact h7
  refine ⟨fun k => d k + C *ᵥ (exp (h • A) ^ k *ᵥ x0), by simpa using h3.add h5, fun N t0 hN => ?_⟩
  refine (simulate_held (w := fun k j => sineAt ω h a k j) hE hN hm hG hh hx (U := Matrix.of fun (k : Fin N) j => sineAt ω h a k j) (fun i => rfl)).trans ?_
  congr 4
  ext k i
  have h6 := congrFun (congrFun (h4 N) k) i
  rw [← output_conv, Matrix.of_apply, Matrix.of_apply] at h6
  have h8 := congrFun (output_run (N := N) (A := exp (h • A)) (B := gam (h • A) (h • B) 0) (C := C) (D := D) (x0 := 0) (U := fun (k : Fin N) j => sineAt ω h a k j) (fun (k : ℕ) j => sineAt ω h a k j) (fun i => rfl) k) i
  have h6 := h8.symm.trans h6
  have h7 := run_sub (A := exp (h • A)) (B := gam (h • A) (h • B) 0) (fun (k : ℕ) j => sineAt ω h a k j) x0 0 k
  rw [sub_zero, sub_eq_iff_eq_add] at h7
  rw [Matrix.of_apply, Matrix.of_apply, h7, mulVec_add, Pi.add_apply, Pi.add_apply, add_assoc]
  rw [Pi.add_apply] at h6
  rw [h6]
  show _ = _ + (d k i + _)
  ring

/-- **C95**, continuous time: whatever accuracy is asked for, on every sufficiently fine grid the simulated answer of a stable model to a sinusoid of any amplitudes and phases, from any initial state, is within
that accuracy of the sinusoid whose amplitudes are multiplied by the value of the transfer matrix at the frequency, after finitely many samples and then for ever. -/
theorem C95_continuous (hE : BalanceOk E) (hm : 1 ≤ m) (hG : S.g = stateOf A B C D none) (hst : StableModel S.g) {ω : ℝ} {M : Matrix (Fin p) (Fin m) ℂ}
    (hM : HasTF S.g p m (evalPoint none ω) M) (a : Fin m → ℂ) {δ : ℝ} (hδ : 0 < δ) :
    ∃ h₀ > 0, ∀ h, 0 < h → h < h₀ → ∀ (xarg : Option (List ℝ)) (x0 : Fin n → ℝ), InitArg xarg x0 → ∃ K : ℕ, ∀ (N : ℕ) (t0 : ℝ), 2 ≤ N →
      ∃ Y : Matrix (Fin N) (Fin p) ℝ, simulate Nm E S (Arr.of (Matrix.of fun (k : Fin N) j => sineAt ω h a k j)) (some (eqGrid N t0 h)) xarg false = .ok (.flat (Arr.of Y), eqGrid N t0 h) ∧
        ∀ (k : Fin N) (i : Fin p), K ≤ k → |Y k i - sineAt ω h (M *ᵥ a) k i| < δ := by
  set s := ∑ j, ‖a j‖ with hs
  have hs0 : 0 ≤ s := Finset.sum_nonneg fun j _ => norm_nonneg _
  obtain ⟨h₀, h01, h02⟩ := C132_frequency (Nm := Nm) (pw := 0) (q := none) (method := "zoh") hE (by simp [ApproxMethod]) le_rfl hG hM (δ := δ / 2 / (s + 1)) (by positivity)
  refine ⟨h₀, h01, fun h hh hlt xarg x0 hx => ?_⟩
  obtain ⟨T, F, h1, h2, h3⟩ := h02 h hh hlt
  obtain ⟨T', F', h4, h5, h6⟩ := C95_held (Nm := Nm) (S := S) hE hm hG hst hh ω
  rw [h1] at h4
  obtain rfl : T = T' := Except.ok.inj h4
  obtain rfl : F = F' := HasTF_unique h2 h5
  obtain ⟨d, h7, h8⟩ := h6 a xarg x0 hx
  obtain ⟨K, hK⟩ := Metric.tendsto_atTop.mp h7 (δ / 2) (by positivity)
  refine ⟨K, fun N t0 hN => ⟨_, h8 N t0 hN, fun k i hk => ?_⟩⟩
  have e1 : |d k i| < δ / 2 := by
    have := hK k hk
    rw [dist_zero_right] at this
    exact (norm_le_pi_norm (d k) i).trans_lt this
  have e2 : |sineAt ω h (F *ᵥ a) k i - sineAt ω h (M *ᵥ a) k i| ≤ δ / 2 := by
    have e3 : sineAt ω h (F *ᵥ a) k i - sineAt ω h (M *ᵥ a) k i = ((∑ j, (F i j - M i j) * a j) * Complex.exp (Complex.I * (ω * h * (k : ℕ)))).re := by
      unfold sineAt
      rw [← Complex.sub_re, ← sub_mul]
      congr 2
      show ∑ j, F i j * a j - ∑ j, M i j * a j = _
      rw [← Finset.sum_sub_distrib]
      exact Finset.sum_congr rfl fun j _ => by ring
    have e4 : ‖Complex.exp (Complex.I * (ω * h * (k : ℕ)))‖ = 1 := by
      rw [show Complex.I * (ω * h * (k : ℕ)) = ((ω * h * (k : ℕ) : ℝ) : ℂ) * Complex.I by push_cast; ring]
      exact Complex.norm_exp_ofReal_mul_I _
    rw [e3]
    refine (Complex.abs_re_le_norm _).trans ?_
    rw [norm_mul, e4, mul_one]
    refine (norm_sum_le _ _).trans ?_
    have e5 : ∀ j ∈ Finset.univ, ‖(F i j - M i j) * a j‖ ≤ δ / 2 / (s + 1) * ‖a j‖ := fun j _ => by
      rw [norm_mul]
      exact mul_le_mul_of_nonneg_right (h3 i j).le (norm_nonneg _)
    refine (Finset.sum_le_sum e5).trans ?_
    rw [← Finset.mul_sum, ← hs, div_mul_eq_mul_div, div_le_iff₀ (by positivity)]
    nlinarith
  rw [Matrix.of_apply, show sineAt ω h (F *ᵥ a) k i + d k i - sineAt ω h (M *ᵥ a) k i = (sineAt ω h (F *ᵥ a) k i - sineAt ω h (M *ᵥ a) k i) + d k i by ring]
  refine (abs_add_le _ _).trans_lt ?_
  linarith

/-- **C95**, continuous time: the samples that `frequency_response` returns for a model that is reported stable tell, to any accuracy, the steady state of its simulations on sufficiently fine grids. Missing: samples
that are not numbers because a pivot of the elimination vanishes (`C45_values`), and flags left over from assignments that change the time domain (`C93_stale_violated`). -/
theorem C95_continuous_reported_partial {Nq : HessNum ℝ} {N : Numerics ℝ ℂ} (hN : EigExact N) (hR : RegionExact N) (hE : BalanceOk E) {a b c d : Option (Arr ℝ)} {dt : Option ℝ} {S : StateObj ℝ ℂ}
    (hi : StateObj.init N a b c d dt = .ok S) (hist : List (Assign ℝ)) (hk : ∀ x ∈ hist, x.keepsDomain S) (hm : 1 ≤ m) (hn : 0 < n) (hG : (S.run N hist).g = stateOf A B C D none)
    (hst : (S.run N hist).isstable = true) (hq : ∀ b : Matrix (Fin n) (Fin 1) ℝ, QrOk Nq b) (hhs : ∀ M : Matrix (Fin n) (Fin n) ℝ, HessOk Nq M)
    {auto : List ℝ} {w : Option GridArg} {samples : Option ℕ} {iu ou : String} (hou : ou = "rad/s" ∨ IsHz ou) {R : FreqOut}
    (hf : freqState Nq none auto (S.run N hist).g w samples iu ou = .ok R) {k : ℕ} {ω : ℝ} (hω : R.w[k]? = some ω) {H : Matrix (Fin p) (Fin m) ℂ}
    (hH : R.resp[k]? = some (Arr.of (H.map some))) (α : Fin m → ℂ) {δ : ℝ} (hδ : 0 < δ) :
    ∃ h₀ > 0, ∀ h, 0 < h → h < h₀ → ∀ (xarg : Option (List ℝ)) (x0 : Fin n → ℝ), InitArg xarg x0 → ∃ K : ℕ, ∀ (L : ℕ) (t0 : ℝ), 2 ≤ L →
      ∃ Y : Matrix (Fin L) (Fin p) ℝ, simulate N E (S.run N hist) (Arr.of (Matrix.of fun (l : Fin L) j => sineAt (toRad ou ω) h α l j)) (some (eqGrid L t0 h)) xarg false =
        .ok (.flat (Arr.of Y), eqGrid L t0 h) ∧ ∀ (l : Fin L) (i : Fin p), K ≤ l → |Y l i - sineAt (toRad ou ω) h (H *ᵥ α) l i| < δ := by
  have hc : Consistent (S.run N hist).g p m := by rw [hG]; exact ⟨⟨rfl, rfl⟩, fun _ => ⟨rfl, rfl, rfl, rfl, rfl⟩⟩
  have hst' := (C92_flag_partial hN hR hi hist hk hc).mp hst
  have hA : Hurwitz A := hurwitz_of_stable (by rw [← hG]; exact hst')
  have hdet : (evalPoint none (toRad ou ω) • (1 : Matrix (Fin n) (Fin n) ℂ) - A.map (algebraMap ℝ ℂ)).det ≠ 0 := fun h0 => by
    have := hA _ h0
    simp [evalPoint] at this
  have hM := hasTF_stateOf (dt := none) |>.mpr (show IsTF (A.map (algebraMap ℝ ℂ)) (B.map (algebraMap ℝ ℂ)) (C.map (algebraMap ℝ ℂ)) (D.map (algebraMap ℝ ℂ)) (evalPoint none (toRad ou ω)) _ from ⟨hdet, rfl⟩)
  rw [hG] at hf
  obtain ⟨X, h3, h4⟩ := (C45_sound (p := p) (m := m) hn hq hhs hou hf).2 k ω hω _ hM
  rw [hH] at h3
  have h5 : H.map some = X := Arr.of_inj.mp (Option.some.inj h3)
  obtain rfl := Matrix.ext fun i j => h4 i j (H i j) (by rw [← h5]; rfl)
  exact C95_continuous hE hm hG hst' (by rw [hG]; exact hM) α hδ

/-- The hypotheses are met by the lag `1/(s+1)` at the frequency 1, where the value is `(1 - i)/2`. -/
example : ∃ N : Numerics ℝ ℂ, EigExact N ∧ RegionExact N ∧ BalanceOk exactDNum ∧ (lagS N (-1) none).g = stateOf !![(-1 : ℝ)] !![(1 : ℝ)] !![(1 : ℝ)] !![(0 : ℝ)] none ∧ StableModel (lagS N (-1) none).g ∧
    (lagS N (-1) none).isstable = true ∧ HasTF (lagS N (-1) none).g 1 1 (evalPoint none 1) !![(1 - Complex.I) / 2] := by
  obtain ⟨N, -, hN, hR, -⟩ := exists_pole_numerics
  have h2 : (1 + Complex.I) ≠ 0 := fun h => by simpa using congrArg Complex.re h
  refine ⟨N, hN, hR, exactDNum_ok.1, rfl, stable_of_hurwitz (one_state_hurwitz (by norm_num)), (lagS_parts hN hR).1, hasTF_stateOf.mpr ⟨?_, ?_⟩⟩
  · have e : (Complex.I + 1) ≠ 0 := by rwa [add_comm]
    simpa [evalPoint] using e
  · have e : (Complex.I + 1) ≠ 0 := by rwa [add_comm]
    ext i j
    fin_cases i; fin_cases j
    simp [evalPoint, Ring.inverse_eq_inv', Matrix.mul_apply]
    field_simp
    ring_nf
    simp
    norm_num

end Harold
