import Verif.Props.Ramp
import Verif.Props.Refine
import Verif.Props.SineCont
import Verif.Props.Near
import Mathlib.Analysis.SpecialFunctions.Exponential

/-!
# C138: ramp responses of continuous models
-/

namespace Harold

open Matrix Spec Filter Topology NormedSpace

variable {P : Type} {Nm : Numerics ℝ P} {E : DNum} {S : StateObj ℝ P} {n m p : ℕ} {h : ℝ}
  {A : Matrix (Fin n) (Fin n) ℝ} {B : Matrix (Fin n) (Fin m) ℝ} {C : Matrix (Fin p) (Fin n) ℝ} {D : Matrix (Fin p) (Fin m) ℝ}

theorem tendsto_matrix_inv {ι : Type} {l : Filter ι} {f : ι → Matrix (Fin n) (Fin n) ℝ} {K : Matrix (Fin n) (Fin n) ℝ} (hf : Tendsto f l (𝓝 K)) (hK : K.det ≠ 0) :
    Tendsto (fun z => (f z)⁻¹) l (𝓝 K⁻¹) := by
  have h2 : ∀ X : Matrix (Fin n) (Fin n) ℝ, X⁻¹ = X.det⁻¹ • X.adjugate := fun X => by rw [Matrix.inv_def, Ring.inverse_eq_inv']
  simp only [h2]
  exact (((Continuous.matrix_det continuous_id).continuousAt.tendsto.comp hf).inv₀ hK).smul ((Continuous.matrix_adjugate continuous_id).continuousAt.tendsto.comp hf)

open scoped Matrix.Norms.L2Operator in
theorem exp_rate (A : Matrix (Fin n) (Fin n) ℝ) : Tendsto (fun h : ℝ => h⁻¹ • (exp (h • A) - 1)) (𝓝[≠] 0) (𝓝 A) := by
  have h1 := hasDerivAt_exp_smul_const (𝕂 := ℝ) A (0 : ℝ)
  rw [zero_smul, exp_zero, Matrix.one_mul] at h1
  have h2 := hasDerivAt_iff_tendsto_slope.mp h1
  refine h2.congr fun h => ?_
  rw [slope_def_module, zero_smul, exp_zero, sub_zero]

/-- `h (1 - exp (h A))⁻¹` tends to `-A⁻¹`. -/
theorem hold_limit (hA : A.det ≠ 0) : Tendsto (fun h : ℝ => h • (1 - exp (h • A))⁻¹) (𝓝[>] 0) (𝓝 (-A⁻¹)) := by
  have h1 := (tendsto_matrix_inv (exp_rate A) hA).neg.mono_left (nhdsWithin_mono (0 : ℝ) (t := {0}ᶜ) (fun x (hx : 0 < x) => hx.ne'))
  refine h1.congr' ?_
  filter_upwards [self_mem_nhdsWithin] with h hh
  have hh' : h ≠ 0 := (Set.mem_Ioi.mp hh).ne'
  by_cases hd : (1 - exp (h • A)).det = 0
  · have hd' : (h⁻¹ • (exp (h • A) - 1)).det = 0 := by rw [det_smul, ← neg_sub, det_neg, hd, mul_zero, mul_zero]
    rw [nonsing_inv_apply_not_isUnit _ (by rw [hd']; exact not_isUnit_zero), nonsing_inv_apply_not_isUnit _ (by rw [hd]; exact not_isUnit_zero), smul_zero, neg_zero]
  · have : (h⁻¹ • (exp (h • A) - 1))⁻¹ = -(h • (1 - exp (h • A))⁻¹) := by
      refine inv_eq_left_inv ?_
      rw [← neg_sub (1 : Matrix (Fin n) (Fin n) ℝ), smul_neg, Matrix.neg_mul, Matrix.mul_neg, neg_neg, Matrix.smul_mul, Matrix.mul_smul, smul_smul, mul_inv_cancel₀ hh', one_smul, nonsing_inv_mul _ (Ne.isUnit hd)]
    rw [this, neg_neg]

/-- **C138**, continuous models: on equally spaced grids the response of a stable model to the samples of the ramp `t ↦ t v`, from every initial state, approaches a line `t ↦ t G(0) v + J v`, and the matrix `J` tends
to `G'(0)` for fine grids. -/
theorem C138_ramp_continuous (hE : BalanceOk E) (hm : 1 ≤ m) (hG : S.g = stateOf A B C D none) (hst : StableModel S.g) :
    ∃ M M' : Matrix (Fin p) (Fin m) ℝ, SlopeAt S.g p m 0 M M' ∧ ∃ J : ℝ → Matrix (Fin p) (Fin m) ℝ, Tendsto J (𝓝[>] 0) (𝓝 M') ∧
      ∀ h : ℝ, 0 < h → ∀ (t0 : ℝ) (xarg : Option (List ℝ)) (x0 : Fin n → ℝ), InitArg xarg x0 → ∀ v : Fin m → ℝ, ∃ y : ℕ → Fin p → ℝ,
        (∀ N, 2 ≤ N → simulate Nm E S (firstRows (fun k => ((k : ℝ) * h) • v) N) (some (eqGrid N t0 h)) xarg false = .ok (.flat (firstRows y N), eqGrid N t0 h)) ∧
        Tendsto (fun k : ℕ => y k - (((k : ℝ) * h) • (M *ᵥ v) + J h *ᵥ v)) atTop (𝓝 0) := by
  have hA : Hurwitz A := hurwitz_of_stable (B := B) (C := C) (D := D) (by rw [hG] at hst; exact hst)
  have hdet := hurwitz_det hA
  have hs : ((0 : ℝ) • (1 : Matrix (Fin n) (Fin n) ℝ) - A).det ≠ 0 := by
    rw [zero_smul, zero_sub, det_neg]
    exact mul_ne_zero (pow_ne_zero _ (by norm_num)) hdet
  have h0 : ((0 : ℝ) • (1 : Matrix (Fin n) (Fin n) ℝ) - A)⁻¹ = -A⁻¹ := by
    refine inv_eq_left_inv ?_
    rw [zero_smul, zero_sub, Matrix.neg_mul, Matrix.mul_neg, neg_neg, nonsing_inv_mul _ (Ne.isUnit hdet)]
  have hsl := slope_stateOf (B := B) (C := C) (D := D) (dt := none) hs
  rw [h0] at hsl
  refine ⟨_, _, by rw [hG]; exact hsl, fun h => C * ((h • (1 - exp (h • A))⁻¹) * A⁻¹) * B, ?_, fun h hh t0 xarg x0 hx v => ?_⟩
  · have hF : Continuous fun X : Matrix (Fin n) (Fin n) ℝ => C * (X * A⁻¹) * B := by fun_prop
    have e : -(C * (-A⁻¹ * -A⁻¹) * B) = C * (-A⁻¹ * A⁻¹) * B := by
      simp only [Matrix.neg_mul, Matrix.mul_neg, neg_neg]
    rw [e]
    exact hF.continuousAt.tendsto.comp (hold_limit hdet)
  · have hS := hold_schur hA hh
    refine ⟨fun k => C *ᵥ runStates (exp (h • A)) (gam (h • A) (h • B) 0) (fun k => ((k : ℝ) * h) • v) x0 k + D *ᵥ (((k : ℝ) * h) • v), fun N hN =>
      simulate_held (U := Matrix.of fun i : Fin N => ((i : ℝ) * h) • v) hE hN hm hG hh hx (fun k => ((k : ℝ) * h) • v) fun i => rfl, ?_⟩
    set Ad := exp (h • A) with hAd
    set Bd := gam (h • A) (h • B) 0 with hBd
    have hd1 : (1 - Ad).det ≠ 0 := schur_det hS
    have hcomm : A * Ad = Ad * A := by
      have : Commute A (exp (h • A)) := ((Commute.refl A).smul_right h).exp_right
      exact this
    have hAB : A * Bd = (Ad - 1) * B := by
      have := gam_hold (h • A) (h • B)
      rw [← hBd, ← hAd, Matrix.smul_mul, Matrix.mul_smul] at this
      exact smul_right_injective _ hh.ne' this
    have hinv : ∀ w, A *ᵥ (A⁻¹ *ᵥ w) = w := fun w => by rw [mulVec_mulVec, mul_nonsing_inv _ (Ne.isUnit hdet), one_mulVec]
    have hinj : ∀ {w w' : Fin n → ℝ}, A *ᵥ w = A *ᵥ w' → w = w' := fun {w w'} e => by
      have := congrArg (A⁻¹ *ᵥ ·) e
      simpa [mulVec_mulVec, nonsing_inv_mul _ (Ne.isUnit hdet)] using this
    have ha : ∀ w : Fin m → ℝ, -(A⁻¹ *ᵥ (B *ᵥ w)) = Ad *ᵥ -(A⁻¹ *ᵥ (B *ᵥ w)) + Bd *ᵥ w := fun w => by
      apply hinj
      rw [mulVec_add, mulVec_mulVec (M := A) (N := Ad), hcomm, ← mulVec_mulVec, mulVec_neg, mulVec_neg, hinv, mulVec_mulVec (M := A) (N := Bd), hAB, ← mulVec_mulVec, sub_mulVec, one_mulVec]
      abel
    set X := (1 - Ad)⁻¹ with hX
    have hXv : ∀ w, X *ᵥ w - Ad *ᵥ (X *ᵥ w) = w := fun w => by
      have := congrArg (· *ᵥ w) (mul_nonsing_inv _ (Ne.isUnit hd1))
      simpa [Matrix.sub_mul, sub_mulVec, mulVec_mulVec, ← hX] using this
    have h4 := ramp_states (A := Ad) (x := runStates Ad Bd (fun k => ((k : ℝ) * h) • v) x0) (a := -(A⁻¹ *ᵥ (B *ᵥ (h • v)))) (b := X *ᵥ (A⁻¹ *ᵥ (B *ᵥ (h • v)))) (u := Bd *ᵥ (h • v)) (ha _) (by
      have := hXv (A⁻¹ *ᵥ (B *ᵥ (h • v)))
      rw [neg_add_eq_iff_eq_add, ← sub_eq_iff_eq_add]
      exact this) (fun k => by rw [runStates, mul_smul, mulVec_smul])
    have h5 : (fun k : ℕ => (C *ᵥ runStates Ad Bd (fun k => ((k : ℝ) * h) • v) x0 k + D *ᵥ (((k : ℝ) * h) • v)) - (((k : ℝ) * h) • ((C * -A⁻¹ * B + D) *ᵥ v) + (C * ((h • X) * A⁻¹) * B) *ᵥ v)) =
        fun k => C *ᵥ (Ad ^ k *ᵥ (x0 - X *ᵥ (A⁻¹ *ᵥ (B *ᵥ (h • v))))) := by
      funext k
      rw [h4 k]
      simp only [mulVec_add, mulVec_smul, add_mulVec, neg_mulVec, ← mulVec_mulVec, mulVec_neg, smul_add, smul_neg, mul_smul, smul_mulVec, runStates]
      abel
    rw [h5]
    have h6 := (Continuous.matrix_mulVec (continuous_const (y := C)) continuous_id).tendsto' (0 : Fin n → ℝ) 0 (by simp)
    exact h6.comp (pow_mulVec_tendsto hS _)

/-- **C138**, velocity errors of continuous loops: if `s G(s)` tends to an invertible matrix `K` for `s → 0` and the unity feedback loop is stable, the loop follows the ramp `t ↦ t v` with an error whose limit tends
to `K⁻¹ v` for fine grids. -/
theorem C138_velocity_continuous {G R : StateM ℝ} {T : StateObj ℝ P} {K : Matrix (Fin m) (Fin m) ℝ} (hE : BalanceOk E) (hm : 1 ≤ m) (hc : Consistent G m m) (hg : G.isgain = false)
    (hGd : G.d = Arr.of (0 : Matrix (Fin m) (Fin m) ℝ)) (hdt : G.dt = none) (hK : VelocityConst G m m 0 K) (hdet : K.det ≠ 0)
    (e : feedback (.state G) (.state (unity m G.dt)) true = .ok R) (hT : T.g = R) (hst : StableModel R) :
    ∃ J : ℝ → Matrix (Fin m) (Fin m) ℝ, Tendsto J (𝓝[>] 0) (𝓝 K⁻¹) ∧ ∀ h : ℝ, 0 < h → ∀ (t0 : ℝ) (v : Fin m → ℝ), ∃ y : ℕ → Fin m → ℝ,
      (∀ N, 2 ≤ N → simulate Nm E T (firstRows (fun k => ((k : ℝ) * h) • v) N) (some (eqGrid N t0 h)) none false = .ok (.flat (firstRows y N), eqGrid N t0 h)) ∧
      Tendsto (fun k : ℕ => ((k : ℝ) * h) • v - y k) atTop (𝓝 (J h *ᵥ v)) := by
  have hok : DtOk G.dt := by rw [hdt]; exact dtOk_none
  obtain ⟨n, A, B, C, D, hR⟩ := unity_dyn hc hg hGd hok e
  rw [hdt] at hR
  subst hT
  obtain ⟨M, M', h1, J, hJ, h2⟩ := C138_ramp_continuous (Nm := Nm) hE hm hR hst
  obtain ⟨rfl, rfl⟩ := loop_slope hGd hok hK hdet e h1
  refine ⟨fun h => -J h, by simpa using hJ.neg, fun h hh t0 v => ?_⟩
  obtain ⟨y, h3, h4⟩ := h2 h hh t0 none 0 (Or.inl ⟨rfl, rfl⟩) v
  refine ⟨y, h3, ?_⟩
  have h5 := h4.const_sub (-J h *ᵥ v)
  rw [sub_zero] at h5
  refine h5.congr fun k => ?_
  rw [one_mulVec, neg_mulVec]
  abel

/-- Integrators with the gain `K` have the velocity constant `K`. -/
theorem integrator_velocity (K : Matrix (Fin m) (Fin m) ℝ) (s₀ : ℝ) (dt : Option ℝ) : VelocityConst (stateOf (s₀ • (1 : Matrix (Fin m) (Fin m) ℝ)) (1 : Matrix (Fin m) (Fin m) ℝ) K 0 dt) m m s₀ K := by
  have hd : ∀ z : ℝ, z ≠ s₀ → (z • (1 : Matrix (Fin m) (Fin m) ℝ) - s₀ • 1).det ≠ 0 := fun z hz => by
    rw [← sub_smul, det_smul, det_one, mul_one]
    exact pow_ne_zero _ (sub_ne_zero.mpr hz)
  refine ⟨fun z => K * (z • (1 : Matrix (Fin m) (Fin m) ℝ) - s₀ • 1)⁻¹ * 1 + 0, ?_, ?_⟩
  · filter_upwards [self_mem_nhdsWithin] with z hz
    exact hasTF_at_real (hd z hz)
  · refine tendsto_const_nhds.congr' ?_
    filter_upwards [self_mem_nhdsWithin] with z hz
    have hne : z - s₀ ≠ 0 := sub_ne_zero.mpr hz
    have : (z • (1 : Matrix (Fin m) (Fin m) ℝ) - s₀ • 1)⁻¹ = (z - s₀)⁻¹ • 1 := by
      refine inv_eq_left_inv ?_
      rw [← sub_smul, Matrix.smul_mul, Matrix.one_mul, smul_smul, inv_mul_cancel₀ hne, one_smul]
    rw [this, Matrix.mul_one, add_zero, Matrix.mul_smul, Matrix.mul_one, smul_smul, mul_inv_cancel₀ hne, one_smul]

/-- Every stable model meets the hypotheses of the theorems about ramps: the response of `1 / (s + 1)` approaches `t - 1`. -/
example {P : Type} (S : StateObj ℝ P) (hS : S.g = stateOf !![-1] !![1] !![1] (!![0] : Matrix (Fin 1) (Fin 1) ℝ) none) : SlopeAt S.g 1 1 0 !![1] !![-1] ∧ StableModel S.g := by
  have hA : Hurwitz (!![-1] : Matrix (Fin 1) (Fin 1) ℝ) := fun z hz => by
    unfold IsEig at hz
    rw [det_fin_one] at hz
    simp at hz
    rw [eq_neg_of_add_eq_zero_left hz]
    norm_num
  rw [hS]
  refine ⟨?_, stable_of_hurwitz hA⟩
  have h1 := slope_stateOf (A := (!![-1] : Matrix (Fin 1) (Fin 1) ℝ)) (B := (!![1] : Matrix (Fin 1) (Fin 1) ℝ)) (C := (!![1] : Matrix (Fin 1) (Fin 1) ℝ)) (D := !![0]) (dt := none) (s := 0) (by simp)
  have e : ((0 : ℝ) • (1 : Matrix (Fin 1) (Fin 1) ℝ) - !![-1])⁻¹ = 1 := by
    refine inv_eq_left_inv ?_
    ext i j
    fin_cases i; fin_cases j; simp
  rw [e] at h1
  convert h1 using 1 <;> (ext i j; fin_cases i; fin_cases j; simp)

/-- A sampled integrator with the gain one half in a unity feedback loop follows ramps two steps behind. -/
example {P : Type} (N : Numerics ℝ P) : ∃ R, feedback (.state (stateOf ((1 : ℝ) • (1 : Matrix (Fin 1) (Fin 1) ℝ)) (1 : Matrix (Fin 1) (Fin 1) ℝ) !![1 / 2] 0 (some 1))) (.state (unity 1 (some 1))) true = .ok R ∧
    ∀ T : StateObj ℝ P, T.g = R → ∃ y, SimulatesTo N plainDNum T 1 none (fun k => (k : ℝ) • ![1]) y ∧ Tendsto (fun k : ℕ => (k : ℝ) • ![1] - y k) atTop (𝓝 ![2]) := by
  have hG : Consistent (stateOf ((1 : ℝ) • (1 : Matrix (Fin 1) (Fin 1) ℝ)) (1 : Matrix (Fin 1) (Fin 1) ℝ) (!![1 / 2] : Matrix (Fin 1) (Fin 1) ℝ) (0 : Matrix (Fin 1) (Fin 1) ℝ) (some 1)) 1 1 :=
    ⟨⟨rfl, rfl⟩, fun _ => ⟨rfl, rfl, rfl, rfl, rfl⟩⟩
  obtain ⟨R, hR⟩ := feedback_exists hG (unity_consistent 1 (some 1)) dtOk_one rfl rfl rfl (E := 1) rfl (Matrix.mul_zero _) (by norm_num [spacing10]) true
  refine ⟨R, hR, fun T hT => ?_⟩
  have hst : StableModel R := (unity_loop_stable dtOk_one hR).mpr ((motions_iff (dt := some 1)).mpr fun z hz => by
    unfold IsEig at hz
    rw [det_fin_one] at hz
    simp at hz
    have : z = 1 / 2 := by linear_combination hz
    rw [this]
    norm_num [StablePoint])
  obtain ⟨y, h1, h2⟩ := C138_velocity (Nm := N) (E := plainDNum) le_rfl hG rfl rfl one_pos rfl (integrator_velocity !![1 / 2] 1 (some 1)) (by simp) hR hT hst ![1]
  refine ⟨y, h1, ?_⟩
  have e : (!![1 / 2] : Matrix (Fin 1) (Fin 1) ℝ)⁻¹ = !![2] := by
    refine inv_eq_left_inv ?_
    ext i j
    fin_cases i; fin_cases j; simp [Matrix.mul_apply]
  rw [e] at h2
  convert h2 using 2
  ext i
  fin_cases i
  simp [Matrix.mulVec, dotProduct]

end Harold
