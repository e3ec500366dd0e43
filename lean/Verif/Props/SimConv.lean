import Verif.Props.Sim
import Verif.Lemmas.LqrLoop
import Verif.Props.HoldInverse
import Mathlib.Analysis.ODE.Gronwall
import Mathlib.Topology.UniformSpace.HeineCantor

/-!
# C104: simulations of continuous models converge to the true response when the grid is refined
-/

namespace Harold

open Matrix Harold.Spec Set NormedSpace

variable {P : Type} {Nm : Numerics ℝ P} {E : DNum} {S : StateObj ℝ P} {n m p N : ℕ}
  {A : Matrix (Fin n) (Fin n) ℝ} {B : Matrix (Fin n) (Fin m) ℝ} {C : Matrix (Fin p) (Fin n) ℝ} {D : Matrix (Fin p) (Fin m) ℝ}
  {xarg : Option (List ℝ)} {h : ℝ}

/-- The solution for a constant input. -/
theorem held_exists (A : Matrix (Fin n) (Fin n) ℝ) (B : Matrix (Fin n) (Fin m) ℝ) (a : ℝ) (z : Fin n → ℝ) (u₀ : Fin m → ℝ) :
    ∃ ζ : ℝ → Fin n → ℝ, ζ a = z ∧ ∀ b, IsSolution A B (fun _ => u₀) ζ a b := by
  have eM : zohM A B = blk A B 0 0 := by
    ext i j
    refine Fin.addCases (fun i => ?_) (fun i => ?_) i <;> refine Fin.addCases (fun j => ?_) (fun j => ?_) j <;> simp [zohM, blk, vcat, hcat]
  have eW : ∀ t, exp ((t - a) • zohM A B) *ᵥ Fin.append z u₀ = Fin.append (exp ((t - a) • A) *ᵥ z + gam ((t - a) • A) ((t - a) • B) 0 *ᵥ u₀) u₀ := by
    intro t
    rw [eM, smul_blk, smul_zero, smul_zero, exp_blk, blk_mulVec, zero_mulVec, exp_zero, one_mulVec, zero_add]
  have hd : ∀ t, HasDerivAt (fun t => exp ((t - a) • A) *ᵥ z + gam ((t - a) • A) ((t - a) • B) 0 *ᵥ u₀)
      (A *ᵥ (exp ((t - a) • A) *ᵥ z + gam ((t - a) • A) ((t - a) • B) 0 *ᵥ u₀) + B *ᵥ u₀) t := by
    intro t
    have h1 := (hasDerivAt_exp_mulVec (zohM A B) (Fin.append z u₀) (t - a)).comp_sub_const t a
    simp only [eW] at h1
    rw [zohM_mulVec] at h1
    refine hasDerivAt_pi.mpr fun i => ?_
    have h2 := hasDerivAt_pi.mp h1 (Fin.castAdd m i)
    simpa using h2
  refine ⟨fun t => exp ((t - a) • A) *ᵥ z + gam ((t - a) • A) ((t - a) • B) 0 *ᵥ u₀, ?_, fun b => ⟨fun t _ => (hd t).continuousAt.continuousWithinAt, fun t _ => (hd t).hasDerivWithinAt⟩⟩
  funext i
  have h1 := congrFun (eW a) (Fin.castAdd m i)
  simp only [sub_self, zero_smul, exp_zero, one_mulVec, Fin.append_left] at h1
  simpa using h1.symm

theorem gronwall_le {δ K ε x : ℝ} (hK : 0 ≤ K) (hε : 0 ≤ ε) : gronwallBound δ K ε x ≤ (δ + ε * x) * Real.exp (K * x) := by
  rcases hK.eq_or_lt with rfl | hK
  · simp [gronwallBound_K0]
  · rw [gronwallBound_of_K_ne_0 hK.ne']
    simp only
    have h1 : Real.exp (K * x) - 1 ≤ K * x * Real.exp (K * x) := by
      have h2 := Real.add_one_le_exp (-(K * x))
      have h3 : Real.exp (-(K * x)) * Real.exp (K * x) = 1 := by rw [← Real.exp_add]; simp
      nlinarith [Real.exp_pos (K * x)]
    have h2 : ε / K * (Real.exp (K * x) - 1) ≤ ε / K * (K * x * Real.exp (K * x)) := mul_le_mul_of_nonneg_left h1 (by positivity)
    have h3 : ε / K * (K * x * Real.exp (K * x)) = ε * x * Real.exp (K * x) := by field_simp
    linarith

/-- One step: the error grows at most by the factor `exp(α h)`, and the change of the input inside the step adds at most `β ε h`. -/
theorem zoh_error {x : ℝ → Fin n → ℝ} {u : ℝ → Fin m → ℝ} {a b α β ε : ℝ} {z : Fin n → ℝ} {u₀ : Fin m → ℝ} (hab : a ≤ b) (hα0 : 0 ≤ α) (hβ0 : 0 ≤ β) (hε0 : 0 ≤ ε)
    (hα : ∀ v, ‖A *ᵥ v‖ ≤ α * ‖v‖) (hβ : ∀ v, ‖B *ᵥ v‖ ≤ β * ‖v‖) (hx : IsSolution A B u x a b) (hu : ∀ t ∈ Ico a b, ‖u t - u₀‖ ≤ ε) :
    ‖x b - ((exp ((b - a) • zohM A B)).submatrix (Fin.castAdd m) (Fin.castAdd m) *ᵥ z + (exp ((b - a) • zohM A B)).submatrix (Fin.castAdd m) (Fin.natAdd n) *ᵥ u₀)‖
      ≤ (‖x a - z‖ + β * ε * (b - a)) * Real.exp (α * (b - a)) := by
  obtain ⟨ζ, h1, h2⟩ := held_exists A B a z u₀
  rw [← h1, ← zoh_step hab (h2 b) (fun _ _ => rfl)]
  have h3 := norm_le_gronwallBound_of_norm_deriv_right_le (f := fun t => x t - ζ t) (f' := fun t => A *ᵥ (x t - ζ t) + B *ᵥ (u t - u₀)) (δ := ‖x a - ζ a‖) (K := α) (ε := β * ε)
    (a := a) (b := b) (hx.1.sub (h2 b).1) (fun t ht => by
      have h4 := (hx.2 t ht).sub ((h2 b).2 t ht)
      have h5 : A *ᵥ (x t - ζ t) + B *ᵥ (u t - u₀) = A *ᵥ x t + B *ᵥ u t - (A *ᵥ ζ t + B *ᵥ u₀) := by
        rw [mulVec_sub, mulVec_sub]
        abel
      rw [h5]
      exact h4) le_rfl (fun t ht => by
      refine (norm_add_le _ _).trans (add_le_add (hα _) ((hβ _).trans ?_))
      exact mul_le_mul_of_nonneg_left (hu t ht) hβ0) b ⟨hab, le_rfl⟩
  exact h3.trans (gronwall_le hα0 (mul_nonneg hβ0 hε0))

/-- **C104**, the error of a simulation on an equidistant grid: if the input changes by at most `ε` between two grid points, the returned samples differ from the outputs of the true response by at
most `γ β ε T exp(α T)` at the time `t0 + T`. The numbers `α`, `β`, `γ` bound the matrices of the model (for example the largest row sums of absolute values). -/
theorem C104_error (hE : BalanceOk E) (hN : 2 ≤ N) (hm : 1 ≤ m) (hG : S.g = ⟨Arr.of A, Arr.of B, Arr.of C, Arr.of D, none, false⟩) {t0 : ℝ} (hh : 0 < h)
    {α β γ ε : ℝ} (hα0 : 0 ≤ α) (hβ0 : 0 ≤ β) (hγ0 : 0 ≤ γ) (hε0 : 0 ≤ ε) (hα : ∀ v, ‖A *ᵥ v‖ ≤ α * ‖v‖) (hβ : ∀ v, ‖B *ᵥ v‖ ≤ β * ‖v‖) (hγ : ∀ v, ‖C *ᵥ v‖ ≤ γ * ‖v‖)
    {u : ℝ → Fin m → ℝ} {x : ℝ → Fin n → ℝ} (hx : IsSolution A B u x t0 (t0 + (N - 1) * h))
    (hu : ∀ i : ℕ, i + 1 < N → ∀ τ ∈ Ico (t0 + i * h) (t0 + (i + 1) * h), ‖u τ - u (t0 + i * h)‖ ≤ ε) (hx0 : InitArg xarg (x t0)) :
    ∃ Y : Matrix (Fin N) (Fin p) ℝ, simulate Nm E S (Arr.of (Matrix.of fun i : Fin N => u (t0 + i * h))) (some (eqGrid N t0 h)) xarg false = .ok (.flat (Arr.of Y), eqGrid N t0 h) ∧
      ∀ i k, |Y i k - (C *ᵥ x (t0 + i * h) + D *ᵥ u (t0 + i * h)) k| ≤ γ * (β * ε * (i * h) * Real.exp (α * (i * h))) := by
  have hgrid := eqGrid_ok (t0 := t0) hN hh
  have h0 : (eqGrid N t0 h).getD 1 0 - (eqGrid N t0 h).getD 0 0 = h := by
    rw [eqGrid_get (by omega), eqGrid_get (by omega)]; push_cast; ring
  set U : Matrix (Fin N) (Fin m) ℝ := Matrix.of fun i : Fin N => u (t0 + i * h) with hU
  have htime : timeArray S.g.dt (some (Arr.of U)) (some (eqGrid N t0 h)) = .ok (eqGrid N t0 h) := by
    unfold timeArray
    exact checkT_ok hgrid (by rw [hG]; intro d hd; cases hd)
  obtain ⟨Sd, h1, h2, -⟩ := discretize_zoh_of (N := Nm) (pw := 0) (q := none) hE hh hG
  have hmod : simModel Nm E S (eqGrid N t0 h) = .ok Sd.g := by
    unfold simModel
    rw [hG, h0]
    simp only [h1, bind, Except.bind]
  rw [h2] at hmod
  refine ⟨_, simulate_flat hN hm (by rw [hG]) (by rw [hG]; rfl) (by rw [hG]; rfl) htime (by simp [eqGrid]) hmod hx0 false (Or.inl rfl), ?_⟩
  set w : ℕ → Fin m → ℝ := fun k => u (t0 + k * h) with hw
  have hUw : ∀ i : Fin N, U i = w i := fun i => rfl
  set Ad := (NormedSpace.exp (h • zohM A B)).submatrix (Fin.castAdd m) (Fin.castAdd m) with hAd
  set Bd := (NormedSpace.exp (h • zohM A B)).submatrix (Fin.castAdd m) (Fin.natAdd n) with hBd
  set z : ℕ → Fin n → ℝ := fun k => Ad ^ k *ᵥ x t0 + ∑ j ∈ Finset.range k, Ad ^ (k - 1 - j) *ᵥ (Bd *ᵥ w j) with hz
  have hzs : ∀ k, z (k + 1) = Ad *ᵥ z k + Bd *ᵥ w k := by
    intro k
    simp only [hz]
    rw [Finset.sum_range_succ, Matrix.mulVec_add, pow_succ', ← Matrix.mulVec_mulVec, Matrix.mulVec_sum, add_assoc]
    have e1 : ∑ j ∈ Finset.range k, Ad ^ (k + 1 - 1 - j) *ᵥ (Bd *ᵥ w j) = ∑ j ∈ Finset.range k, Ad *ᵥ (Ad ^ (k - 1 - j) *ᵥ (Bd *ᵥ w j)) := by
      refine Finset.sum_congr rfl fun j hj => ?_
      rw [Matrix.mulVec_mulVec (Bd *ᵥ w j) Ad, ← pow_succ']
      have := Finset.mem_range.mp hj
      congr 2
      omega
    rw [e1]
    simp [add_assoc]
  have key : ∀ k : ℕ, k < N → ‖x (t0 + k * h) - z k‖ ≤ β * ε * (k * h) * Real.exp (α * (k * h)) := by
    intro k
    induction k with
    | zero => intro _; simp [hz]
    | succ k ih =>
      intro hk
      have hk' : k < N := by omega
      have hkN : (k : ℝ) + 1 ≤ N - 1 := by
        have : ((k + 1 + 1 : ℕ) : ℝ) ≤ N := by exact_mod_cast hk
        push_cast at this
        linarith
      have hstep := zoh_error (x := x) (u := u) (a := t0 + k * h) (b := t0 + (k + 1) * h) (z := z k) (u₀ := w k) (by nlinarith) hα0 hβ0 hε0 hα hβ
        (hx.mono (by nlinarith [mul_nonneg (Nat.cast_nonneg (α := ℝ) k) hh.le]) (by nlinarith)) (hu k hk)
      have e : t0 + (k + 1) * h - (t0 + k * h) = h := by ring
      rw [e, ← hAd, ← hBd, ← hzs] at hstep
      push_cast
      refine hstep.trans ?_
      have e1 : Real.exp (α * ((k + 1) * h)) = Real.exp (α * (k * h)) * Real.exp (α * h) := by rw [← Real.exp_add]; congr 1; ring
      have e2 : β * ε * ((k + 1) * h) * Real.exp (α * ((k + 1) * h)) = (β * ε * (k * h) * Real.exp (α * (k * h)) + β * ε * h * Real.exp (α * (k * h))) * Real.exp (α * h) := by
        rw [e1]; ring
      rw [e2]
      refine mul_le_mul_of_nonneg_right (add_le_add (ih hk') ?_) (Real.exp_pos _).le
      refine le_mul_of_one_le_right (by positivity) ?_
      exact Real.one_le_exp (by positivity)
  intro i k
  rw [Matrix.of_apply, output_range w hUw i]
  have e : C *ᵥ (Ad ^ (i : ℕ) *ᵥ x t0) + ∑ j ∈ Finset.range i, C *ᵥ (Ad ^ ((i : ℕ) - 1 - j) *ᵥ (Bd *ᵥ w j)) + D *ᵥ w i = C *ᵥ z i + D *ᵥ w i := by
    simp only [hz]
    rw [Matrix.mulVec_add, Matrix.mulVec_sum]
  have e3 : (C *ᵥ z i + D *ᵥ w i) k - (C *ᵥ x (t0 + i * h) + D *ᵥ u (t0 + i * h)) k = -((C *ᵥ (x (t0 + i * h) - z i)) k) := by
    rw [mulVec_sub]
    simp only [Pi.add_apply, Pi.sub_apply, hw]
    ring
  have e4 := congrFun e k
  refine le_trans (le_of_eq ?_) (((norm_le_pi_norm (C *ᵥ (x (t0 + i * h) - z i)) k).trans (hγ _)).trans (mul_le_mul_of_nonneg_left (key i i.isLt) hγ0))
  rw [Real.norm_eq_abs, ← abs_neg ((C *ᵥ (x (t0 + i * h) - z i)) k), ← e3]
  exact congrArg (fun r => |r - (C *ᵥ x (t0 + i * h) + D *ᵥ u (t0 + i * h)) k|) e4

theorem matrix_bound {r c : ℕ} (M : Matrix (Fin r) (Fin c) ℝ) : ∃ α : ℝ, 0 ≤ α ∧ ∀ v, ‖M *ᵥ v‖ ≤ α * ‖v‖ :=
  ⟨‖(Matrix.mulVecLin M).toContinuousLinearMap‖, norm_nonneg _, fun v => (Matrix.mulVecLin M).toContinuousLinearMap.le_opNorm v⟩

/-- **C104**, inputs with bounded slope: halving the step of the grid halves the bound on the error. -/
theorem C104_lipschitz (hE : BalanceOk E) (hN : 2 ≤ N) (hm : 1 ≤ m) (hG : S.g = ⟨Arr.of A, Arr.of B, Arr.of C, Arr.of D, none, false⟩) {t0 : ℝ} (hh : 0 < h)
    {α β γ L : ℝ} (hα0 : 0 ≤ α) (hβ0 : 0 ≤ β) (hγ0 : 0 ≤ γ) (hL0 : 0 ≤ L) (hα : ∀ v, ‖A *ᵥ v‖ ≤ α * ‖v‖) (hβ : ∀ v, ‖B *ᵥ v‖ ≤ β * ‖v‖) (hγ : ∀ v, ‖C *ᵥ v‖ ≤ γ * ‖v‖)
    {u : ℝ → Fin m → ℝ} {x : ℝ → Fin n → ℝ} (hx : IsSolution A B u x t0 (t0 + (N - 1) * h))
    (hu : ∀ s τ, ‖u s - u τ‖ ≤ L * |s - τ|) (hx0 : InitArg xarg (x t0)) :
    ∃ Y : Matrix (Fin N) (Fin p) ℝ, simulate Nm E S (Arr.of (Matrix.of fun i : Fin N => u (t0 + i * h))) (some (eqGrid N t0 h)) xarg false = .ok (.flat (Arr.of Y), eqGrid N t0 h) ∧
      ∀ i k, |Y i k - (C *ᵥ x (t0 + i * h) + D *ᵥ u (t0 + i * h)) k| ≤ (γ * β * L * (i * h) * Real.exp (α * (i * h))) * h := by
  obtain ⟨Y, h1, h2⟩ := C104_error (Nm := Nm) (P := P) (S := S) (xarg := xarg) (ε := L * h) (D := D) hE hN hm hG hh hα0 hβ0 hγ0 (by positivity) hα hβ hγ hx (fun i _ τ hτ => by
    refine (hu τ _).trans (mul_le_mul_of_nonneg_left ?_ hL0)
    rw [abs_of_nonneg (by linarith [hτ.1])]
    nlinarith [hτ.2]) hx0
  exact ⟨Y, h1, fun i k => (h2 i k).trans (le_of_eq (by ring))⟩

/-- **C104**: for a continuous input, every accuracy is reached by all sufficiently fine grids. -/
theorem C104_converges (hE : BalanceOk E) (hm : 1 ≤ m) (hG : S.g = ⟨Arr.of A, Arr.of B, Arr.of C, Arr.of D, none, false⟩) {t0 T : ℝ} (hT : 0 ≤ T)
    {u : ℝ → Fin m → ℝ} (hu : ContinuousOn u (Icc t0 (t0 + T))) {x : ℝ → Fin n → ℝ} (hx : IsSolution A B u x t0 (t0 + T)) (hx0 : InitArg xarg (x t0)) {δ : ℝ} (hδ : 0 < δ) :
    ∃ h₀ > 0, ∀ (N : ℕ) (h : ℝ), 2 ≤ N → 0 < h → h ≤ h₀ → (N - 1) * h ≤ T →
      ∃ Y : Matrix (Fin N) (Fin p) ℝ, simulate Nm E S (Arr.of (Matrix.of fun i : Fin N => u (t0 + i * h))) (some (eqGrid N t0 h)) xarg false = .ok (.flat (Arr.of Y), eqGrid N t0 h) ∧
        ∀ i k, |Y i k - (C *ᵥ x (t0 + i * h) + D *ᵥ u (t0 + i * h)) k| ≤ δ := by
  obtain ⟨α, hα0, hα⟩ := matrix_bound A
  obtain ⟨β, hβ0, hβ⟩ := matrix_bound B
  obtain ⟨γ, hγ0, hγ⟩ := matrix_bound C
  set M := γ * β * T * Real.exp (α * T) with hM
  have hM0 : 0 ≤ M := by positivity
  have hε : 0 < δ / (M + 1) := by positivity
  obtain ⟨h₀, h1, h2⟩ := Metric.uniformContinuousOn_iff_le.mp (isCompact_Icc.uniformContinuousOn_of_continuous hu) _ hε
  refine ⟨h₀, h1, fun N h hN hh hle hNT => ?_⟩
  have hi : ∀ i : ℕ, i < N → (i : ℝ) * h ≤ (N - 1) * h := fun i hi => by
    have : ((i + 1 : ℕ) : ℝ) ≤ N := by exact_mod_cast hi
    push_cast at this
    nlinarith
  have hi0 : ∀ i : ℕ, 0 ≤ (i : ℝ) * h := fun i => by positivity
  obtain ⟨Y, h3, h4⟩ := C104_error (Nm := Nm) (P := P) (S := S) (xarg := xarg) (ε := δ / (M + 1)) (D := D) hE hN hm hG hh hα0 hβ0 hγ0 hε.le hα hβ hγ (hx.mono le_rfl (by linarith))
    (fun i hiN τ hτ => by
      have e1 := hi (i + 1) hiN
      push_cast at e1
      rw [← dist_eq_norm]
      refine h2 τ ⟨by linarith [hτ.1, hi0 i], by linarith [hτ.2]⟩ _ ⟨by linarith [hi0 i], by linarith [hi i (by omega)]⟩ ?_
      rw [Real.dist_eq, abs_of_nonneg (by linarith [hτ.1])]
      nlinarith [hτ.2]) hx0
  refine ⟨Y, h3, fun i k => (h4 i k).trans ?_⟩
  have e1 : (i : ℝ) * h ≤ T := (hi i i.isLt).trans hNT
  have e2 : Real.exp (α * (i * h)) ≤ Real.exp (α * T) := Real.exp_le_exp.mpr (mul_le_mul_of_nonneg_left e1 hα0)
  calc γ * (β * (δ / (M + 1)) * (i * h) * Real.exp (α * (i * h))) ≤ γ * (β * (δ / (M + 1)) * T * Real.exp (α * T)) := by
        have := hi0 i
        gcongr
    _ = M / (M + 1) * δ := by rw [hM]; ring
    _ ≤ 1 * δ := mul_le_mul_of_nonneg_right ((div_le_one (by positivity)).mpr (by linarith)) hδ.le
    _ = δ := one_mul _

/-- The hypotheses of `C104_converges` and of `C104_lipschitz` are met by the ramp response of an integrator. -/
example : (integObj P).g = ⟨Arr.of (!![0] : Matrix (Fin 1) (Fin 1) ℝ), Arr.of (!![1] : Matrix (Fin 1) (Fin 1) ℝ), Arr.of (!![1] : Matrix (Fin 1) (Fin 1) ℝ),
      Arr.of (!![0] : Matrix (Fin 1) (Fin 1) ℝ), none, false⟩ ∧
    IsSolution (!![0] : Matrix (Fin 1) (Fin 1) ℝ) (!![1] : Matrix (Fin 1) (Fin 1) ℝ) (fun t _ => t) (fun t _ => t ^ 2 / 2) 0 (0 + 3) ∧
    (∀ s τ : ℝ, ‖(fun _ : Fin 1 => s) - (fun _ => τ)‖ ≤ 1 * |s - τ|) ∧
    InitArg none ((fun (t : ℝ) (_ : Fin 1) => t ^ 2 / 2) 0) := by
  refine ⟨rfl, ⟨continuousOn_pi.mpr fun i => by fun_prop, fun t _ => ?_⟩, fun s τ => ?_, Or.inl ⟨rfl, by funext i; simp⟩⟩
  · refine hasDerivWithinAt_pi.mpr fun i => ?_
    have h1 : HasDerivAt (fun t : ℝ => t ^ 2 / 2) t t := by
      have h2 := (hasDerivAt_pow 2 t).div_const 2
      have h3 : ((2 : ℕ) : ℝ) * t ^ (2 - 1) / 2 = t := by norm_num
      rwa [h3] at h2
    convert h1.hasDerivWithinAt using 1
    fin_cases i
    simp [dotProduct]
  · rw [one_mul]
    exact (pi_norm_le_iff_of_nonneg (abs_nonneg _)).mpr fun i => le_rfl

end Harold
