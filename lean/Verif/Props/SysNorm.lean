import Verif.Spec.SysNorm
import Verif.Lemmas.Decay
import Verif.Props.Lqr
import Verif.Props.Lyap

/-!
# C55: the H2 norm
-/

namespace Harold

open Matrix Spec Filter Topology

variable {n m p : ℕ}

theorem trace_of (M : Matrix (Fin p) (Fin p) ℝ) : (Arr.of M).trace = M.trace := by
  unfold Arr.trace Matrix.trace
  simp only [Arr.of_r, Arr.of_c, min_self]
  rw [Finset.sum_range]
  refine Finset.sum_congr rfl fun i _ => ?_
  simp [Arr.wk]

theorem fro2_eq_trace (M : Matrix (Fin p) (Fin m) ℝ) : fro2 M = (M * Mᵀ).trace := by
  simp [fro2, Matrix.trace, Matrix.mul_apply, sq]

theorem fro2_nonneg (M : Matrix (Fin p) (Fin m) ℝ) : 0 ≤ fro2 M := Finset.sum_nonneg fun _ _ => Finset.sum_nonneg fun _ _ => sq_nonneg _

theorem schur_pow_tendsto_matrix {A : Matrix (Fin n) (Fin n) ℝ} (h : Schur A) : Tendsto (fun k : ℕ => A ^ k) atTop (𝓝 0) :=
  tendsto_pi_nhds.mpr fun i => tendsto_pi_nhds.mpr fun j => schur_pow_tendsto h i j

theorem hurwitz_exp_tendsto_matrix {A : Matrix (Fin n) (Fin n) ℝ} (h : Hurwitz A) : Tendsto (fun t : ℝ => NormedSpace.exp (t • A)) atTop (𝓝 0) :=
  tendsto_pi_nhds.mpr fun i => tendsto_pi_nhds.mpr fun j => hurwitz_exp_tendsto h i j

theorem quad_trace_tendsto {ι : Type} {l : Filter ι} {f : ι → Matrix (Fin n) (Fin n) ℝ} (hf : Tendsto f l (𝓝 0)) (X : Matrix (Fin n) (Fin n) ℝ) (C : Matrix (Fin p) (Fin n) ℝ) :
    Tendsto (fun k => (C * f k * X * (f k)ᵀ * Cᵀ).trace) l (𝓝 0) := by
  have hc : Continuous fun M : Matrix (Fin n) (Fin n) ℝ => (C * M * X * Mᵀ * Cᵀ).trace :=
    Continuous.matrix_trace <| (((continuous_const.matrix_mul continuous_id).matrix_mul continuous_const).matrix_mul continuous_id.matrix_transpose).matrix_mul continuous_const
  have := (hc.tendsto 0).comp hf
  simp only [Matrix.mul_zero, Matrix.zero_mul, Matrix.trace_zero] at this
  exact this

theorem energy_disc {A X : Matrix (Fin n) (Fin n) ℝ} {B : Matrix (Fin n) (Fin m) ℝ} {C : Matrix (Fin p) (Fin n) ℝ} (hA : Schur A) (hX : A * X * Aᵀ - X + B * Bᵀ = 0) :
    HasSum (fun k => fro2 (C * A ^ k * B)) (C * X * Cᵀ).trace := by
  rw [hasSum_iff_tendsto_nat_of_nonneg fun k => fro2_nonneg _]
  have hX' : X = A * X * Aᵀ + B * Bᵀ := by rw [← sub_eq_zero, ← neg_eq_zero, ← hX]; abel
  have key : ∀ T, ∑ k ∈ Finset.range T, fro2 (C * A ^ k * B) = (C * X * Cᵀ).trace - (C * A ^ T * X * (A ^ T)ᵀ * Cᵀ).trace := by
    intro T
    induction T with
    | zero => simp
    | succ T ih =>
      rw [Finset.sum_range_succ, ih, fro2_eq_trace]
      have e : C * A ^ T * X * (A ^ T)ᵀ * Cᵀ = C * A ^ (T + 1) * X * (A ^ (T + 1))ᵀ * Cᵀ + C * A ^ T * B * (C * A ^ T * B)ᵀ := by
        conv_lhs => rw [hX']
        rw [pow_succ]
        simp only [transpose_mul, Matrix.mul_add, Matrix.add_mul, Matrix.mul_assoc]
      rw [e, Matrix.trace_add]
      ring
  have := (tendsto_const_nhds (x := (C * X * Cᵀ).trace)).sub (quad_trace_tendsto (schur_pow_tendsto_matrix hA) X C)
  rw [sub_zero] at this
  exact this.congr fun T => (key T).symm

theorem denergy_of {A X : Matrix (Fin n) (Fin n) ℝ} {B : Matrix (Fin n) (Fin m) ℝ} {C : Matrix (Fin p) (Fin n) ℝ} (D : Matrix (Fin p) (Fin m) ℝ) (hA : Schur A)
    (hX : A * X * Aᵀ - X + B * Bᵀ = 0) : DEnergy A B C D (C * X * Cᵀ + D * Dᵀ).trace := by
  unfold DEnergy
  rw [← hasSum_nat_add_iff' 1, Finset.sum_range_one, Matrix.trace_add, dimpulse, fro2_eq_trace D, add_sub_cancel_right]
  exact energy_disc hA hX

theorem energy_cont {A X : Matrix (Fin n) (Fin n) ℝ} {B : Matrix (Fin n) (Fin m) ℝ} {C : Matrix (Fin p) (Fin n) ℝ} (hA : Hurwitz A) (hX : A * X + X * Aᵀ + B * Bᵀ = 0) :
    CEnergy A B C (C * X * Cᵀ).trace := by
  set v : Fin p → ℝ → Fin n → ℝ := fun i t j => (C * NormedSpace.exp (t • A)) i j with hv
  have hvd : ∀ i t, HasDerivAt (v i) (Aᵀ *ᵥ v i t) t := by
    intro i t
    refine hasDerivAt_pi.mpr fun j => ?_
    have h1 : HasDerivAt (fun s => ∑ l, C i l * (NormedSpace.exp (s • A)) l j) (∑ l, C i l * (NormedSpace.exp (t • A) * A) l j) t :=
      HasDerivAt.fun_sum fun l _ => (hasDerivAt_exp_entry A t l j).const_mul _
    have h2 : (Aᵀ *ᵥ v i t) j = ∑ l, C i l * (NormedSpace.exp (t • A) * A) l j := by
      rw [mulVec_transpose]
      show (v i t ᵥ* A) j = (C * (NormedSpace.exp (t • A) * A)) i j
      rw [← Matrix.mul_assoc]
      rfl
    rw [h2]
    exact h1
  have hq : ∀ i t, HasDerivAt (fun t => v i t ⬝ᵥ X *ᵥ v i t) (-(v i t ⬝ᵥ (B * Bᵀ) *ᵥ v i t)) t := by
    intro i t
    have h1 := hasDerivAt_quad X (hvd i t)
    have h2 : (Aᵀ *ᵥ v i t) ⬝ᵥ X *ᵥ v i t + v i t ⬝ᵥ X *ᵥ Aᵀ *ᵥ v i t = -(v i t ⬝ᵥ (B * Bᵀ) *ᵥ v i t) := by
      have h3 := congrArg (fun M => v i t ⬝ᵥ M *ᵥ v i t) hX
      simp only [add_mulVec, dotProduct_add, zero_mulVec, dotProduct_zero, ← mulVec_mulVec] at h3
      rw [bil_left, transpose_transpose, ← mulVec_mulVec]
      linarith
    rwa [h2] at h1
  have hF : ∀ t, fro2 (C * NormedSpace.exp (t • A) * B) = ∑ i, v i t ⬝ᵥ (B * Bᵀ) *ᵥ v i t := by
    intro t
    unfold fro2
    refine Finset.sum_congr rfl fun i _ => ?_
    rw [← mulVec_mulVec, ← transpose_transpose B, ← bil_left, transpose_transpose]
    refine Finset.sum_congr rfl fun j _ => ?_
    have : (C * NormedSpace.exp (t • A) * B) i j = (Bᵀ *ᵥ v i t) j := by rw [mulVec_transpose]; rfl
    rw [this, sq]
  have hG : ∀ t, (C * NormedSpace.exp (t • A) * X * (NormedSpace.exp (t • A))ᵀ * Cᵀ).trace = ∑ i, v i t ⬝ᵥ X *ᵥ v i t := by
    intro t
    unfold Matrix.trace
    refine Finset.sum_congr rfl fun i _ => ?_
    have : C * NormedSpace.exp (t • A) * X * (NormedSpace.exp (t • A))ᵀ * Cᵀ = C * NormedSpace.exp (t • A) * X * (C * NormedSpace.exp (t • A))ᵀ := by
      rw [transpose_mul, Matrix.mul_assoc _ (NormedSpace.exp (t • A))ᵀ]
    rw [this, diag_apply, Matrix.mul_apply, dotProduct_mulVec]
    rfl
  have hcont : ∀ i, Continuous (v i) := fun i => continuous_iff_continuousAt.mpr fun t => (hvd i t).continuousAt
  have key : ∀ T : ℝ, ∫ t in (0 : ℝ)..T, fro2 (C * NormedSpace.exp (t • A) * B)
      = (C * X * Cᵀ).trace - (C * NormedSpace.exp (T • A) * X * (NormedSpace.exp (T • A))ᵀ * Cᵀ).trace := by
    intro T
    have h1 : ∀ t ∈ Set.uIcc 0 T, HasDerivAt (fun t => ∑ i, v i t ⬝ᵥ X *ᵥ v i t) (∑ i, -(v i t ⬝ᵥ (B * Bᵀ) *ᵥ v i t)) t := fun t _ =>
      HasDerivAt.fun_sum fun i _ => hq i t
    have h2 := intervalIntegral.integral_eq_sub_of_hasDerivAt h1 (ContinuousOn.intervalIntegrable
      (continuousOn_finset_sum _ fun i _ => (continuousOn_bil _ (hcont i).continuousOn (hcont i).continuousOn).neg))
    have h3 : (C * X * Cᵀ).trace = ∑ i, v i 0 ⬝ᵥ X *ᵥ v i 0 := by rw [← hG]; simp
    rw [hG, h3, ← neg_sub, ← h2, ← intervalIntegral.integral_neg]
    refine intervalIntegral.integral_congr fun t _ => ?_
    simp only [hF, Finset.sum_neg_distrib, neg_neg]
  have := (tendsto_const_nhds (x := (C * X * Cᵀ).trace)).sub (quad_trace_tendsto (hurwitz_exp_tendsto_matrix hA) X C)
  rw [sub_zero] at this
  exact this.congr fun T => (key T).symm

theorem npSqrt_of_nonneg {x : ℝ} (h : 0 ≤ x) : npSqrt x = .fin (Real.sqrt x) := by
  rw [npSqrt, if_neg (not_lt.mpr h)]

/-- **C55, discrete time.** For a stable model whose feedthrough is treated as zero, the result is the square root of the energy of the impulse response. Missing: feedthrough above the tolerance, for which the code returns `inf` (`C55_discrete_feedthrough_violated`). -/
theorem C55_discrete_partial {P : Type} (L : LyapNum ℝ) (X0 : Wk ℝ) (tol : ℝ) (S : StateObj ℝ P) (A : Matrix (Fin n) (Fin n) ℝ) (B : Matrix (Fin n) (Fin m) ℝ)
    (C : Matrix (Fin p) (Fin n) ℝ) (D : Matrix (Fin p) (Fin m) ℝ) (dt : ℝ) (hS : S.g = stateOf A B C D (some dt)) (hn : 0 < n)
    (hL : SchurOk L Aᵀ) (hst : S.isstable = true) (hA : Schur A) (hD : ∀ i j, |D i j| ≤ tol) :
    ∃ x, systemNorm2 L X0 tol S = .ok (.fin x) ∧ 0 ≤ x ∧ DEnergy A B C D (x ^ 2) := by
  have hA' : Schur Aᵀ := by
    intro z hz
    refine hA z ?_
    rw [isEig_iff_mem, Matrix.mem_spectrum_iff_isRoot_charpoly] at hz ⊢
    rwa [transpose_map, Matrix.charpoly_transpose] at hz
  obtain ⟨X, h1, h2, -, -⟩ := C53_discrete_stable_partial (X0 := X0) hL hn (Y := B * Bᵀ) (by rw [transpose_mul, transpose_transpose]) (form := "d") (by simp) hA'
  rw [transpose_transpose] at h2
  have he := denergy_of (C := C) D hA h2
  have h0 : 0 ≤ (C * X * Cᵀ + D * Dᵀ).trace := he.nonneg fun k => fro2_nonneg _
  refine ⟨Real.sqrt (C * X * Cᵀ + D * Dᵀ).trace, ?_, Real.sqrt_nonneg _, by rwa [Real.sq_sqrt h0]⟩
  have hc : ¬ (¬ allCloseZero tol S.g.d ∨ S.isstable = false) := by
    rw [hst, hS]
    push Not
    exact ⟨fun i j => hD i j, by simp⟩
  unfold systemNorm2
  rw [if_neg hc, hS]
  simp only [Arr.T_of, Arr.matmul_of, Bind.bind, Except.bind, Option.isNone_some, Bool.false_eq_true, if_false, h1, h2OfGram, h2Finish, Option.isSome_some, if_true,
    Arr.add_of, trace_of, npSqrt_of_nonneg h0]

/-- **C55, continuous time.** For a stable model whose feedthrough is treated as zero, the result is the square root of the energy of the impulse response
`C exp(A t) B`. Missing: a feedthrough below the tolerance has infinite energy (`C55_continuous_feedthrough_violated`). -/
theorem C55_continuous_partial {P : Type} (L : LyapNum ℝ) (X0 : Wk ℝ) (tol : ℝ) (S : StateObj ℝ P) (A : Matrix (Fin n) (Fin n) ℝ) (B : Matrix (Fin n) (Fin m) ℝ)
    (C : Matrix (Fin p) (Fin n) ℝ) (D : Matrix (Fin p) (Fin m) ℝ) (hS : S.g = stateOf A B C D none) (hn : 0 < n)
    (hL : SchurOk L Aᵀ) (hst : S.isstable = true) (hA : Hurwitz A) (hD : ∀ i j, |D i j| ≤ tol) :
    ∃ x, systemNorm2 L X0 tol S = .ok (.fin x) ∧ 0 ≤ x ∧ CEnergy A B C (x ^ 2) := by
  have hA' : Hurwitz Aᵀ := by
    intro z hz
    refine hA z ?_
    rw [isEig_iff_mem, Matrix.mem_spectrum_iff_isRoot_charpoly] at hz ⊢
    rwa [transpose_map, Matrix.charpoly_transpose] at hz
  obtain ⟨X, h1, h2, -, -⟩ := C53_continuous_stable_partial (X0 := X0) hL hn (Y := B * Bᵀ) (by rw [transpose_mul, transpose_transpose]) (form := "c") (by simp) hA'
  rw [transpose_transpose] at h2
  have he : CEnergy A B C (C * X * Cᵀ).trace := energy_cont hA h2
  have h0 : 0 ≤ (C * X * Cᵀ).trace := by
    refine ge_of_tendsto he ?_
    filter_upwards [eventually_ge_atTop 0] with T hT
    exact intervalIntegral.integral_nonneg hT fun t _ => fro2_nonneg _
  refine ⟨Real.sqrt (C * X * Cᵀ).trace, ?_, Real.sqrt_nonneg _, by rwa [Real.sq_sqrt h0]⟩
  have hc : ¬ (¬ allCloseZero tol S.g.d ∨ S.isstable = false) := by
    rw [hst, hS]
    push Not
    exact ⟨fun i j => hD i j, by simp⟩
  unfold systemNorm2
  rw [if_neg hc, hS]
  simp only [Arr.T_of, Arr.matmul_of, Bind.bind, Except.bind, Option.isNone_none, if_true, h1, h2OfGram, h2Finish, Option.isSome_none, Bool.false_eq_true, if_false,
    trace_of, npSqrt_of_nonneg h0]

theorem h2OfGram_ne_inf {disc : Bool} {c d : Arr ℝ} {x : Option (Arr ℝ)} : h2OfGram disc c d x ≠ .ok .inf := by
  have hs : ∀ x, npSqrt x ≠ .inf := by intro x; unfold npSqrt; split_ifs <;> simp
  cases x with
  | none => simp [h2OfGram]
  | some x =>
    intro h
    unfold h2OfGram h2Finish at h
    obtain ⟨cx, -, h⟩ := bind_ok' h
    obtain ⟨cxc, -, h⟩ := bind_ok' h
    cases disc with
    | true =>
      simp only [if_true] at h
      obtain ⟨dd, -, h⟩ := bind_ok' h
      obtain ⟨y, -, h⟩ := bind_ok' h
      exact hs _ (Except.ok.inj h)
    | false => exact hs _ (Except.ok.inj h)

/-- **C55, infinite values.** The result is infinite exactly for models that are not stable or have an element of the feedthrough above the tolerance. Missing from the full claim: this is the wrong condition for discrete models (`C55_discrete_feedthrough_violated`) and static gains (`C55_gain_violated`). -/
theorem C55_infinite_partial {P : Type} (L : LyapNum ℝ) (X0 : Wk ℝ) (tol : ℝ) (S : StateObj ℝ P) :
    systemNorm2 L X0 tol S = .ok .inf ↔ S.isstable = false ∨ ∃ i j, tol < |S.g.d.m i j| := by
  have e : (¬ allCloseZero tol S.g.d) ↔ ∃ i j, tol < |S.g.d.m i j| := by simp [allCloseZero]
  constructor
  · intro h
    by_contra hc
    rw [← e, or_comm] at hc
    unfold systemNorm2 at h
    rw [if_neg hc] at h
    obtain ⟨bb, -, h⟩ := bind_ok' h
    obtain ⟨x, -, h⟩ := bind_ok' h
    exact h2OfGram_ne_inf h
  · intro h
    rw [← e, or_comm] at h
    unfold systemNorm2
    rw [if_pos h]

/-- **C55, discrete time models with feedthrough.** The result is infinite although the energy of the impulse response is finite. -/
theorem C55_discrete_feedthrough_violated {P : Type} (L : LyapNum ℝ) (X0 : Wk ℝ) (tol : ℝ) (S : StateObj ℝ P) (A : Matrix (Fin n) (Fin n) ℝ) (B : Matrix (Fin n) (Fin m) ℝ)
    (C : Matrix (Fin p) (Fin n) ℝ) (D : Matrix (Fin p) (Fin m) ℝ) (dt : ℝ) (hS : S.g = stateOf A B C D (some dt)) (hn : 0 < n)
    (hL : SchurOk L Aᵀ) (hA : Schur A) (hD : ∃ i j, tol < |D i j|) :
    systemNorm2 L X0 tol S = .ok .inf ∧ ∃ e, DEnergy A B C D e := by
  constructor
  · rw [C55_infinite_partial]
    right
    rw [hS]
    exact hD
  · have hA' : Schur Aᵀ := by
      intro z hz
      refine hA z ?_
      rw [isEig_iff_mem, Matrix.mem_spectrum_iff_isRoot_charpoly] at hz ⊢
      rwa [transpose_map, Matrix.charpoly_transpose] at hz
    obtain ⟨X, -, h2, -, -⟩ := C53_discrete_stable_partial (X0 := X0) hL hn (Y := B * Bᵀ) (by rw [transpose_mul, transpose_transpose]) (form := "d") (by simp) hA'
    rw [transpose_transpose] at h2
    exact ⟨_, denergy_of D hA h2⟩

/-- **C55, the zero gain.** A static gain that is zero makes the Lyapunov solver fail. -/
theorem C55_gain_violated {P : Type} (L : LyapNum ℝ) (X0 : Wk ℝ) (tol : ℝ) (ht : 0 ≤ tol) (S : StateObj ℝ P) (dt : Option ℝ)
    (hS : S.g = ⟨Arr.zeros 0 0, Arr.zeros 0 m, Arr.zeros p 0, Arr.zeros p m, dt, true⟩) (hst : S.isstable = true) :
    systemNorm2 L X0 tol S = .error .value := by
  have hc : ¬ (¬ allCloseZero tol S.g.d ∨ S.isstable = false) := by
    rw [hst, hS]
    push Not
    exact ⟨fun i j => le_of_eq_of_le (abs_zero : |(0 : ℝ)| = 0) ht, by simp⟩
  unfold systemNorm2
  rw [if_neg hc, hS]
  cases dt with
  | none => simp [Arr.zeros, Bind.bind, Except.bind, lyapunovEqSolver, lyapCheck, solveContinuous, smallRes, Arr.shape, Arr.T_of]
  | some dt => simp [Arr.zeros, Bind.bind, Except.bind, lyapunovEqSolver, lyapCheck, solveDiscrete, smallRes, Arr.shape, Arr.T_of]

/-! ## Instances -/

/-- A solver that treats every matrix as a Schur form of itself. -/
def exL : LyapNum ℝ := ⟨fun a => (a, Arr.of (1 : Matrix (Fin 2) (Fin 2) ℝ)), fun a e => (a, e, a, a), 0⟩

theorem exL_ok (a b : ℝ) : SchurOk exL (!![a, 0; 0, b] : Matrix (Fin 2) (Fin 2) ℝ)ᵀ := by
  have ht : (!![a, 0; 0, b] : Matrix (Fin 2) (Fin 2) ℝ)ᵀ = !![a, 0; 0, b] := by ext i j; fin_cases i <;> fin_cases j <;> rfl
  rw [ht]
  refine ⟨!![a, 0; 0, b], 1, rfl, by simp, by simp, ?_, ?_, ?_⟩
  · intro i j h
    fin_cases i <;> fin_cases j <;> simp at h
  · intro i j h h'
    fin_cases i <;> fin_cases j <;> simp at h h'
  · intro i j k h1 h2
    have := k.2; omega

theorem isEig_diag {a b : ℝ} {z : ℂ} (h : IsEig (!![a, 0; 0, b] : Matrix (Fin 2) (Fin 2) ℝ) z) : z = a ∨ z = b := by
  unfold IsEig at h
  rw [det_fin_two] at h
  simp at h
  rcases h with h | h
  · exact Or.inl (sub_eq_zero.mp h)
  · exact Or.inr (sub_eq_zero.mp h)

/-- A stable `State` object with two states. -/
noncomputable def exObj (a b : ℝ) (d : ℝ) (dt : Option ℝ) : StateObj ℝ Unit :=
  ⟨stateOf (!![a, 0; 0, b] : Matrix (Fin 2) (Fin 2) ℝ) (!![1; 1] : Matrix (Fin 2) (Fin 1) ℝ) (!![1, 2] : Matrix (Fin 1) (Fin 2) ℝ) !![d] dt, (1, 1), none, none, 0, [], [], true⟩

-- The hypotheses of `C55_discrete_partial` are satisfiable.
example : SchurOk exL (!![1 / 2, 0; 0, 1 / 3] : Matrix (Fin 2) (Fin 2) ℝ)ᵀ ∧ Schur (!![1 / 2, 0; 0, 1 / 3] : Matrix (Fin 2) (Fin 2) ℝ) ∧
    (exObj (1 / 2) (1 / 3) 0 (some 1)).isstable = true ∧ ∀ i j, |(!![0] : Matrix (Fin 1) (Fin 1) ℝ) i j| ≤ 1 / 10 ^ 8 := by
  refine ⟨exL_ok _ _, ?_, rfl, ?_⟩
  · intro z hz
    rcases isEig_diag hz with rfl | rfl <;> rw [Complex.norm_real] <;> norm_num
  · intro i j
    fin_cases i; fin_cases j
    simp

theorem ex_hurwitz : Hurwitz (!![-1, 0; 0, -2] : Matrix (Fin 2) (Fin 2) ℝ) := by
  intro z hz
  rcases isEig_diag hz with rfl | rfl <;> rw [Complex.ofReal_re] <;> norm_num

-- The hypotheses of `C55_continuous_partial` are satisfiable.
example : ∃ x, systemNorm2 exL (fun _ _ => 0) (1 / 10 ^ 8) (exObj (-1) (-2) 0 none) = .ok (.fin x) ∧ 0 ≤ x ∧
    CEnergy (!![-1, 0; 0, -2] : Matrix (Fin 2) (Fin 2) ℝ) (!![1; 1] : Matrix (Fin 2) (Fin 1) ℝ) (!![1, 2] : Matrix (Fin 1) (Fin 2) ℝ) (x ^ 2) :=
  C55_continuous_partial exL _ _ (exObj (-1) (-2) 0 none) _ _ _ !![0] rfl (by norm_num) (exL_ok _ _) rfl ex_hurwitz fun i j => by
    fin_cases i; fin_cases j; simp

/-- **C55, small feedthrough.** A continuous time model with a feedthrough of `1e-9` has a finite result. -/
theorem C55_continuous_feedthrough_violated : ∃ x, systemNorm2 exL (fun _ _ => 0) (1 / 10 ^ 8) (exObj (-1) (-2) (1 / 10 ^ 9) none) = .ok (.fin x) := by
  obtain ⟨x, h, -⟩ := C55_continuous_partial exL (fun _ _ => 0) (1 / 10 ^ 8) (exObj (-1) (-2) (1 / 10 ^ 9) none) _ _ _ (!![1 / 10 ^ 9] : Matrix (Fin 1) (Fin 1) ℝ) rfl
    (by norm_num) (exL_ok _ _) rfl ex_hurwitz fun i j => by
      fin_cases i; fin_cases j
      show |(1 / 10 ^ 9 : ℝ)| ≤ 1 / 10 ^ 8
      rw [abs_of_nonneg] <;> norm_num
  exact ⟨x, h⟩

end Harold
