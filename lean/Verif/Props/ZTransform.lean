import Verif.Lemmas.ZSum

/-!
# C133: z-transforms and discrete Fourier transforms of simulated signals
-/

namespace Harold

open Matrix Spec Filter Topology

variable {P : Type} {Nm : Numerics ℝ P} {E : DNum} {S : StateObj ℝ P} {n m p : ℕ} {h : ℝ}
  {A : Matrix (Fin n) (Fin n) ℝ} {B : Matrix (Fin n) (Fin m) ℝ} {C : Matrix (Fin p) (Fin n) ℝ} {D : Matrix (Fin p) (Fin m) ℝ}

/-- The first `N` samples of a signal, one row for each sample. -/
def firstRows {c : ℕ} (u : ℕ → Fin c → ℝ) (N : ℕ) : Arr ℝ := Arr.of (Matrix.of fun i : Fin N => u i)

/-- The simulations of `S` with the first samples of `u` return the first samples of `y`. -/
def SimulatesTo (Nm : Numerics ℝ P) (E : DNum) (S : StateObj ℝ P) (h : ℝ) (x0 : Option (List ℝ)) (u : ℕ → Fin m → ℝ) (y : ℕ → Fin p → ℝ) : Prop :=
  ∀ N, 2 ≤ N → simulate Nm E S (firstRows u N) none x0 false = .ok (.flat (firstRows y N), (List.range N).map fun k : ℕ => (k : ℝ) * h)

theorem simulatesTo_of (hm : 1 ≤ m) (hG : S.g = stateOf A B C D (some h)) {xarg : Option (List ℝ)} {x0 : Fin n → ℝ} (hx : InitArg xarg x0) (u : ℕ → Fin m → ℝ) :
    ∃ x : ℕ → Fin n → ℝ, x 0 = x0 ∧ (∀ k, x (k + 1) = A *ᵥ x k + B *ᵥ u k) ∧ SimulatesTo Nm E S h xarg u (fun k => C *ᵥ x k + D *ᵥ u k) := by
  obtain ⟨x, h1, h2, h3⟩ := output_states_from (A := A) (B := B) (C := C) (D := D) x0 u
  refine ⟨x, h1, h2, fun N hN => ?_⟩
  unfold firstRows
  rw [C39_output_partial hN hm hG hx]
  congr 4
  funext i
  exact h3 (fun i => rfl) i

theorem growth_hasSum {r b : ℝ} {z : ℂ} (hr : 0 < r) (hz : r < ‖z‖) {f : ℕ → ℝ} (hf : ∀ k, |f k| ≤ b * r ^ k) : Summable fun k => z⁻¹ ^ k * (f k : ℂ) := by
  have hz0 : 0 < ‖z‖ := hr.trans hz
  refine Summable.of_norm_bounded (g := fun k => b * (r / ‖z‖) ^ k) ((summable_geometric_of_lt_one (by positivity) ((div_lt_one hz0).mpr hz)).mul_left b) fun k => ?_
  rw [norm_mul, norm_pow, norm_inv, Complex.norm_real, Real.norm_eq_abs]
  calc ‖z‖⁻¹ ^ k * |f k| ≤ ‖z‖⁻¹ ^ k * (b * r ^ k) := mul_le_mul_of_nonneg_left (hf k) (by positivity)
    _ = b * (r / ‖z‖) ^ k := by rw [div_pow, inv_pow]; field_simp

/-- The limit of the weighted sums. -/
theorem zsum_limit {r b : ℝ} (hr : 0 < r) (hA : ∀ s, IsEig A s → ‖s‖ < r) {x : ℕ → Fin n → ℝ} {u : ℕ → Fin m → ℝ} (hu : ∀ k, ‖u k‖ ≤ b * r ^ k) (hx0 : x 0 = 0)
    (hx : ∀ k, x (k + 1) = A *ᵥ x k + B *ᵥ u k) {z : ℂ} (hz : r < ‖z‖) {M : Matrix (Fin p) (Fin m) ℂ}
    (hM : IsTF (A.map (algebraMap ℝ ℂ)) (B.map (algebraMap ℝ ℂ)) (C.map (algebraMap ℝ ℂ)) (D.map (algebraMap ℝ ℂ)) z M) :
    ∃ W : Fin m → ℂ, (∀ j, HasSum (fun k => z⁻¹ ^ k * (u k j : ℂ)) (W j)) ∧ ∀ i, HasSum (fun k => z⁻¹ ^ k * ((C *ᵥ x k + D *ᵥ u k) i : ℂ)) ((M *ᵥ W) i) := by
  have hz0 : 0 < ‖z‖ := hr.trans hz
  obtain ⟨β, hβ0, hβ⟩ := matrix_bound B
  obtain ⟨γ, hγ0, hγ⟩ := matrix_bound C
  obtain ⟨δ, hδ0, hδ⟩ := matrix_bound D
  obtain ⟨c, hc⟩ := states_growth hr hA (v := fun k => B *ᵥ u k) (b := β * b) (fun k => (hβ _).trans (by rw [mul_assoc]; exact mul_le_mul_of_nonneg_left (hu k) hβ0)) hx
  have hW : ∀ j, Summable fun k => z⁻¹ ^ k * (u k j : ℂ) := fun j => growth_hasSum hr hz fun k => (norm_le_pi_norm (u k) j).trans (hu k)
  have hY : ∀ i, Summable fun k => z⁻¹ ^ k * ((C *ᵥ x k + D *ᵥ u k) i : ℂ) := fun i => growth_hasSum (b := γ * c + δ * b) hr hz fun k => by
    refine (norm_le_pi_norm (C *ᵥ x k + D *ᵥ u k) i).trans ((norm_add_le _ _).trans ?_)
    have h1 := (hγ (x k)).trans (mul_le_mul_of_nonneg_left (hc k) hγ0)
    have h2 := (hδ (u k)).trans (mul_le_mul_of_nonneg_left (hu k) hδ0)
    linarith
  refine ⟨fun j => ∑' k, z⁻¹ ^ k * (u k j : ℂ), fun j => (hW j).hasSum, fun i => ?_⟩
  have hX : ∀ j, Tendsto (fun N => z⁻¹ ^ N * (x N j : ℂ)) atTop (𝓝 0) := fun j =>
    (growth_hasSum (b := c) hr hz fun k => (norm_le_pi_norm (x k) j).trans (hc k)).tendsto_atTop_zero
  have key := fun N => congrFun (zsum_identity (C := C) (D := D) hx (norm_pos_iff.mp hz0) hM N) i
  have h1 := (hY i).hasSum.tendsto_sum_nat
  have h2 : Tendsto (fun N => (M *ᵥ ∑ k ∈ Finset.range N, z⁻¹ ^ k • cvec (u k)) i) atTop (𝓝 ((M *ᵥ fun j => ∑' k, z⁻¹ ^ k * (u k j : ℂ)) i)) := by
    simp only [mulVec, dotProduct]
    refine tendsto_finset_sum _ fun j _ => Tendsto.const_mul _ ?_
    refine (hW j).hasSum.tendsto_sum_nat.congr fun N => ?_
    simp [cvec]
  have h3 : Tendsto (fun N => ((C.map (algebraMap ℝ ℂ) * (z • 1 - A.map (algebraMap ℝ ℂ))⁻¹) *ᵥ (z • (cvec (x 0) - z⁻¹ ^ N • cvec (x N)))) i) atTop (𝓝 0) := by
    simp only [mulVec, dotProduct]
    have : ∀ j, Tendsto (fun N => (C.map (algebraMap ℝ ℂ) * (z • 1 - A.map (algebraMap ℝ ℂ))⁻¹) i j * (z • (cvec (x 0) - z⁻¹ ^ N • cvec (x N))) j) atTop (𝓝 0) := fun j => by
      have h4 := ((hX j).const_mul (-z)).const_mul ((C.map (algebraMap ℝ ℂ) * (z • 1 - A.map (algebraMap ℝ ℂ))⁻¹) i j)
      rw [mul_zero, mul_zero] at h4
      refine h4.congr fun N => ?_
      simp [cvec, hx0]
    have h5 := tendsto_finset_sum Finset.univ fun j _ => this j
    rwa [Finset.sum_const_zero] at h5
  have h4 := h2.add h3
  rw [add_zero] at h4
  have h5 : Tendsto (fun N => ∑ k ∈ Finset.range N, z⁻¹ ^ k * ((C *ᵥ x k + D *ᵥ u k) i : ℂ)) atTop (𝓝 ((M *ᵥ fun j => ∑' k, z⁻¹ ^ k * (u k j : ℂ)) i)) := by
    refine h4.congr fun N => ?_
    rw [← Pi.add_apply, ← key N]
    simp [cvec]
  have h6 := tendsto_nhds_unique h1 h5
  rw [← h6]
  exact (hY i).hasSum

/-- **C133**, z-transforms: outside a disc that contains all poles, the z-transform of the simulated output is the transfer matrix times the z-transform of the input, for every input that does not grow
faster than the powers of the radius of the disc. -/
theorem C133_transform (hm : 1 ≤ m) (hG : S.g = stateOf A B C D (some h)) {r b : ℝ} (hr : 0 < r) (hA : ∀ s, IsEig A s → ‖s‖ < r) {u : ℕ → Fin m → ℝ} (hu : ∀ k, ‖u k‖ ≤ b * r ^ k) :
    ∃ y : ℕ → Fin p → ℝ, SimulatesTo Nm E S h none u y ∧ ∀ z : ℂ, r < ‖z‖ → ∃ (M : Matrix (Fin p) (Fin m) ℂ) (W : Fin m → ℂ), HasTF S.g p m z M ∧ (∀ j, HasSum (fun k => z⁻¹ ^ k * (u k j : ℂ)) (W j)) ∧
      ∀ i, HasSum (fun k => z⁻¹ ^ k * (y k i : ℂ)) ((M *ᵥ W) i) := by
  obtain ⟨x, h1, h2, h3⟩ := simulatesTo_of (Nm := Nm) (E := E) (xarg := none) hm hG (Or.inl ⟨rfl, rfl⟩) u
  refine ⟨_, h3, fun z hz => ?_⟩
  have hd : (z • (1 : Matrix (Fin n) (Fin n) ℂ) - A.map (algebraMap ℝ ℂ)).det ≠ 0 := fun h0 => absurd (hA z h0) (not_lt.mpr hz.le)
  obtain ⟨W, h4, h5⟩ := zsum_limit (C := C) (D := D) hr hA hu h1 h2 hz ⟨hd, rfl⟩
  exact ⟨_, W, by rw [hG, hasTF_stateOf]; exact ⟨hd, rfl⟩, h4, h5⟩

/-- **C133**, responses that start in the wrong direction: if the response from an input to an output vanishes at a real number `z₀ > 1` outside a disc that contains all poles (for a stable model: a real
zero outside the unit disc), then the step response of that channel takes positive and negative values, or vanishes. -/
theorem C133_undershoot (hm : 1 ≤ m) (hG : S.g = stateOf A B C D (some h)) (hh : 0 < h) {r z₀ : ℝ} (hr : 1 ≤ r) (hA : ∀ s, IsEig A s → ‖s‖ < r) (hz : r < z₀)
    {M : Matrix (Fin p) (Fin m) ℂ} (hM : HasTF S.g p m (z₀ : ℂ) M) {l : Fin p} {k : Fin m} (h0 : M l k = 0) (t0 : ℝ) (auto : ℝ × ℝ) :
    ∃ σ : ℕ → ℝ, (∀ N, 2 ≤ N → ∃ (y : SimOut) (Y : Matrix (Fin N) (Fin p) ℝ), stepResponse Nm E S auto (some (eqGrid N t0 h)) = .ok (y, eqGrid N t0 h) ∧ y.slices[(k : ℕ)]? = some (Arr.of Y) ∧
        ∀ i, Y i l = σ i) ∧
      ((∀ i, σ i = 0) ∨ (∃ i, σ i < 0) ∧ ∃ i, 0 < σ i) := by
  set u : ℕ → Fin m → ℝ := fun _ => Pi.single k 1 with hu
  set x : ℕ → Fin n → ℝ := fun i => ∑ j ∈ Finset.range i, (A ^ j * B) *ᵥ Pi.single k 1 with hx
  have hxs : ∀ i, x (i + 1) = A *ᵥ x i + B *ᵥ u i := fun i => by
    simp only [hx, hu]
    rw [Finset.sum_range_succ', Matrix.mulVec_sum, pow_zero, Matrix.one_mul]
    simp only [mulVec_mulVec, pow_succ', Matrix.mul_assoc]
  have hy : ∀ i, (C *ᵥ x i + D *ᵥ u i) l = ∑ j ∈ Finset.range (i + 1), markov A B C D j l k := fun i => by
    rw [Finset.sum_range_succ', Pi.add_apply]
    simp only [hx, hu, markov]
    rw [Matrix.mulVec_sum, Finset.sum_apply]
    simp only [mulVec_single_one, col_apply]
    refine congrArg (· + D l k) (Finset.sum_congr rfl fun j _ => ?_)
    rw [Matrix.mul_assoc]
    rfl
  rw [hG, hasTF_stateOf] at hM
  have hz1 : 0 < z₀ := by linarith
  obtain ⟨W, h1, h2⟩ := zsum_limit (C := C) (D := D) (b := 1) (u := u) (x := x) (r := r) (by linarith) hA (fun i => by
    rw [one_mul]
    refine le_trans ?_ (one_le_pow₀ hr)
    simp only [hu]
    exact (pi_norm_le_iff_of_nonneg zero_le_one).mpr fun j => by by_cases hj : j = k <;> simp [hj]) (by simp [hx]) hxs (z := (z₀ : ℂ)) (by
      rw [Complex.norm_real, Real.norm_eq_abs, abs_of_pos hz1]; exact hz) hM
  have hW : ∀ j, j ≠ k → W j = 0 := fun j hj => by
    have h3 := h1 j
    simp only [hu, Pi.single_apply, if_neg hj, Complex.ofReal_zero, mul_zero] at h3
    exact h3.unique hasSum_zero
  have h3 : (M *ᵥ W) l = 0 := by
    rw [mulVec, dotProduct]
    refine Finset.sum_eq_zero fun j _ => ?_
    by_cases hj : j = k
    · rw [hj, h0, zero_mul]
    · rw [hW j hj, mul_zero]
  set σ : ℕ → ℝ := fun i => ∑ j ∈ Finset.range (i + 1), markov A B C D j l k with hσ
  have h4 : HasSum (fun i => z₀⁻¹ ^ i * σ i) 0 := by
    have h5 := h2 l
    rw [h3] at h5
    rw [← Complex.hasSum_ofReal]
    rw [Complex.ofReal_zero]
    refine h5.congr_fun fun i => ?_
    rw [hy i, Complex.ofReal_mul, Complex.ofReal_pow, Complex.ofReal_inv]
  refine ⟨σ, fun N hN => ?_, ?_⟩
  · obtain ⟨y, e1, e2⟩ := C42_step (Nm := Nm) (E := E) (t0 := t0) (auto := auto) hN hm hG hh
    refine ⟨y, Matrix.of fun (i : Fin N) (l : Fin p) => ∑ j ∈ Finset.range (i + 1), markov A B C D j l k, e1, ?_, fun i => rfl⟩
    rw [e2, List.getElem?_ofFn]
    simp
  · have hp : ∀ i, 0 < z₀⁻¹ ^ i := fun i => by positivity
    by_cases hall : ∀ i, σ i = 0
    · exact Or.inl hall
    · refine Or.inr ⟨?_, ?_⟩
      · by_contra hn
        push Not at hn
        refine hall fun i => ?_
        have h5 := (hasSum_zero_iff_of_nonneg fun i => mul_nonneg (hp i).le (hn i)).mp h4
        exact (mul_eq_zero.mp (congrFun h5 i)).resolve_left (hp i).ne'
      · by_contra hn
        push Not at hn
        refine hall fun i => ?_
        have h5 := (hasSum_zero_iff_of_nonneg (f := fun i => z₀⁻¹ ^ i * -σ i) fun i => mul_nonneg (hp i).le (neg_nonneg.mpr (hn i))).mp (by
          have := h4.neg
          rw [neg_zero] at this
          refine this.congr_fun fun i => ?_
          ring)
        have h6 := (mul_eq_zero.mp (congrFun h5 i)).resolve_left (hp i).ne'
        linarith

/-- The states return after a period. -/
theorem periodic_state (hA : Schur A) {N : ℕ} (hN : 0 < N) (v : ℕ → Fin n → ℝ) :
    ∃ x : ℕ → Fin n → ℝ, (∀ k, x (k + 1) = A *ᵥ x k + v k) ∧ x N = x 0 := by
  have hd : (1 - A ^ N).det ≠ 0 := fun h0 => by
    obtain ⟨w, hw0, hw⟩ := exists_mulVec_eq_zero_iff.mpr h0
    rw [sub_mulVec, one_mulVec, sub_eq_zero] at hw
    have h1 : ∀ k, A ^ (N * k) *ᵥ w = w := fun k => by
      induction k with
      | zero => simp
      | succ k ih => rw [Nat.mul_succ, pow_add, ← mulVec_mulVec, ← hw, ih]
    have h2 : Tendsto (fun k : ℕ => A ^ (N * k) *ᵥ w) atTop (𝓝 0) := (pow_mulVec_tendsto hA w).comp (tendsto_id.const_mul_atTop' hN)
    simp only [h1] at h2
    exact hw0 (tendsto_nhds_unique tendsto_const_nhds h2)
  set f : ℕ → Fin n → ℝ := fun k => Nat.rec 0 (fun j y => A *ᵥ y + v j) k with hf
  have hf1 : ∀ k, f (k + 1) = A *ᵥ f k + v k := fun k => rfl
  refine ⟨fun k => A ^ k *ᵥ ((1 - A ^ N)⁻¹ *ᵥ f N) + f k, fun k => ?_, ?_⟩
  · simp only
    rw [hf1, mulVec_add, mulVec_mulVec _ A, ← pow_succ', add_assoc]
  · have e : f 0 = 0 := rfl
    simp only [e, add_zero, pow_zero, one_mulVec]
    have h1 : (1 - A ^ N) *ᵥ ((1 - A ^ N)⁻¹ *ᵥ f N) = f N := by rw [mulVec_mulVec, mul_nonsing_inv _ (isUnit_iff_ne_zero.mpr hd), one_mulVec]
    rw [sub_mulVec, one_mulVec] at h1
    exact (sub_eq_iff_eq_add'.mp h1).symm

/-- **C133**, periodic inputs: for a stable model and an input of period `N` there is an initial state from which the simulated output is periodic; the discrete Fourier transform of a period of this output is
that of the input multiplied by the frequency response; and the simulations from all initial states approach it. (The code does not accept the initial state of a model with a single state,
`C39_first_order_x0_violated`, so the first two claims exclude such models.) -/
theorem C133_periodic (hm : 1 ≤ m) (hG : S.g = stateOf A B C D (some h)) (hh : 0 < h) (hst : StableModel S.g) {N : ℕ} (hN : 0 < N) {u : ℕ → Fin m → ℝ} (hu : ∀ k, u (k + N) = u k) :
    ∃ (x₀ : Fin n → ℝ) (y : ℕ → Fin p → ℝ), (n ≠ 1 → SimulatesTo Nm E S h (some (List.ofFn x₀)) u y) ∧ (∀ k, y (k + N) = y k) ∧
      (∀ (q : ℤ) (M : Matrix (Fin p) (Fin m) ℂ), HasTF S.g p m (evalPoint (some h) (2 * Real.pi * q / (N * h))) M →
        ∀ i, ∑ k ∈ Finset.range N, Complex.exp (-(2 * Real.pi * q * k / N) * Complex.I) * (y k i : ℂ) =
          ∑ j, M i j * ∑ k ∈ Finset.range N, Complex.exp (-(2 * Real.pi * q * k / N) * Complex.I) * (u k j : ℂ)) ∧
      ∀ (xarg : Option (List ℝ)) (x₁ : Fin n → ℝ), InitArg xarg x₁ → ∃ y' : ℕ → Fin p → ℝ, SimulatesTo Nm E S h xarg u y' ∧ ∀ i, Tendsto (fun k => y' k i - y k i) atTop (𝓝 0) := by
  have hA : Schur A := schur_of_stable (B := B) (C := C) (D := D) (h := h) (by rw [hG] at hst; exact hst)
  obtain ⟨x, hx, hxN⟩ := periodic_state hA hN (fun k => B *ᵥ u k)
  have hper : ∀ k, x (k + N) = x k := fun k => by
    induction k with
    | zero => rw [zero_add, hxN]
    | succ k ih => rw [Nat.succ_add_eq_add_succ, Nat.add_succ, hx, hx, ih, hu]
  have huniq : ∀ x' : ℕ → Fin n → ℝ, (∀ k, x' (k + 1) = A *ᵥ x' k + B *ᵥ u k) → ∀ k, x' k - x k = A ^ k *ᵥ (x' 0 - x 0) := fun x' hx' k => by
    induction k with
    | zero => simp
    | succ k ih =>
      rw [hx, hx', pow_succ', ← mulVec_mulVec, ← ih, mulVec_sub]
      abel
  refine ⟨x 0, fun k => C *ᵥ x k + D *ᵥ u k, fun hn => ?_, fun k => by simp only [hper, hu], fun q M hM i => ?_, fun xarg x₁ hx₁ => ?_⟩
  · obtain ⟨x', h1, h2, h3⟩ := simulatesTo_of (Nm := Nm) (E := E) (S := S) hm hG (Or.inr ⟨rfl, hn⟩ : InitArg (some (List.ofFn (x 0))) (x 0)) u
    have h4 : ∀ k, x' k = x k := fun k => by
      have := huniq x' h2 k
      rwa [h1, sub_self, mulVec_zero, sub_eq_zero] at this
    simp only [h4] at h3
    exact h3
  · rw [hG, hasTF_stateOf] at hM
    have hNc : (N : ℂ) ≠ 0 := Nat.cast_ne_zero.mpr hN.ne'
    have hhc : (h : ℂ) ≠ 0 := Complex.ofReal_ne_zero.mpr hh.ne'
    set z := evalPoint (some h) (2 * Real.pi * q / (N * h)) with hz
    have ez : z = Complex.exp (2 * Real.pi * q / N * Complex.I) := by
      rw [hz]
      simp only [evalPoint, Option.elim]
      congr 1
      push_cast
      field_simp
    have hz0 : z ≠ 0 := by rw [ez]; exact Complex.exp_ne_zero _
    have ek : ∀ k : ℕ, z⁻¹ ^ k = Complex.exp (-(2 * Real.pi * q * k / N) * Complex.I) := fun k => by
      rw [ez, ← Complex.exp_neg, ← Complex.exp_nat_mul]
      congr 1
      ring
    have eN : z⁻¹ ^ N = 1 := by
      rw [ek, Complex.exp_eq_one_iff]
      refine ⟨-q, ?_⟩
      push_cast
      field_simp
    have key := congrFun (zsum_identity (C := C) (D := D) hx hz0 hM N) i
    rw [eN, hxN, one_smul, sub_self, smul_zero, mulVec_zero, add_zero] at key
    simp only [← ek]
    have e1 : (∑ k ∈ Finset.range N, z⁻¹ ^ k • cvec (C *ᵥ x k + D *ᵥ u k)) i = ∑ k ∈ Finset.range N, z⁻¹ ^ k * ((C *ᵥ x k + D *ᵥ u k) i : ℂ) := by simp [cvec]
    have e2 : ∀ j, (∑ k ∈ Finset.range N, z⁻¹ ^ k • cvec (u k)) j = ∑ k ∈ Finset.range N, z⁻¹ ^ k * (u k j : ℂ) := fun j => by simp [cvec]
    rw [e1, mulVec, dotProduct] at key
    simp only [e2] at key
    exact key
  · obtain ⟨x', h1, h2, h3⟩ := simulatesTo_of (Nm := Nm) (E := E) (S := S) hm hG hx₁ u
    refine ⟨_, h3, fun i => ?_⟩
    have h4 : ∀ k, (C *ᵥ x' k + D *ᵥ u k) i - (C *ᵥ x k + D *ᵥ u k) i = (C *ᵥ (A ^ k *ᵥ (x' 0 - x 0))) i := fun k => by
      rw [← huniq x' h2 k, mulVec_sub]
      simp only [Pi.add_apply, Pi.sub_apply]
      ring
    simp only [h4]
    have h5 := pow_mulVec_tendsto hA (x' 0 - x 0)
    have h6 : Tendsto (fun v : Fin n → ℝ => (C *ᵥ v) i) (𝓝 0) (𝓝 ((C *ᵥ (0 : Fin n → ℝ)) i)) :=
      ((continuous_apply i).comp (Continuous.matrix_mulVec continuous_const continuous_id)).tendsto 0
    rw [mulVec_zero] at h6
    exact h6.comp h5

/-- The hypotheses of `C133_undershoot` are met by `1 - 2/z`, whose step response is `1, -1, -1, …`; those of `C133_transform` by the same model and a step. -/
example : (∀ s, IsEig (!![0] : Matrix (Fin 1) (Fin 1) ℝ) s → ‖s‖ < 1) ∧
    HasTF (stateOf (!![0] : Matrix (Fin 1) (Fin 1) ℝ) (!![1] : Matrix (Fin 1) (Fin 1) ℝ) (!![-2] : Matrix (Fin 1) (Fin 1) ℝ) (!![1] : Matrix (Fin 1) (Fin 1) ℝ) (some 1)) 1 1 ((2 : ℝ) : ℂ) !![0] ∧
    ∀ k : ℕ, ‖(fun _ : Fin 1 => (1 : ℝ))‖ ≤ 1 * 1 ^ k := by
  refine ⟨delayHalf_schur, hasTF_stateOf.mpr (isTF_iff_sol.mpr ⟨by simp, !![1 / 2], ?_, ?_⟩), fun k => by simp⟩
  · ext i j
    simp [Fin.eq_zero i, Fin.eq_zero j, Matrix.mul_apply]
  · ext i j
    simp [Fin.eq_zero i, Fin.eq_zero j, Matrix.mul_apply]

/-- The hypotheses of `C133_periodic` are met by `1/(2z)` and the input `1, -1, 1, -1, …`. -/
example : (delayHalf P).g = stateOf !![0] !![1 / 2] !![1] !![0] (some (1 / 10)) ∧ StableModel (delayHalf P).g ∧
    ∀ k : ℕ, (fun k : ℕ => fun _ : Fin 1 => (-1 : ℝ) ^ k) (k + 2) = (fun k : ℕ => fun _ : Fin 1 => (-1 : ℝ) ^ k) k :=
  ⟨rfl, delayHalf_stable P, fun k => by funext i; simp [pow_add]⟩

end Harold
