import Verif.Props.Blocks
import Verif.Props.Motion
import Verif.Props.Freq
import Verif.Spec.Sine
import Verif.Lemmas.HessExists

/-!
# C95: the frequency response tells the steady state of simulated sinusoids
-/

namespace Harold

open Matrix Filter Topology Harold.Spec

variable {P : Type} {Nm : Numerics ℝ P} {Bn : DNum} {E : TNum ℝ} {N p q m n : ℕ}

/-! ## Sums of geometric type -/

/-- The first `k + 1` terms of the convolution of the Markov parameters with the powers of `z`. -/
theorem markov_geometric {A : Matrix (Fin n) (Fin n) ℝ} {B : Matrix (Fin n) (Fin m) ℝ} {C : Matrix (Fin p) (Fin n) ℝ} {D : Matrix (Fin p) (Fin m) ℝ} {z : ℂ} {H : Matrix (Fin p) (Fin m) ℂ}
    (hH : IsTF (A.map (algebraMap ℝ ℂ)) (B.map (algebraMap ℝ ℂ)) (C.map (algebraMap ℝ ℂ)) (D.map (algebraMap ℝ ℂ)) z H) (k : ℕ) :
    ∑ l ∈ Finset.range (k + 1), z ^ (k - l) • (markov A B C D l).map (algebraMap ℝ ℂ) =
      z ^ k • H - C.map (algebraMap ℝ ℂ) * (A.map (algebraMap ℝ ℂ)) ^ k * ((z • (1 : Matrix (Fin n) (Fin n) ℂ) - A.map (algebraMap ℝ ℂ))⁻¹ * B.map (algebraMap ℝ ℂ)) := by
  obtain ⟨hd, rfl⟩ := hH
  set A' := A.map (algebraMap ℝ ℂ)
  set B' := B.map (algebraMap ℝ ℂ)
  set C' := C.map (algebraMap ℝ ℂ)
  set D' := D.map (algebraMap ℝ ℂ)
  set R := (z • (1 : Matrix (Fin n) (Fin n) ℂ) - A')⁻¹
  have hR : z • R = 1 + A' * R := by
    have h1 := Matrix.mul_nonsing_inv _ (isUnit_iff_ne_zero.mpr hd)
    rw [Matrix.sub_mul, Matrix.smul_mul, Matrix.one_mul] at h1
    rw [← h1]
    abel
  induction k with
  | zero => simp [markov, Matrix.mul_assoc, D']
  | succ k ih =>
    rw [Finset.sum_range_succ]
    have e1 : ∑ l ∈ Finset.range (k + 1), z ^ (k + 1 - l) • (markov A B C D l).map (algebraMap ℝ ℂ) = z • ∑ l ∈ Finset.range (k + 1), z ^ (k - l) • (markov A B C D l).map (algebraMap ℝ ℂ) := by
      rw [Finset.smul_sum]
      refine Finset.sum_congr rfl fun l hl => ?_
      have hl := Finset.mem_range.mp hl
      rw [smul_smul, ← pow_succ', show k + 1 - l = k - l + 1 by omega]
    have e2 : (markov A B C D (k + 1)).map (algebraMap ℝ ℂ) = C' * A' ^ k * B' := by
      show (C * A ^ k * B).map _ = _
      rw [Matrix.map_mul, Matrix.map_mul, map_pow']
    rw [e1, ih, e2, Nat.sub_self, pow_zero, one_smul, smul_sub, smul_smul, ← pow_succ', ← Matrix.mul_smul, ← Matrix.smul_mul, hR, Matrix.add_mul, Matrix.mul_add, Matrix.one_mul, pow_succ A']
    simp only [Matrix.mul_assoc]
    abel

theorem decay_vec {A : Matrix (Fin n) (Fin n) ℝ} (hs : Schur A) (C : Matrix (Fin p) (Fin n) ℂ) (V : Matrix (Fin n) (Fin m) ℂ) (a : Fin m → ℂ) :
    Tendsto (fun (k : ℕ) i => -((C * (A.map (algebraMap ℝ ℂ)) ^ k * V) *ᵥ a) i |>.re) atTop (𝓝 (0 : Fin p → ℝ)) := by
  have h2 : Tendsto (fun k : ℕ => (A.map (algebraMap ℝ ℂ)) ^ k) atTop (𝓝 (0 : Matrix (Fin n) (Fin n) ℂ)) := by
    refine tendsto_pi_nhds.mpr fun i => tendsto_pi_nhds.mpr fun j => ?_
    have h3 := (Complex.continuous_ofReal.tendsto 0).comp (schur_pow_tendsto hs i j)
    refine h3.congr fun k => ?_
    rw [← map_pow']
    rfl
  have hc : Continuous fun (X : Matrix (Fin n) (Fin n) ℂ) (i : Fin p) => -((C * X * V) *ᵥ a) i |>.re := by
    refine continuous_pi fun i => Complex.continuous_re.comp (Continuous.neg ?_)
    have : Continuous fun X : Matrix (Fin n) (Fin n) ℂ => (C * X * V) *ᵥ a := by fun_prop
    exact (continuous_apply i).comp this
  have h4 := (hc.tendsto 0).comp h2
  have e : (fun i : Fin p => (-((C * (0 : Matrix (Fin n) (Fin n) ℂ) * V) *ᵥ a) i).re) = 0 := by
    funext i
    simp
  rw [e] at h4
  exact h4

theorem conv_sine {A : Matrix (Fin n) (Fin n) ℝ} {B : Matrix (Fin n) (Fin m) ℝ} {C : Matrix (Fin p) (Fin n) ℝ} {D : Matrix (Fin p) (Fin m) ℝ} {ω h : ℝ} {H : Matrix (Fin p) (Fin m) ℂ}
    (hH : IsTF (A.map (algebraMap ℝ ℂ)) (B.map (algebraMap ℝ ℂ)) (C.map (algebraMap ℝ ℂ)) (D.map (algebraMap ℝ ℂ)) (evalPoint (some h) ω) H) (hs : Schur A) (a : Fin m → ℂ) :
    ∃ d : ℕ → Fin p → ℝ, Tendsto d atTop (𝓝 0) ∧ ∀ N : ℕ, convOut (markov A B C D) (Matrix.of fun (k : Fin N) j => sineAt ω h a k j) = Matrix.of fun (k : Fin N) i => sineAt ω h (H *ᵥ a) k i + d k i := by
  have hz : ∀ k : ℕ, Complex.exp (Complex.I * (ω * h * k)) = evalPoint (some h) ω ^ k := fun k => by
    show _ = Complex.exp _ ^ k
    rw [← Complex.exp_nat_mul]
    congr 1
    ring
  have hg := markov_geometric hH
  set z := evalPoint (some h) ω
  set V := (z • (1 : Matrix (Fin n) (Fin n) ℂ) - A.map (algebraMap ℝ ℂ))⁻¹ * B.map (algebraMap ℝ ℂ)
  refine ⟨fun (k : ℕ) i => -((C.map (algebraMap ℝ ℂ) * (A.map (algebraMap ℝ ℂ)) ^ k * V) *ᵥ a) i |>.re, decay_vec hs _ _ _, fun N => ?_⟩
  · ext k i
    rw [convOut_apply, Matrix.of_apply]
    have e1 : ∀ j, ∑ l ∈ Finset.range ((k : ℕ) + 1), markov A B C D l i j * sampleSeq (Matrix.of fun (k : Fin N) j => sineAt ω h a k j) j (k - l)
        = ((∑ l ∈ Finset.range ((k : ℕ) + 1), z ^ ((k : ℕ) - l) • (markov A B C D l).map (algebraMap ℝ ℂ)) i j * a j).re := by
      intro j
      rw [Matrix.sum_apply, Finset.sum_mul, Complex.re_sum]
      refine Finset.sum_congr rfl fun l hl => ?_
      have hlt : (k : ℕ) - l < N := by omega
      simp only [sampleSeq, hlt, dif_pos, Matrix.of_apply, sineAt, Matrix.smul_apply, Matrix.map_apply, smul_eq_mul, hz, Complex.coe_algebraMap]
      rw [← Complex.re_ofReal_mul]
      congr 1
      ring
    rw [Finset.sum_congr rfl fun j _ => e1 j, ← Complex.re_sum, hg]
    have e2 : ∑ j, (z ^ (k : ℕ) • H - C.map (algebraMap ℝ ℂ) * (A.map (algebraMap ℝ ℂ)) ^ (k : ℕ) * V) i j * a j
        = (H *ᵥ a) i * z ^ (k : ℕ) + -((C.map (algebraMap ℝ ℂ) * (A.map (algebraMap ℝ ℂ)) ^ (k : ℕ) * V) *ᵥ a) i := by
      show ((z ^ (k : ℕ) • H - C.map (algebraMap ℝ ℂ) * (A.map (algebraMap ℝ ℂ)) ^ (k : ℕ) * V) *ᵥ a) i = _
      rw [Matrix.sub_mulVec, Matrix.smul_mulVec, Pi.sub_apply, Pi.smul_apply, smul_eq_mul]
      ring
    rw [e2, Complex.add_re]
    simp only [sineAt, hz]

/-! ## Models -/

theorem norm_evalPoint (h ω : ℝ) : ‖evalPoint (some h) ω‖ = 1 := by
  show ‖Complex.exp (Complex.I * (ω * h))‖ = 1
  rw [mul_comm, ← Complex.ofReal_mul]
  exact Complex.norm_exp_ofReal_mul_I _

/-- A stable discrete model has a value at every frequency, which tells the steady state of its simulations. -/
theorem sine_model {S : StateObj ℝ P} (hE : BalanceOk Bn) (hc : Consistent S.g p m) (hm : 1 ≤ m) {h : ℝ} (hh : 0 < h) (hd : S.g.dt = some h) (hst : StableModel S.g) (ω : ℝ) :
    ∃ H : Matrix (Fin p) (Fin m) ℂ, HasTF S.g p m (evalPoint S.g.dt ω) H ∧ SteadyState (fun u t => simulate Nm Bn S u t none false) p m h ω H := by
  have hdt : DtOk S.g.dt := by
    intro t ht
    rw [hd] at ht
    cases ht
    exact hh
  have key : ∀ {n : ℕ} {A : Matrix (Fin n) (Fin n) ℝ} {B : Matrix (Fin n) (Fin m) ℝ} {C : Matrix (Fin p) (Fin n) ℝ} {D : Matrix (Fin p) (Fin m) ℝ} {f : ℝ → Matrix (Fin p) (Fin m) ℝ} {H : Matrix (Fin p) (Fin m) ℂ},
      IsTF (A.map (algebraMap ℝ ℂ)) (B.map (algebraMap ℝ ℂ)) (C.map (algebraMap ℝ ℂ)) (D.map (algebraMap ℝ ℂ)) (evalPoint (some h) ω) H → Schur A → Weighs S.g f (markov A B C D) →
      SteadyState (fun u t => simulate Nm Bn S u t none false) p m h ω H := by
    intro n A B C D f H h1 h2 h3 a
    obtain ⟨d, h4, h5⟩ := conv_sine h1 h2 a
    refine ⟨d, h4, fun N targ t hN ht => ?_⟩
    have h6 := h3.simulated (Nm := Nm) hE hm hdt hd hN ht (Matrix.of fun (k : Fin N) j => sineAt ω h a k j) S rfl
    rw [h5] at h6
    exact h6
  obtain ⟨a, b, c, D, dt, hS⟩ | ⟨n, A, B, C, D, dt, hS⟩ := consistent_cases hc
  · have hw : Weighs S.g (fun _ => D) (markov (0 : Matrix (Fin 0) (Fin 0) ℝ) (0 : Matrix (Fin 0) (Fin m) ℝ) (0 : Matrix (Fin p) (Fin 0) ℝ) D) := by
      have e : markov (0 : Matrix (Fin 0) (Fin 0) ℝ) (0 : Matrix (Fin 0) (Fin m) ℝ) (0 : Matrix (Fin p) (Fin 0) ℝ) D = fun k => if k = 0 then D else 0 := by
        funext k
        cases k <;> simp [markov]
      rw [e, hS]
      exact ⟨Eventually.of_forall fun s => .inl ⟨rfl, D, rfl, by simp⟩, fun K => Expand.const D⟩
    refine ⟨D.map (algebraMap ℝ ℂ), .inl ⟨by rw [hS], D, by rw [hS], rfl⟩, key ?_ (fun z hz => by simp [IsEig] at hz) hw⟩
    exact ⟨by simp, by simp⟩
  · have hS' : Schur A := by
      rcases hst with h' | ⟨n', A', h1, h2⟩
      · rw [hS] at h'; cases h'
      · rw [hS] at h1
        obtain rfl : n = n' := congrArg Arr.r h1
        obtain rfl := Arr.of_inj.mp h1
        rw [hd] at h2
        exact schur_iff_motions.mpr h2
    have hdet : (evalPoint (some h) ω • (1 : Matrix (Fin n) (Fin n) ℂ) - A.map (algebraMap ℝ ℂ)).det ≠ 0 := fun h0 => by
      have := hS' _ h0
      rw [norm_evalPoint] at this
      exact lt_irrefl _ this
    have hw : Weighs S.g (tfReal A B C D) (markov A B C D) := by
      refine ⟨?_, expand_markov A B C D⟩
      filter_upwards [eventually_det A] with s hs
      rw [hS]
      exact hasTF_real hs
    refine ⟨_, .inr ⟨by rw [hS], n, A, B, C, D, by rw [hS], by rw [hS], by rw [hS], by rw [hS], ?_⟩, key ⟨hdet, rfl⟩ hS' hw⟩
    rw [hd]
    exact ⟨hdet, rfl⟩

/-- **C95**: what `frequency_response` returns for a discrete-time `State` model that is reported stable tells the steady state of its simulations: at every returned frequency the simulated answer to every sinusoid of that frequency, any amplitudes and phases in the channels, tends to the sinusoid with the amplitudes multiplied by the returned sample. Missing: samples that are not numbers because a pivot of the elimination vanishes (`C45_values`), and flags left over from assignments that change the time domain (`C93_stale_violated`). -/
theorem C95_state_partial {Nq : HessNum ℝ} {N : Numerics ℝ ℂ} (hN : EigExact N) (hR : RegionExact N) (hE : BalanceOk Bn) {a b c d : Option (Arr ℝ)} {dt : Option ℝ} {S : StateObj ℝ ℂ}
    (hi : StateObj.init N a b c d dt = .ok S) (hist : List (Assign ℝ)) (hk : ∀ x ∈ hist, x.keepsDomain S) (hc : Consistent (S.run N hist).g p m) (hm : 1 ≤ m)
    (hst : (S.run N hist).isstable = true) {h : ℝ} (hh : 0 < h) (hd : (S.run N hist).g.dt = some h) (hg : (S.run N hist).g.isgain = false) (hn : 0 < (S.run N hist).g.a.r)
    (hq : ∀ b : Matrix (Fin (S.run N hist).g.a.r) (Fin 1) ℝ, QrOk Nq b) (hhs : ∀ M : Matrix (Fin (S.run N hist).g.a.r) (Fin (S.run N hist).g.a.r) ℝ, HessOk Nq M)
    {auto : List ℝ} {w : Option GridArg} {samples : Option ℕ} {iu ou : String} (hou : ou = "rad/s" ∨ IsHz ou) {R : FreqOut}
    (hf : freqState Nq none auto (S.run N hist).g w samples iu ou = .ok R) {k : ℕ} {ω : ℝ} (hω : R.w[k]? = some ω) {H : Matrix (Fin p) (Fin m) ℂ}
    (hH : R.resp[k]? = some (Arr.of (H.map some))) :
    SteadyState (fun u t => simulate N Bn (S.run N hist) u t none false) p m h (toRad ou ω) H := by
  have hst' := (C92_flag_partial hN hR hi hist hk hc).mp hst
  generalize S.run N hist = T at *
  obtain ⟨M, h1, h2⟩ := sine_model (Nm := N) (S := T) hE hc hm hh hd hst' (toRad ou ω)
  obtain ⟨a, b, c, D, dt, hS⟩ | ⟨n, A, B, C, D, dt, hS⟩ := consistent_cases hc
  · rw [hS] at hg; cases hg
  · rw [hS] at hn hq hhs hf h1
    obtain ⟨X, h3, h4⟩ := (C45_sound (p := p) (m := m) hn hq hhs hou hf).2 k ω hω M h1
    rw [hH] at h3
    have h5 : H.map some = X := Arr.of_inj.mp (Option.some.inj h3)
    have h6 : H = M := by
      ext i j
      exact h4 i j _ (by rw [← h5]; rfl)
    rw [h6]
    exact h2

/-- **C95** for discrete-time `Transfer` models of any shape that rounding leaves alone and whose denominators have all their roots inside the unit circle. Missing: coefficients below the thresholds (`C27_rounding_violated`), static models (`C44_gain_den_violated`). -/
theorem C95_transfer_partial (hbal : ∀ polys i, E.bal polys i ≠ 0) (hthr : E.lcmTol ≤ 1) (hE : BalanceOk Bn) {G : TransferM ℝ} (htol : ClearModel E.lcmTol E.remTol G)
    {Nn Dn : Matrix (Fin p) (Fin m) (List ℝ)} (hG : Normal G p m Nn Dn) {h : ℝ} (hh : 0 < h) (hd : G.dt = some h) (hroots : ∀ i j (s : ℂ), polyAt s (Dn i j) = 0 → ‖s‖ < 1)
    (hg : G.isgain = false) {auto : List ℝ} {w : Option GridArg} {samples : Option ℕ} {iu ou : String} (hou : ou = "rad/s" ∨ IsHz ou) {R : FreqOut}
    (hf : freqTransfer auto G w samples iu ou = .ok R) {k : ℕ} {ω : ℝ} (hω : R.w[k]? = some ω) :
    ∃ H : Matrix (Fin p) (Fin m) ℂ, R.resp[k]? = some (Arr.of (H.map some)) ∧ SteadyState (fun u t => simulateTransfer E Nm Bn G u t none false) p m h (toRad ou ω) H := by
  obtain ⟨T, e1, e2, e3, e4, e5⟩ := t2s_stable hbal hthr htol hG (by simpa [StablePoint, hd] using hroots)
  obtain ⟨M, h1, h2⟩ := sine_model (Nm := Nm) (S := StateObj.plain T) hE e3 hG.pos.2 hh (e2.trans hd) e4 (toRad ou ω)
  have hv : HasVal G p m (evalPoint G.dt (toRad ou ω)) (Matrix.of fun i j => polyAt (evalPoint G.dt (toRad ou ω)) (Nn i j) / polyAt (evalPoint G.dt (toRad ou ω)) (Dn i j)) := by
    refine ⟨Nn, Dn, hG.num, hG.den, fun i j => ⟨fun h0 => ?_, rfl⟩⟩
    have := hroots i j _ h0
    rw [hd, norm_evalPoint] at this
    exact lt_irrefl _ this
  have hM : M = _ := HasTF_unique h1 (by rw [show (StateObj.plain T : StateObj ℝ P).g = T from rfl, e2]; exact e5 _ _ hv)
  refine ⟨_, (C44_values_partial hg hou hf).value k ω hω _ hv, ?_⟩
  rw [← hM]
  intro a
  obtain ⟨d, k1, k2⟩ := h2 a
  refine ⟨d, k1, fun N targ t hN ht => ?_⟩
  simp only [simulateTransfer, e1, Bind.bind, Except.bind]
  exact k2 N targ t hN ht

/-- The delay `1/z` answers a sinusoid of `1/10` Hz with the returned sample in steady state. -/
example {E : TNum ℝ} (hbal : ∀ polys i, E.bal polys i ≠ 0) (hl : E.lcmTol ≤ 1) (hr : E.remTol ≤ 1) : ∃ (R : FreqOut) (H : Matrix (Fin 1) (Fin 1) ℂ),
    freqTransfer [] ⟨constArr 1 1 [1], constArr 1 1 [1, 0], false, some 1⟩ (some ⟨[1], [1 / 10]⟩) none "Hz" "Hz" = .ok R ∧ R.resp[0]? = some (Arr.of (H.map some)) ∧
    SteadyState (fun u t => simulateTransfer E Nm plainDNum ⟨constArr 1 1 [1], constArr 1 1 [1, 0], false, some 1⟩ u t none false) 1 1 1 (toRad "Hz" (1 / 10)) H := by
  have hn : Normal (⟨constArr 1 1 [1], constArr 1 1 [1, 0], false, some 1⟩ : TransferM ℝ) 1 1 (Matrix.of fun _ _ => [1]) (Matrix.of fun _ _ => [1, 0]) :=
    normal_siso E (a := [1]) (b := [1, 0]) (by simp) (Or.inr ⟨1, [], rfl, one_ne_zero⟩) (by simp) dtOk_one
  have hgrid : askedGrid (some 1) "Hz" [1 / 10] = [2 * Real.pi * (1 / 10)] := by
    have h1 : 2 * Real.pi * (1 / 10) ≤ Real.pi := by nlinarith [Real.pi_pos]
    simp [askedGrid, toRad_hz isHz_Hz]
    linarith
  obtain ⟨R, hR⟩ := C46_transfer_succeeds_partial (auto := []) (samples := none) (iu := "Hz") (ou := "Hz") (g := ⟨[1], [1 / 10]⟩)
    (G := ⟨constArr 1 1 [1], constArr 1 1 [1, 0], false, some 1⟩) (.inl rfl) (.inl isHz_Hz) rfl (by simp) (.inr (by rw [hgrid]; simp))
  have hw := C46_transfer_grid_partial (.inl rfl) (.inr isHz_Hz) hR
  rw [hgrid] at hw
  have hw0 : R.w[0]? = some (1 / 10) := by
    obtain ⟨x, l, hx⟩ : ∃ x l, R.w = x :: l := by
      cases h : R.w with
      | nil => rw [h] at hw; simp at hw
      | cons x l => exact ⟨x, l, rfl⟩
    rw [hx] at hw ⊢
    simp only [List.map_cons, List.cons.injEq, toRad_hz isHz_Hz] at hw
    have := mul_left_cancel₀ (by positivity) hw.1
    simp [this]
  obtain ⟨H, h1, h2⟩ := C95_transfer_partial (Nm := Nm) (Bn := plainDNum) hbal hl plainDNum_ok (clearModel_int hl hr hn.num hn.den (fun _ _ => [1]) (fun _ _ => [1, 0]) (by simp) (by simp) (by simp))
    hn one_pos rfl (fun i j s hs => by
      have : s = 0 := by simpa [polyAt, toPoly] using hs
      rw [this]; simp) rfl (.inr isHz_Hz) hR hw0
  exact ⟨R, H, hR, h1, h2⟩

/-- The lag `1/(z - 1/2)` as a `State` model at `1` rad/s. -/
example : ∃ (N : Numerics ℝ ℂ) (Nq : HessNum ℝ) (S : StateObj ℝ ℂ) (R : FreqOut) (H : Matrix (Fin 1) (Fin 1) ℂ),
    StateObj.init N (some (Arr.of !![1 / 2])) (some (Arr.of !![1])) (some (Arr.of !![1])) (some (Arr.of !![0])) (some 1) = .ok S ∧ S.isstable = true ∧
    freqState Nq none [] S.g (some ⟨[1], [1]⟩) none "rad/s" "rad/s" = .ok R ∧ R.resp[0]? = some (Arr.of (H.map some)) ∧
    SteadyState (fun u t => simulate N plainDNum S u t none false) 1 1 1 1 H := by
  obtain ⟨N, -, hN, hR, -⟩ := exists_pole_numerics
  obtain ⟨Nq, hq, hh⟩ := exists_hessNum
  have hi := lagS_init N (1 / 2) (dt := some 1) dtOk_one
  have hst := (C92_constructed hN hR hi rfl).mpr (schur_iff_motions.mp (one_state_schur (by rw [abs_of_pos] <;> norm_num)))
  have hg : (lagS N (1 / 2) (some 1)).g = ⟨Arr.of !![1 / 2], Arr.of !![1], Arr.of !![1], Arr.of !![0], some 1, false⟩ := rfl
  have hc : Consistent (lagS N (1 / 2) (some 1)).g 1 1 := by rw [hg]; exact ⟨⟨rfl, rfl⟩, fun _ => ⟨rfl, rfl, rfl, rfl, rfl⟩⟩
  generalize lagS N (1 / 2) (some 1) = S at hi hst hg hc
  have hgrid : askedGrid (some 1) "rad/s" [1] = [1] := by
    have h1 : (1 : ℝ) ≤ Real.pi := by linarith [Real.two_le_pi]
    simp [askedGrid, toRad_rad isRad_rad, h1]
  obtain ⟨R, hR'⟩ := C46_state_succeeds_partial (N := Nq) (auto := []) (samples := none) (iu := "rad/s") (ou := "rad/s") (g := ⟨[1], [1]⟩) (A := !![1 / 2]) (B := (!![1] : Matrix (Fin 1) (Fin 1) ℝ))
    (C := (!![1] : Matrix (Fin 1) (Fin 1) ℝ)) (D := !![0]) (dt := some 1) one_pos hq hh (.inr isRad_rad) (.inr isRad_rad) (by simp) (.inr (by rw [hgrid]; simp))
  have hw := C46_state_grid_partial (.inr isRad_rad) (.inl rfl) hR'
  rw [hgrid] at hw
  have hw0 : R.w[0]? = some 1 := by
    have e : R.w.map (toRad "rad/s") = R.w := by
      conv_rhs => rw [← List.map_id R.w]
      exact List.map_congr_left fun x _ => toRad_rad isRad_rad x
    rw [← e, hw]
    rfl
  obtain ⟨M, h1, -⟩ := sine_model (Nm := N) (Bn := plainDNum) (S := S) plainDNum_ok hc le_rfl one_pos (by rw [hg]) ((C92_flag_partial hN hR hi [] (by simp) hc).mp hst) (toRad "rad/s" 1)
  have hp : PivotsOk (!![1 / 2] : Matrix (Fin 1) (Fin 1) ℝ) (!![1] : Matrix (Fin 1) (Fin 1) ℝ) (evalPoint (some 1) (toRad "rad/s" 1)) := by
    intro T hT _ _ k hk
    have hT' : T 0 0 * T 0 0 = 1 := by
      have := congrFun (congrFun hT 0) 0
      simpa [Matrix.mul_apply] using this
    obtain rfl | rfl : k = 0 ∨ k = 1 := by omega
    · simp
    · intro h0
      have h2 : evalPoint (some 1) (toRad "rad/s" 1) = 1 / 2 := by
        simp [Matrix.mul_apply] at h0
        have h3 : ((T 0 0 : ℝ) : ℂ) * T 0 0 = 1 := by exact_mod_cast hT'
        linear_combination h0 + (1 / 2) * h3
      have h3 := norm_evalPoint 1 (toRad "rad/s" 1)
      rw [h2] at h3
      norm_num at h3
  rw [hg] at h1
  have h2 := (C45_values (p := 1) (m := 1) one_pos hq hh (.inl rfl) hR').value 0 1 hw0 M ⟨h1, hp⟩
  rw [← hg] at hR'
  refine ⟨N, Nq, S, R, M, hi, hst, hR', h2, ?_⟩
  have h3 := C95_state_partial (Nq := Nq) (Bn := plainDNum) (p := 1) (m := 1) (h := 1) hN hR plainDNum_ok hi [] (by simp) hc le_rfl hst one_pos (by rw [show S.run N [] = S from rfl, hg]) (by rw [show S.run N [] = S from rfl, hg])
    (by rw [show S.run N [] = S from rfl, hg]; exact one_pos) (fun b => hq b) (fun M => hh M) (.inl rfl) hR' hw0 h2
  rwa [toRad_rad isRad_rad] at h3

end Harold
