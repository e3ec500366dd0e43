import Verif.Spec.Delay
import Verif.Props.Blocks
import Verif.Props.TimeUnits
import Verif.Props.RespTransfer
import Verif.Props.Refine
import Verif.Props.SmallGain
import Mathlib.Analysis.Polynomial.Basic

/-!
# C137: after how many samples an input shows up in a simulation
-/

namespace Harold

open Matrix Spec Filter Topology

variable {P : Type} {Nm : Numerics ℝ P} {Bn : DNum} {S : StateObj ℝ P} {n p q m d d' : ℕ} {h : ℝ} {L : Matrix (Fin p) (Fin m) ℝ}

/-- The coefficients of an expansion tell the decay. -/
theorem expand_delay {f : ℝ → Matrix (Fin p) (Fin m) ℝ} {w : ℕ → Matrix (Fin p) (Fin m) ℝ} (hf : ∀ K, Expand K f w) :
    Tendsto (fun s => s ^ d • f s) atTop (𝓝 L) ↔ (∀ k < d, w k = 0) ∧ w d = L := by
  induction d generalizing f w with
  | zero =>
    simp only [pow_zero, one_smul, Nat.not_lt_zero, false_implies, implies_true, true_and]
    exact ⟨fun h => tendsto_nhds_unique (hf 0) h, fun h => h ▸ hf 0⟩
  | succ d ih =>
    have key := ih (f := fun s => s • (f s - w 0)) (w := fun k => w (k + 1)) fun K => (hf (K + 1)).2
    have h0 : w 0 = 0 → ∀ s : ℝ, s ^ d • s • (f s - w 0) = s ^ (d + 1) • f s := fun h s => by rw [h, sub_zero, smul_smul, pow_succ]
    constructor
    · intro h
      have h1 : w 0 = 0 := by
        have h2 : Tendsto (fun s : ℝ => (s ^ (d + 1))⁻¹ • s ^ (d + 1) • f s) atTop (𝓝 ((0 : ℝ) • L)) := (tendsto_inv_atTop_zero.comp (tendsto_pow_atTop (Nat.succ_ne_zero d))).smul h
        rw [zero_smul] at h2
        refine tendsto_nhds_unique (hf 0) (h2.congr' ?_)
        filter_upwards [eventually_gt_atTop 0] with s hs
        rw [smul_smul, inv_mul_cancel₀ (pow_pos hs _).ne', one_smul]
      obtain ⟨h3, h4⟩ := key.mp (h.congr fun s => (h0 h1 s).symm)
      refine ⟨fun k hk => ?_, h4⟩
      cases k with
      | zero => exact h1
      | succ k => exact h3 k (by omega)
    · rintro ⟨h1, h2⟩
      have h3 := key.mpr ⟨fun k hk => h1 (k + 1) (by omega), h2⟩
      exact h3.congr (h0 (h1 0 (by omega)))

theorem hasDelay_iff {g : StateM ℝ} {f : ℝ → Matrix (Fin p) (Fin m) ℝ} {w : ℕ → Matrix (Fin p) (Fin m) ℝ} (hw : Weighs g f w) : HasDelay g p m d L ↔ (∀ k < d, w k = 0) ∧ w d = L := by
  rw [← expand_delay hw.2]
  constructor
  · rintro ⟨f', h1, h2⟩
    refine h2.congr' ?_
    filter_upwards [h1, hw.1] with s h3 h4
    rw [HasTF_unique h3 h4]
  · exact fun h => ⟨f, hw.1, h⟩

theorem hasDelay_stateOf {A : Matrix (Fin n) (Fin n) ℝ} {B : Matrix (Fin n) (Fin m) ℝ} {C : Matrix (Fin p) (Fin n) ℝ} {D : Matrix (Fin p) (Fin m) ℝ} {dt : Option ℝ} :
    HasDelay (stateOf A B C D dt) p m d L ↔ (∀ k < d, markov A B C D k = 0) ∧ markov A B C D d = L :=
  hasDelay_iff ⟨by filter_upwards [eventually_det A] with s hs using hasTF_real hs, expand_markov A B C D⟩

/-! ## Convolutions -/

theorem conv_row (w : ℕ → Matrix (Fin p) (Fin m) ℝ) {N : ℕ} (U : Matrix (Fin N) (Fin m) ℝ) (k : Fin N) : convOut w U k = ∑ l : Fin N with l ≤ k, w ((k : ℕ) - l) *ᵥ U l := rfl

theorem conv_early {w : ℕ → Matrix (Fin p) (Fin m) ℝ} (hw : ∀ k < d, w k = 0) {N : ℕ} (U : Matrix (Fin N) (Fin m) ℝ) {k : Fin N} (hk : (k : ℕ) < d) : convOut w U k = 0 := by
  rw [conv_row]
  exact Finset.sum_eq_zero fun l _ => by rw [hw _ (by omega), Matrix.zero_mulVec]

theorem conv_first {w : ℕ → Matrix (Fin p) (Fin m) ℝ} (hw : ∀ k < d, w k = 0) {N : ℕ} (U : Matrix (Fin N) (Fin m) ℝ) {k : Fin N} (hk : (k : ℕ) = d) :
    convOut w U k = w d *ᵥ U ⟨0, by omega⟩ := by
  rw [conv_row, Finset.sum_eq_single ⟨0, by have := k.2; omega⟩]
  · show w ((k : ℕ) - 0) *ᵥ _ = _
    simp only [Nat.sub_zero, hk]
  · intro l _ hl
    have h1 : (l : ℕ) ≠ 0 := fun h => hl (Fin.ext h)
    have h2 : 0 < d ∨ d = 0 := by omega
    rcases h2 with h2 | h2
    · rw [hw _ (by omega), Matrix.zero_mulVec]
    · have h3 := (Finset.mem_filter.mp ‹l ∈ _›).2
      have h4 : (l : ℕ) ≤ k := h3
      omega
  · intro h
    refine absurd ?_ h
    rw [Finset.mem_filter]
    exact ⟨Finset.mem_univ _, Nat.zero_le _⟩

/-- **C137**: the transfer matrix of a discrete model decays like `L / z^d` exactly if in every simulation from rest the first `d` samples of the output are zero and the next one is `L` times the first sample of the
input. -/
theorem C137_delay (hE : BalanceOk Bn) (hc : Consistent S.g p m) (hm : 1 ≤ m) (hh : 0 < h) (hd : S.g.dt = some h) :
    HasDelay S.g p m d L ↔ ∀ (N : ℕ) (hN : 2 ≤ N) (U : Matrix (Fin N) (Fin m) ℝ) (targ : Option (List ℝ)) (t : List ℝ), TimesOk N h targ t →
      ∃ Y : Matrix (Fin N) (Fin p) ℝ, simulate Nm Bn S (Arr.of U) targ none false = .ok (.flat (Arr.of Y), t) ∧
        (∀ k : Fin N, (k : ℕ) < d → Y k = 0) ∧ ∀ k : Fin N, (k : ℕ) = d → Y k = L *ᵥ U ⟨0, by omega⟩ := by
  obtain ⟨f, w, hw, -⟩ := exists_weights hc
  have hdt : DtOk S.g.dt := by rw [hd]; rintro x ⟨⟩; exact hh
  rw [hasDelay_iff hw]
  constructor
  · rintro ⟨h1, rfl⟩ N hN U targ t ht
    exact ⟨_, hw.simulated (Nm := Nm) hE hm hdt hd hN ht U S rfl, fun k hk => conv_early h1 U hk, fun k hk => conv_first h1 U hk⟩
  · intro H
    -- an impulse at the first sample
    let N := d + 2
    have h1 : ∀ j : Fin m, (∀ k : Fin N, (k : ℕ) < d → (w k) *ᵥ Pi.single j 1 = 0) ∧ (w d) *ᵥ Pi.single j 1 = L *ᵥ Pi.single j 1 := by
      intro j
      let U : Matrix (Fin N) (Fin m) ℝ := Matrix.of fun k => if k = 0 then Pi.single j 1 else 0
      obtain ⟨Y, h2, h3, h4⟩ := H N (by omega) U none _ (.inl ⟨rfl, rfl⟩)
      have h5 := hw.simulated (Nm := Nm) hE hm hdt hd (by omega : 2 ≤ N) (.inl ⟨rfl, rfl⟩) U S rfl
      rw [h2] at h5
      simp only [Except.ok.injEq, Prod.mk.injEq, SimOut.flat.injEq, Arr.of_inj, and_true] at h5
      have h6 : ∀ k : Fin N, Y k = w k *ᵥ Pi.single j 1 := fun k => by
        rw [h5, conv_row, Finset.sum_eq_single 0]
        · have : U 0 = Pi.single j 1 := by simp only [U, Matrix.of_apply, if_true]; rfl
          rw [this]
          rfl
        · intro l _ hl
          have : U l = 0 := if_neg hl
          rw [this, Matrix.mulVec_zero]
        · intro hk
          refine absurd ?_ hk
          rw [Finset.mem_filter]
          exact ⟨Finset.mem_univ _, Fin.zero_le k⟩
      refine ⟨fun k hk => by rw [← h6, h3 k hk], ?_⟩
      have h7 := h4 ⟨d, by omega⟩ rfl
      rw [h6] at h7
      exact h7
    have h2 : ∀ {X Y : Matrix (Fin p) (Fin m) ℝ}, (∀ j, X *ᵥ Pi.single j 1 = Y *ᵥ Pi.single j 1) → X = Y := fun {X Y} h => by
      ext i j
      have := congrFun (h j) i
      simpa using this
    refine ⟨fun k hk => h2 fun j => ?_, h2 fun j => (h1 j).2⟩
    rw [Matrix.zero_mulVec]
    exact (h1 j).1 ⟨k, by omega⟩ hk

/-- **C137**, causality: samples of the output do not depend on later samples of the input, nor on the last `d - 1` before them if the transfer matrix decays like `1 / z^d`. -/
theorem C137_causal (hE : BalanceOk Bn) (hc : Consistent S.g p m) (hm : 1 ≤ m) (hh : 0 < h) (hd : S.g.dt = some h) (hL : HasDelay S.g p m d L) {N : ℕ} (hN : 2 ≤ N)
    {U U' : Matrix (Fin N) (Fin m) ℝ} {targ : Option (List ℝ)} {t : List ℝ} (ht : TimesOk N h targ t) :
    ∃ Y Y' : Matrix (Fin N) (Fin p) ℝ, simulate Nm Bn S (Arr.of U) targ none false = .ok (.flat (Arr.of Y), t) ∧ simulate Nm Bn S (Arr.of U') targ none false = .ok (.flat (Arr.of Y'), t) ∧
      ∀ k : Fin N, (∀ l : Fin N, (l : ℕ) + d ≤ k → U l = U' l) → Y k = Y' k := by
  obtain ⟨f, w, hw, -⟩ := exists_weights hc
  have hdt : DtOk S.g.dt := by rw [hd]; rintro x ⟨⟩; exact hh
  obtain ⟨h1, -⟩ := (hasDelay_iff hw).mp hL
  refine ⟨_, _, hw.simulated (Nm := Nm) hE hm hdt hd hN ht U S rfl, hw.simulated (Nm := Nm) hE hm hdt hd hN ht U' S rfl, fun k hk => ?_⟩
  rw [conv_row, conv_row]
  refine Finset.sum_congr rfl fun l hl => ?_
  have h2 : (l : ℕ) ≤ k := (Finset.mem_filter.mp hl).2
  by_cases h3 : (l : ℕ) + d ≤ k
  · rw [hk l h3]
  · rw [h1 _ (by omega), Matrix.zero_mulVec, Matrix.zero_mulVec]

/-- **C137**, causality of simulations of continuous models from rest: samples of the output do not depend on later samples of the input, nor on the sample at the same time if the transfer matrix vanishes at infinity. -/
theorem C137_causal_continuous (hE : BalanceOk Bn) (hc : Consistent S.g p m) (hm : 1 ≤ m) (hd : S.g.dt = none) {N : ℕ} (hN : 2 ≤ N) {t : List ℝ} (ht : GridOk t) (hl : t.length = N) {U U' : Matrix (Fin N) (Fin m) ℝ} :
    ∃ Y Y' : Matrix (Fin N) (Fin p) ℝ, simulate Nm Bn S (Arr.of U) (some t) none false = .ok (.flat (Arr.of Y), t) ∧ simulate Nm Bn S (Arr.of U') (some t) none false = .ok (.flat (Arr.of Y'), t) ∧
      (∀ k : Fin N, (∀ l ≤ k, U l = U' l) → Y k = Y' k) ∧ (HasDelay S.g p m 0 0 → ∀ k : Fin N, (∀ l < k, U l = U' l) → Y k = Y' k) := by
  obtain ⟨f, w, hw, -⟩ := exists_weights hc
  obtain ⟨v, hv⟩ := hw.held (t.getD 1 0 - t.getD 0 0)
  refine ⟨_, _, hw.simulated_held (Nm := Nm) hE hm hd hN ht hl hv U S rfl, hw.simulated_held (Nm := Nm) hE hm hd hN ht hl hv U' S rfl, fun k hk => ?_, fun h0 k hk => ?_⟩
  · rw [conv_row, conv_row]
    exact Finset.sum_congr rfl fun l hl => by rw [hk l (Finset.mem_filter.mp hl).2]
  · have h1 : v 0 = 0 := hv.1.trans ((hasDelay_iff hw).mp h0).2
    rw [conv_row, conv_row]
    refine Finset.sum_congr rfl fun l hl => ?_
    have h2 : l ≤ k := (Finset.mem_filter.mp hl).2
    rcases h2.lt_or_eq with h3 | rfl
    · rw [hk l h3]
    · rw [Nat.sub_self, h1, Matrix.zero_mulVec, Matrix.zero_mulVec]

/-- **C137**, time invariance: an input that begins `r` samples later, after zeros, gives the output `r` samples later, after zeros. -/
theorem C137_shift (hE : BalanceOk Bn) (hc : Consistent S.g p m) (hm : 1 ≤ m) (hh : 0 < h) (hd : S.g.dt = some h) {N r : ℕ} (hN : 2 ≤ N)
    {U U' : Matrix (Fin N) (Fin m) ℝ} (hz : ∀ l : Fin N, (l : ℕ) < r → U' l = 0) (hs : ∀ l l' : Fin N, (l' : ℕ) = l + r → U' l' = U l) {targ : Option (List ℝ)} {t : List ℝ} (ht : TimesOk N h targ t) :
    ∃ Y Y' : Matrix (Fin N) (Fin p) ℝ, simulate Nm Bn S (Arr.of U) targ none false = .ok (.flat (Arr.of Y), t) ∧ simulate Nm Bn S (Arr.of U') targ none false = .ok (.flat (Arr.of Y'), t) ∧
      (∀ l : Fin N, (l : ℕ) < r → Y' l = 0) ∧ ∀ l l' : Fin N, (l' : ℕ) = l + r → Y' l' = Y l := by
  obtain ⟨f, w, hw, -⟩ := exists_weights hc
  have hdt : DtOk S.g.dt := by rw [hd]; rintro x ⟨⟩; exact hh
  refine ⟨_, _, hw.simulated (Nm := Nm) hE hm hdt hd hN ht U S rfl, hw.simulated (Nm := Nm) hE hm hdt hd hN ht U' S rfl, fun k hk => ?_, fun k k' hk => ?_⟩
  · rw [conv_row]
    refine Finset.sum_eq_zero fun l hl => ?_
    have h2 : (l : ℕ) ≤ k := (Finset.mem_filter.mp hl).2
    rw [hz l (by omega), Matrix.mulVec_zero]
  · rw [conv_row, conv_row]
    symm
    refine Finset.sum_bij_ne_zero (fun l hl _ => (⟨(l : ℕ) + r, by have h2 : (l : ℕ) ≤ k := (Finset.mem_filter.mp hl).2; have := k'.2; omega⟩ : Fin N)) ?_ ?_ ?_ ?_
    · intro l hl _
      have h2 : (l : ℕ) ≤ k := (Finset.mem_filter.mp hl).2
      exact Finset.mem_filter.mpr ⟨Finset.mem_univ _, show (l : ℕ) + r ≤ k' by omega⟩
    · intro l _ _ l' _ _ hll
      have := congrArg Fin.val hll
      exact Fin.ext (by simpa using this)
    · intro l' hl' hne
      have h2 : (l' : ℕ) ≤ k' := (Finset.mem_filter.mp hl').2
      have h3 : r ≤ (l' : ℕ) := by
        by_contra h4
        exact hne (by rw [hz l' (by omega), Matrix.mulVec_zero])
      have h5 : (l' : ℕ) - r < N := by have := l'.2; omega
      have h6 := hs ⟨l' - r, h5⟩ l' (by simp; omega)
      refine ⟨⟨l' - r, h5⟩, Finset.mem_filter.mpr ⟨Finset.mem_univ _, show (l' : ℕ) - r ≤ k by omega⟩, ?_, Fin.ext (by simp; omega)⟩
      rw [← h6]
      rw [show (k : ℕ) - ((l' : ℕ) - r) = k' - l' by omega]
      exact hne
    · intro l hl _
      have h2 : (l : ℕ) ≤ k := (Finset.mem_filter.mp hl).2
      rw [hs l ⟨(l : ℕ) + r, _⟩ rfl, show (k' : ℕ) - ((l : ℕ) + r) = k - l by omega]

/-! ## Formulas -/

/-- **C137**: the delays of the factors of a product add. -/
theorem C137_product {G H R : StateM ℝ} {L : Matrix (Fin p) (Fin q) ℝ} {L' : Matrix (Fin q) (Fin m) ℝ} (hG : HasDelay G p q d L) (hH : HasDelay H q m d' L') (hdt : DtOk G.dt) (he : G.dt = H.dt)
    {fuel : ℕ} (hR : G.matmul (fuel + 1) H = .ok R) : HasDelay R p m (d + d') (L * L') := by
  obtain ⟨f, h1, h2⟩ := hG
  obtain ⟨f', h3, h4⟩ := hH
  refine ⟨fun s => f s * f' s, ?_, ?_⟩
  · filter_upwards [h1, h3] with s h5 h6
    obtain ⟨R', h7, h8, -⟩ := C17_matmul h5 h6 hdt he fuel
    rw [hR] at h7
    cases h7
    exact h8
  · have hc : Continuous fun X : Matrix (Fin p) (Fin q) ℝ × Matrix (Fin q) (Fin m) ℝ => X.1 * X.2 := by fun_prop
    refine ((hc.tendsto (L, L')).comp (h2.prodMk_nhds h4)).congr fun s => ?_
    simp only [Function.comp, Matrix.smul_mul, Matrix.mul_smul, smul_smul, pow_add, mul_comm]

/-- **C137**: feedback around a model whose transfer matrix vanishes at infinity does not change how it decays: the first samples of the loop are those of the forward path. -/
theorem C137_feedback {G H R : StateM ℝ} (hd : 0 < d) (hG : HasDelay G p m d L) (hH : Consistent H m p) (hdt : DtOk G.dt) {negative : Bool} (hR : feedback (.state G) (.state H) negative = .ok R) :
    HasDelay R p m d L := by
  obtain ⟨s₀, hs₀⟩ := hG.choose_spec.1.exists
  obtain ⟨f₀, w₀, hw₀, hd₀⟩ := exists_weights (hasTF_consistent hs₀)
  have hz : w₀ 0 = 0 := ((hasDelay_iff hw₀).mp hG).1 0 hd
  obtain ⟨f, h1, h2⟩ := hG
  obtain ⟨f', w, hw, -⟩ := exists_weights hH
  have hf : Tendsto f atTop (𝓝 0) := by
    have h3 := hw₀.2 0
    rw [Expand, hz] at h3
    refine h3.congr' ?_
    filter_upwards [h1, hw₀.1] with s h4 h5
    exact HasTF_unique h5 h4
  set c : ℝ := if negative then -1 else 1 with hc
  have hcont : Continuous fun X : Matrix (Fin m) (Fin p) ℝ × Matrix (Fin p) (Fin m) ℝ => 1 - c • (X.1 * X.2) := by fun_prop
  have hK : Tendsto (fun s => 1 - c • (f' s * f s)) atTop (𝓝 1) := by
    have := (hcont.tendsto (w 0, 0)).comp ((hw.2 0 : Tendsto f' atTop (𝓝 (w 0))).prodMk_nhds hf)
    simpa [Function.comp_def] using this
  have hdet : ∀ᶠ s in atTop, (1 - c • (f' s * f s)).det ≠ 0 := by
    have h3 : Continuous fun X : Matrix (Fin m) (Fin m) ℝ => X.det := by fun_prop
    have h4 := (h3.tendsto 1).comp hK
    rw [Matrix.det_one] at h4
    exact h4.eventually_ne one_ne_zero
  have hinv : Tendsto (fun s => (1 - c • (f' s * f s))⁻¹) atTop (𝓝 1) := by
    have h3 : ContinuousAt (fun X : Matrix (Fin m) (Fin m) ℝ => X⁻¹) 1 := by
      have e : (fun X : Matrix (Fin m) (Fin m) ℝ => X⁻¹) = fun X => Ring.inverse X.det • X.adjugate := by funext X; rw [Matrix.inv_def]
      rw [e]
      simp only [Ring.inverse_eq_inv']
      have h4 : Continuous fun X : Matrix (Fin m) (Fin m) ℝ => X.det := by fun_prop
      have h5 : Continuous fun X : Matrix (Fin m) (Fin m) ℝ => X.adjugate := by fun_prop
      exact (h4.continuousAt.inv₀ (by simp)).smul h5.continuousAt
    have h4 := h3.tendsto.comp hK
    rwa [inv_one] at h4
  refine ⟨fun s => f s * (1 - c • (f' s * f s))⁻¹, ?_, ?_⟩
  · filter_upwards [h1, hw.1, hdet] with s h3 h4 h5
    have := (loop_value (L := ℝ) h3 h4 hdt (fun _ D N hD hN => ?_) h5 hR).1
    · exact this
    · rw [hd₀] at hD
      rw [← Arr.of_inj.mp hD, hz, Matrix.mul_zero]
  · have hc' : Continuous fun X : Matrix (Fin p) (Fin m) ℝ × Matrix (Fin m) (Fin m) ℝ => X.1 * X.2 := by fun_prop
    have h3 := (hc'.tendsto (L, 1)).comp (h2.prodMk_nhds hinv)
    rw [Matrix.mul_one] at h3
    exact h3.congr fun s => by simp only [Function.comp, Matrix.smul_mul]

/-- **C137**: the zero-order hold discretization of a continuous model whose transfer matrix vanishes at infinity answers with a delay of at least one sample. -/
theorem C137_hold (hE : BalanceOk Bn) (hh : 0 < h) {A : Matrix (Fin n) (Fin n) ℝ} {B : Matrix (Fin n) (Fin m) ℝ} {C : Matrix (Fin p) (Fin n) ℝ} {D : Matrix (Fin p) (Fin m) ℝ}
    (hG : S.g = stateOf A B C D none) (hd : 0 < d) (hL : HasDelay S.g p m d L) {pw : ℝ} {q : Option (Arr ℝ)} : ∃ T L', discretize Nm Bn S h "zoh" pw q = .ok T ∧ HasDelay T.g p m 1 L' := by
  obtain ⟨T, h1, h2⟩ := zoh_model (Nm := Nm) (S := S) (pw := pw) (q := q) hE hh hG
  rw [hG, hasDelay_stateOf] at hL
  refine ⟨T, markov (NormedSpace.exp (h • A)) (gam (h • A) (h • B) 0) C D 1, h1, ?_⟩
  rw [h2, hasDelay_stateOf]
  refine ⟨fun k hk => ?_, rfl⟩
  obtain rfl : k = 0 := by omega
  exact hL.1 0 hd

/-! ## Transfer models -/

open Polynomial in
/-- The decay of a quotient of polynomials. -/
theorem ratio_delay {a b : List ℝ} (ha : Trimmed a) (hb : b.getD 0 0 ≠ 0) (hl : a = [0] ∨ a.length + d ≤ b.length) :
    Tendsto (fun s : ℝ => s ^ d * (polyAt s a / polyAt s b)) atTop (𝓝 (if a.length + d = b.length then a.getD 0 0 / b.getD 0 0 else 0)) := by
  obtain ⟨b0, bs, rfl⟩ : ∃ b0 bs, b = b0 :: bs := by
    cases b with
    | nil => simp at hb
    | cons x l => exact ⟨x, l, rfl⟩
  have hb0 : b0 ≠ 0 := by simpa using hb
  rcases ha with rfl | ⟨a0, as, rfl, ha0⟩
  · have : (fun s : ℝ => s ^ d * (polyAt s [(0 : ℝ)] / polyAt s (b0 :: bs))) = fun _ => 0 := by
      funext s
      simp [polyAt, toPoly]
    rw [this]
    simp
  · have hle : as.length + d ≤ bs.length := by
      rcases hl with h | h
      · simp at h
        exact absurd h.1 ha0
      · simp at h
        omega
    have e : (fun s : ℝ => s ^ d * (polyAt s (a0 :: as) / polyAt s (b0 :: bs))) = fun s => Polynomial.eval s (X ^ d * toPoly (a0 :: as)) / Polynomial.eval s (toPoly (b0 :: bs)) := by
      funext s
      simp only [polyAt, Polynomial.coe_aeval_eq_eval, Polynomial.eval_mul, Polynomial.eval_pow, Polynomial.eval_X]
      ring
    rw [e]
    have hdeg : (X ^ d * toPoly (a0 :: as)).degree = ((d + as.length : ℕ) : WithBot ℕ) := by
      rw [Polynomial.degree_mul, Polynomial.degree_X_pow, degree_toPoly_cons ha0]
      norm_cast
    split_ifs with h1
    · have h2 : (X ^ d * toPoly (a0 :: as)).degree = (toPoly (b0 :: bs)).degree := by
        rw [hdeg, degree_toPoly_cons hb0]
        simp at h1
        norm_cast
        omega
      have h3 := Polynomial.div_tendsto_atTop_leadingCoeff_div_of_degree_eq _ _ h2
      rw [Polynomial.leadingCoeff_mul, Polynomial.leadingCoeff_X_pow, one_mul, leadingCoeff_toPoly_cons ha0, leadingCoeff_toPoly_cons hb0] at h3
      exact h3
    · have h2 : (X ^ d * toPoly (a0 :: as)).degree < (toPoly (b0 :: bs)).degree := by
        rw [hdeg, degree_toPoly_cons hb0]
        simp at h1
        norm_cast
        omega
      exact Polynomial.div_tendsto_atTop_zero_of_degree_lt _ _ h2

/-- **C137** for discrete `Transfer` models of any shape: if every denominator is at least `d` coefficients longer than the numerator, the first `d` samples of every simulation are zero and the next one is the first sample
of the input times the quotients of the leading coefficients (zero where the difference of the lengths is larger). Missing: coefficients below the thresholds (`C27_rounding_violated`). -/
theorem C137_transfer_partial {E : TNum ℝ} {G : TransferM ℝ} (hbal : ∀ polys i, E.bal polys i ≠ 0) (hthr : E.lcmTol ≤ 1) (htol : ClearModel E.lcmTol E.remTol G) (hE : BalanceOk Bn)
    {Nn Dn : Matrix (Fin p) (Fin m) (List ℝ)} (hG : Normal G p m Nn Dn) (hh : 0 < h) (hd : G.dt = some h) (hl : ∀ i j, Nn i j = [0] ∨ (Nn i j).length + d ≤ (Dn i j).length)
    {N : ℕ} (hN : 2 ≤ N) (U : Matrix (Fin N) (Fin m) ℝ) {targ : Option (List ℝ)} {t : List ℝ} (ht : TimesOk N h targ t) :
    ∃ Y : Matrix (Fin N) (Fin p) ℝ, simulateTransfer E Nm Bn G (Arr.of U) targ none false = .ok (.flat (Arr.of Y), t) ∧ (∀ k : Fin N, (k : ℕ) < d → Y k = 0) ∧
      ∀ k : Fin N, (k : ℕ) = d → ∀ i, Y k i = ∑ j, (if (Nn i j).length + d = (Dn i j).length then (Nn i j).getD 0 0 / (Dn i j).getD 0 0 else 0) * U ⟨0, by omega⟩ j := by
  obtain ⟨T, H, e1, e2, -, -, e5, -, e7⟩ := t2s_parts (E := E) hbal hthr htol hG
  have hD : HasDelay T p m d (Matrix.of fun i j => if (Nn i j).length + d = (Dn i j).length then (Nn i j).getD 0 0 / (Dn i j).getD 0 0 else 0) := by
    refine ⟨fun s => Matrix.of fun i j => polyAt s (Nn i j) / polyAt s (Dn i j), ?_, ?_⟩
    · filter_upwards [eventually_hasVal hG] with s hs
      exact e7 s _ hs.2
    · refine tendsto_pi_nhds.mpr fun i => tendsto_pi_nhds.mpr fun j => ?_
      exact ratio_delay (hG.trimmed i j) (hG.lead i j) (hl i j)
  obtain ⟨Y, h1, h2, h3⟩ := (C137_delay (Nm := Nm) (S := StateObj.plain T) hE e5 hG.pos.2 hh (e2.trans hd)).mp hD N hN U targ t ht
  refine ⟨Y, ?_, h2, fun k hk i => ?_⟩
  · simp only [simulateTransfer, e1, Bind.bind, Except.bind]
    exact h1
  · rw [h3 k hk]
    rfl

/-! ## Examples -/

theorem delayM_delay : HasDelay delayM 1 1 1 1 := by
  have e1 : (!![1] : Matrix (Fin 1) (Fin 1) ℝ) = 1 := by ext i j; fin_cases i; fin_cases j; rfl
  refine (hasDelay_stateOf (A := !![0]) (B := !![1]) (C := !![1]) (D := !![0]) (dt := some 1)).mpr ⟨fun k hk => ?_, ?_⟩
  · obtain rfl : k = 0 := by omega
    ext i j
    fin_cases i; fin_cases j
    rfl
  · simp [markov, e1]

/-- The delay answers one sample later. -/
example (hE : BalanceOk Bn) (hS : S.g = delayM) (a b c : ℝ) : ∃ Y : Matrix (Fin 3) (Fin 1) ℝ, simulate Nm Bn S (Arr.of !![a; b; c]) none none false = .ok (.flat (Arr.of Y), (List.range 3).map fun k : ℕ => (k : ℝ) * 1) ∧
    Y 0 = 0 ∧ Y 1 = fun _ => a := by
  obtain ⟨Y, h1, h2, h3⟩ := (C137_delay (Nm := Nm) (S := S) (L := 1) (d := 1) hE (by rw [hS]; exact delayM_ok.1) le_rfl one_pos (by rw [hS]; rfl)).mp (by rw [hS]; exact delayM_delay) 3 (by norm_num) !![a; b; c] none _ (.inl ⟨rfl, rfl⟩)
  refine ⟨Y, h1, h2 0 (by simp), ?_⟩
  rw [h3 1 rfl, Matrix.one_mulVec]
  funext i
  fin_cases i
  rfl

/-- The hypotheses of `C137_causal_continuous` are met by the integrator `1/s`, whose transfer function vanishes at infinity. -/
example (hE : BalanceOk Bn) (hS : S.g = stateOf !![0] !![1] !![1] (0 : Matrix (Fin 1) (Fin 1) ℝ) none) (a b c c' : ℝ) :
    ∃ Y Y' : Matrix (Fin 3) (Fin 1) ℝ, simulate Nm Bn S (Arr.of !![a; b; c]) (some (eqGrid 3 0 1)) none false = .ok (.flat (Arr.of Y), eqGrid 3 0 1) ∧
      simulate Nm Bn S (Arr.of !![a; b; c']) (some (eqGrid 3 0 1)) none false = .ok (.flat (Arr.of Y'), eqGrid 3 0 1) ∧ Y 2 = Y' 2 := by
  have hg : GridOk (eqGrid 3 0 1) := eqGrid_ok (by norm_num) one_pos
  obtain ⟨Y, Y', h1, h2, -, h3⟩ := C137_causal_continuous (Nm := Nm) (S := S) (U := !![a; b; c]) (U' := !![a; b; c']) hE (by rw [hS]; exact ⟨⟨rfl, rfl⟩, fun _ => ⟨rfl, rfl, rfl, rfl, rfl⟩⟩) le_rfl (by rw [hS]) (by norm_num) hg (by simp [eqGrid])
  refine ⟨Y, Y', h1, h2, h3 (by rw [hS, hasDelay_stateOf]; exact ⟨fun k hk => absurd hk (Nat.not_lt_zero _), rfl⟩) 2 fun l hl => ?_⟩
  fin_cases l
  · rfl
  · rfl
  · exact absurd hl (lt_irrefl _)

/-- Two delays in series, and in the forward path of a loop. -/
example : ∃ R R', delayM.matmul 1 delayM = .ok R ∧ HasDelay R 1 1 2 1 ∧ feedback (.state delayM) (.state delayM) true = .ok R' ∧ HasDelay R' 1 1 1 1 := by
  obtain ⟨f, h1, -⟩ := delayM_delay
  obtain ⟨s, hs⟩ := h1.exists
  obtain ⟨R, h2, -⟩ := C17_matmul hs hs dtOk_one rfl 0
  obtain ⟨R', h3⟩ := feedback_exists delayM_ok.1 delayM_ok.1 dtOk_one rfl rfl rfl rfl (by ext i j; fin_cases i; fin_cases j; simp) (by norm_num [spacing10]) true
  have h4 := C137_product delayM_delay delayM_delay dtOk_one rfl h2
  rw [Matrix.one_mul] at h4
  exact ⟨R, R', h2, h4, h3, C137_feedback one_pos delayM_delay delayM_ok.1 dtOk_one h3⟩

/-- `3 / (z^2 + z)` answers two samples later with three times the input. -/
example (hE : BalanceOk Bn) (a b c : ℝ) : ∃ Y : Matrix (Fin 3) (Fin 1) ℝ,
    simulateTransfer ⟨fun _ _ => 1, 0, 0⟩ Nm Bn ⟨constArr 1 1 [3], constArr 1 1 [1, 1, 0], false, some 1⟩ (Arr.of !![a; b; c]) none none false = .ok (.flat (Arr.of Y), (List.range 3).map fun k : ℕ => (k : ℝ) * 1) ∧
      Y 0 = 0 ∧ Y 1 = 0 ∧ Y 2 0 = 3 * a := by
  have hn : Normal (⟨constArr 1 1 [3], constArr 1 1 [1, 1, 0], false, some 1⟩ : TransferM ℝ) 1 1 (Matrix.of fun _ _ => [3]) (Matrix.of fun _ _ => [1, 1, 0]) :=
    normal_siso (⟨fun _ _ => 1, 0, 0⟩ : TNum ℝ) (a := [3]) (b := [1, 1, 0]) (by simp) (Or.inr ⟨3, [], rfl, three_ne_zero⟩) (by simp) dtOk_one
  obtain ⟨Y, h1, h2, h3⟩ := C137_transfer_partial (Nm := Nm) (E := ⟨fun _ _ => 1, 0, 0⟩) (d := 2) (fun _ _ => one_ne_zero) (by norm_num) (clearModel_nonpos le_rfl le_rfl _) hE hn one_pos rfl (fun _ _ => .inr (by simp)) (by norm_num : 2 ≤ 3) !![a; b; c] (.inl ⟨rfl, rfl⟩)
  refine ⟨Y, h1, h2 0 (by simp), h2 1 (by simp), ?_⟩
  rw [h3 2 rfl]
  simp

end Harold
