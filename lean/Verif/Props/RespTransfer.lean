import Verif.Props.Energy
import Verif.Props.Bibo
import Verif.Props.Motion
import Verif.Props.Sine
import Verif.Props.SisoOrder
import Verif.Props.SimConv

/-!
# C117: responses of `Transfer` models; C108 for models with more states than needed
-/

namespace Harold

open Matrix Spec Filter Topology
open scoped Matrix.Norms.L2Operator

variable {P : Type} {Nm : Numerics ℝ P} {Bn : DNum} {S : StateObj ℝ P} {E : TNum ℝ} {G : TransferM ℝ} {p m : ℕ} {γ h : ℝ}

/-- Every model has the transfer matrix of a model with the least number of states. -/
theorem exists_least {g : StateM ℝ} (hc : Consistent g p m) : ∃ g', Consistent g' p m ∧ g'.dt = g.dt ∧ SameTF g g' p m ∧ LeastOrder g' p m := by
  obtain ⟨n, A, B, C, D, r⟩ := exists_rep hc
  obtain ⟨k, A', B', C', -, h2, h3, h4, -, -⟩ := exists_minimal A B C
  have r' := rep_dyn A' B' C' D g.dt
  exact ⟨⟨Arr.of A', Arr.of B', Arr.of C', Arr.of D, g.dt, false⟩, ⟨⟨rfl, rfl⟩, fun _ => ⟨rfl, rfl, rfl, rfl, rfl⟩⟩, rfl, rep_same r r' fun k => by cases k with | zero => rfl | succ k => exact h4 k, rep_least r' h2 h3⟩

/-- **C108** for models with any number of states: the responses to bounded inputs are bounded exactly if a stable model has the same transfer matrix. -/
theorem C108_any (hE : BalanceOk Bn) (hc : Consistent S.g p m) (hdt : DtOk S.g.dt) (hm : 1 ≤ m) :
    (∃ κ, 0 ≤ κ ∧ BoundedResponses Nm Bn S m κ) ↔ ∃ g', Consistent g' p m ∧ g'.dt = S.g.dt ∧ SameTF S.g g' p m ∧ StableModel g' := by
  constructor
  · rintro ⟨κ, -, hb⟩
    obtain ⟨g', h1, h2, h3, h4⟩ := exists_least hc
    refine ⟨g', h1, h2, h3, ?_⟩
    refine C108_stable (Nm := Nm) (S := { S with g := g' }) (κ := κ) hE h1 (h2 ▸ hdt) hm h4 fun N U targ pc y t h => hb N U targ pc y t ?_
    exact C84_realization (S := { S with g := g' }) hE h1 hc (h2 ▸ hdt) h2.symm hm (SameTF.symm h3) h
  · rintro ⟨g', h1, h2, h3, h4⟩
    obtain ⟨κ, hκ, hb⟩ := C108_bounded (Nm := Nm) (S := { S with g := g' }) hE h1 (h2 ▸ hdt) hm h4
    exact ⟨κ, hκ, fun N U targ pc y t h => hb N U targ pc y t (C84_realization hE hc h1 hdt h2 hm h3 h)⟩

/-- The denominators without common factors divide the characteristic polynomial of every model with the same values. -/
theorem root_of_char {Nn Dn : Matrix (Fin p) (Fin m) (List ℝ)} (hG : Normal G p m Nn Dn) {i : Fin p} {j : Fin m} (hco : IsCoprime (toPoly (Nn i j)) (toPoly (Dn i j)))
    {g : StateM ℝ} (hg : Consistent g p m) (ha : Agree G g p m) {s : ℂ} (hs : polyAt s (Dn i j) = 0) : CharAt g s 0 := by
  obtain ⟨n, A, B, C, D, r⟩ := exists_rep hg
  have hcross : toPoly (Nn i j) * A.charpoly = toPoly (Dn i j) * (numPoly A (fun k => B k j) (C i) + Polynomial.C (D i j) * A.charpoly) := by
    refine poly_eq_of_eventually ?_
    filter_upwards [ha, eventually_det A, eventually_hasVal hG] with x t1 t2 t3
    have e1 := t1 _ _ t3.2 (r.tf x t2)
    have e2 := isTF_entry (A := A) (B := B) (C' := C) (D := D) ⟨t2, rfl⟩ i j
    have e3 := congrFun (congrFun e1 i) j
    have h3 := t3.1 i j
    simp only [polyAt, Polynomial.coe_aeval_eq_eval, of_apply] at e3 h3
    have h4 : A.charpoly.eval x ≠ 0 := by
      rw [Matrix.eval_charpoly]
      simpa [Matrix.smul_one_eq_diagonal] using t2
    have e4 := e3.trans e2
    rw [div_eq_div_iff h3 h4] at e4
    rw [Polynomial.eval_mul, Polynomial.eval_mul, e4, mul_comm]
  obtain ⟨h1, -⟩ := natDegree_le_of_cross hcross hco
  rw [r.char, ← aeval_charpoly]
  obtain ⟨R, hR⟩ := h1
  rw [hR, map_mul, show Polynomial.aeval s (toPoly (Dn i j)) = 0 from hs, zero_mul]

/-- **C117**, bounded responses, for `Transfer` models of any shape whose entries have no common factors: all roots of the denominators are stable exactly if there is a constant `κ` such that in every simulation from rest the outputs are
at most `κ` times the bound of the input. Missing: coefficients below the thresholds (`C27_rounding_violated`). -/
theorem C117_bounded_partial (hbal : ∀ polys i, E.bal polys i ≠ 0) (hthr : E.lcmTol ≤ 1) (htol : ClearModel E.lcmTol E.remTol G) (hE : BalanceOk Bn)
    {Nn Dn : Matrix (Fin p) (Fin m) (List ℝ)} (hG : Normal G p m Nn Dn) (hco : ∀ i j, IsCoprime (toPoly (Nn i j)) (toPoly (Dn i j))) :
    (∀ i j (s : ℂ), polyAt s (Dn i j) = 0 → StablePoint G.dt s) ↔
      ∃ κ, 0 ≤ κ ∧ ∀ (N : ℕ) (U : Matrix (Fin N) (Fin m) ℝ) (targ : Option (List ℝ)) (pc : Bool) (y : SimOut) (t : List ℝ),
        simulateTransfer E Nm Bn G (Arr.of U) targ none pc = .ok (y, t) → ∀ b, (∀ k j, |U k j| ≤ b) → OutLe (κ * b) y := by
  obtain ⟨T, H, e1, e2, -, -, e5, -, e7⟩ := t2s_parts (E := E) hbal hthr htol hG
  have hdt : DtOk (StateObj.plain T : StateObj ℝ P).g.dt := by rw [show (StateObj.plain T : StateObj ℝ P).g = T from rfl, e2]; exact hG.dt
  have key := C108_any (Nm := Nm) (S := StateObj.plain T) hE e5 hdt hG.pos.2
  simp only [simulateTransfer, e1, Bind.bind, Except.bind]
  unfold BoundedResponses at key
  rw [key, show (StateObj.plain T : StateObj ℝ P).g = T from rfl, e2]
  constructor
  · intro hroots
    obtain ⟨T', h1, -, h3, h4, -⟩ := t2s_stable hbal hthr htol hG hroots
    obtain rfl : T = T' := Except.ok.inj (e1.symm.trans h1)
    exact ⟨T, h3, e2, .of_forall fun s M M' hM hM' => HasTF_unique hM hM', h4⟩
  · rintro ⟨g', h1, h2, h3, h4⟩ i j s hs
    have ha : Agree G g' p m := by
      filter_upwards [h3] with x hx M M' hM hM'
      exact hx _ _ (e7 x M hM) hM'
    rw [stable_iff_char h1, h2] at h4
    exact h4 s (root_of_char hG (hco i j) h1 ha hs)

/-- **C117**, energy, for discrete `Transfer` models of any shape whose denominators have all their roots inside the unit circle: `γ` bounds the largest singular values of the values on the unit circle exactly if every simulation
from rest returns outputs whose energy is at most `γ²` times that of the input. Missing: coefficients below the thresholds (`C27_rounding_violated`), inputs of a single sample (`C39_single_sample_violated`). -/
theorem C117_energy_partial (hbal : ∀ polys i, E.bal polys i ≠ 0) (hthr : E.lcmTol ≤ 1) (htol : ClearModel E.lcmTol E.remTol G)
    {Nn Dn : Matrix (Fin p) (Fin m) (List ℝ)} (hG : Normal G p m Nn Dn) (hd : G.dt = some h) (hroots : ∀ i j (s : ℂ), polyAt s (Dn i j) = 0 → ‖s‖ < 1) (hγ : 0 ≤ γ) :
    (∀ (z : ℂ) (M : Matrix (Fin p) (Fin m) ℂ), ‖z‖ = 1 → HasVal G p m z M → ‖M‖ ≤ γ) ↔
      ∀ (N : ℕ) (U : Matrix (Fin N) (Fin m) ℝ), 2 ≤ N → ∃ (Y : Matrix (Fin N) (Fin p) ℝ) (t : List ℝ),
        simulateTransfer E Nm Bn G (Arr.of U) none none false = .ok (.flat (Arr.of Y), t) ∧ ∑ i, ∑ k, Y i k ^ 2 ≤ γ ^ 2 * ∑ i, ∑ k, U i k ^ 2 := by
  obtain ⟨T, e1, e2, e3, e4, e5⟩ := t2s_stable hbal hthr htol hG (by simpa [StablePoint, hd] using hroots)
  have hh : 0 < h := hG.dt h hd
  have hm := hG.pos.2
  have hv : ∀ z : ℂ, ‖z‖ = 1 → HasVal G p m z (Matrix.of fun i j => polyAt z (Nn i j) / polyAt z (Dn i j)) := fun z hz =>
    ⟨Nn, Dn, hG.num, hG.den, fun i j => ⟨fun h0 => by have := hroots i j _ h0; rw [hz] at this; exact lt_irrefl _ this, rfl⟩⟩
  have hb : (∀ (z : ℂ) (M : Matrix (Fin p) (Fin m) ℂ), ‖z‖ = 1 → HasVal G p m z M → ‖M‖ ≤ γ) ↔ GainBound T p m γ := by
    constructor
    · intro h1 ω
      have h2 : ‖evalPoint T.dt ω‖ = 1 := by rw [e2, hd, norm_evalPoint]
      exact ⟨_, e5 _ _ (hv _ h2), h1 _ _ h2 (hv _ h2)⟩
    · intro h1 z M hz hM
      obtain ⟨ω, hω⟩ := circle_point hh hz
      rw [← hd, ← e2] at hω
      obtain ⟨M', h2, h3⟩ := h1 ω
      rw [hω] at h2
      rwa [HasTF_unique (e5 _ _ hM) h2]
  simp only [simulateTransfer, e1, Bind.bind, Except.bind]
  rw [hb]
  obtain ⟨a, b, c, D, dt', hT⟩ | ⟨n, A, B, C, D, dt', hT⟩ := consistent_cases e3
  · obtain rfl : dt' = some h := by rw [← hd, ← e2, hT]
    exact C105_gain_partial (Nm := Nm) (E := Bn) (S := StateObj.plain T) hm hT hh hγ
  · obtain rfl : dt' = some h := by rw [← hd, ← e2, hT]
    exact C105_energy_gain_partial (Nm := Nm) (E := Bn) (S := StateObj.plain T) hm hT hh e4 hγ

/-- **C117**, convergence, for continuous `Transfer` models: the simulations with samples of a continuous input approach the true response, that of any realization of the values of `G` which starts at rest; every
accuracy is reached by all sufficiently fine grids. Missing: coefficients below the thresholds (`C27_rounding_violated`). -/
theorem C117_converges_partial (hbal : ∀ polys i, E.bal polys i ≠ 0) (hthr : E.lcmTol ≤ 1) (htol : ClearModel E.lcmTol E.remTol G) (hE : BalanceOk Bn)
    {Nn Dn : Matrix (Fin p) (Fin m) (List ℝ)} (hG : Normal G p m Nn Dn) (hd : G.dt = none) {n : ℕ}
    {A : Matrix (Fin n) (Fin n) ℝ} {B : Matrix (Fin n) (Fin m) ℝ} {C : Matrix (Fin p) (Fin n) ℝ} {D : Matrix (Fin p) (Fin m) ℝ}
    (hval : ∀ᶠ s : ℝ in atTop, ∀ M M' : Matrix (Fin p) (Fin m) ℝ, HasVal G p m s M → IsTF A B C D s M' → M = M') {t0 T : ℝ} (hT : 0 ≤ T)
    {u : ℝ → Fin m → ℝ} (hu : ContinuousOn u (Set.Icc t0 (t0 + T))) {x : ℝ → Fin n → ℝ} (hx : IsSolution A B u x t0 (t0 + T)) (hx0 : x t0 = 0) {δ : ℝ} (hδ : 0 < δ) :
    ∃ h₀ > 0, ∀ (N : ℕ) (h : ℝ), 2 ≤ N → 0 < h → h ≤ h₀ → (N - 1) * h ≤ T →
      ∃ Y : Matrix (Fin N) (Fin p) ℝ, simulateTransfer E Nm Bn G (Arr.of (Matrix.of fun i : Fin N => u (t0 + i * h))) (some (eqGrid N t0 h)) none false
          = .ok (.flat (Arr.of Y), eqGrid N t0 h) ∧ ∀ i k, |Y i k - (C *ᵥ x (t0 + i * h) + D *ᵥ u (t0 + i * h)) k| ≤ δ := by
  let S : StateObj ℝ P := StateObj.plain ⟨Arr.of A, Arr.of B, Arr.of C, Arr.of D, none, false⟩
  have hS : Consistent S.g p m := ⟨⟨rfl, rfl⟩, fun _ => ⟨rfl, rfl, rfl, rfl, rfl⟩⟩
  obtain ⟨h₀, h1, h2⟩ := C104_converges (Nm := Nm) (S := S) (xarg := none) hE hG.pos.2 rfl hT hu hx (Or.inl ⟨rfl, hx0⟩) hδ
  refine ⟨h₀, h1, fun N h hN hh hle hNT => ?_⟩
  obtain ⟨Y, h3, h4⟩ := h2 N h hN hh hle hNT
  refine ⟨Y, (C84_transfer_partial (S := S) hbal hthr htol hE hG hS hd.symm ?_).mpr h3, h4⟩
  filter_upwards [hval] with s hs M M' hM hM'
  refine hs M M' hM ?_
  obtain ⟨n', A', B', C', D', hA, hB, hC, hD, hT⟩ := dyn_elim hM' rfl
  obtain rfl : n = n' := congrArg Arr.r hA
  obtain rfl := Arr.of_inj.mp hA
  obtain rfl := Arr.of_inj.mp hB
  obtain rfl := Arr.of_inj.mp hC
  obtain rfl := Arr.of_inj.mp hD
  exact isTF_real.mp hT

/-- The integrator `1/s` and its ramp response. -/
example (hE : BalanceOk Bn) {δ : ℝ} (hδ : 0 < δ) : ∃ h₀ > 0, ∀ (N : ℕ) (h : ℝ), 2 ≤ N → 0 < h → h ≤ h₀ → (N - 1) * h ≤ 3 →
    ∃ Y : Matrix (Fin N) (Fin 1) ℝ, simulateTransfer ⟨fun _ _ => 1, 0, 0⟩ Nm Bn ⟨constArr 1 1 [1], constArr 1 1 [1, 0], false, none⟩ (Arr.of (Matrix.of fun (i : Fin N) (_ : Fin 1) => 0 + (i : ℝ) * h))
      (some (eqGrid N 0 h)) none false = .ok (.flat (Arr.of Y), eqGrid N 0 h) ∧ ∀ i k, |Y i k - ((!![1] : Matrix (Fin 1) (Fin 1) ℝ) *ᵥ (fun _ => (0 + i * h) ^ 2 / 2) + (!![0] : Matrix (Fin 1) (Fin 1) ℝ) *ᵥ fun _ => 0 + i * h) k| ≤ δ := by
  have hn : Normal (⟨constArr 1 1 [1], constArr 1 1 [1, 0], false, none⟩ : TransferM ℝ) 1 1 (Matrix.of fun _ _ => [1]) (Matrix.of fun _ _ => [1, 0]) :=
    normal_siso (⟨fun _ _ => 1, 0, 0⟩ : TNum ℝ) (a := [1]) (b := [1, 0]) (by simp) (Or.inr ⟨1, [], rfl, one_ne_zero⟩) (by simp) dtOk_none
  refine C117_converges_partial (A := !![0]) (B := !![1]) (u := fun t _ => t) (x := fun t _ => t ^ 2 / 2) (fun _ _ => one_ne_zero) (by norm_num) (clearModel_nonpos le_rfl le_rfl _) hE hn rfl ?_
    (by norm_num) (by fun_prop) ⟨continuousOn_pi.mpr fun i => by fun_prop, fun t _ => ?_⟩ (by funext i; simp) hδ
  · filter_upwards [eventually_gt_atTop 0] with s hs M M' ⟨n1, d1, h1, h2, h3⟩ hM'
    obtain rfl := Arr.of_inj.mp (hn.num.symm.trans h1)
    obtain rfl := Arr.of_inj.mp (hn.den.symm.trans h2)
    obtain ⟨-, X, h4, h5⟩ := isTF_iff_sol.mp hM'
    ext i j
    fin_cases i
    fin_cases j
    have h6 := congrFun (congrFun h4 0) 0
    have h7 := congrFun (congrFun h5 0) 0
    have h8 := (h3 0 0).2
    simp [Matrix.mul_apply] at h6 h7
    simp [polyAt, toPoly] at h8
    simp only [Fin.zero_eta, Fin.isValue]
    rw [h8, h7, ← eq_inv_of_mul_eq_one_right h6]
    simp [Matrix.vecMul, dotProduct]
  · refine hasDerivWithinAt_pi.mpr fun i => ?_
    have h1 : HasDerivAt (fun t : ℝ => t ^ 2 / 2) t t := by
      have h2 := (hasDerivAt_pow 2 t).div_const 2
      have h3 : ((2 : ℕ) : ℝ) * t ^ (2 - 1) / 2 = t := by norm_num
      rwa [h3] at h2
    convert h1.hasDerivWithinAt using 1
    fin_cases i
    simp [dotProduct]

/-- `1/z` with the period `1`. -/
noncomputable def unitDelayTf : TransferM ℝ := ⟨constArr 1 1 [1], constArr 1 1 [1, 0], false, some 1⟩

theorem unitDelayTf_normal : Normal unitDelayTf 1 1 (Matrix.of fun _ _ => [1]) (Matrix.of fun _ _ => [1, 0]) :=
  normal_siso (⟨fun _ _ => 1, 0, 0⟩ : TNum ℝ) (a := [1]) (b := [1, 0]) (by simp) (Or.inr ⟨1, [], rfl, one_ne_zero⟩) (by simp) dtOk_one

/-- The energy of the simulated outputs of `1/z` is at most that of the inputs. -/
example (N : ℕ) (U : Matrix (Fin N) (Fin 1) ℝ) (hN : 2 ≤ N) : ∃ (Y : Matrix (Fin N) (Fin 1) ℝ) (t : List ℝ),
    simulateTransfer ⟨fun _ _ => 1, 0, 0⟩ Nm Bn unitDelayTf (Arr.of U) none none false = .ok (.flat (Arr.of Y), t) ∧ ∑ i, ∑ k, Y i k ^ 2 ≤ (1 : ℝ) ^ 2 * ∑ i, ∑ k, U i k ^ 2 := by
  refine (C117_energy_partial (fun _ _ => one_ne_zero) (by norm_num) (clearModel_nonpos le_rfl le_rfl _) unitDelayTf_normal rfl ?_ (by norm_num)).mp ?_ N U hN
  · intro i j s hs
    have : s = 0 := by simpa [polyAt, toPoly] using hs
    rw [this]; simp
  · rintro z M hz ⟨n1, d1, h1, h2, h3⟩
    obtain rfl := Arr.of_inj.mp (unitDelayTf_normal.num.symm.trans h1)
    obtain rfl := Arr.of_inj.mp (unitDelayTf_normal.den.symm.trans h2)
    refine opNorm_le_of_sq (by norm_num) fun v => le_of_eq ?_
    have := (h3 0 0).2
    simp [polyAt, toPoly] at this
    simp [mulVec, dotProduct, mul_pow, this, hz]

/-- The responses of `1/z` are bounded. -/
example (hE : BalanceOk Bn) : ∃ κ, 0 ≤ κ ∧ ∀ (N : ℕ) (U : Matrix (Fin N) (Fin 1) ℝ) (targ : Option (List ℝ)) (pc : Bool) (y : SimOut) (t : List ℝ),
    simulateTransfer ⟨fun _ _ => 1, 0, 0⟩ Nm Bn unitDelayTf (Arr.of U) targ none pc = .ok (y, t) → ∀ b, (∀ k j, |U k j| ≤ b) → OutLe (κ * b) y := by
  refine (C117_bounded_partial (fun _ _ => one_ne_zero) (by norm_num) (clearModel_nonpos le_rfl le_rfl _) hE unitDelayTf_normal fun i j => ?_).mp ?_
  · simp [toPoly, isCoprime_one_left]
  · intro i j s hs
    have : s = 0 := by simpa [polyAt, toPoly] using hs
    rw [this]; simp [StablePoint, unitDelayTf]

/-- The responses of the integrator `1/s` are not bounded. -/
example (hE : BalanceOk Bn) : ¬ ∃ κ, 0 ≤ κ ∧ ∀ (N : ℕ) (U : Matrix (Fin N) (Fin 1) ℝ) (targ : Option (List ℝ)) (pc : Bool) (y : SimOut) (t : List ℝ),
    simulateTransfer ⟨fun _ _ => 1, 0, 0⟩ Nm Bn ⟨constArr 1 1 [1], constArr 1 1 [1, 0], false, none⟩ (Arr.of U) targ none pc = .ok (y, t) → ∀ b, (∀ k j, |U k j| ≤ b) → OutLe (κ * b) y := by
  have hn : Normal (⟨constArr 1 1 [1], constArr 1 1 [1, 0], false, none⟩ : TransferM ℝ) 1 1 (Matrix.of fun _ _ => [1]) (Matrix.of fun _ _ => [1, 0]) :=
    normal_siso (⟨fun _ _ => 1, 0, 0⟩ : TNum ℝ) (a := [1]) (b := [1, 0]) (by simp) (Or.inr ⟨1, [], rfl, one_ne_zero⟩) (by simp) dtOk_none
  rw [← C117_bounded_partial (fun _ _ => one_ne_zero) (by norm_num) (clearModel_nonpos le_rfl le_rfl _) hE hn fun i j => by simp [toPoly, isCoprime_one_left]]
  intro h
  have := h 0 0 0 (by simp [polyAt, toPoly])
  simp [StablePoint] at this

/-- `C108_any`: the model of `C108_hidden` has bounded responses. -/
example (hE : BalanceOk Bn) {S' : StateObj ℝ P} (hS' : S'.g = ⟨Arr.of !![-1, 0; 0, 5], Arr.of !![1; 0], Arr.of !![1, 1], Arr.of !![0], none, false⟩) :
    ∃ g', Consistent g' 1 1 ∧ g'.dt = S'.g.dt ∧ SameTF S'.g g' 1 1 ∧ StableModel g' := by
  refine (C108_any (Nm := (⟨fun _ => [], fun _ _ _ _ => [], fun _ => false, fun _ => false⟩ : Numerics ℝ P)) hE (by rw [hS']; exact ⟨⟨rfl, rfl⟩, fun _ => ⟨rfl, rfl, rfl, rfl, rfl⟩⟩) (by rw [hS']; exact dtOk_none) le_rfl).mp ?_
  exact (C108_hidden hE (S := lagObj P) rfl hS').2

end Harold
