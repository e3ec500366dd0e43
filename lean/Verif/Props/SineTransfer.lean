import Verif.Props.SineCont
import Verif.Props.RespTransfer

/-!
# C95 for continuous-time models without states and for continuous-time `Transfer` models
-/

namespace Harold

open Matrix Spec Filter Topology

variable {P : Type} {Nm : Numerics ℝ P} {Bn : DNum} {S : StateObj ℝ P} {E : TNum ℝ} {G : TransferM ℝ} {p m : ℕ}

/-- **C95**, continuous time, for stable `State` models of all kinds, static gains included, simulated from rest: on every sufficiently fine grid the answer to a sinusoid is, after finitely many samples and then for ever,
as close as desired to the sinusoid whose amplitudes are multiplied by the value of the transfer matrix at the frequency. -/
theorem C95_continuous_rest (hE : BalanceOk Bn) (hm : 1 ≤ m) (hc : Consistent S.g p m) (hd : S.g.dt = none) (hst : StableModel S.g) {ω : ℝ} {M : Matrix (Fin p) (Fin m) ℂ}
    (hM : HasTF S.g p m (evalPoint none ω) M) (a : Fin m → ℂ) {δ : ℝ} (hδ : 0 < δ) :
    ∃ h₀ > 0, ∀ h, 0 < h → h < h₀ → ∃ K : ℕ, ∀ (N : ℕ) (t0 : ℝ), 2 ≤ N →
      ∃ Y : Matrix (Fin N) (Fin p) ℝ, simulate Nm Bn S (Arr.of (Matrix.of fun (k : Fin N) j => sineAt ω h a k j)) (some (eqGrid N t0 h)) none false = .ok (.flat (Arr.of Y), eqGrid N t0 h) ∧
        ∀ (k : Fin N) (i : Fin p), K ≤ k → |Y k i - sineAt ω h (M *ᵥ a) k i| < δ := by
  obtain ⟨a', b', c', D, dt', hS⟩ | ⟨n, A, B, C, D, dt', hS⟩ := consistent_cases hc
  · set S' : StateObj ℝ P := StateObj.plain (stateOf (0 : Matrix (Fin 0) (Fin 0) ℝ) (0 : Matrix (Fin 0) (Fin m) ℝ) (0 : Matrix (Fin p) (Fin 0) ℝ) D none) with hS'
    have r : Rep S.g (0 : Matrix (Fin 0) (Fin 0) ℝ) (0 : Matrix (Fin 0) (Fin m) ℝ) (0 : Matrix (Fin p) (Fin 0) ℝ) D := by rw [hS]; exact rep_gain a' b' c' D dt'
    have r' : Rep S'.g (0 : Matrix (Fin 0) (Fin 0) ℝ) (0 : Matrix (Fin 0) (Fin m) ℝ) (0 : Matrix (Fin p) (Fin 0) ℝ) D := rep_dyn _ _ _ D none
    have hc' : Consistent S'.g p m := ⟨⟨rfl, rfl⟩, fun _ => ⟨rfl, rfl, rfl, rfl, rfl⟩⟩
    have hst' : StableModel S'.g := (stable_iff_char hc').mpr fun z hz => by
      have := (r'.char z 0).mp hz
      simp at this
    have hM' : HasTF S'.g p m (evalPoint none ω) M := by
      rw [hS] at hM
      obtain ⟨-, D', hD, rfl⟩ | ⟨h0, -⟩ := hM
      · obtain rfl := Arr.of_inj.mp hD
        exact hasTF_stateOf.mpr ⟨by simp, by simp⟩
      · cases h0
    obtain ⟨h₀, h1, h2⟩ := C95_continuous (Nm := Nm) (S := S') hE hm rfl hst' hM' a hδ
    refine ⟨h₀, h1, fun h hh hlt => ?_⟩
    obtain ⟨K, hK⟩ := h2 h hh hlt none 0 (Or.inl ⟨rfl, rfl⟩)
    refine ⟨K, fun N t0 hN => ?_⟩
    obtain ⟨Y, h3, h4⟩ := hK N t0 hN
    exact ⟨Y, (C84_realization_iff (S := S) hE hc hc' (by rw [hd]; exact dtOk_none) hd.symm hm (rep_same r r' fun _ => rfl)).mpr h3, h4⟩
  · obtain rfl : dt' = none := by rw [← hd, hS]
    obtain ⟨h₀, h1, h2⟩ := C95_continuous (Nm := Nm) (S := S) hE hm hS hst hM a hδ
    exact ⟨h₀, h1, fun h hh hlt => h2 h hh hlt none 0 (Or.inl ⟨rfl, rfl⟩)⟩

/-- **C95** for continuous-time `Transfer` models of any shape that rounding leaves alone and whose denominators have all their roots in the left half plane: the samples that `frequency_response` returns tell, to any
accuracy, the steady state of simulations on sufficiently fine grids. Missing: coefficients below the thresholds (`C27_rounding_violated`), static models (`C44_gain_den_violated`). -/
theorem C95_transfer_continuous_partial (hbal : ∀ polys i, E.bal polys i ≠ 0) (hthr : E.lcmTol ≤ 1) (hE : BalanceOk Bn) (htol : ClearModel E.lcmTol E.remTol G)
    {Nn Dn : Matrix (Fin p) (Fin m) (List ℝ)} (hG : Normal G p m Nn Dn) (hd : G.dt = none) (hroots : ∀ i j (s : ℂ), polyAt s (Dn i j) = 0 → s.re < 0)
    (hg : G.isgain = false) {auto : List ℝ} {w : Option GridArg} {samples : Option ℕ} {iu ou : String} (hou : ou = "rad/s" ∨ IsHz ou) {R : FreqOut}
    (hf : freqTransfer auto G w samples iu ou = .ok R) {k : ℕ} {ω : ℝ} (hω : R.w[k]? = some ω) :
    ∃ H : Matrix (Fin p) (Fin m) ℂ, R.resp[k]? = some (Arr.of (H.map some)) ∧ ∀ (a : Fin m → ℂ) (δ : ℝ), 0 < δ →
      ∃ h₀ > 0, ∀ h, 0 < h → h < h₀ → ∃ K : ℕ, ∀ (N : ℕ) (t0 : ℝ), 2 ≤ N →
        ∃ Y : Matrix (Fin N) (Fin p) ℝ, simulateTransfer E Nm Bn G (Arr.of (Matrix.of fun (l : Fin N) j => sineAt (toRad ou ω) h a l j)) (some (eqGrid N t0 h)) none false =
          .ok (.flat (Arr.of Y), eqGrid N t0 h) ∧ ∀ (l : Fin N) (i : Fin p), K ≤ l → |Y l i - sineAt (toRad ou ω) h (H *ᵥ a) l i| < δ := by
  obtain ⟨T, e1, e2, e3, e4, e5⟩ := t2s_stable hbal hthr htol hG (by simpa [StablePoint, hd] using hroots)
  have hv : HasVal G p m (evalPoint G.dt (toRad ou ω)) (Matrix.of fun i j => polyAt (evalPoint G.dt (toRad ou ω)) (Nn i j) / polyAt (evalPoint G.dt (toRad ou ω)) (Dn i j)) := by
    refine ⟨Nn, Dn, hG.num, hG.den, fun i j => ⟨fun h0 => ?_, rfl⟩⟩
    have := hroots i j _ h0
    rw [hd] at this
    simp [evalPoint] at this
  refine ⟨_, (C44_values_partial hg hou hf).value k ω hω _ hv, fun a δ hδ => ?_⟩
  have hM := e5 _ _ hv
  rw [hd] at hM
  have key := C95_continuous_rest (Nm := Nm) (S := StateObj.plain T) hE hG.pos.2 e3 (e2.trans hd) e4 hM a hδ
  simp only [simulateTransfer, e1, Bind.bind, Except.bind]
  rw [hd]
  exact key

/-- The lag `1/(s+1)` answers a sinusoid of 1 rad/s with the returned sample in steady state. -/
example {E : TNum ℝ} (hbal : ∀ polys i, E.bal polys i ≠ 0) (hl : E.lcmTol ≤ 1) (hr : E.remTol ≤ 1) : ∃ (R : FreqOut) (H : Matrix (Fin 1) (Fin 1) ℂ),
    freqTransfer [] ⟨constArr 1 1 [1], constArr 1 1 [1, 1], false, none⟩ (some ⟨[1], [1]⟩) none "rad/s" "rad/s" = .ok R ∧ R.resp[0]? = some (Arr.of (H.map some)) ∧
    ∀ (a : Fin 1 → ℂ) (δ : ℝ), 0 < δ → ∃ h₀ > 0, ∀ h, 0 < h → h < h₀ → ∃ K : ℕ, ∀ (N : ℕ) (t0 : ℝ), 2 ≤ N →
      ∃ Y : Matrix (Fin N) (Fin 1) ℝ, simulateTransfer E Nm plainDNum ⟨constArr 1 1 [1], constArr 1 1 [1, 1], false, none⟩ (Arr.of (Matrix.of fun (l : Fin N) j => sineAt (toRad "rad/s" 1) h a l j))
        (some (eqGrid N t0 h)) none false = .ok (.flat (Arr.of Y), eqGrid N t0 h) ∧ ∀ (l : Fin N) (i : Fin 1), K ≤ l → |Y l i - sineAt (toRad "rad/s" 1) h (H *ᵥ a) l i| < δ := by
  have hn : Normal (⟨constArr 1 1 [1], constArr 1 1 [1, 1], false, none⟩ : TransferM ℝ) 1 1 (Matrix.of fun _ _ => [1]) (Matrix.of fun _ _ => [1, 1]) :=
    normal_siso E (a := [1]) (b := [1, 1]) (by simp) (Or.inr ⟨1, [], rfl, one_ne_zero⟩) (by simp) dtOk_none
  obtain ⟨R, hR⟩ := C46_transfer_succeeds_partial (auto := []) (samples := none) (iu := "rad/s") (ou := "rad/s") (g := ⟨[1], [1]⟩)
    (G := ⟨constArr 1 1 [1], constArr 1 1 [1, 1], false, none⟩) (.inr rfl) (.inr rfl) rfl (by simp) (.inl rfl)
  have hz : ¬ IsHz "rad/s" := by unfold IsHz; decide
  have hw := C46_transfer_grid_partial (iu := "rad/s") (.inr (by unfold IsRad; rfl)) (.inl rfl) hR
  have hw0 : R.w[0]? = some 1 := by
    cases h : R.w with
    | nil => rw [h] at hw; simp [askedGrid] at hw
    | cons x l =>
      rw [h] at hw
      simp [askedGrid, toRad, hz] at hw
      simp [hw.1]
  obtain ⟨H, h1, h2⟩ := C95_transfer_continuous_partial (Nm := Nm) (Bn := plainDNum) hbal hl plainDNum_ok (clearModel_int hl hr hn.num hn.den (fun _ _ => [1]) (fun _ _ => [1, 1]) (by simp) (by simp) (by simp))
    hn rfl (fun i j s hs => by
      have : s = -1 := by
        simp [polyAt, toPoly] at hs
        exact eq_neg_of_add_eq_zero_left hs
      rw [this]; simp) rfl (.inl rfl) hR hw0
  exact ⟨R, H, hR, h1, h2⟩

end Harold
