import Verif.Lemmas.Energy
import Verif.Props.Sim
import Verif.Props.SmallGain

/-!
# C105: the largest gain over all frequencies is the energy gain of simulations
-/

namespace Harold

open Matrix Harold.Spec

variable {P : Type} {Nm : Numerics ℝ P} {E : DNum} {S : StateObj ℝ P} {n m p : ℕ}
  {A : Matrix (Fin n) (Fin n) ℝ} {B : Matrix (Fin n) (Fin m) ℝ} {C : Matrix (Fin p) (Fin n) ℝ} {D : Matrix (Fin p) (Fin m) ℝ} {h γ : ℝ}

open scoped Matrix.Norms.L2Operator in
/-- The gain bound of a discrete model in terms of its matrices. -/
theorem gainBound_disc (hh : 0 < h) (hA : Schur A) : GainBound ⟨Arr.of A, Arr.of B, Arr.of C, Arr.of D, some h, false⟩ p m γ ↔
    ∀ z : ℂ, ‖z‖ = 1 → ‖tfAt (A.map (algebraMap ℝ ℂ)) (B.map (algebraMap ℝ ℂ)) (C.map (algebraMap ℝ ℂ)) (D.map (algebraMap ℝ ℂ)) z‖ ≤ γ := by
  constructor
  · intro hγ z hz
    obtain ⟨ω, rfl⟩ := circle_point hh hz
    obtain ⟨M, h1, h2⟩ := hγ ω
    obtain ⟨n', A', B', C', D', hA, hB, hC, hD, hT⟩ := dyn_elim h1 rfl
    obtain rfl : n = n' := congrArg Arr.r hA
    obtain rfl := Arr.of_inj.mp hA
    obtain rfl := Arr.of_inj.mp hB
    obtain rfl := Arr.of_inj.mp hC
    obtain rfl := Arr.of_inj.mp hD
    rw [hT.2] at h2
    exact h2
  · intro hz ω
    have h1 : ‖evalPoint (some h) ω‖ = 1 := by
      simp only [evalPoint, Option.elim]
      rw [show Complex.I * (ω * h : ℂ) = ((ω * h : ℝ) : ℂ) * Complex.I by push_cast; ring]
      exact Complex.norm_exp_ofReal_mul_I _
    exact ⟨_, HasTF.of_dyn ⟨schur_circle_det hA _ h1, rfl⟩, hz _ h1⟩

theorem schur_of_stable (hst : StableModel ⟨Arr.of A, Arr.of B, Arr.of C, Arr.of D, some h, false⟩) : Schur A := by
  rcases hst with h0 | ⟨n', A', hA, hM⟩
  · cases h0
  · obtain rfl : n = n' := congrArg Arr.r hA
    obtain rfl := Arr.of_inj.mp hA
    exact schur_iff_motions.mpr hM

/-- The state sequence behind `Spec.output`. -/
theorem output_states {N : ℕ} (w : ℕ → Fin m → ℝ) {U : Fin N → Fin m → ℝ} (hU : ∀ i : Fin N, U i = w i) :
    ∃ z : ℕ → Fin n → ℝ, z 0 = 0 ∧ (∀ k, z (k + 1) = A *ᵥ z k + B *ᵥ w k) ∧ ∀ i : Fin N, output A B C D 0 U i = C *ᵥ z i + D *ᵥ w i := by
  refine ⟨fun k => ∑ j ∈ Finset.range k, A ^ (k - 1 - j) *ᵥ (B *ᵥ w j), by simp, fun k => ?_, fun i => ?_⟩
  · simp only
    rw [Finset.sum_range_succ, Matrix.mulVec_sum]
    congr 1
    · refine Finset.sum_congr rfl fun j hj => ?_
      rw [Matrix.mulVec_mulVec (B *ᵥ w j) A, ← pow_succ']
      have := Finset.mem_range.mp hj
      congr 2
      omega
    · simp
  · rw [output_range w hU, mulVec_zero, mulVec_zero, zero_add]
    simp only [Matrix.mulVec_sum]

theorem states_unique {z z' : ℕ → Fin n → ℝ} {w : ℕ → Fin m → ℝ} (h0 : z 0 = z' 0) (h1 : ∀ k, z (k + 1) = A *ᵥ z k + B *ᵥ w k) (h2 : ∀ k, z' (k + 1) = A *ᵥ z' k + B *ᵥ w k) (k : ℕ) : z k = z' k := by
  induction k with
  | zero => exact h0
  | succ k ih => rw [h1, h2, ih]

/-- **C105**: for a stable discrete model, `γ` bounds the largest singular values of the frequency response if and only if every simulation from rest returns outputs whose energy (the sum of the squares of all
samples) is at most `γ²` times the energy of the input. Missing from the full claim: inputs of a single sample (`C39_single_sample_violated`); static gains are in `C105_gain_partial`. -/
theorem C105_energy_gain_partial (hm : 1 ≤ m) (hG : S.g = ⟨Arr.of A, Arr.of B, Arr.of C, Arr.of D, some h, false⟩) (hh : 0 < h) (hst : StableModel S.g) (hγ0 : 0 ≤ γ) :
    GainBound S.g p m γ ↔ ∀ (N : ℕ) (U : Matrix (Fin N) (Fin m) ℝ), 2 ≤ N → ∃ (Y : Matrix (Fin N) (Fin p) ℝ) (t : List ℝ),
      simulate Nm E S (Arr.of U) none none false = .ok (.flat (Arr.of Y), t) ∧ ∑ i, ∑ k, Y i k ^ 2 ≤ γ ^ 2 * ∑ i, ∑ k, U i k ^ 2 := by
  have hA : Schur A := schur_of_stable (B := B) (C := C) (D := D) (h := h) (hG ▸ hst)
  rw [hG, gainBound_disc hh hA]
  constructor
  · intro hγ N U hN
    refine ⟨_, _, C39_output_partial hN hm hG (Or.inl ⟨rfl, rfl⟩), ?_⟩
    set w : ℕ → Fin m → ℝ := fun k => if hk : k < N then U ⟨k, hk⟩ else 0 with hw
    have hU : ∀ i : Fin N, U i = w i := fun i => by simp [hw]
    obtain ⟨z, h1, h2, h3⟩ := output_states (A := A) (B := B) (C := C) (D := D) w hU
    have h4 := energy_le hA hγ h1 h2 N
    simp only [Matrix.of_apply, h3]
    rw [← Fin.sum_univ_eq_sum_range (fun k => ∑ i, (C *ᵥ z k + D *ᵥ w k) i ^ 2), ← Fin.sum_univ_eq_sum_range (fun k => ∑ i, w k i ^ 2)] at h4
    simp only [← hU] at h4 ⊢
    exact h4
  · intro hE
    refine gain_of_energy hA hγ0 fun z w h0 h1 N hN => ?_
    obtain ⟨Y, t, h2, h3⟩ := hE N (Matrix.of fun i : Fin N => w i) hN
    rw [C39_output_partial hN hm hG (Or.inl ⟨rfl, rfl⟩)] at h2
    simp only [Except.ok.injEq, Prod.mk.injEq, SimOut.flat.injEq, Arr.of_inj] at h2
    obtain ⟨z', h4, h5, h6⟩ := output_states (A := A) (B := B) (C := C) (D := D) (N := N) (U := Matrix.of fun i : Fin N => w i) w (fun i => rfl)
    rw [← h2.1] at h3
    simp only [Matrix.of_apply] at h3
    simp only [h6, ← states_unique (h0.trans h4.symm) h1 h5] at h3
    rw [← Fin.sum_univ_eq_sum_range (fun k => ∑ i, (C *ᵥ z k + D *ᵥ w k) i ^ 2), ← Fin.sum_univ_eq_sum_range (fun k => ∑ i, w k i ^ 2)]
    exact h3

/-- **C105** for static gains. Missing from the full claim: inputs of a single sample (`C39_single_sample_violated`). -/
theorem C105_gain_partial (hm : 1 ≤ m) {a b c : Arr ℝ} (hG : S.g = ⟨a, b, c, Arr.of D, some h, true⟩) (hh : 0 < h) (hγ0 : 0 ≤ γ) :
    GainBound S.g p m γ ↔ ∀ (N : ℕ) (U : Matrix (Fin N) (Fin m) ℝ), 2 ≤ N → ∃ (Y : Matrix (Fin N) (Fin p) ℝ) (t : List ℝ),
      simulate Nm E S (Arr.of U) none none false = .ok (.flat (Arr.of Y), t) ∧ ∑ i, ∑ k, Y i k ^ 2 ≤ γ ^ 2 * ∑ i, ∑ k, U i k ^ 2 := by
  set G₀ : StateM ℝ := ⟨Arr.of (0 : Matrix (Fin 0) (Fin 0) ℝ), Arr.of (0 : Matrix (Fin 0) (Fin m) ℝ), Arr.of (0 : Matrix (Fin p) (Fin 0) ℝ), Arr.of D, some h, false⟩ with hG₀
  have hst : StableModel G₀ := Or.inr ⟨0, 0, rfl, schur_iff_motions.mp fun z hz => by simp [IsEig] at hz⟩
  have key := C105_energy_gain_partial (Nm := Nm) (E := E) (S := { S with g := G₀ }) (γ := γ) hm rfl hh hst hγ0
  have e1 : GainBound S.g p m γ ↔ GainBound G₀ p m γ := by
    have ev : ∀ (s : ℂ) (M : Matrix (Fin p) (Fin m) ℂ), HasTF S.g p m s M ↔ HasTF G₀ p m s M := fun s M => by
      rw [hG]
      constructor
      · rintro (⟨-, D', hD, rfl⟩ | ⟨h0, -⟩)
        · obtain rfl := Arr.of_inj.mp hD
          exact HasTF.of_dyn ⟨by simp, by simp⟩
        · cases h0
      · intro hM
        obtain ⟨n', A', B', C', D', hA, hB, hC, hD, hT⟩ := dyn_elim hM rfl
        obtain rfl : 0 = n' := congrArg Arr.r hA
        obtain rfl := Arr.of_inj.mp hD
        refine Or.inl ⟨rfl, D, rfl, ?_⟩
        rw [hT.2]
        ext i j
        simp [Matrix.mul_apply]
    unfold GainBound
    rw [show S.g.dt = G₀.dt by rw [hG]]
    simp only [ev]
  rw [e1, show GainBound G₀ p m γ = GainBound ({ S with g := G₀ } : StateObj ℝ P).g p m γ from rfl, key]
  refine forall_congr' fun N => forall_congr' fun U => forall_congr' fun hN => ?_
  rw [C39_gain_partial hN hm hG, C39_output_partial (S := { S with g := G₀ }) hN hm rfl (Or.inl ⟨rfl, rfl⟩)]
  have e2 : (Matrix.of fun i => output (0 : Matrix (Fin 0) (Fin 0) ℝ) (0 : Matrix (Fin 0) (Fin m) ℝ) (0 : Matrix (Fin p) (Fin 0) ℝ) D 0 U i) = Matrix.of fun i => D *ᵥ U i := by
    ext i j
    simp [output]
  rw [e2]

/-- `1/(2z)` with the period `0.1`. -/
noncomputable def delayHalf (P : Type) : StateObj ℝ P :=
  { lagObj P with g := ⟨Arr.of !![0], Arr.of !![1 / 2], Arr.of !![1], Arr.of !![0], some (1 / 10), false⟩ }

theorem delayHalf_schur : Schur (!![0] : Matrix (Fin 1) (Fin 1) ℝ) := by
  intro z hz
  have : z = 0 := by simpa [IsEig, Matrix.det_fin_one] using hz
  rw [this]
  norm_num

theorem delayHalf_stable (P : Type) : StableModel (delayHalf P).g := Or.inr ⟨1, _, rfl, schur_iff_motions.mp delayHalf_schur⟩

theorem delayHalf_gain (P : Type) : GainBound (delayHalf P).g 1 1 (1 / 2) := by
  refine (gainBound_disc (h := 1 / 10) (A := !![0]) (B := !![1 / 2]) (C := !![1]) (D := !![0]) (p := 1) (m := 1) (by norm_num) delayHalf_schur).mpr fun z hz => ?_
  have hz0 : z ≠ 0 := fun h => by rw [h, norm_zero] at hz; norm_num at hz
  have h2 : tfAt ((!![0] : Matrix (Fin 1) (Fin 1) ℝ).map (algebraMap ℝ ℂ)) ((!![1 / 2] : Matrix (Fin 1) (Fin 1) ℝ).map (algebraMap ℝ ℂ)) ((!![1] : Matrix (Fin 1) (Fin 1) ℝ).map (algebraMap ℝ ℂ))
      ((!![0] : Matrix (Fin 1) (Fin 1) ℝ).map (algebraMap ℝ ℂ)) z = !![1 / (2 * z)] := by
    refine (isTF_iff_sol.mpr ⟨?_, !![1 / (2 * z)], ?_, ?_⟩).2.symm
    · simpa [Matrix.det_fin_one] using hz0
    · ext i j; fin_cases i; fin_cases j
      simp [Matrix.mul_apply]
      field_simp
    · ext i j; fin_cases i; fin_cases j; simp [Matrix.mul_apply]
  rw [h2, scalar_norm, norm_div, norm_mul, hz]
  norm_num

/-- Simulations of `1/(2z)` return at most a quarter of the energy of the input. -/
example (N : ℕ) (U : Matrix (Fin N) (Fin 1) ℝ) (hN : 2 ≤ N) : ∃ (Y : Matrix (Fin N) (Fin 1) ℝ) (t : List ℝ),
      simulate Nm E (delayHalf P) (Arr.of U) none none false = .ok (.flat (Arr.of Y), t) ∧ ∑ i, ∑ k, Y i k ^ 2 ≤ (1 / 2) ^ 2 * ∑ i, ∑ k, U i k ^ 2 :=
  (C105_energy_gain_partial (P := P) (m := 1) (p := 1) (S := delayHalf P) (h := 1 / 10) (A := !![0]) (B := !![1 / 2]) (C := !![1]) (D := !![0]) le_rfl rfl (by norm_num) (delayHalf_stable P)
    (by norm_num)).mp (delayHalf_gain P) N U hN

-- `C105_gain_partial`: the gain `1/2`.
example {P : Type} {Nm : Numerics ℝ P} {E : DNum} (N : ℕ) (U : Matrix (Fin N) (Fin 1) ℝ) (hN : 2 ≤ N) : ∃ (S : StateObj ℝ P) (Y : Matrix (Fin N) (Fin 1) ℝ) (t : List ℝ),
    simulate Nm E S (Arr.of U) none none false = .ok (.flat (Arr.of Y), t) ∧ ∑ i, ∑ k, Y i k ^ 2 ≤ (1 / 2 : ℝ) ^ 2 * ∑ i, ∑ k, U i k ^ 2 := by
  have hb : GainBound (⟨Arr.empty, Arr.empty, Arr.empty, Arr.of !![1 / 2], some (1 / 10), true⟩ : StateM ℝ) 1 1 (1 / 2) := fun ω => by
    refine ⟨_, Or.inl ⟨rfl, _, rfl, rfl⟩, opNorm_le_of_sq (by norm_num) fun v => le_of_eq ?_⟩
    simp [mulVec, dotProduct, mul_pow]
  obtain ⟨Y, t, h1, h2⟩ := (C105_gain_partial (Nm := Nm) (E := E) (S := { lagObj P with g := ⟨Arr.empty, Arr.empty, Arr.empty, Arr.of !![1 / 2], some (1 / 10), true⟩ }) le_rfl rfl (by norm_num) (by norm_num)).mp hb N U hN
  exact ⟨_, Y, t, h1, h2⟩

end Harold
