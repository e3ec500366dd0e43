import Verif.Lemmas.Positive
import Verif.Props.SmallGain
import Verif.Props.GainOps
import Verif.Props.Expr
import Verif.Props.TimeUnits

/-!
# C136: positive models
-/

namespace Harold

open Matrix Spec NormedSpace Filter Topology

section basic

variable {n m p N : ℕ} {A : Matrix (Fin n) (Fin n) ℝ} {B : Matrix (Fin n) (Fin m) ℝ} {C : Matrix (Fin p) (Fin n) ℝ} {D : Matrix (Fin p) (Fin m) ℝ}

/-- The matrix `R` of the model at frequency zero, and the bound by it for the other frequencies. -/
theorem positive_resolvent {dt : Option ℝ} (hA : if dt.isSome then NoNeg A else NoNegOff A) (hs : MotionsVanish dt A) : ∃ R : Matrix (Fin n) (Fin n) ℝ, NoNeg R ∧
    R * ((if dt.isSome then (1 : ℝ) else 0) • (1 : Matrix (Fin n) (Fin n) ℝ) - A) = 1 ∧
    ∀ ω, (evalPoint dt ω • (1 : Matrix (Fin n) (Fin n) ℂ) - A.map (algebraMap ℝ ℂ)).det ≠ 0 ∧ NoNeg (R - mabs (evalPoint dt ω • (1 : Matrix (Fin n) (Fin n) ℂ) - A.map (algebraMap ℝ ℂ))⁻¹) := by
  have hst := motions_iff.mp hs
  have hdet : ∀ ω, (evalPoint dt ω • (1 : Matrix (Fin n) (Fin n) ℂ) - A.map (algebraMap ℝ ℂ)).det ≠ 0 := by
    intro ω h0
    have h1 := hst _ h0
    cases dt with
    | none => simp [StablePoint, evalPoint] at h1
    | some h =>
      have : ‖evalPoint (some h) ω‖ = 1 := by
        rw [evalPoint, Option.elim, ← Complex.ofReal_mul, mul_comm, Complex.norm_exp_ofReal_mul_I]
      simp [StablePoint, this] at h1
  set u : ℝ := if dt.isSome then (1 : ℝ) else 0 with hu
  have hu0 : evalPoint dt 0 = (u : ℂ) := by
    cases dt <;> simp [evalPoint, hu]
  have hdu : (u • (1 : Matrix (Fin n) (Fin n) ℝ) - A).det ≠ 0 := by
    intro h0
    refine hdet 0 ?_
    rw [hu0]
    have : (u : ℂ) • (1 : Matrix (Fin n) (Fin n) ℂ) - A.map (algebraMap ℝ ℂ) = (algebraMap ℝ ℂ).mapMatrix (u • (1 : Matrix (Fin n) (Fin n) ℝ) - A) := by
      ext i j
      by_cases h : i = j <;> simp [h]
    rw [this, ← RingHom.map_det, h0, map_zero]
  have hR1 : (u • (1 : Matrix (Fin n) (Fin n) ℝ) - A)⁻¹ * (u • (1 : Matrix (Fin n) (Fin n) ℝ) - A) = 1 := Matrix.nonsing_inv_mul _ (isUnit_iff_ne_zero.mpr hdu)
  have hR2 : (u • (1 : Matrix (Fin n) (Fin n) ℝ) - A) * (u • (1 : Matrix (Fin n) (Fin n) ℝ) - A)⁻¹ = 1 := Matrix.mul_nonsing_inv _ (isUnit_iff_ne_zero.mpr hdu)
  set R := (u • (1 : Matrix (Fin n) (Fin n) ℝ) - A)⁻¹ with hR
  have hX : ∀ ω, (evalPoint dt ω • (1 : Matrix (Fin n) (Fin n) ℂ) - A.map (algebraMap ℝ ℂ)) * (evalPoint dt ω • (1 : Matrix (Fin n) (Fin n) ℂ) - A.map (algebraMap ℝ ℂ))⁻¹ = 1 :=
    fun ω => Matrix.mul_nonsing_inv _ (isUnit_iff_ne_zero.mpr (hdet ω))
  cases dt with
  | some h =>
    simp only [Option.isSome_some, if_true] at hA hu
    rw [hu] at hR1 hR2 hdu ⊢
    have hR0 : NoNeg R := by
      refine noNeg_of_schur hA (fun z hz => by simpa [StablePoint] using hst z hz) ?_
      have : R - R * A = 1 := by
        rw [← hR1, one_smul, Matrix.mul_sub, Matrix.mul_one]
      rw [this]
      exact noNeg_one
    refine ⟨R, hR0, hR1, fun ω => ⟨hdet ω, resolvent_le (t := 0) (u := 1) (by simpa using hA) hR0 hR1 ?_ (hX ω)⟩⟩
    have : ‖evalPoint (some h) ω‖ = 1 := by
      rw [evalPoint, Option.elim, ← Complex.ofReal_mul, mul_comm, Complex.norm_exp_ofReal_mul_I]
    simp [this]
  | none =>
    simp only [Option.isSome_none, Bool.false_eq_true, if_false] at hA hu
    rw [hu] at hR1 hR2 hdu ⊢
    have hAH : Hurwitz A := fun z hz => by simpa [StablePoint] using hst z hz
    have hR0 : NoNeg R := by
      refine noNeg_of_schur (F := exp A) hA.exp (by simpa using hold_schur hAH one_pos) ?_
      have h1 : A * gam A (1 : Matrix (Fin n) (Fin n) ℝ) 0 = exp A - 1 := by rw [gam_hold, Matrix.mul_one]
      have : R - R * exp A = gam A (1 : Matrix (Fin n) (Fin n) ℝ) 0 := by
        have h2 : R * (A * gam A (1 : Matrix (Fin n) (Fin n) ℝ) 0) = R * exp A - R := by rw [h1, Matrix.mul_sub, Matrix.mul_one]
        rw [zero_smul, zero_sub, Matrix.mul_neg] at hR1
        rw [← Matrix.mul_assoc, ← neg_neg (R * A), hR1, Matrix.neg_mul, Matrix.one_mul] at h2
        rw [← neg_inj, h2, neg_sub]
      rw [this]
      exact noNeg_gam hA noNeg_one
    obtain ⟨t, ht, h2⟩ := hA.shift
    refine ⟨R, hR0, hR1, fun ω => ⟨hdet ω, resolvent_le (t := t) (u := 0) h2 hR0 hR1 ?_ (hX ω)⟩⟩
    have := Complex.abs_re_le_norm (evalPoint none ω + t)
    simp only [evalPoint, Option.elim, Complex.add_re, Complex.mul_re, Complex.I_re, Complex.I_im, Complex.ofReal_re, Complex.ofReal_im, zero_mul, mul_zero, sub_zero, zero_add, abs_of_nonneg ht] at this
    rw [zero_add]
    simpa [evalPoint] using this

theorem positive_zero {dt : Option ℝ} {R : Matrix (Fin n) (Fin n) ℝ} (hR : R * ((if dt.isSome then (1 : ℝ) else 0) • (1 : Matrix (Fin n) (Fin n) ℝ) - A) = 1) :
    HasTF (stateOf A B C D dt) p m (evalPoint dt 0) ((C * R * B + D).map (algebraMap ℝ ℂ)) := by
  rw [hasTF_stateOf]
  have hu0 : evalPoint dt 0 = (((if dt.isSome then (1 : ℝ) else 0) : ℝ) : ℂ) := by
    cases dt <;> simp [evalPoint]
  rw [hu0]
  set u : ℝ := if dt.isSome then (1 : ℝ) else 0
  have e : (u : ℂ) • (1 : Matrix (Fin n) (Fin n) ℂ) - A.map (algebraMap ℝ ℂ) = (algebraMap ℝ ℂ).mapMatrix (u • (1 : Matrix (Fin n) (Fin n) ℝ) - A) := by
    ext i j
    by_cases h : i = j <;> simp [Matrix.one_apply, h]
  have h1 : R.map (algebraMap ℝ ℂ) * ((u : ℂ) • (1 : Matrix (Fin n) (Fin n) ℂ) - A.map (algebraMap ℝ ℂ)) = 1 := by
    have := congrArg (algebraMap ℝ ℂ).mapMatrix hR
    rw [map_mul, map_one, ← e] at this
    exact this
  refine ⟨(Matrix.isUnit_det_of_left_inverse h1).ne_zero, ?_⟩
  rw [Matrix.inv_eq_left_inv h1, Matrix.map_add _ (map_add _), Matrix.map_mul, Matrix.map_mul]

/-- **C136**, frequency responses: the response of a stable positive model at frequency zero has no negative entry, and at every other frequency no entry has a larger absolute value. -/
theorem C136_gain {P : Type} {S : StateObj ℝ P} {dt : Option ℝ} (hS : S.g = stateOf A B C D dt) (hpos : Positive4 dt A B C D) (hs : StableModel S.g) :
    ∃ M0 : Matrix (Fin p) (Fin m) ℝ, NoNeg M0 ∧ HasTF S.g p m (evalPoint dt 0) (M0.map (algebraMap ℝ ℂ)) ∧
      ∀ ω, ∃ M : Matrix (Fin p) (Fin m) ℂ, HasTF S.g p m (evalPoint dt ω) M ∧ ∀ i j, ‖M i j‖ ≤ M0 i j := by
  have hm : MotionsVanish dt A := by
    rcases hs with h | ⟨n', A', h1, h2⟩
    · rw [hS] at h; cases h
    · rw [hS] at h1 h2
      obtain rfl : n = n' := congrArg Arr.r h1
      obtain rfl := Arr.of_inj.mp h1
      exact h2
  obtain ⟨hA, hB, hC, hD⟩ := hpos
  obtain ⟨R, hR0, hR1, hR2⟩ := positive_resolvent hA hm
  refine ⟨C * R * B + D, ((hC.mul hR0).mul hB).add hD, by rw [hS]; exact positive_zero hR1, fun ω => ⟨_, by rw [hS, hasTF_stateOf]; exact ⟨(hR2 ω).1, rfl⟩, fun i j => ?_⟩⟩
  set X := (evalPoint dt ω • (1 : Matrix (Fin n) (Fin n) ℂ) - A.map (algebraMap ℝ ℂ))⁻¹
  have h1 := mabs_add (C.map (algebraMap ℝ ℂ) * X * B.map (algebraMap ℝ ℂ)) (D.map (algebraMap ℝ ℂ)) i j
  have h2 := mabs_mul (C.map (algebraMap ℝ ℂ) * X) (B.map (algebraMap ℝ ℂ)) i j
  have h3 := ((mabs_mul (C.map (algebraMap ℝ ℂ)) X).mul hB) i j
  have h4 := ((hC.mul (hR2 ω).2).mul hB) i j
  rw [mabs_map hB] at h2
  rw [mabs_map hC] at h3
  rw [mabs_map hD] at h1
  rw [Matrix.sub_mul] at h3
  rw [Matrix.mul_sub, Matrix.sub_mul] at h4
  simp only [Matrix.sub_apply, Matrix.add_apply] at h1 h2 h3 h4
  change mabs (C.map (algebraMap ℝ ℂ) * X * B.map (algebraMap ℝ ℂ) + D.map (algebraMap ℝ ℂ)) i j ≤ _
  rw [Matrix.add_apply]
  linarith

/-- **C136**, gain: the largest gain over all frequencies of a stable positive SISO model is its gain at frequency zero. -/
theorem C136_siso {P : Type} {S : StateObj ℝ P} {dt : Option ℝ} {B : Matrix (Fin n) (Fin 1) ℝ} {C : Matrix (Fin 1) (Fin n) ℝ} {D : Matrix (Fin 1) (Fin 1) ℝ} (hS : S.g = stateOf A B C D dt) (hpos : Positive4 dt A B C D)
    (hs : StableModel S.g) : ∃ γ₀ : ℝ, 0 ≤ γ₀ ∧ HasTF S.g 1 1 (evalPoint dt 0) !![(γ₀ : ℂ)] ∧ ∀ γ, GainBound S.g 1 1 γ ↔ γ₀ ≤ γ := by
  obtain ⟨M0, h1, h2, h3⟩ := C136_gain hS hpos hs
  have e : M0.map (algebraMap ℝ ℂ) = !![(M0 0 0 : ℂ)] := by
    ext i j; fin_cases i; fin_cases j; simp
  rw [e] at h2
  have hdt : S.g.dt = dt := by rw [hS]
  refine ⟨M0 0 0, h1 0 0, h2, fun γ => ⟨fun h => ?_, fun h ω => ?_⟩⟩
  · obtain ⟨M, h4, h5⟩ := h 0
    rw [hdt] at h4
    rw [HasTF_unique h4 h2, scalar_norm, Complex.norm_real, Real.norm_of_nonneg (h1 0 0)] at h5
    exact h5
  · obtain ⟨M, h4, h5⟩ := h3 ω
    refine ⟨M, by rw [hdt]; exact h4, ?_⟩
    have e : M = !![M 0 0] := by
      ext i j; fin_cases i; fin_cases j; simp
    rw [e, scalar_norm]
    exact (h5 0 0).trans h

end basic

section sim

variable {n m p N : ℕ} {A : Matrix (Fin n) (Fin n) ℝ} {B : Matrix (Fin n) (Fin m) ℝ} {C : Matrix (Fin p) (Fin n) ℝ} {D : Matrix (Fin p) (Fin m) ℝ} {P : Type} {Nm : Numerics ℝ P} {E : DNum}
  {S : StateObj ℝ P} {h t0 : ℝ} {U U' : Matrix (Fin N) (Fin m) ℝ}

theorem extend_rows (U : Matrix (Fin N) (Fin m) ℝ) (v : Fin m → ℝ) : ∃ w : ℕ → Fin m → ℝ, (∀ i : Fin N, U i = w i) ∧ ∀ i, N ≤ i → w i = v :=
  ⟨fun k => if hk : k < N then U ⟨k, hk⟩ else v, fun i => by simp, fun i hi => by simp [Nat.not_lt.mpr hi]⟩

theorem run_mono (hA : NoNeg A) (hB : NoNeg B) (hC : NoNeg C) (hD : NoNeg D) {w w' : ℕ → Fin m → ℝ} {x x' : Fin n → ℝ} (hw : ∀ i j, w i j ≤ w' i j) (hx : ∀ j, x j ≤ x' j) (i : ℕ) (l : Fin p) :
    (C *ᵥ runStates A B w x i + D *ᵥ w i) l ≤ (C *ᵥ runStates A B w' x' i + D *ᵥ w' i) l := by
  have h1 := runStates_nonneg hA hB (w := w' - w) (x := x' - x) (fun i j => by simpa using hw i j) (fun j => by simpa using hx j) i
  have h2 := hC.mulVec h1 l
  have h3 := hD.mulVec (v := w' i - w i) (fun j => by simpa using hw i j) l
  rw [runStates_sub, mulVec_sub] at h2
  rw [mulVec_sub] at h3
  simp only [Pi.sub_apply, Pi.add_apply] at h2 h3 ⊢
  linarith

/-- The held model of a positive continuous model is positive. -/
theorem held_positive (hh : 0 < h) (hA : NoNegOff A) (hB : NoNeg B) : NoNeg (exp (h • A)) ∧ NoNeg (gam (h • A) (h • B) 0) :=
  ⟨(hA.smul hh.le).exp, noNeg_gam (hA.smul hh.le) (hB.smul hh.le)⟩

/-- **C136**, discretization: the zero-order hold of a positive continuous model is a positive discrete model. -/
theorem C136_zoh (hE : BalanceOk E) (hh : 0 < h) (hS : S.g = stateOf A B C D none) (hpos : Positive4 none A B C D) {pw : ℝ} {q : Option (Arr ℝ)} :
    ∃ (T : StateObj ℝ P) (Ad : Matrix (Fin n) (Fin n) ℝ) (Bd : Matrix (Fin n) (Fin m) ℝ), discretize Nm E S h "zoh" pw q = .ok T ∧ T.g = stateOf Ad Bd C D (some h) ∧ Positive4 (some h) Ad Bd C D := by
  obtain ⟨T, h1, h2⟩ := zoh_model (Nm := Nm) (pw := pw) (q := q) hE hh hS
  obtain ⟨hA, hB, hC, hD⟩ := hpos
  obtain ⟨h3, h4⟩ := held_positive (h := h) hh hA hB
  exact ⟨T, _, _, h1, h2, h3, h4, hC, hD⟩

/-- **C136**, discrete simulations: larger inputs and initial states give larger outputs. -/
theorem C136_simulate (hN : 2 ≤ N) (hm : 1 ≤ m) (hS : S.g = stateOf A B C D (some h)) (hpos : Positive4 (some h) A B C D) {x0 x0' : Fin n → ℝ} {xarg xarg' : Option (List ℝ)} (hx : InitArg xarg x0) (hx' : InitArg xarg' x0')
    (hU : ∀ i j, U i j ≤ U' i j) (h0 : ∀ j, x0 j ≤ x0' j) :
    ∃ (Y Y' : Matrix (Fin N) (Fin p) ℝ) (t : List ℝ), simulate Nm E S (Arr.of U) none xarg false = .ok (.flat (Arr.of Y), t) ∧ simulate Nm E S (Arr.of U') none xarg' false = .ok (.flat (Arr.of Y'), t) ∧
      ∀ i l, Y i l ≤ Y' i l := by
  obtain ⟨hA, hB, hC, hD⟩ := hpos
  obtain ⟨w, hw, hw0⟩ := extend_rows U 0
  obtain ⟨w', hw', hw0'⟩ := extend_rows U' 0
  refine ⟨_, _, _, C39_output_partial hN hm hS hx, C39_output_partial hN hm hS hx', fun i l => ?_⟩
  rw [of_apply, of_apply, output_run w hw, output_run w' hw']
  refine run_mono hA hB hC hD (fun i j => ?_) h0 i l
  by_cases hi : i < N
  · rw [← hw ⟨i, hi⟩, ← hw' ⟨i, hi⟩]; exact hU _ j
  · rw [hw0 i (not_lt.mp hi), hw0' i (not_lt.mp hi)]

/-- **C136**, continuous simulations: larger inputs and initial states give larger outputs. -/
theorem C136_simulate_continuous (hE : BalanceOk E) (hN : 2 ≤ N) (hm : 1 ≤ m) (hS : S.g = stateOf A B C D none) (hh : 0 < h) (hpos : Positive4 none A B C D) {x0 x0' : Fin n → ℝ} {xarg xarg' : Option (List ℝ)}
    (hx : InitArg xarg x0) (hx' : InitArg xarg' x0') (hU : ∀ i j, U i j ≤ U' i j) (h0 : ∀ j, x0 j ≤ x0' j) :
    ∃ Y Y' : Matrix (Fin N) (Fin p) ℝ, simulate Nm E S (Arr.of U) (some (eqGrid N t0 h)) xarg false = .ok (.flat (Arr.of Y), eqGrid N t0 h) ∧
      simulate Nm E S (Arr.of U') (some (eqGrid N t0 h)) xarg' false = .ok (.flat (Arr.of Y'), eqGrid N t0 h) ∧ ∀ i l, Y i l ≤ Y' i l := by
  obtain ⟨hA, hB, hC, hD⟩ := hpos
  obtain ⟨h3, h4⟩ := held_positive (h := h) hh hA hB
  obtain ⟨w, hw, hw0⟩ := extend_rows U 0
  obtain ⟨w', hw', hw0'⟩ := extend_rows U' 0
  refine ⟨_, _, simulate_held hE hN hm hS hh hx w hw, simulate_held hE hN hm hS hh hx' w' hw', fun i l => ?_⟩
  rw [of_apply, of_apply]
  refine run_mono h3 h4 hC hD (fun i j => ?_) h0 i l
  by_cases hi : i < N
  · rw [← hw ⟨i, hi⟩, ← hw' ⟨i, hi⟩]; exact hU _ j
  · rw [hw0 i (not_lt.mp hi), hw0' i (not_lt.mp hi)]

/-- **C136**, signs, discrete: without negative inputs and initial states no output is negative. -/
theorem C136_sign (hN : 2 ≤ N) (hm : 1 ≤ m) (hS : S.g = stateOf A B C D (some h)) (hpos : Positive4 (some h) A B C D) {x0 : Fin n → ℝ} {xarg : Option (List ℝ)} (hx : InitArg xarg x0)
    (hU : NoNeg U) (h0 : ∀ j, 0 ≤ x0 j) : ∃ (Y : Matrix (Fin N) (Fin p) ℝ) (t : List ℝ), simulate Nm E S (Arr.of U) none xarg false = .ok (.flat (Arr.of Y), t) ∧ NoNeg Y := by
  obtain ⟨hA, hB, hC, hD⟩ := hpos
  obtain ⟨w, hw, hw0⟩ := extend_rows U 0
  refine ⟨_, _, C39_output_partial hN hm hS hx, fun i l => ?_⟩
  rw [of_apply, output_run w hw]
  have hw1 : ∀ i j, 0 ≤ w i j := fun i j => by
    by_cases hi : i < N
    · rw [← hw ⟨i, hi⟩]; exact hU _ j
    · rw [hw0 i (not_lt.mp hi)]; rfl
  exact add_nonneg (hC.mulVec (runStates_nonneg hA hB hw1 h0 i) l) (hD.mulVec (hw1 i) l)

/-- **C136**, signs, continuous. -/
theorem C136_sign_continuous (hE : BalanceOk E) (hN : 2 ≤ N) (hm : 1 ≤ m) (hS : S.g = stateOf A B C D none) (hh : 0 < h) (hpos : Positive4 none A B C D) {x0 : Fin n → ℝ} {xarg : Option (List ℝ)} (hx : InitArg xarg x0)
    (hU : NoNeg U) (h0 : ∀ j, 0 ≤ x0 j) : ∃ Y : Matrix (Fin N) (Fin p) ℝ, simulate Nm E S (Arr.of U) (some (eqGrid N t0 h)) xarg false = .ok (.flat (Arr.of Y), eqGrid N t0 h) ∧ NoNeg Y := by
  obtain ⟨hA, hB, hC, hD⟩ := hpos
  obtain ⟨h3, h4⟩ := held_positive (h := h) hh hA hB
  obtain ⟨w, hw, hw0⟩ := extend_rows U 0
  refine ⟨_, simulate_held hE hN hm hS hh hx w hw, fun i l => ?_⟩
  rw [of_apply]
  have hw1 : ∀ i j, 0 ≤ w i j := fun i j => by
    by_cases hi : i < N
    · rw [← hw ⟨i, hi⟩]; exact hU _ j
    · rw [hw0 i (not_lt.mp hi)]; rfl
  exact add_nonneg (hC.mulVec (runStates_nonneg h3 h4 hw1 h0 i) l) (hD.mulVec (hw1 i) l)

/-- A constant solution bounds the runs with smaller inputs. -/
theorem run_le_fixed (hA : NoNeg A) (hB : NoNeg B) (hC : NoNeg C) (hD : NoNeg D) {w : ℕ → Fin m → ℝ} {v : Fin m → ℝ} {x : Fin n → ℝ} (hw : ∀ i j, |w i j| ≤ v j) (hx : ∀ j, 0 ≤ x j) (hf : A *ᵥ x + B *ᵥ v = x) (i : ℕ) (l : Fin p) :
    |(C *ᵥ runStates A B w 0 i + D *ᵥ w i) l| ≤ (C *ᵥ x + D *ᵥ v) l := by
  have hc : ∀ i, runStates A B (fun _ => v) x i = x := fun i => by
    induction i with
    | zero => rfl
    | succ i ih => rw [runStates, ih, hf]
  have hc' : ∀ i, runStates A B (fun _ => -v) (-x) i = -x := fun i => by
    induction i with
    | zero => rfl
    | succ i ih => rw [runStates, ih, mulVec_neg, mulVec_neg, ← neg_add, hf]
  rw [abs_le]
  have h1 := run_mono hA hB hC hD (w := w) (w' := fun _ => v) (x := 0) (x' := x) (fun i j => (abs_le.mp (hw i j)).2) hx i l
  have h2 := run_mono hA hB hC hD (w := fun _ => -v) (w' := w) (x := -x) (x' := 0) (fun i j => (abs_le.mp (hw i j)).1) (fun j => by simpa using hx j) i l
  rw [hc] at h1
  rw [hc', mulVec_neg, mulVec_neg, ← neg_add] at h2
  exact ⟨h2, h1⟩

theorem fixed_discrete {R : Matrix (Fin n) (Fin n) ℝ} (hR : R * ((1 : ℝ) • (1 : Matrix (Fin n) (Fin n) ℝ) - A) = 1) : A * (R * B) + B = R * B := by
  have h1 := mul_eq_one_comm.mp hR
  rw [one_smul, Matrix.sub_mul, Matrix.one_mul] at h1
  have h2 : A * R = R - 1 := by rw [← h1]; abel
  rw [← Matrix.mul_assoc, h2, Matrix.sub_mul, Matrix.one_mul, sub_add_cancel]

theorem fixed_held {R : Matrix (Fin n) (Fin n) ℝ} (hh : 0 < h) (hR : R * ((0 : ℝ) • (1 : Matrix (Fin n) (Fin n) ℝ) - A) = 1) : exp (h • A) * (R * B) + gam (h • A) (h • B) 0 = R * B := by
  have h1 := mul_eq_one_comm.mp hR
  rw [zero_smul, zero_sub, Matrix.mul_neg] at hR
  rw [zero_smul, zero_sub, Matrix.neg_mul] at h1
  have h2 : R * A = -1 := by rw [← hR, neg_neg]
  have h3 : A * R = -1 := by rw [← h1, neg_neg]
  have h4 : (h • A) * gam (h • A) (h • B) 0 = (exp (h • A) - 1) * (h • B) := gam_hold _ _
  rw [Matrix.smul_mul, Matrix.mul_smul] at h4
  have h5 : A * gam (h • A) (h • B) 0 = (exp (h • A) - 1) * B := by
    have := congrArg (fun X => h⁻¹ • X) h4
    simpa only [smul_smul, inv_mul_cancel₀ hh.ne', one_smul] using this
  have h6 : R * (A * gam (h • A) (h • B) 0) = R * ((exp (h • A) - 1) * B) := by rw [h5]
  rw [← Matrix.mul_assoc, h2, Matrix.neg_mul, Matrix.one_mul] at h6
  have hc : Commute A R := by rw [Commute, SemiconjBy, h2, h3]
  have h7 : exp (h • A) * R = R * exp (h • A) := ((hc.smul_left h).exp_left).eq
  rw [← Matrix.mul_assoc, h7, ← neg_neg (gam (h • A) (h • B) 0), h6, Matrix.sub_mul, Matrix.mul_sub, Matrix.one_mul, Matrix.mul_assoc]
  abel

/-- **C136**, peaks, discrete: at rest at the beginning, the outputs are bounded by the gain at frequency zero applied to bounds of the inputs. -/
theorem C136_peak (hN : 2 ≤ N) (hm : 1 ≤ m) (hS : S.g = stateOf A B C D (some h)) (hpos : Positive4 (some h) A B C D) (hs : MotionsVanish (some h) A) {v : Fin m → ℝ} (hU : ∀ i j, |U i j| ≤ v j) :
    ∃ (M0 : Matrix (Fin p) (Fin m) ℝ) (Y : Matrix (Fin N) (Fin p) ℝ) (t : List ℝ), HasTF S.g p m (evalPoint (some h) 0) (M0.map (algebraMap ℝ ℂ)) ∧ simulate Nm E S (Arr.of U) none none false = .ok (.flat (Arr.of Y), t) ∧
      ∀ i l, |Y i l| ≤ (M0 *ᵥ v) l := by
  obtain ⟨hA, hB, hC, hD⟩ := hpos
  obtain ⟨R, hR0, hR1, -⟩ := positive_resolvent hA hs
  have hv : ∀ j, 0 ≤ v j := fun j => (abs_nonneg _).trans (hU ⟨0, by omega⟩ j)
  obtain ⟨w, hw, hw0⟩ := extend_rows U 0
  refine ⟨C * R * B + D, _, _, by rw [hS]; exact positive_zero hR1, C39_output_partial hN hm hS (Or.inl ⟨rfl, rfl⟩), fun i l => ?_⟩
  rw [of_apply, output_run w hw, Matrix.add_mulVec, Matrix.mul_assoc, ← mulVec_mulVec]
  refine run_le_fixed hA hB hC hD (fun i j => ?_) ((hR0.mul hB).mulVec hv) ?_ i l
  · by_cases hi : i < N
    · rw [← hw ⟨i, hi⟩]; exact hU _ j
    · rw [hw0 i (not_lt.mp hi)]; simpa using hv j
  · rw [mulVec_mulVec, ← add_mulVec, fixed_discrete (by simpa using hR1)]

/-- **C136**, peaks, continuous. -/
theorem C136_peak_continuous (hE : BalanceOk E) (hN : 2 ≤ N) (hm : 1 ≤ m) (hS : S.g = stateOf A B C D none) (hh : 0 < h) (hpos : Positive4 none A B C D) (hs : MotionsVanish none A) {v : Fin m → ℝ} (hU : ∀ i j, |U i j| ≤ v j) :
    ∃ (M0 : Matrix (Fin p) (Fin m) ℝ) (Y : Matrix (Fin N) (Fin p) ℝ), HasTF S.g p m (evalPoint none 0) (M0.map (algebraMap ℝ ℂ)) ∧
      simulate Nm E S (Arr.of U) (some (eqGrid N t0 h)) none false = .ok (.flat (Arr.of Y), eqGrid N t0 h) ∧ ∀ i l, |Y i l| ≤ (M0 *ᵥ v) l := by
  obtain ⟨hA, hB, hC, hD⟩ := hpos
  obtain ⟨R, hR0, hR1, -⟩ := positive_resolvent hA hs
  obtain ⟨h3, h4⟩ := held_positive (h := h) hh hA hB
  have hv : ∀ j, 0 ≤ v j := fun j => (abs_nonneg _).trans (hU ⟨0, by omega⟩ j)
  obtain ⟨w, hw, hw0⟩ := extend_rows U 0
  refine ⟨C * R * B + D, _, by rw [hS]; exact positive_zero hR1, simulate_held hE hN hm hS hh (Or.inl ⟨rfl, rfl⟩) w hw, fun i l => ?_⟩
  rw [of_apply, Matrix.add_mulVec, Matrix.mul_assoc, ← mulVec_mulVec]
  refine run_le_fixed h3 h4 hC hD (fun i j => ?_) ((hR0.mul hB).mulVec hv) ?_ i l
  · by_cases hi : i < N
    · rw [← hw ⟨i, hi⟩]; exact hU _ j
    · rw [hw0 i (not_lt.mp hi)]; simpa using hv j
  · rw [mulVec_mulVec, ← add_mulVec, fixed_held hh (by simpa using hR1)]

/-- The sums of the weights increase and stay below the gain at frequency zero. -/
theorem sums_bounds {X : Matrix (Fin n) (Fin m) ℝ} (hA : NoNeg A) (hB : NoNeg B) (hC : NoNeg C) (hX : NoNeg X) (hf : A * X + B = X) (l : Fin p) (r : Fin m) :
    (∀ i j : ℕ, i ≤ j → (C * (∑ q ∈ Finset.range i, A ^ q * B) + D) l r ≤ (C * (∑ q ∈ Finset.range j, A ^ q * B) + D) l r) ∧
      ∀ i : ℕ, (C * (∑ q ∈ Finset.range i, A ^ q * B) + D) l r ≤ (C * X + D) l r := by
  constructor
  · intro i j hij
    have h1 : NoNeg (C * (∑ q ∈ Finset.range j \ Finset.range i, A ^ q * B)) := hC.mul (Spec.NoNeg.sum fun q _ => (hA.pow q).mul hB)
    rw [← Finset.sum_sdiff (Finset.range_mono hij), Matrix.mul_add, Matrix.add_apply, Matrix.add_apply, Matrix.add_apply]
    have := h1 l r
    linarith
  · intro i
    have h1 : X = A ^ i * X + ∑ q ∈ Finset.range i, A ^ q * B := by
      induction i with
      | zero => simp
      | succ i ih =>
        conv_lhs => rw [ih]
        conv_lhs => rw [← hf]
        rw [Matrix.mul_add, ← Matrix.mul_assoc, ← pow_succ, Finset.sum_range_succ]
        abel
    conv_rhs => rw [h1]
    have := (hC.mul ((hA.pow i).mul hX)) l r
    rw [Matrix.mul_add, Matrix.add_apply, Matrix.add_apply, Matrix.add_apply]
    linarith

theorem markov_sum (i : ℕ) (l : Fin p) (r : Fin m) : ∑ j ∈ Finset.range (i + 1), markov A B C D j l r = (C * (∑ q ∈ Finset.range i, A ^ q * B) + D) l r := by
  rw [Finset.sum_range_succ', Matrix.add_apply, Matrix.mul_sum, Matrix.sum_apply]
  simp only [markov, Matrix.mul_assoc]

/-- **C136**, step responses, discrete: they never decrease and never exceed the gain at frequency zero. -/
theorem C136_step (hN : 2 ≤ N) (hm : 1 ≤ m) {auto : ℝ × ℝ} (hS : S.g = stateOf A B C D (some h)) (hh : 0 < h) (hpos : Positive4 (some h) A B C D) (hs : MotionsVanish (some h) A) :
    ∃ (M0 : Matrix (Fin p) (Fin m) ℝ) (y : SimOut) (Y : Fin m → Matrix (Fin N) (Fin p) ℝ), HasTF S.g p m (evalPoint (some h) 0) (M0.map (algebraMap ℝ ℂ)) ∧
      stepResponse Nm E S auto (some (eqGrid N t0 h)) = .ok (y, eqGrid N t0 h) ∧ y.slices = List.ofFn (fun r => Arr.of (Y r)) ∧ (∀ r l, ∀ i j : Fin N, i ≤ j → Y r i l ≤ Y r j l) ∧ ∀ r i l, Y r i l ≤ M0 l r := by
  obtain ⟨hA, hB, hC, hD⟩ := hpos
  obtain ⟨R, hR0, hR1, -⟩ := positive_resolvent hA hs
  obtain ⟨y, h1, h2⟩ := C42_step (Nm := Nm) (E := E) (t0 := t0) (auto := auto) hN hm hS hh
  have hb := fun l r => sums_bounds (D := D) hA hB hC (hR0.mul hB) (fixed_discrete (by simpa using hR1)) l r
  refine ⟨C * R * B + D, y, _, by rw [hS]; exact positive_zero hR1, h1, h2, fun r l i j hij => ?_, fun r i l => ?_⟩
  · rw [of_apply, of_apply, markov_sum, markov_sum]
    exact (hb l r).1 i j hij
  · rw [of_apply, markov_sum, Matrix.mul_assoc]
    exact (hb l r).2 i

/-- **C136**, step responses, continuous. -/
theorem C136_step_continuous (hE : BalanceOk E) (hN : 2 ≤ N) (hm : 1 ≤ m) {auto : ℝ × ℝ} (hS : S.g = stateOf A B C D none) (hh : 0 < h) (hpos : Positive4 none A B C D) (hs : MotionsVanish none A) :
    ∃ (M0 : Matrix (Fin p) (Fin m) ℝ) (y : SimOut) (Y : Fin m → Matrix (Fin N) (Fin p) ℝ), HasTF S.g p m (evalPoint none 0) (M0.map (algebraMap ℝ ℂ)) ∧
      stepResponse Nm E S auto (some (eqGrid N t0 h)) = .ok (y, eqGrid N t0 h) ∧ y.slices = List.ofFn (fun r => Arr.of (Y r)) ∧ (∀ r l, ∀ i j : Fin N, i ≤ j → Y r i l ≤ Y r j l) ∧ ∀ r i l, Y r i l ≤ M0 l r := by
  obtain ⟨hA, hB, hC, hD⟩ := hpos
  obtain ⟨R, hR0, hR1, -⟩ := positive_resolvent hA hs
  obtain ⟨h3, h4⟩ := held_positive (h := h) hh hA hB
  obtain ⟨y, h1, h2⟩ := step_held (Nm := Nm) (t0 := t0) hE hN hm hS hh auto
  have hb := fun l r => sums_bounds (D := D) h3 h4 hC (hR0.mul hB) (fixed_held hh (by simpa using hR1)) l r
  refine ⟨C * R * B + D, y, _, by rw [hS]; exact positive_zero hR1, h1, h2, fun r l i j hij => ?_, fun r i l => ?_⟩
  · exact (hb l r).1 i j hij
  · rw [of_apply, Matrix.mul_assoc]
    exact (hb l r).2 i

end sim

section ops

variable {n n' m p q : ℕ} {A : Matrix (Fin n) (Fin n) ℝ} {B : Matrix (Fin n) (Fin m) ℝ} {C : Matrix (Fin p) (Fin n) ℝ} {D : Matrix (Fin p) (Fin m) ℝ}

theorem noNeg_blk {A : Matrix (Fin n) (Fin n) ℝ} {B : Matrix (Fin n) (Fin m) ℝ} {A' : Matrix (Fin m) (Fin m) ℝ} (hA : NoNeg A) (hB : NoNeg B) (hA' : NoNeg A') : NoNeg (blk A B 0 A') := by
  intro i j
  refine Fin.addCases (fun i => ?_) (fun i => ?_) i <;> refine Fin.addCases (fun j => ?_) (fun j => ?_) j <;> simp only [blk, submatrix_apply, finSumFinEquiv_symm_apply_castAdd, finSumFinEquiv_symm_apply_natAdd, fromBlocks_apply₁₁, fromBlocks_apply₁₂, fromBlocks_apply₂₁, fromBlocks_apply₂₂]
  · exact hA i j
  · exact hB i j
  · exact le_rfl
  · exact hA' i j

theorem dynamic_blk {dt : Option ℝ} {A : Matrix (Fin n) (Fin n) ℝ} {B : Matrix (Fin n) (Fin m) ℝ} {A' : Matrix (Fin m) (Fin m) ℝ} (hA : if dt.isSome then NoNeg A else NoNegOff A) (hB : NoNeg B)
    (hA' : if dt.isSome then NoNeg A' else NoNegOff A') : if dt.isSome then NoNeg (blk A B 0 A') else NoNegOff (blk A B 0 A') := by
  cases dt with
  | none => exact noNegOff_blk hA hB hA'
  | some h => exact noNeg_blk hA hB hA'

theorem noNeg_vcat {X : Matrix (Fin n) (Fin m) ℝ} {Y : Matrix (Fin n') (Fin m) ℝ} (hX : NoNeg X) (hY : NoNeg Y) : NoNeg (vcat X Y) := by
  intro i j
  refine Fin.addCases (fun i => ?_) (fun i => ?_) i
  · simpa [vcat] using hX i j
  · simpa [vcat] using hY i j

theorem noNeg_hcat {X : Matrix (Fin m) (Fin n) ℝ} {Y : Matrix (Fin m) (Fin n') ℝ} (hX : NoNeg X) (hY : NoNeg Y) : NoNeg (hcat X Y) := by
  intro i j
  refine Fin.addCases (fun j => ?_) (fun j => ?_) j
  · simpa [hcat] using hX i j
  · simpa [hcat] using hY i j

/-- **C136**, products: the product of positive models with states is positive. -/
theorem C136_product {G H : StateM ℝ} {fuel : ℕ} {dt : Option ℝ} (hdt : DtOk dt) {A' : Matrix (Fin n') (Fin n') ℝ} {B' : Matrix (Fin n') (Fin q) ℝ} {C' : Matrix (Fin m) (Fin n') ℝ} {D' : Matrix (Fin m) (Fin q) ℝ}
    (hG : G = stateOf A B C D dt) (hH : H = stateOf A' B' C' D' dt) (hp : Positive4 dt A B C D) (hp' : Positive4 dt A' B' C' D') :
    ∃ (R : StateM ℝ) (Ar : Matrix (Fin (n + n')) (Fin (n + n')) ℝ) (Br : Matrix (Fin (n + n')) (Fin q) ℝ) (Cr : Matrix (Fin p) (Fin (n + n')) ℝ) (Dr : Matrix (Fin p) (Fin q) ℝ), G.matmul (fuel + 1) H = .ok R ∧
      R = stateOf Ar Br Cr Dr dt ∧ Positive4 dt Ar Br Cr Dr := by
  subst hG hH
  obtain ⟨hA, hB, hC, hD⟩ := hp
  obtain ⟨hA', hB', hC', hD'⟩ := hp'
  have z : (Arr.zeros n' n : Arr ℝ) = Arr.of 0 := rfl
  refine ⟨_, blk A (B * C') 0 A', vcat (B * D') B', hcat C (D * C'), D * D', ?_, rfl, dynamic_blk hA (hB.mul hC') hA', noNeg_vcat (hB.mul hD') hB', noNeg_hcat hC (hD.mul hC'), hD.mul hD'⟩
  rw [StateM.matmul]
  unfold stateOf
  rw [← mkState_of hdt]
  simp [StateM.m, StateM.p, StateM.series, Arr.matmul_of, Arr.hstack_of, Arr.vstack_of, Bind.bind, Except.bind, z, vcat_hcat]

/-- **C136**, sums: the sum of positive continuous models with states and of the same size is positive. -/
theorem C136_sum {G H : StateM ℝ} {fuel : ℕ} {A' : Matrix (Fin n') (Fin n') ℝ} {B' : Matrix (Fin n') (Fin m) ℝ} {C' : Matrix (Fin p) (Fin n') ℝ} {D' : Matrix (Fin p) (Fin m) ℝ}
    (hG : G = stateOf A B C D none) (hH : H = stateOf A' B' C' D' none) (hp : Positive4 none A B C D) (hp' : Positive4 none A' B' C' D') :
    ∃ (R : StateM ℝ) (Ar : Matrix (Fin (n + n')) (Fin (n + n')) ℝ) (Br : Matrix (Fin (n + n')) (Fin m) ℝ) (Cr : Matrix (Fin p) (Fin (n + n')) ℝ) (Dr : Matrix (Fin p) (Fin m) ℝ), G.add (fuel + 1) H = .ok R ∧
      R = stateOf Ar Br Cr Dr none ∧ Positive4 none Ar Br Cr Dr := by
  subst hG hH
  obtain ⟨hA, hB, hC, hD⟩ := hp
  obtain ⟨hA', hB', hC', hD'⟩ := hp'
  have key : StateM.parallel (stateOf A B C D none) (stateOf A' B' C' D' none) = .ok (stateOf (blk A 0 0 A') (vcat B B') (hcat C C') (D + D') none) := by
    simp only [stateOf, StateM.parallel, Arr.vstack_of, Arr.hstack_of, Arr.add_of, Arr.blockDiag_of, Bind.bind, Except.bind]
    exact mkState_of dtOk_none _ _ _ _
  refine ⟨_, blk A 0 0 A', vcat B B', hcat C C', D + D', ?_, rfl, dynamic_blk (dt := none) hA noNeg_zero hA', noNeg_vcat hB hB', noNeg_hcat hC hC', hD.add hD'⟩
  rw [← key, StateM.add]
  by_cases hs : p = 1 ∧ m = 1
  · simp [stateOf, isSISO_of, hs]
  · simp [stateOf, isSISO_of, hs, StateM.p, StateM.m]

end ops

open scoped Matrix.Norms.L2Operator in
/-- **C136**, `system_norm(S, 'inf')`: a number returned for a stable positive continuous SISO model without feedthrough is the gain at frequency zero up to the accuracy of the method. -/
theorem C136_hinf {n : ℕ} {E : HinfNum} {tol : ℝ} (htol : 0 ≤ tol) (S : StateObj ℝ ℂ) (A : Matrix (Fin n) (Fin n) ℝ) (B : Matrix (Fin n) (Fin 1) ℝ) (C : Matrix (Fin 1) (Fin n) ℝ)
    (hS : S.g = stateOf A B C 0 none) (hpos : Positive4 none A B C 0) (hst : S.isstable = true) (hA : Hurwitz A) (hE : FreqExact E A B C 0 none S.g)
    (hEig : EigvalsExact E) (v : ℝ) (h : systemNormInf E tol S = .ok (.fin v)) :
    ∃ γ₀ : ℝ, HasTF S.g 1 1 (evalPoint none 0) !![(γ₀ : ℂ)] ∧ v ≤ γ₀ * (1 + 1 / 2 ^ 25) ∧ γ₀ ≤ v * (1 + 1 / 2 ^ 25) := by
  obtain ⟨g, hg, hxg, -, -, -⟩ := hinf_run htol S A B C 0 hS hst hE hEig v h
  have hg0 := attained_nonneg hg
  have hv : 0 ≤ v := by
    rw [hxg, gammaStep]; positivity
  obtain ⟨N, h1, h2, h3⟩ := C70_hinf_partial htol S A B C 0 one_pos hS hst hA hE hEig v h (by
    rw [Matrix.map_zero _ (map_zero _), norm_zero, zero_mul]; exact hv)
  obtain ⟨γ₀, h4, h5, h6⟩ := C136_siso hS hpos (by rw [hS]; exact stable_of_hurwitz hA)
  have h7 : N = γ₀ := by
    refine le_antisymm (h1.2 ?_) ((h6 N).mp (by rw [hS]; exact gainBound_of_hinf hA h1 le_rfl))
    rintro y ⟨ω, M, hM, rfl⟩
    obtain ⟨M', h8, h9⟩ := (h6 γ₀).mpr le_rfl ω
    rw [hS, hasTF_stateOf] at h8
    rw [hM.2, ← h8.2]
    exact h9
  rw [← h7] at h5
  exact ⟨N, h5, h2, h3⟩

section examples

variable {P : Type} {Nm : Numerics ℝ P} {E : DNum}

/-- A chain of two lags, `1/(s+1)` after `2/(s+3)`. -/
noncomputable def chainA : Matrix (Fin 2) (Fin 2) ℝ := !![-1, 2; 0, -3]

theorem chain_positive : Positive4 none chainA (!![0; 1] : Matrix (Fin 2) (Fin 1) ℝ) (!![1, 0] : Matrix (Fin 1) (Fin 2) ℝ) 0 := by
  refine ⟨?_, ?_, ?_, noNeg_zero⟩
  · intro i j h
    fin_cases i <;> fin_cases j <;> simp_all [chainA]
  · intro i j
    fin_cases i <;> simp
  · intro i j
    fin_cases j <;> simp

theorem chain_hurwitz : Hurwitz chainA := by
  intro z hz
  simp only [IsEig, chainA, Matrix.det_fin_two, Matrix.sub_apply, Matrix.smul_apply, Matrix.map_apply, of_apply, Matrix.one_apply] at hz
  simp at hz
  rcases hz with h | h
  · rw [eq_neg_of_add_eq_zero_left h]; simp
  · rw [eq_neg_of_add_eq_zero_left h]; simp

/-- The hypotheses are met: the gain of the chain at frequency zero is its largest gain, its step response increases, and larger inputs give larger outputs. -/
example (S : StateObj ℝ P) (hS : S.g = stateOf chainA (!![0; 1] : Matrix (Fin 2) (Fin 1) ℝ) (!![1, 0] : Matrix (Fin 1) (Fin 2) ℝ) 0 none) (hE : BalanceOk E) :
    (∃ γ₀ : ℝ, 0 ≤ γ₀ ∧ HasTF S.g 1 1 (evalPoint none 0) !![(γ₀ : ℂ)] ∧ ∀ γ, GainBound S.g 1 1 γ ↔ γ₀ ≤ γ) ∧
    (∃ (M0 : Matrix (Fin 1) (Fin 1) ℝ) (y : SimOut) (Y : Fin 1 → Matrix (Fin 5) (Fin 1) ℝ), HasTF S.g 1 1 (evalPoint none 0) (M0.map (algebraMap ℝ ℂ)) ∧
      stepResponse Nm E S (0, 0) (some (eqGrid 5 0 (1 / 2))) = .ok (y, eqGrid 5 0 (1 / 2)) ∧ y.slices = List.ofFn (fun r => Arr.of (Y r)) ∧ (∀ r l, ∀ i j : Fin 5, i ≤ j → Y r i l ≤ Y r j l) ∧ ∀ r i l, Y r i l ≤ M0 l r) :=
  ⟨C136_siso hS chain_positive (by rw [hS]; exact stable_of_hurwitz chain_hurwitz),
    C136_step_continuous hE (by norm_num) le_rfl hS (by norm_num) chain_positive (motions_iff.mpr fun z hz => by simpa [StablePoint] using chain_hurwitz z hz)⟩

example (S : StateObj ℝ P) (hS : S.g = stateOf chainA (!![0; 1] : Matrix (Fin 2) (Fin 1) ℝ) (!![1, 0] : Matrix (Fin 1) (Fin 2) ℝ) 0 none) (hE : BalanceOk E) :
    ∃ Y Y' : Matrix (Fin 3) (Fin 1) ℝ, simulate Nm E S (Arr.of !![0; -1; 2]) (some (eqGrid 3 0 (1 / 2))) (some [-1, 0]) false = .ok (.flat (Arr.of Y), eqGrid 3 0 (1 / 2)) ∧
      simulate Nm E S (Arr.of !![1; 0; 2]) (some (eqGrid 3 0 (1 / 2))) none false = .ok (.flat (Arr.of Y'), eqGrid 3 0 (1 / 2)) ∧ ∀ i l, Y i l ≤ Y' i l :=
  C136_simulate_continuous (x0 := ![-1, 0]) (x0' := 0) hE (by norm_num) le_rfl hS (by norm_num) chain_positive (Or.inr ⟨by simp [List.ofFn_succ], by norm_num⟩) (Or.inl ⟨rfl, rfl⟩)
    (fun i j => by fin_cases i <;> fin_cases j <;> simp) (fun j => by fin_cases j <;> simp)

/-- A discrete positive model. -/
theorem discrete_positive : Positive4 (some 1) (!![1 / 2] : Matrix (Fin 1) (Fin 1) ℝ) (!![1] : Matrix (Fin 1) (Fin 1) ℝ) (!![1] : Matrix (Fin 1) (Fin 1) ℝ) 0 := by
  refine ⟨?_, ?_, ?_, noNeg_zero⟩ <;> intro i j <;> fin_cases i <;> fin_cases j <;> simp

example (S : StateObj ℝ P) (hS : S.g = stateOf (!![1 / 2] : Matrix (Fin 1) (Fin 1) ℝ) (!![1] : Matrix (Fin 1) (Fin 1) ℝ) (!![1] : Matrix (Fin 1) (Fin 1) ℝ) 0 (some 1)) :
    ∃ (M0 : Matrix (Fin 1) (Fin 1) ℝ) (Y : Matrix (Fin 3) (Fin 1) ℝ) (t : List ℝ), HasTF S.g 1 1 (evalPoint (some 1) 0) (M0.map (algebraMap ℝ ℂ)) ∧ simulate Nm E S (Arr.of !![1; -1; 1 / 2]) none none false = .ok (.flat (Arr.of Y), t) ∧
      ∀ i l, |Y i l| ≤ (M0 *ᵥ ![1]) l :=
  C136_peak (by norm_num) le_rfl hS discrete_positive (motions_iff.mpr fun z hz => by
    have h1 : z = 1 / 2 := by
      simp only [IsEig, Matrix.det_fin_one, Matrix.sub_apply, Matrix.smul_apply, Matrix.map_apply, Matrix.one_apply] at hz
      simp at hz
      rw [sub_eq_zero.mp hz]; norm_num
    rw [h1]
    norm_num [StablePoint]) fun i j => by fin_cases i <;> fin_cases j <;> simp [abs_le] <;> norm_num

end examples

end Harold
