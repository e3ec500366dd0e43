import Verif.Spec.RandomState
import Verif.Lemmas.Decay
import Verif.Lemmas.StateTF
import Verif.Lemmas.TransferMk

/-!
# C58: random models
-/

namespace Harold

open Matrix Spec

variable {n p m : ℕ}

/-- The antisymmetric off-diagonal part and the sign of the finished part of the diagonal. -/
structure DiagInv (stable : Bool) (i : ℕ) (a : Matrix (Fin n) (Fin n) ℝ) : Prop where
  le : i ≤ n
  anti : ∀ k l, k ≠ l → a k l = -a l k
  neg : stable = true → ∀ k : Fin n, (k : ℕ) < i → a k k < 0

theorem setEntry_ok {a : Matrix (Fin n) (Fin n) ℝ} {i j : ℕ} (hi : i < n) (hj : j < n) (v : ℝ) :
    setEntry a i j v = .ok (Matrix.of fun k l => if (k : ℕ) = i ∧ (l : ℕ) = j then v else a k l) := if_pos ⟨hi, hj⟩

theorem poleReal_neg (ps r : ℝ) : poleReal true ps r < 0 := by simp [poleReal, Real.exp_pos]

theorem diagInv_real {stable : Bool} {i : ℕ} {a : Matrix (Fin n) (Fin n) ℝ} (h : DiagInv stable i a) (hi : i < n) {v : ℝ} (hv : stable = true → v < 0) :
    ∃ a', setEntry a i i v = .ok a' ∧ DiagInv stable (i + 1) a' := by
  refine ⟨_, setEntry_ok hi hi v, ⟨hi, fun k l hkl => ?_, fun hs k hk => ?_⟩⟩
  · have h1 : ¬((k : ℕ) = i ∧ (l : ℕ) = i) := fun ⟨e, f⟩ => hkl (Fin.ext (e.trans f.symm))
    have h2 : ¬((l : ℕ) = i ∧ (k : ℕ) = i) := fun ⟨e, f⟩ => hkl (Fin.ext (f.trans e.symm))
    simp only [of_apply, h1, h2, if_false]
    exact h.anti k l hkl
  · simp only [of_apply, and_self]
    split_ifs with hki
    · exact hv hs
    · exact h.neg hs k (by omega)

theorem diagInv_block {stable : Bool} {i : ℕ} {a : Matrix (Fin n) (Fin n) ℝ} (h : DiagInv stable i a) (hi : i + 1 < n) {v : ℝ} (y : ℝ) (hv : stable = true → v < 0) :
    ∃ a', setBlock2 a i v y (-y) v = .ok a' ∧ DiagInv stable (i + 2) a' := by
  unfold setBlock2
  simp only [bind, Except.bind]
  rw [setEntry_ok (by omega) (by omega)]
  simp only
  rw [setEntry_ok (by omega) (by omega)]
  simp only
  rw [setEntry_ok (by omega) (by omega)]
  simp only
  rw [setEntry_ok (by omega) (by omega)]
  refine ⟨_, rfl, ⟨hi, fun k l hkl => ?_, fun hs k hk => ?_⟩⟩
  · have hkl' : (k : ℕ) ≠ l := fun e => hkl (Fin.ext e)
    have := h.anti k l hkl
    simp only [of_apply]
    split_ifs <;> first | omega | simp | exact this
  · simp only [of_apply]
    split_ifs <;> first | omega | exact hv hs | exact h.neg hs k (by omega)

theorem poleStep_inv {stable : Bool} {w : RandDraws n p m} (hw : ValidDraws stable w) (k : ℕ) {i : ℕ} {a : Matrix (Fin n) (Fin n) ℝ} (hi : i < n) (h : DiagInv stable i a) :
    (poleStep stable w k i a = .ok none ∧ i + 1 = n) ∨ ∃ i' a', poleStep stable w k i a = .ok (some (i', a')) ∧ i < i' ∧ DiagInv stable i' a' := by
  have hk := hw.ptype k
  have hneg : ∀ ps r, stable = true → poleReal stable ps r < 0 := by
    rintro ps r rfl; exact poleReal_neg ps r
  unfold poleStep
  generalize w.ptype k = t at hk ⊢
  split
  · obtain ⟨a', e, ha⟩ := diagInv_real h hi (hneg (w.sign k) (w.r1 k))
    exact .inr ⟨_, _, by simp only [e, bind, Except.bind], by omega, ha⟩
  · split_ifs with hn
    · exact .inl ⟨rfl, by omega⟩
    · obtain ⟨a', e, ha⟩ := diagInv_block h (by omega) (Real.exp (Real.exp (w.r2 k))) (hneg (w.sign k) (w.r1 k))
      exact .inr ⟨_, _, by simp only [e, bind, Except.bind], by omega, ha⟩
  · have hs : stable = true → (0 : ℝ) < 0 := by
      rintro rfl; simp at hk
    obtain ⟨a', e, ha⟩ := diagInv_real h hi hs
    exact .inr ⟨_, _, by simp only [e, bind, Except.bind], by omega, ha⟩
  · have hs : stable = true → (0 : ℝ) < 0 := by
      rintro rfl; simp at hk
    split_ifs with hn
    · exact .inl ⟨rfl, by omega⟩
    · obtain ⟨a', e, ha⟩ := diagInv_block h (by omega) (Real.exp (Real.exp (w.r2 k))) hs
      exact .inr ⟨_, _, by simp only [e, bind, Except.bind], by omega, ha⟩
  · rename_i h0 h1 h2 h3
    have h0' : t ≠ 0 := h0
    have h1' : t ≠ 1 := h1
    have h2' : t ≠ 2 := h2
    have h3' : t ≠ 3 := h3
    exfalso
    split_ifs at hk <;> omega

theorem poleLoop_inv {stable : Bool} {w : RandDraws n p m} (hw : ValidDraws stable w) : ∀ (fuel k i : ℕ) (a : Matrix (Fin n) (Fin n) ℝ), i < n → n ≤ fuel + i → DiagInv stable i a →
    ∃ i' a', poleLoop stable w fuel k i a = .ok (i', a') ∧ (i' = n ∨ i' + 1 = n) ∧ DiagInv stable i' a'
  | 0, k, i, a, hi, hf, _ => by omega
  | fuel + 1, k, i, a, hi, hf, h => by
    unfold poleLoop
    simp only [bind, Except.bind]
    rcases poleStep_inv hw k hi h with ⟨e, hn⟩ | ⟨i', a', e, hii, ha⟩
    · rw [e]
      exact ⟨i, a, rfl, .inr hn, h⟩
    · rw [e]
      simp only
      split_ifs with hn
      · exact ⟨i', a', rfl, .inl hn, ha⟩
      · exact poleLoop_inv hw fuel (k + 1) i' a' (lt_of_le_of_ne ha.le hn) (by omega) ha

/-- A matrix with antisymmetric off-diagonal part and negative diagonal is stable. -/
theorem hurwitz_of_diag {a : Matrix (Fin n) (Fin n) ℝ} (h1 : ∀ k l, k ≠ l → a k l = -a l k) (h2 : ∀ k, a k k < 0) : Hurwitz a := by
  intro z hz
  rw [isEig_iff_mem] at hz
  obtain ⟨v, hv, he⟩ := exists_eigenvector hz
  have hq : ∑ i, ∑ j, (starRingEnd ℂ (v i) * (a i j : ℂ) * v j) = z * ∑ i, ((‖v i‖ ^ 2 : ℝ) : ℂ) := by
    rw [Finset.mul_sum]
    refine Finset.sum_congr rfl fun i _ => ?_
    have := congrFun he i
    simp only [mulVec, dotProduct, map_apply, Pi.smul_apply, smul_eq_mul, Complex.coe_algebraMap] at this
    have h3 : ∑ j, (starRingEnd ℂ (v i) * (a i j : ℂ) * v j) = starRingEnd ℂ (v i) * ∑ j, (a i j : ℂ) * v j := by
      rw [Finset.mul_sum]; exact Finset.sum_congr rfl fun j _ => mul_assoc _ _ _
    rw [h3, this]
    have h4 := Complex.conj_mul' (v i)
    push_cast
    rw [← h4]; ring
  have hre := congrArg Complex.re hq
  rw [Complex.mul_re, ← Complex.ofReal_sum, Complex.ofReal_re, Complex.ofReal_im, mul_zero, sub_zero] at hre
  set f : Fin n → Fin n → ℝ := fun i j => (starRingEnd ℂ (v i) * v j).re with hf
  have hsym : ∀ i j, f i j = f j i := by
    intro i j; simp [hf]; ring
  have hl : (∑ i, ∑ j, (starRingEnd ℂ (v i) * (a i j : ℂ) * v j)).re = ∑ i, ∑ j, a i j * f i j := by
    rw [Complex.re_sum]
    refine Finset.sum_congr rfl fun i _ => ?_
    rw [Complex.re_sum]
    refine Finset.sum_congr rfl fun j _ => ?_
    rw [show starRingEnd ℂ (v i) * (a i j : ℂ) * v j = (a i j : ℂ) * (starRingEnd ℂ (v i) * v j) by ring, Complex.re_ofReal_mul]
  have hd : 2 * ∑ i, ∑ j, a i j * f i j = 2 * ∑ i, a i i * ‖v i‖ ^ 2 := by
    have hsw : ∑ i, ∑ j, a i j * f i j = ∑ i, ∑ j, a j i * f i j := by
      rw [Finset.sum_comm]
      exact Finset.sum_congr rfl fun i _ => Finset.sum_congr rfl fun j _ => by rw [hsym]
    rw [two_mul, two_mul]
    nth_rewrite 2 [hsw]
    rw [← Finset.sum_add_distrib, ← Finset.sum_add_distrib]
    refine Finset.sum_congr rfl fun i _ => ?_
    rw [← Finset.sum_add_distrib, Finset.sum_eq_single i]
    · have : f i i = ‖v i‖ ^ 2 := by
        rw [hf]; simp only; rw [Complex.conj_mul', ← Complex.ofReal_pow, Complex.ofReal_re]
      rw [this]
    · intro j _ hj
      rw [h1 i j (Ne.symm hj)]; ring
    · simp
  obtain ⟨i0, hi0⟩ := Function.ne_iff.mp hv
  have hpos : 0 < ∑ i, ‖v i‖ ^ 2 := Finset.sum_pos' (fun i _ => by positivity) ⟨i0, Finset.mem_univ _, by
    have : 0 < ‖v i0‖ := norm_pos_iff.mpr hi0
    positivity⟩
  have hneg : ∑ i, a i i * ‖v i‖ ^ 2 < 0 := Finset.sum_neg' (fun i _ => by nlinarith [h2 i, sq_nonneg ‖v i‖]) ⟨i0, Finset.mem_univ _, by
    have : 0 < ‖v i0‖ := norm_pos_iff.mpr hi0
    exact mul_neg_of_neg_of_pos (h2 i0) (by positivity)⟩
  rw [hl] at hre
  by_contra hz
  push Not at hz
  nlinarith [mul_nonneg hz hpos.le]

theorem isEig_conj {A T : Matrix (Fin n) (Fin n) ℝ} (h : T.det ≠ 0) (z : ℂ) : IsEig (T⁻¹ * A * T) z ↔ IsEig A z := by
  have hu : IsUnit T.det := isUnit_iff_ne_zero.mpr h
  set f := algebraMap ℝ ℂ
  have h1 : T⁻¹.map f * T.map f = 1 := by
    rw [← Matrix.map_mul, Matrix.nonsing_inv_mul _ hu]; simp
  have h2 : T.map f * T⁻¹.map f = 1 := by
    rw [← Matrix.map_mul, Matrix.mul_nonsing_inv _ hu]; simp
  have e : z • (1 : Matrix (Fin n) (Fin n) ℂ) - (T⁻¹ * A * T).map f = T⁻¹.map f * (z • 1 - A.map f) * T.map f := by
    rw [Matrix.mul_sub, Matrix.sub_mul, Matrix.map_mul, Matrix.map_mul, Matrix.mul_smul, Matrix.mul_one, Matrix.smul_mul, h1]
  have hdet : (T⁻¹.map f).det * (T.map f).det = 1 := by rw [← det_mul, h1, det_one]
  unfold IsEig
  rw [e, det_mul, det_mul]
  have ha : (T⁻¹.map f).det ≠ 0 := left_ne_zero_of_mul_eq_one hdet
  have hb : (T.map f).det ≠ 0 := right_ne_zero_of_mul_eq_one hdet
  rw [mul_eq_zero, mul_eq_zero, or_iff_left hb, or_iff_right ha]

theorem det_ne_zero_of_orth {T : Matrix (Fin n) (Fin n) ℝ} (h : Tᵀ * T = 1) : T.det ≠ 0 := by
  intro h0
  have := congrArg det h
  rw [det_mul, h0, mul_zero, det_one] at this
  exact zero_ne_one this

/-- The matrix with the drawn poles. -/
theorem randomStateModel_form (dt : Option ℝ) (stable : Bool) (w : RandDraws n p m) (hw : ValidDraws stable w) (hn : 2 ≤ n) :
    ∃ a : Matrix (Fin n) (Fin n) ℝ, DiagInv stable n a ∧ randomStateModel n p m dt stable w =
      mkState (some (Arr.of (w.T⁻¹ * (match dt with | none => a | some t => NormedSpace.exp (t • a)) * w.T))) (some (Arr.of w.B)) (some (Arr.of w.C)) (some (Arr.of w.D)) dt := by
  obtain ⟨i, a, e, hi, ha⟩ := poleLoop_inv hw n 0 0 0 (by omega) (by omega) ⟨Nat.zero_le _, by simp, by simp⟩
  have hfin : ∃ a', poleFill stable w i a = Except.ok a' ∧ DiagInv stable n a' := by
    unfold poleFill
    split_ifs with h1
    · obtain ⟨a', e', ha'⟩ := diagInv_real ha (by omega) (v := poleReal stable w.signL w.rL) (by rintro rfl; exact poleReal_neg _ _)
      exact ⟨a', e', h1 ▸ ha'⟩
    · obtain rfl : i = n := by omega
      exact ⟨a, rfl, ha⟩
  obtain ⟨a', e', ha'⟩ := hfin
  refine ⟨a', ha', ?_⟩
  unfold randomStateModel
  rw [if_neg (by omega), if_neg (by omega), e]
  simp only [bind, Except.bind]
  rw [e']
  simp only [Arr.solve_of, det_ne_zero_of_orth hw.T, if_false, Arr.matmul_of]
  cases dt <;> rfl

theorem randomStateModel_zero {dt : Option ℝ} (hdt : DtOk dt) (stable : Bool) (w : RandDraws 0 p m) :
    randomStateModel 0 p m dt stable w = .ok ⟨Arr.empty, Arr.empty, Arr.empty, Arr.of w.D, dt, true⟩ := by
  unfold randomStateModel
  rw [if_pos rfl]
  exact mkGain_of hdt _

theorem randomStateModel_one {dt : Option ℝ} (hdt : DtOk dt) (stable : Bool) (w : RandDraws 1 p m) :
    randomStateModel 1 p m dt stable w = .ok ⟨Arr.of (-(Matrix.of fun (_ _ : Fin 1) => w.a1)), Arr.of w.B, Arr.of w.C, Arr.of w.D, dt, false⟩ := by
  unfold randomStateModel
  rw [if_neg (by omega), if_pos rfl]
  unfold Arr.scalar
  rw [Arr.neg_of]
  exact mkState_of hdt _ _ _ _

/-- **C58**, size: whatever is drawn, `random_state_model(n, p, m, dt)` returns a model with `n` states, `m` inputs and `p` outputs and the sampling period asked for;
it is a static gain exactly for `n = 0`. -/
theorem C58_size (n p m : ℕ) (dt : Option ℝ) (hdt : DtOk dt) (stable : Bool) (w : RandDraws n p m) (hw : ValidDraws stable w) :
    ∃ R, randomStateModel n p m dt stable w = .ok R ∧ R.d.r = p ∧ R.d.c = m ∧ R.dt = dt ∧ R.a.r = n ∧ R.a.c = n ∧
      (R.isgain = true ↔ n = 0) ∧ (n ≠ 0 → R.b.r = n ∧ R.b.c = m ∧ R.c.r = p ∧ R.c.c = n) := by
  rcases n with _ | _ | n
  · exact ⟨_, randomStateModel_zero hdt stable w, by simp [Arr.empty]⟩
  · exact ⟨_, randomStateModel_one hdt stable w, by simp⟩
  · obtain ⟨a, -, e⟩ := randomStateModel_form dt stable w hw (by omega)
    refine ⟨_, e.trans (mkState_of hdt _ _ _ _), ?_⟩
    simp

/-- **C58**, stability: with `stable=True` all poles are in the open left half plane (continuous time) or in the open unit disc (discrete time), whatever is drawn.
Missing: the draw `rand(1) = 0` for a continuous time model with one state, see `C58_integrator_violated`. -/
theorem C58_stable_partial (n p m : ℕ) (dt : Option ℝ) (hdt : DtOk dt) (w : RandDraws n p m) (hw : ValidDraws true w)
    (h1 : n = 1 → dt = none → w.a1 ≠ 0) :
    ∃ R, randomStateModel n p m dt true w = .ok R ∧ ∃ A : Matrix (Fin n) (Fin n) ℝ, R.a = Arr.of A ∧ StableFor dt A := by
  rcases n with _ | _ | n
  · refine ⟨_, randomStateModel_zero hdt true w, 0, ?_, ?_⟩
    · simp only [Arr.empty, Arr.of]
      congr 1
      funext i; exact i.elim0
    · cases dt <;> (intro z hz; simp [IsEig] at hz)
  · refine ⟨_, randomStateModel_one hdt true w, _, rfl, ?_⟩
    · have hz : ∀ z, IsEig (-(Matrix.of fun (_ _ : Fin 1) => w.a1)) z → z = -(w.a1 : ℂ) := by
        intro z hz
        simp [IsEig, Matrix.det_unique] at hz
        exact eq_neg_of_add_eq_zero_left hz
      cases dt with
      | none =>
        intro z h
        rw [hz z h]
        have := lt_of_le_of_ne hw.a1.1 (Ne.symm (h1 rfl rfl))
        simpa using this
      | some t =>
        intro z h
        rw [hz z h]
        simp only [norm_neg, Complex.norm_real, Real.norm_eq_abs, abs_lt]
        exact ⟨by linarith [hw.a1.1], hw.a1.2⟩
  · obtain ⟨a, ha, e⟩ := randomStateModel_form dt true w hw (by omega)
    refine ⟨_, e.trans (mkState_of hdt _ _ _ _), _, rfl, ?_⟩
    have hneg : ∀ k, a k k < 0 := fun k => ha.neg rfl k k.isLt
    cases dt with
    | none =>
      intro z hz
      exact hurwitz_of_diag ha.anti hneg z ((isEig_conj (det_ne_zero_of_orth hw.T) z).mp hz)
    | some t =>
      intro z hz
      have ht : 0 < t := hdt t rfl
      have : Hurwitz (t • a) := hurwitz_of_diag (fun k l hkl => by simp [ha.anti k l hkl]) fun k => by
        simpa using mul_neg_of_pos_of_neg ht (hneg k)
      exact hurwitz_exp_schur this z ((isEig_conj (det_ne_zero_of_orth hw.T) z).mp hz)

/-- **C58** as stated fails: `rand` draws from `[0, 1)`, and the draw `0` makes `random_state_model(1, stable=True)` an integrator. -/
theorem C58_integrator_violated : ∃ w : RandDraws 1 1 1, ValidDraws true w ∧ ∃ R, randomStateModel 1 1 1 none true w = .ok R ∧
    ∃ A : Matrix (Fin 1) (Fin 1) ℝ, R.a = Arr.of A ∧ IsEig A 0 ∧ ¬ Hurwitz A := by
  have hz : IsEig (-(Matrix.of fun (_ _ : Fin 1) => (0 : ℝ))) 0 := by simp [IsEig, Matrix.det_unique]
  refine ⟨⟨fun _ => 0, fun _ => 1, fun _ => 0, fun _ => 0, 1, 0, 0, 1, 1, 1, 1⟩, ⟨by simp, by simp, by simp, by simp, by simp, by simp, by simp, by simp⟩, _, randomStateModel_one dtOk_none true _, _, rfl, hz, fun h => ?_⟩
  · simpa using h 0 hz

/-- **C58**: a sampling period that is not positive is rejected by a `ValueError`. -/
theorem C58_period (n p m : ℕ) (t : ℝ) (ht : t ≤ 0) (stable : Bool) (w : RandDraws n p m) (hw : ValidDraws stable w) :
    randomStateModel n p m (some t) stable w = .error .value := by
  rcases n with _ | _ | n
  · simp [randomStateModel, mkState, validateState, checkDt, ht, bind, Except.bind]
  · simp [randomStateModel, mkState, validateState, checkDt, ht, bind, Except.bind, Arr.scalar]
  · obtain ⟨a, -, e⟩ := randomStateModel_form (some t) stable w hw (by omega)
    rw [e]
    simp [mkState, validateState, checkDt, ht, bind, Except.bind]

/-- Draws for a discrete time model with three states: a complex pair does not fit after the first pair. -/
example : ValidDraws true (⟨fun _ => 1, fun _ => -1, fun _ => 1 / 2, fun _ => 1 / 3, 1, 0, 1 / 4, 1, 1, 1, 1⟩ : RandDraws 3 3 3) :=
  ⟨by simp, by simp, by simp, fun _ => by norm_num, fun _ => by norm_num, by norm_num, by norm_num, by simp⟩

example : ValidDraws false (⟨fun k => k % 4, fun _ => -1, fun _ => 1 / 2, fun _ => 1 / 3, 1, 0, 1 / 4, 1, 0, 0, 1⟩ : RandDraws 5 2 2) :=
  ⟨fun k => by simpa using Nat.mod_lt _ (by norm_num), by simp, by simp, fun _ => by norm_num, fun _ => by norm_num, by norm_num, by norm_num, by simp⟩

end Harold
