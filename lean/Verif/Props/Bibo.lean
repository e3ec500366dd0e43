import Verif.Spec.Bibo
import Verif.Lemmas.Bibo
import Verif.Props.Minimality
import Verif.Props.DiscReach

/-!
# C108: stable models have bounded responses to bounded inputs, and conversely
-/

namespace Harold

open Matrix Spec Filter Topology

variable {P : Type} {Nm : Numerics ℝ P} {E : DNum} {S : StateObj ℝ P} {n m p N : ℕ}

/-- The simulation of a model, in terms of matrices that represent it. -/
theorem simulate_rep (hE : BalanceOk E) (hG : Consistent S.g p m) (hdt : DtOk S.g.dt) :
    ∃ (n : ℕ) (A : Matrix (Fin n) (Fin n) ℝ) (B₁ : Matrix (Fin n) (Fin m) ℝ) (C : Matrix (Fin p) (Fin n) ℝ) (D : Matrix (Fin p) (Fin m) ℝ), Rep S.g A B₁ C D ∧
      ∀ {N : ℕ} {U : Matrix (Fin N) (Fin m) ℝ} {targ : Option (List ℝ)} {t : List ℝ} (pc : Bool), 2 ≤ N → 1 ≤ m →
        timeArray S.g.dt (some (Arr.of U)) targ = .ok t → t.length = N →
        simulate Nm E S (Arr.of U) targ none pc = .ok (convResult (weights S.g.dt t A B₁ C D) U pc, t) := by
  obtain ⟨a, b, c, D, dt', hG'⟩ | ⟨n, A, B₁, C, D, dt', hG'⟩ := consistent_cases hG
  · refine ⟨0, 0, 0, 0, D, hG' ▸ rep_gain a b c D dt', ?_⟩
    intro N U targ t pc hN hm ht htl
    have hw : ∀ k, weights S.g.dt t (0 : Matrix (Fin 0) (Fin 0) ℝ) (0 : Matrix (Fin 0) (Fin m) ℝ) (0 : Matrix (Fin p) (Fin 0) ℝ) D k = if k = 0 then D else 0 :=
      weights_empty _ _ _ _ _ _
    rw [simulate_gain hN hm hG' ht htl]
    unfold convResult
    split_ifs with hc
    · obtain ⟨rfl, hm1⟩ := hc
      rw [simGain_perChannel (by omega)]
      simp only [conv_gain hw]
      rfl
    · have : pc = false ∨ m = 1 := by
        cases pc
        · exact Or.inl rfl
        · right; by_contra h; exact hc ⟨rfl, h⟩
      rw [simGain_flat _ this, conv_gain hw]
      rfl
  · exact ⟨n, A, B₁, C, D, hG' ▸ rep_dyn A B₁ C D dt', fun pc hN hm ht htl => weights_dynamic hE hG' hdt pc hN hm ht htl⟩

theorem rep_stable {g : StateM ℝ} {A : Matrix (Fin n) (Fin n) ℝ} {B : Matrix (Fin n) (Fin m) ℝ} {C : Matrix (Fin p) (Fin n) ℝ} {D : Matrix (Fin p) (Fin m) ℝ}
    (hc : Consistent g p m) (h : Rep g A B C D) : StableModel g ↔ ∀ z, IsEig A z → StablePoint g.dt z := by
  rw [stable_iff_char hc]
  refine forall_congr' fun z => ?_
  rw [h.char]
  exact ⟨fun h1 h2 => h1 h2.symm, fun h1 h2 => h1 h2.symm⟩

/-- The result of a convolution is bounded. -/
theorem convResult_le (hm : 0 < m) {w : ℕ → Matrix (Fin p) (Fin m) ℝ} {κ : ℝ} (hw : ∀ (M : ℕ) (i : Fin p), ∑ k ∈ Finset.range M, ∑ j, |w k i j| ≤ κ)
    {U : Matrix (Fin N) (Fin m) ℝ} {b : ℝ} (hb : 0 ≤ b) (hU : ∀ k j, |U k j| ≤ b) (pc : Bool) : OutLe (κ * b) (convResult w U pc) := by
  unfold convResult
  split_ifs
  · intro y hy
    obtain ⟨k, rfl⟩ := List.mem_ofFn.mp hy
    refine fun i j => convOut_le hm hw (fun q l => ?_) i j
    unfold onlyChannel
    rw [Matrix.of_apply]
    split_ifs
    · exact hU _ _
    · rwa [abs_zero]
  · exact fun i j => convOut_le hm hw hU i j

/-- **C108**: a stable model has bounded responses: there is a constant `κ` such that in every simulation from rest, whatever its length, time array and input, the outputs are at
most `κ` times the bound of the input. For continuous models one `κ` serves all time steps. -/
theorem C108_bounded (hE : BalanceOk E) (hc : Consistent S.g p m) (hdt : DtOk S.g.dt) (hm : 1 ≤ m) (hs : StableModel S.g) : ∃ κ, 0 ≤ κ ∧ BoundedResponses Nm E S m κ := by
  obtain ⟨n, A, B, C, D, hr, hsim⟩ := simulate_rep (Nm := Nm) hE hc hdt
  rw [rep_stable hc hr] at hs
  obtain ⟨κ, hκ, hw⟩ : ∃ κ, 0 ≤ κ ∧ ∀ t : List ℝ, 0 < t.getD 1 0 - t.getD 0 0 → ∀ (M : ℕ) (i : Fin p), ∑ k ∈ Finset.range M, ∑ j, |weights S.g.dt t A B C D k i j| ≤ κ := by
    cases hd : S.g.dt with
    | some h =>
      rw [hd] at hs
      have hS : Schur A := hs
      have hsum : ∀ i, Summable fun k => ∑ j, |markov A B C D k i j| := fun i => summable_sum fun j _ => markov_summable hS B C D i j
      refine ⟨∑ i, ∑' k, ∑ j, |markov A B C D k i j|, Finset.sum_nonneg fun i _ => tsum_nonneg fun k => Finset.sum_nonneg fun j _ => abs_nonneg _, fun t _ M i => ?_⟩
      refine ((hsum i).sum_le_tsum _ fun k _ => Finset.sum_nonneg fun j _ => abs_nonneg _).trans ?_
      exact Finset.single_le_sum (f := fun i => ∑' k, ∑ j, |markov A B C D k i j|) (fun i _ => tsum_nonneg fun k => Finset.sum_nonneg fun j _ => abs_nonneg _) (Finset.mem_univ i)
    | none =>
      rw [hd] at hs
      have hH : Hurwitz A := hs
      obtain ⟨κ, hκ, h1⟩ := hold_sum hH B C
      refine ⟨κ + ∑ i, ∑ j, |D i j|, by positivity, fun t ht M i => ?_⟩
      have h2 : ∑ j, |D i j| ≤ ∑ i, ∑ j, |D i j| := Finset.single_le_sum (f := fun i => ∑ j, |D i j|) (fun i _ => Finset.sum_nonneg fun j _ => abs_nonneg _) (Finset.mem_univ i)
      cases M with
      | zero => simp; positivity
      | succ M =>
        rw [Finset.sum_range_succ']
        exact add_le_add (h1 _ ht M i) h2
  refine ⟨κ, hκ, fun N U targ pc y t h b hU => ?_⟩
  obtain ⟨hN, ht, htl⟩ := simulate_inv hm hc.1.2 h
  have hpos := timeArray_pos hdt (Arr.of U) hN ht
  rw [hsim pc hN hm ht htl] at h
  obtain ⟨rfl, -⟩ := Prod.mk.inj (Except.ok.inj h)
  exact convResult_le hm (hw t hpos) ((abs_nonneg _).trans (hU ⟨0, by omega⟩ ⟨0, hm⟩)) hU pc

/-- A sampling period without aliasing. -/
theorem exists_noAlias (A : Matrix (Fin n) (Fin n) ℝ) : ∃ dt : ℝ, 0 < dt ∧ NoAlias dt A := by
  have hf : {z : ℂ | IsEig A z}.Finite := by
    refine (Polynomial.finite_setOf_isRoot (A.map (algebraMap ℝ ℂ)).charpoly_monic.ne_zero).subset fun z hz => ?_
    exact Matrix.mem_spectrum_iff_isRoot_charpoly.mp (isEig_iff_mem.mp hz)
  obtain ⟨M, hM⟩ := (hf.image fun z => |z.im|).bddAbove
  have hM1 : 0 < max M 0 + 1 := by positivity
  refine ⟨Real.pi / (max M 0 + 1), div_pos Real.pi_pos hM1, noAlias_of_nyquist (div_pos Real.pi_pos hM1) fun s hs => ?_⟩
  rw [div_div_cancel₀ Real.pi_ne_zero]
  have := hM ⟨s, hs, rfl⟩
  exact lt_of_le_of_lt (this.trans (le_max_left _ _)) (by linarith)

/-- **C108**, converse: a model with the least number of states for its transfer matrix is stable if its responses to bounded inputs are bounded. -/
theorem C108_stable (hE : BalanceOk E) (hc : Consistent S.g p m) (hdt : DtOk S.g.dt) (hm : 1 ≤ m) (hl : LeastOrder S.g p m) {κ : ℝ} (h : BoundedResponses Nm E S m κ) :
    StableModel S.g := by
  obtain ⟨n, A, B, C, D, hr, hsim⟩ := simulate_rep (Nm := Nm) hE hc hdt
  obtain ⟨h1, h2⟩ := (rep_least_iff hr).mp hl
  rw [rep_stable hc hr]
  have key : ∀ {w : ℕ → Matrix (Fin p) (Fin m) ℝ}, (∀ (N : ℕ) (U : Matrix (Fin N) (Fin m) ℝ), 2 ≤ N → ∃ targ t, simulate Nm E S (Arr.of U) targ none false = .ok (convResult w U false, t)) →
      ∀ i j, Tendsto (fun k => w (k + 1) i j) atTop (𝓝 0) := by
    intro w hw i j
    have hs : Summable fun k => |w (k + 1) i j| := by
      rw [summable_nat_add_iff (f := fun k => |w k i j|) 1]
      refine summable_of_sum_range_le (c := κ) (fun k => abs_nonneg _) fun N => ?_
      have h3 : ∑ k ∈ Finset.range (N + 2), |w k i j| ≤ κ := by
        refine weight_sum_le (by omega) i j fun U hU => ?_
        obtain ⟨targ, t, h4⟩ := hw (N + 2) U (by omega)
        have h5 := h (N + 2) U targ false _ t h4 1 hU
        unfold convResult at h5
        rw [if_neg (by simp), mul_one] at h5
        exact h5 _ _
      refine (Finset.sum_le_sum_of_subset_of_nonneg ?_ fun _ _ _ => abs_nonneg _).trans h3
      exact Finset.range_mono (by omega)
    exact (tendsto_zero_iff_abs_tendsto_zero _).mpr hs.tendsto_atTop_zero
  cases hd : S.g.dt with
  | some d =>
    have : Schur A := by
      refine schur_of_weights h1 h2 (key (w := markov A B C D) fun N U hN => ⟨none, (List.range N).map fun k : ℕ => (k : ℝ) * d, ?_⟩)
      have := hsim (U := U) (targ := none) false hN hm (by rw [hd]; exact timeArray_none U) (by simp)
      rw [hd] at this
      exact this
    exact this
  | none =>
    obtain ⟨dt, hdt0, hna⟩ := exists_noAlias A
    have hh : HoldOf "zoh" dt A B C D (NormedSpace.exp (dt • A)) (gam (dt • A) (dt • B) 0) D := ⟨rfl, .inl ⟨rfl, rfl, rfl⟩⟩
    have : Schur (NormedSpace.exp (dt • A)) := by
      refine schur_of_weights ((hh.reachable_iff hdt0.ne' hna).mpr h1) ((observable_exp_iff hna hdt0.ne').mpr h2)
        (key (w := markov (NormedSpace.exp (dt • A)) (gam (dt • A) (dt • B) 0) C D) fun N U hN => ⟨some (eqGrid N 0 dt), eqGrid N 0 dt, ?_⟩)
      have hstep : (eqGrid N 0 dt).getD 1 0 - (eqGrid N 0 dt).getD 0 0 = dt := by
        rw [eqGrid_get (by omega), eqGrid_get (by omega)]; push_cast; ring
      have := hsim (U := U) (targ := some (eqGrid N 0 dt)) (t := eqGrid N 0 dt) false hN hm
        (by unfold timeArray; exact checkT_ok (eqGrid_ok hN hdt0) (fun h h' => by rw [hd] at h'; cases h')) (by simp [eqGrid])
      rw [hd] at this
      simp only [weights, hstep] at this
      exact this
    have hH : Hurwitz A := by
      intro z hz
      obtain ⟨v, hv, h3⟩ := exists_mulVec_eq_zero_iff.mpr hz
      rw [sub_mulVec, smul_mulVec, one_mulVec, sub_eq_zero] at h3
      have h4 := exp_eig_real (dt := dt) h3.symm
      have h5 : IsEig (NormedSpace.exp (dt • A)) (Complex.exp (z * dt)) :=
        exists_mulVec_eq_zero_iff.mp ⟨v, hv, by rw [sub_mulVec, smul_mulVec, one_mulVec, sub_eq_zero, h4]⟩
      have h6 := this _ h5
      rw [Complex.norm_exp, Real.exp_lt_one_iff, Complex.re_mul_ofReal] at h6
      nlinarith
    exact hH

/-- **C108**: for models with the least number of states, stability is boundedness of the responses. -/
theorem C108_iff (hE : BalanceOk E) (hc : Consistent S.g p m) (hdt : DtOk S.g.dt) (hm : 1 ≤ m) (hl : LeastOrder S.g p m) :
    StableModel S.g ↔ ∃ κ, 0 ≤ κ ∧ BoundedResponses Nm E S m κ :=
  ⟨C108_bounded hE hc hdt hm, fun ⟨_, _, h⟩ => C108_stable hE hc hdt hm hl h⟩

/-- The number of states must be least: the model with the unused unstable state is not stable, but its responses are bounded. -/
theorem C108_hidden (hE : BalanceOk E) {S S' : StateObj ℝ P} (hS : S.g = ⟨Arr.of !![-1], Arr.of !![1], Arr.of !![1], Arr.of !![0], none, false⟩)
    (hS' : S'.g = ⟨Arr.of !![-1, 0; 0, 5], Arr.of !![1; 0], Arr.of !![1, 1], Arr.of !![0], none, false⟩) :
    ¬ StableModel S'.g ∧ ∃ κ, 0 ≤ κ ∧ BoundedResponses Nm E S' 1 κ := by
  have hc : Consistent S.g 1 1 := by rw [hS]; exact ⟨⟨rfl, rfl⟩, fun _ => ⟨rfl, rfl, rfl, rfl, rfl⟩⟩
  have hc' : Consistent S'.g 1 1 := by rw [hS']; exact ⟨⟨rfl, rfl⟩, fun _ => ⟨rfl, rfl, rfl, rfl, rfl⟩⟩
  have hd : DtOk S.g.dt := by rw [hS]; intro t h; cases h
  have hd' : DtOk S'.g.dt := by rw [hS']; intro t h; cases h
  have hst : StableModel S.g := by
    rw [rep_stable hc (hS ▸ rep_dyn _ _ _ _ _), hS]
    intro z hz
    simp only [IsEig, det_fin_one] at hz
    have : z = -1 := by
      simp at hz
      linear_combination hz
    rw [this]
    simp [StablePoint]
  refine ⟨fun h => ?_, ?_⟩
  · rw [rep_stable hc' (hS' ▸ rep_dyn _ _ _ _ _), hS'] at h
    have := h 5 (by simp [IsEig, det_fin_two])
    simp [StablePoint] at this
    norm_num at this
  · obtain ⟨κ, hκ, hb⟩ := C108_bounded (Nm := Nm) hE hc hd le_rfl hst
    refine ⟨κ, hκ, fun N U targ pc y t h => hb N U targ pc y t ?_⟩
    refine C84_realization hE hc' hc hd' (by rw [hS, hS']) le_rfl ?_ h
    rw [hS, hS']
    exact SameTF.symm lag_same

example : Consistent (lagObj P).g 1 1 ∧ DtOk (lagObj P).g.dt ∧ LeastOrder (lagObj P).g 1 1 :=
  ⟨⟨⟨rfl, rfl⟩, fun _ => ⟨rfl, rfl, rfl, rfl, rfl⟩⟩, (fun _ h => by cases h), lag_least⟩

/-- The integrator: of least order and not stable, so no constant bounds its responses. -/
example (hE : BalanceOk E) {S : StateObj ℝ P} (hS : S.g = ⟨Arr.of !![0], Arr.of !![1], Arr.of !![1], Arr.of !![0], none, false⟩) :
    ¬ ∃ κ, 0 ≤ κ ∧ BoundedResponses Nm E S 1 κ := by
  have hc : Consistent S.g 1 1 := by rw [hS]; exact ⟨⟨rfl, rfl⟩, fun _ => ⟨rfl, rfl, rfl, rfl, rfl⟩⟩
  have hd : DtOk S.g.dt := by rw [hS]; intro t h; cases h
  have hl : LeastOrder S.g 1 1 := by
    rw [hS]
    refine rep_least (rep_dyn _ _ _ _ _) (fun x => ⟨[x], ?_⟩) fun x hx => ?_
    · ext i
      fin_cases i
      simp [finalState, vecHead]
    · have := congrFun (hx 0) 0
      ext i
      fin_cases i
      simpa [vecHead] using this
  rw [← C108_iff hE hc hd le_rfl hl, rep_stable hc (hS ▸ rep_dyn _ _ _ _ _), hS]
  intro h
  have := h 0 (by simp [IsEig])
  simp [StablePoint] at this

end Harold
