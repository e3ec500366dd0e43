import Verif.Spec.Motion
import Verif.Lemmas.Motion
import Verif.Props.SimTransfer
import Verif.Props.Poles
import Verif.Props.Dcgain
import Verif.Props.Hess
import Verif.Props.StateDcgain

/-!
# C92, C93: what the stability flag says about motions and responses
-/

namespace Harold

open Matrix Harold.Spec Filter Topology NormedSpace

variable {n m p : ℕ}

/-! ## C92: the flag and the motions without input -/

theorem eig_mem {N : Numerics ℝ ℂ} (hN : EigExact N) {A : Matrix (Fin n) (Fin n) ℝ} {z : ℂ} : z ∈ N.eig (Arr.of A) ↔ IsEig A z := by
  unfold IsEig
  rw [← map_charpoly_eval, hN A, Polynomial.eval_list_prod, List.prod_eq_zero_iff]
  simp [sub_eq_zero]

theorem motions_iff {dt : Option ℝ} {A : Matrix (Fin n) (Fin n) ℝ} : MotionsVanish dt A ↔ ∀ z, IsEig A z → StablePoint dt z := by
  cases dt with
  | none =>
    rw [← hurwitz_iff_motions]
    simp [Hurwitz, StablePoint]
  | some h =>
    rw [← schur_iff_motions]
    simp [Schur, StablePoint]

/-- A flag that belongs to the current poles tells whether all motions without input die out. -/
theorem flag_motions {N : Numerics ℝ ℂ} (hN : EigExact N) (hR : RegionExact N) {T : StateObj ℝ ℂ} (hp : PolesCurrent N T) (hf : FlagCurrent N T)
    (hc : Consistent T.g p m) : T.isstable = true ↔ StableModel T.g := by
  unfold FlagCurrent at hf
  rw [hf, hp.1]
  obtain ⟨a, b, c, D, dt', hG⟩ | ⟨n, A, B, C, D, dt', hG⟩ := consistent_cases hc
  · simp [StableModel, hG]
  · have h1 : StableModel T.g ↔ MotionsVanish dt' A := by
      constructor
      · rintro (h | ⟨n', A', h1, h2⟩)
        · rw [hG] at h; cases h
        · rw [hG] at h1 h2
          obtain rfl : n = n' := congrArg Arr.r h1
          obtain rfl := Arr.of_inj.mp h1
          exact h2
      · intro h
        exact Or.inr ⟨n, A, by rw [hG], by rw [hG]; exact h⟩
    rw [h1, motions_iff, hG]
    simp only [Bool.false_eq_true, if_false, eig_mem hN]
    refine forall_congr' fun z => imp_congr_right fun _ => ?_
    unfold StablePoint
    split_ifs
    · exact (hR z).1
    · exact (hR z).2

/-- **C92** for histories that do not switch between continuous and discrete time: after every such history of assignments the flag is true exactly if all motions of the model without
input die out. Missing: the other histories (`C92_stale_violated`). -/
theorem C92_flag_partial {N : Numerics ℝ ℂ} (hN : EigExact N) (hR : RegionExact N) {a b c d : Option (Arr ℝ)} {dt : Option ℝ} {S : StateObj ℝ ℂ}
    (h : StateObj.init N a b c d dt = .ok S) (hist : List (Assign ℝ)) (hk : ∀ x ∈ hist, x.keepsDomain S) (hc : Consistent (S.run N hist).g p m) :
    (S.run N hist).isstable = true ↔ StableModel (S.run N hist).g :=
  flag_motions hN hR (C14_poles_zeros N h hist) (C14_flag_partial N h hist hk) hc

/-- **C92**, models with states as they are after construction. -/
theorem C92_constructed {N : Numerics ℝ ℂ} (hN : EigExact N) (hR : RegionExact N) {A : Matrix (Fin n) (Fin n) ℝ} {B : Matrix (Fin n) (Fin m) ℝ} {C : Matrix (Fin p) (Fin n) ℝ}
    {D : Matrix (Fin p) (Fin m) ℝ} {a b c d : Option (Arr ℝ)} {dt : Option ℝ} {S : StateObj ℝ ℂ} (h : StateObj.init N a b c d dt = .ok S)
    (hS : S.g = ⟨Arr.of A, Arr.of B, Arr.of C, Arr.of D, dt, false⟩) : S.isstable = true ↔ MotionsVanish dt A := by
  have hc : Consistent S.g p m := by rw [hS]; exact ⟨⟨rfl, rfl⟩, fun _ => ⟨rfl, rfl, rfl, rfl, rfl⟩⟩
  have := C92_flag_partial hN hR h [] (by simp) hc
  rw [show S.run N [] = S from rfl] at this
  rw [this]
  constructor
  · rintro (h | ⟨n', A', h1, h2⟩)
    · rw [hS] at h; cases h
    · rw [hS] at h1 h2
      obtain rfl : n = n' := congrArg Arr.r h1
      obtain rfl := Arr.of_inj.mp h1
      exact h2
  · intro h
    exact Or.inr ⟨n, A, by rw [hS], by rw [hS]; exact h⟩

theorem one_state_hurwitz {a : ℝ} (ha : a < 0) : Hurwitz (!![a] : Matrix (Fin 1) (Fin 1) ℝ) := by
  intro z hz
  unfold IsEig at hz
  simp only [det_fin_one, Matrix.sub_apply, Matrix.smul_apply, one_apply_eq, map_apply, smul_eq_mul, mul_one, of_apply, cons_val', cons_val_fin_one] at hz
  rw [sub_eq_zero] at hz
  rw [hz]
  simpa using ha

theorem one_state_schur {a : ℝ} (ha : |a| < 1) : Schur (!![a] : Matrix (Fin 1) (Fin 1) ℝ) := by
  intro z hz
  unfold IsEig at hz
  simp only [det_fin_one, Matrix.sub_apply, Matrix.smul_apply, one_apply_eq, map_apply, smul_eq_mul, mul_one, of_apply, cons_val', cons_val_fin_one] at hz
  rw [sub_eq_zero] at hz
  rw [hz]
  simpa using ha

/-- The object of `State(a, 1, 1, 0, dt)`. -/
noncomputable def lagS (N : Numerics ℝ ℂ) (a : ℝ) (dt : Option ℝ) : StateObj ℝ ℂ :=
  StateObj.recalc N ⟨⟨Arr.of !![a], Arr.of !![1], Arr.of !![1], Arr.of !![0], dt, false⟩, (1, 1), none, none, 0, [], [], false⟩

theorem lagS_init (N : Numerics ℝ ℂ) (a : ℝ) {dt : Option ℝ} (hdt : DtOk dt) :
    StateObj.init N (some (Arr.of !![a])) (some (Arr.of !![1])) (some (Arr.of !![1])) (some (Arr.of !![0])) dt = .ok (lagS N a dt) := by
  unfold StateObj.init
  rw [mkState_of hdt]
  rfl

/-- **C92** fails for assignments that switch to discrete time: after `G = State(-2, 1, 1, 0)` and `G.SamplingPeriod = 1`, which is accepted, the model is still reported stable although
its motions `x(k+1) = -2 x(k)` grow. -/
theorem C92_stale_violated {N : Numerics ℝ ℂ} (hN : EigExact N) (hR : RegionExact N) :
    ∃ S : StateObj ℝ ℂ, StateObj.init N (some (Arr.of !![-2])) (some (Arr.of !![1])) (some (Arr.of !![1])) (some (Arr.of !![0])) none = .ok S ∧
      (S.assign N (.samplingPeriod (some 1))).2 = none ∧ (S.run N [.samplingPeriod (some 1)]).isstable = true ∧
      ¬ StableModel (S.run N [.samplingPeriod (some 1)]).g := by
  have hi := lagS_init N (-2) (dt := none) (by intro t h; cases h)
  refine ⟨_, hi, ?_, ?_, ?_⟩
  · simp only [StateObj.assign]
    rw [if_neg (by norm_num)]
  · have h1 : (lagS N (-2) none).isstable = true := (C92_constructed hN hR hi rfl).mpr (hurwitz_iff_motions.mp (one_state_hurwitz (by norm_num)))
    simp only [StateObj.run, List.foldl_cons, List.foldl_nil, StateObj.assign]
    rw [if_neg (by norm_num)]
    exact h1
  · simp only [StateObj.run, List.foldl_cons, List.foldl_nil, StateObj.assign]
    rw [if_neg (by norm_num)]
    rintro (h | ⟨n', A', h1, h2⟩)
    · cases h
    · have e : (Arr.of (!![-2] : Matrix (Fin 1) (Fin 1) ℝ)) = Arr.of A' := h1
      obtain rfl : 1 = n' := congrArg Arr.r e
      obtain rfl := Arr.of_inj.mp e
      have := schur_iff_motions.mpr h2 (-2) (by simp [IsEig])
      norm_num at this

/-- A stable and an unstable model: the hypotheses of `C92_constructed` hold and both values of the flag occur. -/
example : ∃ N : Numerics ℝ ℂ, EigExact N ∧ RegionExact N ∧ (lagS N (-1) none).isstable = true ∧ (lagS N (-1) (some 1)).isstable = false := by
  obtain ⟨N, -, hN, hR, -⟩ := exists_pole_numerics
  refine ⟨N, @hN, hR, (C92_constructed hN hR (lagS_init N (-1) (dt := none) (by intro t h; cases h)) rfl).mpr (hurwitz_iff_motions.mp (one_state_hurwitz (by norm_num))), ?_⟩
  rw [Bool.eq_false_iff]
  intro h
  have h1 := (C92_constructed hN hR (lagS_init N (-1) (dt := some 1) (by intro t h; cases h; norm_num)) rfl).mp h
  have := schur_iff_motions.mpr h1 (-1) (by simp [IsEig])
  norm_num at this

/-! ## C93: responses of stable models -/

variable {P : Type} {Nm : Numerics ℝ P} {E : TNum ℝ} {Bn : DNum} {S : StateObj ℝ P} {G : TransferM ℝ} {h : ℝ}

/-- The weights of a static gain. -/
noncomputable def gainW (D : Matrix (Fin p) (Fin m) ℝ) : ℕ → Matrix (Fin p) (Fin m) ℝ := fun k => if k = 0 then D else 0

/-- The weights of a stable model can be summed, and their sum is the gain at zero frequency. -/
theorem stable_weights (hE : BalanceOk Bn) (hc : Consistent S.g p m) (hm : 1 ≤ m) (hh : 0 < h) (hd : S.g.dt = none ∨ S.g.dt = some h) (hst : StableModel S.g) :
    ∃ (w : ℕ → Matrix (Fin p) (Fin m) ℝ) (M : Matrix (Fin p) (Fin m) ℝ), HasTF S.g p m (zeroFreq S.g.dt) M ∧
      (∀ l j, Summable fun k => |w k l j|) ∧ (∀ l j, Tendsto (fun i : ℕ => ∑ k ∈ Finset.range (i + 1), w k l j) atTop (𝓝 (M l j))) ∧
      ∀ (N : ℕ) (t0 : ℝ) (U : Matrix (Fin N) (Fin m) ℝ) (pc : Bool), 2 ≤ N →
        simulate Nm Bn S (Arr.of U) (some (eqGrid N t0 h)) none pc = .ok (convResult w U pc, eqGrid N t0 h) := by
  have hdt : DtOk S.g.dt := by
    intro t ht
    rcases hd with h' | h' <;> rw [h'] at ht <;> cases ht
    exact hh
  have htime : ∀ {N : ℕ} (t0 : ℝ) (U : Matrix (Fin N) (Fin m) ℝ), 2 ≤ N → timeArray S.g.dt (some (Arr.of U)) (some (eqGrid N t0 h)) = .ok (eqGrid N t0 h) := by
    intro N t0 U hN
    unfold timeArray
    refine checkT_ok (eqGrid_ok hN hh) ?_
    rcases hd with h' | h' <;> rw [h']
    · intro d hd; cases hd
    · exact periodOk_eqGrid hN
  obtain ⟨a, b, c, D, dt', hG⟩ | ⟨n, A, B, C, D, dt', hG⟩ := consistent_cases hc
  · refine ⟨gainW D, D, Or.inl ⟨by rw [hG], D, by rw [hG], by ext; simp⟩, fun l j => ?_, fun l j => ?_, fun N t0 U pc hN => ?_⟩
    · refine summable_of_ne_finset_zero (s := {0}) fun k hk => ?_
      have h0 : k ≠ 0 := by simpa using hk
      simp [gainW, h0]
    · refine tendsto_const_nhds.congr fun i => ?_
      rw [Finset.sum_range_succ']
      simp [gainW]
    · rw [simulate_gain hN hm hG (htime t0 U hN) (by simp [eqGrid])]
      unfold convResult
      split_ifs with hc
      · obtain ⟨rfl, hm1⟩ := hc
        rw [simGain_perChannel (by omega)]
        simp only [conv_gain (w := gainW D) (fun k => rfl)]
        rfl
      · have : pc = false ∨ m = 1 := by
          cases pc
          · exact Or.inl rfl
          · right; by_contra h; exact hc ⟨rfl, h⟩
        rw [simGain_flat _ this, conv_gain (w := gainW D) (fun k => rfl)]
        rfl
  · have hst' : MotionsVanish dt' A := by
      rcases hst with h | ⟨n', A', h1, h2⟩
      · rw [hG] at h; cases h
      · rw [hG] at h1 h2
        obtain rfl : n = n' := congrArg Arr.r h1
        obtain rfl := Arr.of_inj.mp h1
        exact h2
    have htf : ∀ M : Matrix (Fin p) (Fin m) ℝ, IsTF A B C D (zeroFreq dt') M → HasTF S.g p m (zeroFreq S.g.dt) M := by
      intro M hM
      rw [hG]
      exact Or.inr ⟨rfl, n, A, B, C, D, rfl, rfl, rfl, rfl, isTF_real.mpr hM⟩
    cases dt' with
    | some d =>
      obtain rfl : d = h := by
        rcases hd with h' | h' <;> rw [hG] at h' <;> simp at h'
        exact h'
      have hA := schur_iff_motions.mpr hst'
      refine ⟨markov A B C D, C * (1 - A)⁻¹ * B + D, htf _ ⟨?_, ?_⟩, markov_summable hA B C D, markov_sum_tendsto hA B C D, fun N t0 U pc hN => ?_⟩
      · simpa [zeroFreq] using schur_det hA
      · simp [zeroFreq]
      · rw [weights_dynamic hE hG hdt pc hN hm (htime t0 U hN) (by simp [eqGrid]), hG]
        rfl
    | none =>
      have hA := hurwitz_iff_motions.mpr hst'
      have hs := hold_schur hA hh
      refine ⟨markov (exp (h • A)) (gam (h • A) (h • B) 0) C D, C * (0 - A)⁻¹ * B + D, htf _ ⟨?_, ?_⟩, markov_summable hs _ C D, fun l j => ?_, fun N t0 U pc hN => ?_⟩
      · have : (0 - A).det ≠ 0 := by
          rw [zero_sub, det_neg]
          exact mul_ne_zero (pow_ne_zero _ (by norm_num)) (hurwitz_det hA)
        simpa [zeroFreq] using this
      · simp [zeroFreq]
      · rw [← hold_gain hA hh]
        exact markov_sum_tendsto hs _ C D l j
      · rw [weights_dynamic hE hG hdt pc hN hm (htime t0 U hN) (by simp [eqGrid]), hG]
        have h0 : (eqGrid N t0 h).getD 1 0 - (eqGrid N t0 h).getD 0 0 = h := by
          rw [eqGrid_get (by omega), eqGrid_get (by omega)]; push_cast; ring
        unfold weights
        rw [h0]

/-- For every starting time and number of samples the response on the grid `t0, t0 + h, ...` is the beginning of one sequence of matrices (rows are outputs, columns the channels), and the
sequence tends to `M`. -/
def Spec.Settles (resp : List ℝ → Res (SimOut × List ℝ)) (h : ℝ) (M : Matrix (Fin p) (Fin m) ℝ) : Prop :=
  ∃ Y : ℕ → Matrix (Fin p) (Fin m) ℝ,
    (∀ (N : ℕ) (t0 : ℝ), 2 ≤ N → ∃ y, resp (eqGrid N t0 h) = .ok (y, eqGrid N t0 h) ∧
      y.slices = List.ofFn fun k : Fin m => Arr.of (Matrix.of fun (i : Fin N) (l : Fin p) => Y i l k)) ∧
    ∀ l k, Tendsto (fun i => Y i l k) atTop (𝓝 (M l k))

/-- One constant bounds the outputs for all inputs of any length that are bounded by `1`, and in proportion for other bounds. -/
def Spec.BoundedOutputs (sim : Arr ℝ → List ℝ → Res (SimOut × List ℝ)) (p m : ℕ) (h : ℝ) : Prop :=
  ∃ c : ℝ, ∀ (N : ℕ) (t0 b : ℝ) (U : Matrix (Fin N) (Fin m) ℝ), 2 ≤ N → (∀ i j, |U i j| ≤ b) →
    ∃ Y : Matrix (Fin N) (Fin p) ℝ, sim (Arr.of U) (eqGrid N t0 h) = .ok (.flat (Arr.of Y), eqGrid N t0 h) ∧ ∀ i l, |Y i l| ≤ c * b

theorem convResult_slices {N : ℕ} (w : ℕ → Matrix (Fin p) (Fin m) ℝ) (U : Matrix (Fin N) (Fin m) ℝ) (hm : 1 ≤ m) :
    (convResult w U true).slices = List.ofFn fun k => Arr.of (convOut w (onlyChannel U k)) := by
  unfold convResult
  by_cases h1 : m = 1
  · rw [if_neg (by simp [h1])]
    subst h1
    have e : onlyChannel U 0 = U := by
      ext i j; fin_cases j; simp [onlyChannel]
    simp [SimOut.slices, e]
  · rw [if_pos ⟨rfl, h1⟩]
    rfl

theorem conv_ones {N : ℕ} (w : ℕ → Matrix (Fin p) (Fin m) ℝ) (k : Fin m) :
    convOut w (onlyChannel (Matrix.of fun (_ : Fin N) (_ : Fin m) => (1 : ℝ)) k) = Matrix.of fun (i : Fin N) l => ∑ j ∈ Finset.range ((i : ℕ) + 1), w j l k := by
  ext i l
  rw [convOut_apply, of_apply, Finset.sum_comm]
  refine Finset.sum_congr rfl fun j hj => ?_
  have hlt : (i : ℕ) - j < N := by omega
  simp [sampleSeq, hlt, onlyChannel]

theorem conv_impulse {N : ℕ} (w : ℕ → Matrix (Fin p) (Fin m) ℝ) (a : ℝ) (k : Fin m) :
    convOut w (onlyChannel (Matrix.of fun (i : Fin N) (_ : Fin m) => if (i : ℕ) = 0 then a else 0) k) = Matrix.of fun (i : Fin N) l => w i l k * a := by
  ext i l
  rw [convOut_apply, of_apply, Finset.sum_comm, Finset.sum_eq_single (i : ℕ)]
  · have hlt : 0 < N := i.pos
    simp [sampleSeq, hlt, onlyChannel]
  · intro j hj hne
    have hj' := Finset.mem_range.mp hj
    have hlt : (i : ℕ) - j < N := by omega
    have h0 : ¬ (i : ℕ) - j = 0 := by omega
    simp [sampleSeq, hlt, onlyChannel, h0]
  · intro hn
    simp at hn

/-- Responses of stable models. -/
theorem stable_responses (hE : BalanceOk Bn) (hc : Consistent S.g p m) (hm : 1 ≤ m) (hh : 0 < h) (hd : S.g.dt = none ∨ S.g.dt = some h) (hst : StableModel S.g) (auto : ℝ × ℝ) :
    (∃ M : Matrix (Fin p) (Fin m) ℝ, HasTF S.g p m (zeroFreq S.g.dt) M ∧ Settles (fun t => stepResponse Nm Bn S auto (some t)) h M) ∧
    Settles (fun t => impulseResponse Nm Bn S auto (some t)) h (0 : Matrix (Fin p) (Fin m) ℝ) ∧
    BoundedOutputs (fun u t => simulate Nm Bn S u (some t) none false) p m h := by
  obtain ⟨w, M, h1, h2, h3, h4⟩ := stable_weights (Nm := Nm) hE hc hm hh hd hst
  have hSm : S.g.m = m := hc.1.2
  have hl : ∀ (N : ℕ) (t0 : ℝ), (eqGrid N t0 h).length = N := fun N t0 => by simp [eqGrid]
  refine ⟨⟨M, h1, fun i => Matrix.of fun l k => ∑ j ∈ Finset.range (i + 1), w j l k, fun N t0 hN => ?_, h3⟩,
    ⟨fun i => Matrix.of fun l k => w i l k * (1 / h), fun N t0 hN => ?_, fun l k => ?_⟩,
    ⟨∑ l, ∑ j, ∑' k, |w k l j|, fun N t0 b U hN hU => ⟨convOut w U, ?_, fun i l => ?_⟩⟩⟩
  · refine ⟨convResult w (Matrix.of fun (_ : Fin N) (_ : Fin m) => (1 : ℝ)) true, ?_, ?_⟩
    · simp only [stepResponse, responseGrid, checkCustomTime_eqGrid hN hh, Bind.bind, Except.bind, hSm, hl]
      exact h4 N t0 (Matrix.of fun _ _ => 1) true hN
    · rw [convResult_slices w _ hm]
      simp only [conv_ones, of_apply]
  · refine ⟨convResult w (Matrix.of fun (i : Fin N) (_ : Fin m) => if (i : ℕ) = 0 then 1 / h else 0) true, ?_, ?_⟩
    · simp only [impulseResponse, responseGrid, checkCustomTime_eqGrid hN hh, Bind.bind, Except.bind, hSm, hl]
      exact h4 N t0 (Matrix.of fun (i : Fin N) (_ : Fin m) => if (i : ℕ) = 0 then 1 / h else 0) true hN
    · rw [convResult_slices w _ hm]
      simp only [conv_impulse, of_apply]
  · have h5 := ((h2 l k).of_norm_bounded (g := fun i => |w i l k|) (f := fun i => w i l k) fun i => le_of_eq (Real.norm_eq_abs _)).tendsto_atTop_zero
    have h6 := h5.mul_const (1 / h)
    rw [zero_mul] at h6
    exact h6
  · simp only [h4 N t0 U false hN]
    rfl
  · have hb : 0 ≤ b := (abs_nonneg _).trans (hU i ⟨0, hm⟩)
    have hs : ∀ (j : Fin m) (k : ℕ), |sampleSeq U j k| ≤ b := by
      intro j k
      unfold sampleSeq
      split_ifs with hk
      · exact hU _ _
      · simpa using hb
    rw [convOut_apply]
    have h5 : ∀ j : Fin m, |∑ k ∈ Finset.range ((i : ℕ) + 1), w k l j * sampleSeq U j (i - k)| ≤ (∑' k, |w k l j|) * b := by
      intro j
      refine (Finset.abs_sum_le_sum_abs _ _).trans ?_
      calc ∑ k ∈ Finset.range ((i : ℕ) + 1), |w k l j * sampleSeq U j (i - k)|
          ≤ ∑ k ∈ Finset.range ((i : ℕ) + 1), |w k l j| * b := Finset.sum_le_sum fun k _ => by
            rw [abs_mul]
            exact mul_le_mul_of_nonneg_left (hs j _) (abs_nonneg _)
        _ = (∑ k ∈ Finset.range ((i : ℕ) + 1), |w k l j|) * b := by rw [Finset.sum_mul]
        _ ≤ (∑' k, |w k l j|) * b := mul_le_mul_of_nonneg_right ((h2 l j).sum_le_tsum _ fun k _ => abs_nonneg _) hb
    calc |∑ j, ∑ k ∈ Finset.range ((i : ℕ) + 1), w k l j * sampleSeq U j (i - k)|
        ≤ ∑ j, (∑' k, |w k l j|) * b := (Finset.abs_sum_le_sum_abs _ _).trans (Finset.sum_le_sum fun j _ => h5 j)
      _ = (∑ j, ∑' k, |w k l j|) * b := by rw [Finset.sum_mul]
      _ ≤ (∑ l, ∑ j, ∑' k, |w k l j|) * b := by
        refine mul_le_mul_of_nonneg_right ?_ hb
        exact Finset.single_le_sum (f := fun l => ∑ j, ∑' k, |w k l j|) (fun l _ => Finset.sum_nonneg fun j _ => tsum_nonneg fun k => abs_nonneg _) (Finset.mem_univ l)

/-- **C93** for `State` models and histories that do not switch between continuous and discrete time: if the model is reported stable, its step responses tend to the value of the transfer
matrix at zero frequency, its impulse responses tend to zero, and bounded inputs give bounded outputs. Missing: histories after which the flag is out of date (`C92_stale_violated`), and
grids of other steps than the sampling period, which are rejected. -/
theorem C93_state_partial {N : Numerics ℝ ℂ} (hN : EigExact N) (hR : RegionExact N) (hE : BalanceOk Bn) {a b c d : Option (Arr ℝ)} {dt : Option ℝ} {S : StateObj ℝ ℂ}
    (hi : StateObj.init N a b c d dt = .ok S) (hist : List (Assign ℝ)) (hk : ∀ x ∈ hist, x.keepsDomain S) (hc : Consistent (S.run N hist).g p m) (hm : 1 ≤ m)
    (hst : (S.run N hist).isstable = true) (hh : 0 < h) (hd : (S.run N hist).g.dt = none ∨ (S.run N hist).g.dt = some h) (auto : ℝ × ℝ) :
    (∃ M : Matrix (Fin p) (Fin m) ℝ, HasTF (S.run N hist).g p m (zeroFreq (S.run N hist).g.dt) M ∧
      Settles (fun t => stepResponse N Bn (S.run N hist) auto (some t)) h M) ∧
    Settles (fun t => impulseResponse N Bn (S.run N hist) auto (some t)) h (0 : Matrix (Fin p) (Fin m) ℝ) ∧
    BoundedOutputs (fun u t => simulate N Bn (S.run N hist) u (some t) none false) p m h :=
  stable_responses hE hc hm hh hd ((C92_flag_partial hN hR hi hist hk hc).mp hst) auto

/-- **C93** fails after an assignment that switches to discrete time: after `G = State(-2, 1, 1, 0)` and `G.SamplingPeriod = 1` the model is still reported stable, and its impulse
response is `0, 1, -2, 4, ...`. -/
theorem C93_stale_violated {N : Numerics ℝ ℂ} (hN : EigExact N) (hR : RegionExact N) (hE : BalanceOk Bn) :
    ∃ S : StateObj ℝ ℂ, StateObj.init N (some (Arr.of !![-2])) (some (Arr.of !![1])) (some (Arr.of !![1])) (some (Arr.of !![0])) none = .ok S ∧
      (S.assign N (.samplingPeriod (some 1))).2 = none ∧ (S.run N [.samplingPeriod (some 1)]).isstable = true ∧
      ∀ (auto : ℝ × ℝ) (M : Matrix (Fin 1) (Fin 1) ℝ), ¬ Settles (fun t => impulseResponse N Bn (S.run N [.samplingPeriod (some 1)]) auto (some t)) 1 M := by
  have hi := lagS_init N (-2) (dt := none) dtOk_none
  have h1 : (lagS N (-2) none).isstable = true := (C92_constructed hN hR hi rfl).mpr (hurwitz_iff_motions.mp (one_state_hurwitz (by norm_num)))
  have hg : (lagS N (-2) none).g = ⟨Arr.of !![-2], Arr.of !![1], Arr.of !![1], Arr.of !![0], none, false⟩ := rfl
  generalize lagS N (-2) none = S at hi h1 hg
  have ha : S.assign N (.samplingPeriod (some 1)) = ({ S with g := { S.g with dt := some 1 } }, none) := by
    simp only [StateObj.assign]
    rw [if_neg (by norm_num)]
  refine ⟨S, hi, by rw [ha], ?_, ?_⟩
  · simp only [StateObj.run, List.foldl_cons, List.foldl_nil, ha]
    exact h1
  · simp only [StateObj.run, List.foldl_cons, List.foldl_nil, ha]
    rintro auto M ⟨Y, h2, h3⟩
    have hT : ({ S with g := { S.g with dt := some 1 } } : StateObj ℝ ℂ).g = ⟨Arr.of !![-2], Arr.of !![1], Arr.of !![1], Arr.of !![0], some 1, false⟩ := by rw [hg]
    generalize ({ S with g := { S.g with dt := some 1 } } : StateObj ℝ ℂ) = T at h2 hT
    have hY : ∀ i : ℕ, Y (i + 1) 0 0 = (-2) ^ i := by
      intro i
      obtain ⟨y, h4, h5⟩ := h2 (i + 2) 0 (by omega)
      have h6 := weights_dynamic (Nm := N) (B := Bn) (N := i + 2) (U := Matrix.of fun (i : Fin _) (_ : Fin 1) => if (i : ℕ) = 0 then 1 / (1 : ℝ) else 0) (targ := some (eqGrid (i + 2) 0 1)) (t := eqGrid (i + 2) 0 1) hE hT
        (by rw [hT]; intro t h; cases h; exact one_pos) true (by omega) le_rfl
        (by
          unfold timeArray
          refine checkT_ok (eqGrid_ok (by omega) one_pos) ?_
          rw [hT]
          exact periodOk_eqGrid (by omega)) (by simp [eqGrid])
      have hl : (eqGrid (i + 2) 0 1).length = i + 2 := by simp [eqGrid]
      have hm : T.g.m = 1 := by rw [hT]; rfl
      simp only [impulseResponse, responseGrid, checkCustomTime_eqGrid (show 2 ≤ i + 2 by omega) one_pos, Bind.bind, Except.bind, hm, hl] at h4
      have h7 := h4.symm.trans h6
      simp only [Except.ok.injEq, Prod.mk.injEq, and_true] at h7
      rw [h7, convResult_slices _ _ le_rfl, List.ofFn_inj] at h5
      have h8 := congrFun h5 0
      rw [Arr.of_inj, conv_impulse] at h8
      have h9 := congrFun (congrFun h8 ⟨i + 1, by omega⟩) 0
      simp only [of_apply] at h9
      rw [← h9, hT]
      have hp : ∀ k : ℕ, (!![-2] : Matrix (Fin 1) (Fin 1) ℝ) ^ k = !![(-2) ^ k] := by
        intro k
        induction k with
        | zero => ext a b; fin_cases a; fin_cases b; simp
        | succ k ih => rw [pow_succ, ih]; ext a b; fin_cases a; fin_cases b; simp [Matrix.mul_apply, pow_succ]
      simp only [weights, markov, hp]
      simp [Matrix.mul_apply]
    have h4 := ((h3 0 0).comp (tendsto_add_atTop_nat 1)).abs
    have h5 : (fun i : ℕ => |Y (i + 1) 0 0|) = fun i => (2 : ℝ) ^ i := by
      funext i
      rw [hY, abs_pow]
      norm_num
    have h6 : Tendsto (fun i : ℕ => (2 : ℝ) ^ i) atTop (𝓝 |M 0 0|) := h5 ▸ h4
    exact not_tendsto_nhds_of_tendsto_atTop (tendsto_pow_atTop_atTop_of_one_lt one_lt_two) _ h6

/-! ### `Transfer` models -/

/-- The converted model is stable if all denominators have stable roots only. -/
theorem t2s_stable (hbal : ∀ polys i, E.bal polys i ≠ 0) (hthr : E.lcmTol ≤ 1) (htol : ClearModel E.lcmTol E.remTol G) {Nn Dn : Matrix (Fin p) (Fin m) (List ℝ)}
    (hG : Normal G p m Nn Dn) (hroots : ∀ i j (s : ℂ), polyAt s (Dn i j) = 0 → StablePoint G.dt s) :
    ∃ T, transferToState E G = .ok T ∧ T.dt = G.dt ∧ Consistent T p m ∧ StableModel T ∧
      ∀ {L : Type} [Field L] [Algebra ℝ L] (s : L) (M : Matrix (Fin p) (Fin m) L), HasVal G p m s M → HasTF T p m s M := by
  obtain ⟨T, H, e1, e2, -, -, e5, -, e7⟩ := t2s_parts (E := E) hbal hthr htol hG
  refine ⟨T, e1, e2, e5, ?_, e7⟩
  obtain ⟨a, b, c, D, dt', hT⟩ | ⟨n, A, B, C, D, dt', hT⟩ := consistent_cases e5
  · exact Or.inl (by rw [hT])
  · refine Or.inr ⟨n, A, by rw [hT], ?_⟩
    rw [motions_iff, e2]
    intro z hz
    by_contra hn
    have hv : ∀ i j, polyAt z (Dn i j) ≠ 0 := fun i j e => hn (hroots i j z e)
    have h1 := e7 z (Matrix.of fun i j => polyAt z (Nn i j) / polyAt z (Dn i j)) ⟨Nn, Dn, hG.num, hG.den, fun i j => ⟨hv i j, rfl⟩⟩
    rcases h1 with ⟨h', -⟩ | ⟨-, n', A', B', C', D', hA', -, -, -, hM⟩
    · rw [hT] at h'; cases h'
    · rw [hT] at hA'
      obtain rfl : n = n' := congrArg Arr.r hA'
      obtain rfl := Arr.of_inj.mp hA'
      exact hM.1 hz

theorem zeroFreq_unstable (dt : Option ℝ) : ¬ StablePoint dt ((zeroFreq dt : ℝ) : ℂ) := by
  unfold StablePoint zeroFreq
  cases dt <;> simp

theorem polyAt_zeroFreq {dt : Option ℝ} {d : List ℝ} (h : ∀ s : ℂ, polyAt s d = 0 → StablePoint dt s) : polyAt (zeroFreq dt : ℝ) d ≠ 0 := by
  intro e
  refine zeroFreq_unstable dt (h _ ?_)
  have : polyAt ((zeroFreq dt : ℝ) : ℂ) d = ((polyAt (zeroFreq dt : ℝ) d : ℝ) : ℂ) := by
    simp only [polyAt, ← Complex.coe_algebraMap, Polynomial.aeval_algebraMap_apply]
  rw [this, e]
  simp

/-- **C93** for `Transfer` models of any shape that rounding leaves alone and whose denominators have all their roots in the stability region: the step responses tend to the values of
the entries at zero frequency, the impulse responses to zero, and bounded inputs give bounded outputs. Missing: coefficients below the thresholds (`C27_rounding_violated`). -/
theorem C93_transfer_partial (hbal : ∀ polys i, E.bal polys i ≠ 0) (hthr : E.lcmTol ≤ 1) (htol : ClearModel E.lcmTol E.remTol G) (hE : BalanceOk Bn)
    {Nn Dn : Matrix (Fin p) (Fin m) (List ℝ)} (hG : Normal G p m Nn Dn) (hroots : ∀ i j (s : ℂ), polyAt s (Dn i j) = 0 → StablePoint G.dt s)
    (hh : 0 < h) (hd : G.dt = none ∨ G.dt = some h) (auto : StateM ℝ → ℝ × ℝ) :
    Settles (fun t => stepResponseTransfer E Nm Bn G auto (some t)) h
      (Matrix.of fun i j => polyAt (zeroFreq G.dt : ℝ) (Nn i j) / polyAt (zeroFreq G.dt : ℝ) (Dn i j)) ∧
    Settles (fun t => impulseResponseTransfer E Nm Bn G auto (some t)) h (0 : Matrix (Fin p) (Fin m) ℝ) ∧
    BoundedOutputs (fun u t => simulateTransfer E Nm Bn G u (some t) none false) p m h := by
  obtain ⟨T, e1, e2, e3, e4, e5⟩ := t2s_stable hbal hthr htol hG hroots
  obtain ⟨⟨M, h1, h2⟩, h3, h4⟩ := stable_responses (Nm := Nm) (S := StateObj.plain T) hE e3 hG.pos.2 hh (by rw [show (StateObj.plain T : StateObj ℝ P).g = T from rfl, e2]; exact hd) e4 (auto T)
  have hM : M = Matrix.of fun i j => polyAt (zeroFreq G.dt : ℝ) (Nn i j) / polyAt (zeroFreq G.dt : ℝ) (Dn i j) := by
    have h5 := e5 (zeroFreq G.dt : ℝ) (Matrix.of fun i j => polyAt (zeroFreq G.dt : ℝ) (Nn i j) / polyAt (zeroFreq G.dt : ℝ) (Dn i j))
      ⟨Nn, Dn, hG.num, hG.den, fun i j => ⟨polyAt_zeroFreq (hroots i j), rfl⟩⟩
    have h6 : HasTF T p m (zeroFreq G.dt : ℝ) M := by rw [← e2]; exact h1
    exact HasTF_unique h6 h5
  rw [hM] at h2
  refine ⟨?_, ?_, ?_⟩
  · simpa only [stepResponseTransfer, e1, Bind.bind, Except.bind] using h2
  · simpa only [impulseResponseTransfer, e1, Bind.bind, Except.bind] using h3
  · simpa only [simulateTransfer, e1, Bind.bind, Except.bind] using h4

/-- The value of the converted model at zero frequency is that of the entries after cancellation. -/
theorem hasTF_lowFreq {Nn Dn : Matrix (Fin p) (Fin m) (List ℝ)} {T : StateM ℝ} (hG : Normal G p m Nn Dn)
    (hT : ∀ (s : ℝ) (M : Matrix (Fin p) (Fin m) ℝ), HasVal G p m s M → HasTF T p m s M) {z : ℝ} {M : Matrix (Fin p) (Fin m) ℝ} (hM : HasTF T p m z M) (i : Fin p) (j : Fin m) :
    LowFreqGain z (toPoly (Nn i j)) (toPoly (Dn i j)) (.fin (M i j)) := by
  have id_map : ∀ {a b : ℕ} (X : Matrix (Fin a) (Fin b) ℝ), X.map (algebraMap ℝ ℝ) = X := fun X => by ext; simp
  have hv : ∀ s : ℝ, (∀ i j, polyAt s (Dn i j) ≠ 0) → HasTF T p m s (Matrix.of fun i j => polyAt s (Nn i j) / polyAt s (Dn i j)) := fun s hs =>
    hT s _ ⟨Nn, Dn, hG.num, hG.den, fun i j => ⟨hs i j, rfl⟩⟩
  rcases hM with ⟨hg, D, hD, e⟩ | ⟨hg, n, A, B, C, D, hA, hB, hC, hD, hM⟩
  · have h1 : toPoly (Nn i j) = Polynomial.C (D i j) * toPoly (Dn i j) := by
      refine Polynomial.eq_of_infinite_eval_eq _ _ ((exists_defined hG.lead).mono fun s hs => ?_)
      rcases hv s hs with ⟨-, D', hD', h2⟩ | ⟨h', -⟩
      · rw [hD, Arr.of_inj] at hD'
        subst hD'
        have h3 := congrFun (congrFun h2 i) j
        have h4 := hs i j
        simp only [polyAt, Polynomial.coe_aeval_eq_eval, of_apply, id_map] at h3 h4
        simp only [Set.mem_ofPred_eq, Polynomial.eval_mul, Polynomial.eval_C, ← h3]
        field_simp
      · rw [hg] at h'; cases h'
    have h2 := lowFreq_quot (z₀ := z) (P := toPoly (Nn i j)) (Q := toPoly (Dn i j)) (P' := Polynomial.C (D i j)) (Q' := 1) (lead_ne (hG.lead i j)) (by rw [mul_one, h1]) (by simp)
    rw [e]
    simpa using h2
  · rw [id_map, id_map, id_map, id_map] at hM
    have h0 : A.charpoly.eval z ≠ 0 := by
      rw [eval_charpoly, scalar_apply, ← smul_one_eq_diagonal]
      exact hM.1
    have h1 := realization_eq (A := A) (B := B) (C' := C) (D := D) (num := fun i j => toPoly (Nn i j)) (den := fun i j => toPoly (Dn i j)) (fun i j => lead_ne (hG.lead i j))
      (fun s hs => by
        rcases hv s (fun i j => by simpa [polyAt] using hs i j) with ⟨h', -⟩ | ⟨-, n', A', B', C', D', hA', hB', hC', hD', h2⟩
        · rw [hg] at h'; cases h'
        · rw [hA] at hA'
          obtain rfl : n = n' := congrArg Arr.r hA'
          rw [Arr.of_inj] at hA'
          rw [hB, Arr.of_inj] at hB'
          rw [hC, Arr.of_inj] at hC'
          rw [hD, Arr.of_inj] at hD'
          subst hA' hB' hC' hD'
          simpa [polyAt, Matrix.map_id'] using h2) i j
    rw [isTF_entry hM i j]
    exact lowFreq_quot (lead_ne (hG.lead i j)) (by rw [h1, mul_comm]) h0

theorem mkState_a {a b c d : Arr ℝ} {dt : Option ℝ} {T : StateM ℝ} (h : mkState (some a) (some b) (some c) (some d) dt = .ok T) : T.a = a := by
  have h1 := ((mkState_ok_iff _ _ _ _ _ _).mp h).2.2
  unfold validateState at h1
  simp only [Option.isNone_some, Option.getD_some, Bool.and_self, Bool.false_eq_true, if_false] at h1
  split_ifs at h1 <;>
  · simp only [] at h1
    split_ifs at h1 <;>
    · simp only [Except.ok.injEq, Prod.mk.injEq] at h1
      exact h1.1.symm

theorem mkGain_isgain {d : Arr ℝ} {dt : Option ℝ} {T : StateM ℝ} (h : mkGain d dt = .ok T) : T.isgain = true := by
  have h1 := ((mkState_ok_iff _ _ _ _ _ _).mp h).2.2
  simp only [validateState, Option.isNone_some, Option.isNone_none, Except.ok.injEq, Prod.mk.injEq] at h1
  simp_all

/-- If the flag of a `Transfer` object says so, the converted model is stable. -/
theorem reported_stable {N : Numerics ℝ ℂ} (hN : EigExact N) (hR : RegionExact N) {num den : TArg ℝ} {dt : Option ℝ} {S : TransferObj ℝ ℂ} (hi : TransferObj.init E N num den dt = .ok S)
    (hist : List (TAssign ℝ)) (hk : TKeeps E N S hist) {Nn Dn : Matrix (Fin p) (Fin m) (List ℝ)} (hG : Normal (S.run E N hist).g p m Nn Dn) (hst : (S.run E N hist).isstable = true)
    {T : StateM ℝ} (hT : transferToState E (S.run E N hist).g = .ok T) (hdt : T.dt = (S.run E N hist).g.dt) (hc : Consistent T p m)
    (hval : ∀ (s : ℂ) (M : Matrix (Fin p) (Fin m) ℂ), HasVal (S.run E N hist).g p m s M → HasTF T p m s M) : StableModel T := by
  obtain ⟨hp, hf⟩ := C14_transfer_history_partial E N hi hist hk
  have h91 : ∀ (e : p = 1 ∧ m = 1), ∀ i j, (∀ s : ℂ, polyAt s (Dn i j) = 0 → s ∈ (S.run E N hist).poles) := by
    rintro ⟨rfl, rfl⟩ i j s hs
    obtain ⟨h1, -⟩ := C91_siso hN hi hist hk hG
    rw [Subsingleton.elim i 0, Subsingleton.elim j 0] at hs
    have h2 := congrArg (Polynomial.eval s) h1
    rw [Polynomial.eval_map_algebraMap] at h2
    rw [polyAt, h2, Polynomial.eval_mul, Polynomial.eval_C, mul_eq_zero] at hs
    rcases hs with hs | hs
    · exact absurd (by exact_mod_cast hs) (Polynomial.leadingCoeff_ne_zero.mpr (lead_ne (hG.lead 0 0)))
    · rw [Polynomial.eval_list_prod, List.prod_eq_zero_iff] at hs
      simpa [sub_eq_zero] using hs
  set R := S.run E N hist with hR'
  clear_value R
  have hreg : ∀ z ∈ R.poles, StablePoint R.g.dt z := by
    intro z hz
    have := hf.mp hst z hz
    unfold StablePoint
    split_ifs at this ⊢
    · exact (hR z).1.mp this
    · exact (hR z).2.mp this
  obtain ⟨a, b, c, D, dt', hT'⟩ | ⟨n, A, B, C, D, dt', hT'⟩ := consistent_cases hc
  · exact Or.inl (by rw [hT'])
  · refine Or.inr ⟨n, A, by rw [hT'], ?_⟩
    rw [motions_iff, hdt]
    intro z hz
    by_cases hs : p = 1 ∧ m = 1
    · by_contra hn
      have hv : ∀ i j, polyAt z (Dn i j) ≠ 0 := fun i j e => hn (hreg z (h91 hs i j z e))
      rcases hval z (Matrix.of fun i j => polyAt z (Nn i j) / polyAt z (Dn i j)) ⟨Nn, Dn, hG.num, hG.den, fun i j => ⟨hv i j, rfl⟩⟩ with ⟨h', -⟩ | ⟨-, n', A', B', C', D', hA', -, -, -, hM⟩
      · rw [hT'] at h'; cases h'
      · rw [hT'] at hA'
        obtain rfl : n = n' := congrArg Arr.r hA'
        obtain rfl := Arr.of_inj.mp hA'
        exact hM.1 hz
    · by_cases hg : R.g.isgain = true
      · exfalso
        unfold transferToState t2sData at hT
        rw [if_pos hg] at hT
        simp only [Bind.bind, Except.bind] at hT
        cases hd : gainArr R.g.num R.g.den with
        | error e => rw [hd] at hT; cases hT
        | ok d =>
          rw [hd] at hT
          have : T.isgain = true := mkGain_isgain hT
          rw [hT'] at this; cases this
      · unfold TPolesCurrent at hp
        rw [if_neg hg, if_neg (by simpa [TransferM.isSISO, hG.num] using hs)] at hp
        have hg' : ¬ ∀ i j, (Dn i j).length = 1 := fun e => hg (hG.flag.mpr e)
        have e1 : t2sTuple E (.lists R.g.num) (.lists R.g.den) = t2sData E R.g.num R.g.den R.g.isgain := by
          rw [hG.num, hG.den, t2sTuple_lists hG.pos.1 hG.pos.2 hG.lead hG.causal hg' hs]
          unfold t2sData
          rw [if_neg hg, if_neg (by simpa using hs)]
          have e : (fun i j => (Arr.of Dn).entry ((i : Fin p) : ℕ) ((j : Fin m) : ℕ)) = Dn := by
            funext i j; exact entry_of Dn i j
          exact (congrArg _ e).symm
        unfold TransferM.mimoPZ at hp
        rw [e1] at hp
        unfold transferToState at hT
        cases hr : t2sData E R.g.num R.g.den R.g.isgain with
        | error e => rw [hr] at hT; cases hT
        | ok r =>
          obtain ⟨abc, d⟩ := r
          simp only [hr, Bind.bind, Except.bind] at hT hp
          cases abc with
          | none =>
            have : T.isgain = true := mkGain_isgain hT
            rw [hT'] at this; cases this
          | some x =>
            obtain ⟨a, b, c⟩ := x
            simp only [Except.ok.injEq, Prod.mk.injEq] at hT hp
            have ha := mkState_a hT
            rw [hT'] at ha
            refine hreg z ?_
            rw [← hp.1, ← ha]
            exact (eig_mem hN).mpr hz

/-- **C93** for `Transfer` objects of any shape, after any history of accepted assignments that does not switch between continuous and discrete time, if rounding leaves the model alone:
if the object is reported stable, the step responses tend to the values of the entries at zero frequency after cancellation, the impulse responses tend to zero, and bounded inputs give
bounded outputs. Missing: coefficients below the thresholds (`C27_rounding_violated`). -/
theorem C93_reported_partial {N : Numerics ℝ ℂ} (hN : EigExact N) (hR : RegionExact N) (hbal : ∀ polys i, E.bal polys i ≠ 0) (hthr : E.lcmTol ≤ 1) (hE : BalanceOk Bn)
    {num den : TArg ℝ} {dt : Option ℝ} {S : TransferObj ℝ ℂ} (hi : TransferObj.init E N num den dt = .ok S) (hist : List (TAssign ℝ)) (hk : TKeeps E N S hist)
    {Nn Dn : Matrix (Fin p) (Fin m) (List ℝ)} (hG : Normal (S.run E N hist).g p m Nn Dn) (htol : ClearModel E.lcmTol E.remTol (S.run E N hist).g)
    (hst : (S.run E N hist).isstable = true) (hh : 0 < h) (hd : (S.run E N hist).g.dt = none ∨ (S.run E N hist).g.dt = some h) (auto : StateM ℝ → ℝ × ℝ) :
    (∃ M : Matrix (Fin p) (Fin m) ℝ, (∀ i j, LowFreqGain (zeroFreq (S.run E N hist).g.dt) (toPoly (Nn i j)) (toPoly (Dn i j)) (.fin (M i j))) ∧
      Settles (fun t => stepResponseTransfer E N Bn (S.run E N hist).g auto (some t)) h M) ∧
    Settles (fun t => impulseResponseTransfer E N Bn (S.run E N hist).g auto (some t)) h (0 : Matrix (Fin p) (Fin m) ℝ) ∧
    BoundedOutputs (fun u t => simulateTransfer E N Bn (S.run E N hist).g u (some t) none false) p m h := by
  obtain ⟨T, H, e1, e2, -, -, e3, -, e5⟩ := t2s_parts (E := E) hbal hthr htol hG
  have e4 := reported_stable hN hR hi hist hk hG hst e1 e2 e3 fun s M => e5 s M
  obtain ⟨⟨M, h1, h2⟩, h3, h4⟩ := stable_responses (Nm := N) (S := StateObj.plain T) hE e3 hG.pos.2 hh
    (by rw [show (StateObj.plain T : StateObj ℝ ℂ).g = T from rfl, e2]; exact hd) e4 (auto T)
  have h6 : HasTF T p m (zeroFreq (S.run E N hist).g.dt : ℝ) M := by rw [← e2]; exact h1
  refine ⟨⟨M, fun i j => hasTF_lowFreq hG (fun s M => e5 s M) h6 i j, ?_⟩, ?_, ?_⟩
  · simpa only [stepResponseTransfer, e1, Bind.bind, Except.bind] using h2
  · simpa only [impulseResponseTransfer, e1, Bind.bind, Except.bind] using h3
  · simpa only [simulateTransfer, e1, Bind.bind, Except.bind] using h4

/-- **C93**, step responses and `dcgain`: the step responses of a `Transfer` object that is reported stable tend to its `dcgain`. Missing: as in `C93_reported_partial`, and discrete models
for which the cancellation of factors `z - 1` in `dcgain` is not decided clearly (`C59_tiny_violated`). -/
theorem C93_dcgain_partial {N : Numerics ℝ ℂ} (hN : EigExact N) (hR : RegionExact N) (hbal : ∀ polys i, E.bal polys i ≠ 0) (hthr : E.lcmTol ≤ 1) (hE : BalanceOk Bn)
    {num den : TArg ℝ} {dt : Option ℝ} {S : TransferObj ℝ ℂ} (hi : TransferObj.init E N num den dt = .ok S) (hist : List (TAssign ℝ)) (hk : TKeeps E N S hist)
    {Nn Dn : Matrix (Fin p) (Fin m) (List ℝ)} (hG : Normal (S.run E N hist).g p m Nn Dn) (htol : ClearModel E.lcmTol E.remTol (S.run E N hist).g)
    (hst : (S.run E N hist).isstable = true) (hh : 0 < h) (hd : (S.run E N hist).g.dt = none ∨ (S.run E N hist).g.dt = some h) (auto : StateM ℝ → ℝ × ℝ) {tol : ℝ}
    (hsep : (S.run E N hist).g.dt = none ∨ 0 < tol ∧ ∀ i j, toPoly (Nn i j) = 0 ∨ Separated tol 1 (toPoly (Nn i j)) (toPoly (Dn i j))) :
    ∃ M : Matrix (Fin p) (Fin m) ℝ, (S.run E N hist).g.dcgain tol = .ok (Arr.of (M.map DcVal.fin)) ∧
      Settles (fun t => stepResponseTransfer E N Bn (S.run E N hist).g auto (some t)) h M := by
  obtain ⟨⟨M, h1, h2⟩, -⟩ := C93_reported_partial hN hR hbal hthr hE hi hist hk hG htol hst hh hd auto
  refine ⟨M, ?_, h2⟩
  obtain ⟨R, h3, h4⟩ : ∃ R : Matrix (Fin p) (Fin m) (DcVal ℝ), (S.run E N hist).g.dcgain tol = .ok (Arr.of R) ∧
      ∀ i j, LowFreqGain (zeroFreq (S.run E N hist).g.dt) (toPoly (Nn i j)) (toPoly (Dn i j)) (R i j) := by
    by_cases hdt : (S.run E N hist).g.dt = none
    · exact C59_continuous tol hG hdt
    · obtain ⟨ht, hs⟩ := hsep.resolve_left hdt
      exact C59_discrete_partial ht hG (Option.isSome_iff_ne_none.mpr hdt) hs
  rw [h3]
  congr 2
  ext i j
  exact lowFreq_unique (h4 i j) (h1 i j)

/-- The hypotheses of the theorems for `State` objects are met by `1/(s+1)`. -/
example : ∃ (N : Numerics ℝ ℂ) (S : StateObj ℝ ℂ), StateObj.init N (some (Arr.of !![-1])) (some (Arr.of !![1])) (some (Arr.of !![1])) (some (Arr.of !![0])) none = .ok S ∧
    S.isstable = true ∧ Settles (fun t => impulseResponse N plainDNum S (1, 1) (some t)) 1 (0 : Matrix (Fin 1) (Fin 1) ℝ) := by
  obtain ⟨N, -, hN, hR, -⟩ := exists_pole_numerics
  have hi := lagS_init N (-1) (dt := none) dtOk_none
  have hst := (C92_constructed hN hR hi rfl).mpr (hurwitz_iff_motions.mp (one_state_hurwitz (by norm_num)))
  have hg : (lagS N (-1) none).g = ⟨Arr.of !![-1], Arr.of !![1], Arr.of !![1], Arr.of !![0], none, false⟩ := rfl
  have hc : Consistent (lagS N (-1) none).g 1 1 := by rw [hg]; exact ⟨⟨rfl, rfl⟩, fun _ => ⟨rfl, rfl, rfl, rfl, rfl⟩⟩
  generalize lagS N (-1) none = S at hi hst hg hc
  have h := C93_state_partial (Bn := plainDNum) (h := 1) hN hR plainDNum_ok hi [] (by simp) (p := 1) (m := 1) hc le_rfl hst one_pos (Or.inl (by rw [show S.run N [] = S from rfl, hg])) (1, 1)
  exact ⟨N, S, hi, hst, h.2.1⟩

/-- The step response of `(s-2)/(s²+3s+2)` settles at `-1`, its `dcgain`. -/
example {E : TNum ℝ} (hbal : ∀ polys i, E.bal polys i ≠ 0) (hl : E.lcmTol ≤ 1) (hr : E.remTol ≤ 1) : ∃ (N : Numerics ℝ ℂ) (S : TransferObj ℝ ℂ), TransferObj.init E N (.vec [1, -2]) (.vec [1, 3, 2]) none = .ok S ∧
    S.isstable = true ∧ S.g.dcgain (1 / 10 ^ 9) = .ok (Arr.of !![.fin (-1)]) ∧
    Settles (fun t => stepResponseTransfer E N plainDNum S.g (fun _ => (1, 1)) (some t)) 1 (!![-1] : Matrix (Fin 1) (Fin 1) ℝ) := by
  obtain ⟨N, -, hN, hR, -⟩ := exists_pole_numerics
  have hmk := mkTransfer_siso_ok E (a := [1, -2]) (b := [1, 3, 2]) (dt := none) dtOk_none (by simp) (by simp) (Or.inr ⟨1, [-2], rfl, one_ne_zero⟩) (by simp)
  obtain ⟨S, hS, hSg⟩ := init_of_mk (N := N) hmk
  have hn : Normal S.g 1 1 (Matrix.of fun _ _ => [1, -2]) (Matrix.of fun _ _ => [1, 3, 2]) :=
    ⟨⟨one_pos, one_pos⟩, by rw [hSg]; rfl, by rw [hSg]; rfl, fun _ _ => Or.inr ⟨1, [-2], rfl, one_ne_zero⟩, fun _ _ => by simp, fun _ _ => by simp, by rw [hSg]; simp, by rw [hSg]; exact dtOk_none⟩
  have hdt : S.g.dt = none := by rw [hSg]
  have hst : S.isstable = true := by
    refine (C91_stable_partial (E := E) hbal hN hR hS [] trivial hn (fun h => absurd ⟨rfl, rfl⟩ h)).2 fun i j s hs => ?_
    rw [show S.run E N [] = S from rfl, hdt]
    have e : (s + 1) * (s + 2) = 0 := by
      simp [polyAt, toPoly] at hs
      linear_combination hs
    rcases mul_eq_zero.mp e with e | e
    · rw [eq_neg_of_add_eq_zero_left e]; simp [StablePoint]
    · rw [eq_neg_of_add_eq_zero_left e]; simp [StablePoint]
  obtain ⟨M, h1, h2⟩ := C93_dcgain_partial (E := E) (Bn := plainDNum) (h := 1) (tol := 1 / 10 ^ 9) hN hR hbal hl plainDNum_ok hS [] trivial hn
    (clearModel_int hl hr hn.num hn.den (fun _ _ => [1, -2]) (fun _ _ => [1, 3, 2]) (by simp) (by simp) (by simp)) hst one_pos (Or.inl hdt) (fun _ => (1, 1)) (Or.inl hdt)
  obtain ⟨R, h3, h4⟩ := C59_continuous (1 / 10 ^ 9) hn hdt
  rw [show S.run E N [] = S from rfl] at h1 h2
  rw [h3, Except.ok.injEq, Arr.of_inj] at h1
  have h0 : (toPoly ([1, 3, 2] : List ℝ)).eval (zeroFreq S.g.dt) ≠ 0 := by simp [hdt, zeroFreq, toPoly]
  have hq : toPoly ([1, 3, 2] : List ℝ) ≠ 0 := fun e => h0 (by rw [e, Polynomial.eval_zero])
  have h5 := lowFreq_quot (P := toPoly ([1, -2] : List ℝ)) (P' := toPoly ([1, -2] : List ℝ)) hq rfl h0
  have h6 := lowFreq_unique (h4 0 0) h5
  rw [h1] at h6
  have h7 : M = !![-1] := by
    ext i j
    fin_cases i; fin_cases j
    have := DcVal.fin.inj h6
    simp [this, hdt, zeroFreq, toPoly]
  rw [h7] at h2
  refine ⟨N, S, hS, hst, ?_, h2⟩
  rw [h3, h1, h7]
  congr 2
  ext i j
  fin_cases i; fin_cases j
  rfl

end Harold
