import Verif.Model.SimTransfer
import Verif.Lemmas.Weights
import Verif.Props.Sim
import Verif.Props.DiscTransfer

/-!
# C84: time domain simulation of `Transfer` models
-/

namespace Harold

open Matrix Harold.Spec Filter NormedSpace

variable {P : Type} {Nm : Numerics ℝ P} {E : TNum ℝ} {B : DNum} {S : StateObj ℝ P} {G : TransferM ℝ} {n m p N : ℕ}
  {U : Matrix (Fin N) (Fin m) ℝ} {t : List ℝ} {targ : Option (List ℝ)} {h : ℝ}

/-! ## The response as a convolution -/

/-- `∑_{j ≤ i} w_(i-j) u_j`. -/
def convOut (w : ℕ → Matrix (Fin p) (Fin m) ℝ) (U : Matrix (Fin N) (Fin m) ℝ) : Matrix (Fin N) (Fin p) ℝ :=
  Matrix.of fun i => ∑ j : Fin N with j ≤ i, w ((i : ℕ) - j) *ᵥ U j

/-- The result of a simulation with the weights `w`. -/
def convResult (w : ℕ → Matrix (Fin p) (Fin m) ℝ) (U : Matrix (Fin N) (Fin m) ℝ) (pc : Bool) : SimOut :=
  if pc = true ∧ m ≠ 1 then .perChannel (List.ofFn fun k => Arr.of (convOut w (onlyChannel U k))) else .flat (Arr.of (convOut w U))

/-- The weights of the simulation of `(A, B, C, D)`. -/
noncomputable def weights (dt : Option ℝ) (t : List ℝ) (A : Matrix (Fin n) (Fin n) ℝ) (B : Matrix (Fin n) (Fin m) ℝ) (C : Matrix (Fin p) (Fin n) ℝ)
    (D : Matrix (Fin p) (Fin m) ℝ) : ℕ → Matrix (Fin p) (Fin m) ℝ :=
  match dt with
  | some _ => markov A B C D
  | none => markov (exp ((t.getD 1 0 - t.getD 0 0) • A)) (gam ((t.getD 1 0 - t.getD 0 0) • A) ((t.getD 1 0 - t.getD 0 0) • B) 0) C D

theorem output_conv {A : Matrix (Fin n) (Fin n) ℝ} {B : Matrix (Fin n) (Fin m) ℝ} {C : Matrix (Fin p) (Fin n) ℝ} {D : Matrix (Fin p) (Fin m) ℝ}
    (U : Matrix (Fin N) (Fin m) ℝ) : Matrix.of (output A B C D 0 U) = convOut (markov A B C D) U := by
  ext i j
  exact congrFun (output_markov U i) j

theorem markov_empty (A : Matrix (Fin 0) (Fin 0) ℝ) (B : Matrix (Fin 0) (Fin m) ℝ) (C : Matrix (Fin p) (Fin 0) ℝ) (D : Matrix (Fin p) (Fin m) ℝ) (k : ℕ) :
    markov A B C D k = if k = 0 then D else 0 := by
  cases k with
  | zero => rfl
  | succ k => ext i j; simp [markov, Matrix.mul_apply]

theorem weights_empty (dt : Option ℝ) (t : List ℝ) (A : Matrix (Fin 0) (Fin 0) ℝ) (B : Matrix (Fin 0) (Fin m) ℝ) (C : Matrix (Fin p) (Fin 0) ℝ)
    (D : Matrix (Fin p) (Fin m) ℝ) (k : ℕ) : weights dt t A B C D k = if k = 0 then D else 0 := by
  unfold weights
  split <;> exact markov_empty _ _ _ _ k

theorem conv_gain {w : ℕ → Matrix (Fin p) (Fin m) ℝ} {D : Matrix (Fin p) (Fin m) ℝ} (hw : ∀ k, w k = if k = 0 then D else 0)
    (U : Matrix (Fin N) (Fin m) ℝ) : convOut w U = U * Dᵀ := by
  ext i j
  show (∑ l : Fin N with l ≤ i, w ((i : ℕ) - l) *ᵥ U l) j = (U * Dᵀ) i j
  rw [mul_transpose_row, Finset.sum_eq_single i]
  · rw [Nat.sub_self, hw, if_pos rfl]
  · intro l hl hne
    have h1 : l ≤ i := (Finset.mem_filter.mp hl).2
    have h2 : (i : ℕ) - l ≠ 0 := by
      have : (l : ℕ) < i := lt_of_le_of_ne h1 (fun h => hne (Fin.ext h))
      omega
    rw [hw, if_neg h2, Matrix.zero_mulVec]
  · intro hn; simp at hn

theorem isTF_real {A : Matrix (Fin n) (Fin n) ℝ} {B : Matrix (Fin n) (Fin m) ℝ} {C : Matrix (Fin p) (Fin n) ℝ} {D : Matrix (Fin p) (Fin m) ℝ} {s : ℝ}
    {M : Matrix (Fin p) (Fin m) ℝ} : IsTF (A.map (algebraMap ℝ ℝ)) (B.map (algebraMap ℝ ℝ)) (C.map (algebraMap ℝ ℝ)) (D.map (algebraMap ℝ ℝ)) s M ↔
      (s • (1 : Matrix (Fin n) (Fin n) ℝ) - A).det ≠ 0 ∧ M = tfReal A B C D s := by
  have id_map : ∀ {a b : ℕ} (X : Matrix (Fin a) (Fin b) ℝ), X.map (algebraMap ℝ ℝ) = X := fun X => by ext; simp
  simp only [id_map]
  rfl

/-- A model with states is simulated with its weights. -/
theorem weights_dynamic {A : Matrix (Fin n) (Fin n) ℝ} {B₁ : Matrix (Fin n) (Fin m) ℝ} {C : Matrix (Fin p) (Fin n) ℝ} {D : Matrix (Fin p) (Fin m) ℝ} {dt' : Option ℝ}
    (hE : BalanceOk B) (hG' : S.g = ⟨Arr.of A, Arr.of B₁, Arr.of C, Arr.of D, dt', false⟩) (hdt : DtOk S.g.dt) (pc : Bool) (hN : 2 ≤ N) (hm : 1 ≤ m)
    (ht : timeArray S.g.dt (some (Arr.of U)) targ = .ok t) (htl : t.length = N) :
    simulate Nm B S (Arr.of U) targ none pc = .ok (convResult (weights S.g.dt t A B₁ C D) U pc, t) := by
  have hpos := timeArray_pos hdt (Arr.of U) hN ht
  obtain ⟨A', B', dt'', hmod, hw⟩ : ∃ (A' : Matrix (Fin n) (Fin n) ℝ) (B' : Matrix (Fin n) (Fin m) ℝ) (dt'' : Option ℝ),
      simModel Nm B S t = .ok ⟨Arr.of A', Arr.of B', Arr.of C, Arr.of D, dt'', false⟩ ∧ weights S.g.dt t A B₁ C D = markov A' B' C D := by
    cases dt' with
    | some d => exact ⟨A, B₁, some d, by rw [simModel, hG'], by rw [hG']; rfl⟩
    | none =>
      obtain ⟨Sd, h1, h2, -⟩ := discretize_zoh_gam (N := Nm) (pw := 0) (q := none) hE hpos hG'
      refine ⟨exp ((t.getD 1 0 - t.getD 0 0) • A), gam ((t.getD 1 0 - t.getD 0 0) • A) ((t.getD 1 0 - t.getD 0 0) • B₁) 0,
        some (t.getD 1 0 - t.getD 0 0), ?_, by rw [hG']; rfl⟩
      rw [simModel, hG']
      simp only [h1, Bind.bind, Except.bind, h2]
  unfold convResult
  rw [hw]
  split_ifs with hc
  · obtain ⟨rfl, hm1⟩ := hc
    rw [simulate_perChannel (x0 := 0) hN (by omega) (by rw [hG']) (by rw [hG']; rfl) (by rw [hG']; rfl) ht htl hmod (Or.inl ⟨rfl, rfl⟩)]
    simp only [output_conv]
  · have : pc = false ∨ m = 1 := by
      cases pc
      · exact Or.inl rfl
      · right; by_contra h; exact hc ⟨rfl, h⟩
    rw [simulate_flat (x0 := 0) hN hm (by rw [hG']) (by rw [hG']; rfl) (by rw [hG']; rfl) ht htl hmod (Or.inl ⟨rfl, rfl⟩) pc this, output_conv]

/-- Every consistent model is simulated like a quadruple with the same transfer matrix. -/
theorem weights_of (hE : BalanceOk B) (hG : Consistent S.g p m) (hdt : DtOk S.g.dt) :
    ∃ (n : ℕ) (A : Matrix (Fin n) (Fin n) ℝ) (B₁ : Matrix (Fin n) (Fin m) ℝ) (C : Matrix (Fin p) (Fin n) ℝ) (D : Matrix (Fin p) (Fin m) ℝ),
      (∀ (s : ℝ) (M : Matrix (Fin p) (Fin m) ℝ), (s • (1 : Matrix (Fin n) (Fin n) ℝ) - A).det ≠ 0 → (HasTF S.g p m s M ↔ M = tfReal A B₁ C D s)) ∧
      ∀ {N : ℕ} {U : Matrix (Fin N) (Fin m) ℝ} {targ : Option (List ℝ)} {t : List ℝ} (pc : Bool), 2 ≤ N → 1 ≤ m →
        timeArray S.g.dt (some (Arr.of U)) targ = .ok t → t.length = N →
        simulate Nm B S (Arr.of U) targ none pc = .ok (convResult (weights S.g.dt t A B₁ C D) U pc, t) := by
  obtain ⟨a, b, c, D, dt', hG'⟩ | ⟨n, A, B₁, C, D, dt', hG'⟩ := consistent_cases hG
  · refine ⟨0, 0, 0, 0, D, fun s M _ => ?_, ?_⟩
    · have e : tfReal (0 : Matrix (Fin 0) (Fin 0) ℝ) (0 : Matrix (Fin 0) (Fin m) ℝ) (0 : Matrix (Fin p) (Fin 0) ℝ) D s = D := by
        unfold tfReal; simp
      rw [e]
      constructor
      · rintro (⟨-, D', hD', rfl⟩ | ⟨h', -⟩)
        · rw [hG'] at hD'
          obtain rfl := Arr.of_inj.mp hD'
          ext; simp
        · rw [hG'] at h'; cases h'
      · rintro rfl
        exact Or.inl ⟨by rw [hG'], M, by rw [hG'], by ext; simp⟩
    · intro N U targ t pc hN hm ht htl
      have hw : ∀ k, weights S.g.dt t (0 : Matrix (Fin 0) (Fin 0) ℝ) (0 : Matrix (Fin 0) (Fin m) ℝ) (0 : Matrix (Fin p) (Fin 0) ℝ) D k = if k = 0 then D else 0 :=
        weights_empty _ _ _ _ _ _
      rw [simulate_gain hN hm hG' ht htl]
      unfold convResult
      split_ifs with hc
      · obtain ⟨rfl, hm1⟩ := hc
        rw [simGain_perChannel (by omega)]
        simp only [conv_gain hw]
        rfl
      · have : pc = false ∨ m = 1 := by
          cases pc
          · exact Or.inl rfl
          · right; by_contra h; exact hc ⟨rfl, h⟩
        rw [simGain_flat _ this, conv_gain hw]
        rfl
  · refine ⟨n, A, B₁, C, D, fun s M hs => ?_, ?_⟩
    · constructor
      · rintro (⟨h', -⟩ | ⟨-, n', A', B', C', D', hA', hB', hC', hD', hM⟩)
        · rw [hG'] at h'; cases h'
        · rw [hG'] at hA' hB' hC' hD'
          have en : n = n' := by
            have := congrArg Arr.r hA'
            simpa using this
          subst en
          obtain rfl := Arr.of_inj.mp hA'
          obtain rfl := Arr.of_inj.mp hB'
          obtain rfl := Arr.of_inj.mp hC'
          obtain rfl := Arr.of_inj.mp hD'
          exact (isTF_real.mp hM).2
      · intro hM
        exact Or.inr ⟨by rw [hG'], n, A, B₁, C, D, by rw [hG'], by rw [hG'], by rw [hG'], by rw [hG'], isTF_real.mpr ⟨hs, hM⟩⟩
    · intro N U targ t pc hN hm ht htl
      exact weights_dynamic hE hG' hdt pc hN hm ht htl

/-! ## Realizations -/

/-- **C84**, realizations: two `State` models with the same sampling period whose transfer matrices agree give the same result for every
input, every time array and both settings of `per_channel`. -/
theorem C84_realization {S' : StateObj ℝ P} (hE : BalanceOk B) (hS : Consistent S.g p m) (hS' : Consistent S'.g p m) (hdt : DtOk S.g.dt)
    (hdd : S'.g.dt = S.g.dt) (hm : 1 ≤ m) (htf : SameTF S.g S'.g p m) {pc : Bool} {r : SimOut × List ℝ}
    (h : simulate Nm B S (Arr.of U) targ none pc = .ok r) : simulate Nm B S' (Arr.of U) targ none pc = .ok r := by
  obtain ⟨y, t⟩ := r
  obtain ⟨hN, ht, htl⟩ := simulate_inv hm hS.1.2 h
  obtain ⟨n, A, B₁, C, D, h1, h2⟩ := weights_of (Nm := Nm) hE hS hdt
  obtain ⟨n', A', B', C', D', h1', h2'⟩ := weights_of (Nm := Nm) hE hS' (hdd ▸ hdt)
  have hmk : ∀ k, markov A B₁ C D k = markov A' B' C' D' k := fun k => markov_of_tf k (by
    filter_upwards [htf, eventually_det A, eventually_det A'] with s hs d d'
    exact hs _ _ ((h1 s _ d).mpr rfl) ((h1' s _ d').mpr rfl))
  have hw : weights S.g.dt t A B₁ C D = weights S.g.dt t A' B' C' D' := by
    unfold weights
    split
    · exact funext hmk
    · exact funext (markov_hold hmk _)
  rw [h2 pc hN hm ht htl] at h
  rw [h2' pc hN hm (hdd ▸ ht) htl, ← h, hdd, hw]

theorem SameTF.symm {g g' : StateM ℝ} (h : SameTF g g' p m) : SameTF g' g p m := by
  filter_upwards [h] with s hs M M' h1 h2
  exact (hs M' M h2 h1).symm

theorem C84_realization_iff {S' : StateObj ℝ P} (hE : BalanceOk B) (hS : Consistent S.g p m) (hS' : Consistent S'.g p m) (hdt : DtOk S.g.dt)
    (hdd : S'.g.dt = S.g.dt) (hm : 1 ≤ m) (htf : SameTF S.g S'.g p m) {pc : Bool} {r : SimOut × List ℝ} :
    simulate Nm B S (Arr.of U) targ none pc = .ok r ↔ simulate Nm B S' (Arr.of U) targ none pc = .ok r :=
  ⟨C84_realization hE hS hS' hdt hdd hm htf, C84_realization hE hS' hS (hdd ▸ hdt) hdd.symm hm (SameTF.symm htf)⟩

theorem eventually_hasVal {A D : Matrix (Fin p) (Fin m) (List ℝ)} (hG : Normal G p m A D) :
    ∀ᶠ s : ℝ in atTop, (∀ i j, polyAt s (D i j) ≠ 0) ∧ HasVal G p m s (Matrix.of fun i j => polyAt s (A i j) / polyAt s (D i j)) := by
  have hev : ∀ᶠ s : ℝ in atTop, ∀ i j, polyAt s (D i j) ≠ 0 := by
    rw [eventually_all]; intro i
    rw [eventually_all]; intro j
    filter_upwards [Polynomial.eventually_no_roots (toPoly (D i j)) (toPoly_ne_zero_of_head (hG.lead i j)).1] with s hs
    rwa [polyAt_real]
  filter_upwards [hev] with s hs
  exact ⟨hs, A, D, hG.num, hG.den, fun i j => ⟨hs i j, rfl⟩⟩

/-- `transfer_to_state` gives a model with the values of `G`. -/
theorem t2s_same (hbal : ∀ polys i, E.bal polys i ≠ 0) (hthr : E.lcmTol ≤ 1) (htol : ClearModel E.lcmTol E.remTol G) (hE : BalanceOk B)
    {A D : Matrix (Fin p) (Fin m) (List ℝ)} (hG : Normal G p m A D) :
    ∃ T, transferToState E G = .ok T ∧ T.dt = G.dt ∧ Consistent T p m ∧
      (∀ {g : StateM ℝ}, (∀ᶠ s : ℝ in atTop, ∀ M M' : Matrix (Fin p) (Fin m) ℝ, HasVal G p m s M → HasTF g p m s M' → M = M') → SameTF T g p m) ∧
      ∃ (n : ℕ) (A₁ : Matrix (Fin n) (Fin n) ℝ) (B₁ : Matrix (Fin n) (Fin m) ℝ) (C₁ : Matrix (Fin p) (Fin n) ℝ) (D₁ : Matrix (Fin p) (Fin m) ℝ),
        (∀ᶠ s : ℝ in atTop, ∀ i j, tfReal A₁ B₁ C₁ D₁ s i j * polyAt s (D i j) = polyAt s (A i j)) ∧
        ∀ {N : ℕ} {U : Matrix (Fin N) (Fin m) ℝ} {targ : Option (List ℝ)} {t : List ℝ} (pc : Bool), 2 ≤ N →
          timeArray G.dt (some (Arr.of U)) targ = .ok t → t.length = N →
          simulate Nm B (StateObj.plain T) (Arr.of U) targ none pc = .ok (convResult (weights G.dt t A₁ B₁ C₁ D₁) U pc, t) := by
  obtain ⟨T, H, e1, e2, -, -, e5, -, e7⟩ := t2s_parts (E := E) hbal hthr htol hG
  obtain ⟨n, A₁, B₁, C₁, D₁, h1, h2⟩ := weights_of (Nm := Nm) (S := StateObj.plain T) hE e5 (by rw [show (StateObj.plain T : StateObj ℝ P).g = T from rfl, e2]; exact hG.dt)
  have h1' : ∀ (s : ℝ) (M : Matrix (Fin p) (Fin m) ℝ), (s • (1 : Matrix (Fin n) (Fin n) ℝ) - A₁).det ≠ 0 → (HasTF T p m s M ↔ M = tfReal A₁ B₁ C₁ D₁ s) := h1
  refine ⟨T, e1, e2, e5, ?_, n, A₁, B₁, C₁, D₁, ?_, ?_⟩
  · intro g hg
    filter_upwards [hg, eventually_hasVal hG, eventually_det A₁] with s hs hv hd M M' hM hM'
    rw [← hs _ _ hv.2 hM', (h1' s M hd).mp hM, ← (h1' s _ hd).mp (e7 s _ hv.2)]
  · filter_upwards [eventually_hasVal hG, eventually_det A₁] with s hv hd i j
    rw [← (h1' s _ hd).mp (e7 s _ hv.2)]
    exact div_mul_cancel₀ _ (hv.1 i j)
  · intro N U targ t pc hN ht htl
    have h3 := h2 (U := U) (targ := targ) (t := t) pc hN hG.pos.2 (by rw [show (StateObj.plain T : StateObj ℝ P).g = T from rfl, e2]; exact ht) htl
    rw [h3, show (StateObj.plain T : StateObj ℝ P).g = T from rfl, e2]

/-- **C84**, `simulate_linear_system` of a `Transfer` model gives the result of any `State` model with the same values and sampling period.
Missing from the full claim: rounded coefficients (`ClearModel` fails, `C27_rounding_violated`). -/
theorem C84_transfer_partial (hbal : ∀ polys i, E.bal polys i ≠ 0) (hthr : E.lcmTol ≤ 1) (htol : ClearModel E.lcmTol E.remTol G) (hE : BalanceOk B)
    {A D : Matrix (Fin p) (Fin m) (List ℝ)} (hG : Normal G p m A D) (hS : Consistent S.g p m) (hdd : S.g.dt = G.dt)
    (hval : ∀ᶠ s : ℝ in atTop, ∀ M M' : Matrix (Fin p) (Fin m) ℝ, HasVal G p m s M → HasTF S.g p m s M' → M = M')
    {pc : Bool} {r : SimOut × List ℝ} :
    simulateTransfer E Nm B G (Arr.of U) targ none pc = .ok r ↔ simulate Nm B S (Arr.of U) targ none pc = .ok r := by
  obtain ⟨T, e1, e2, e3, e4, -⟩ := t2s_same (Nm := Nm) (B := B) hbal hthr htol hE hG
  simp only [simulateTransfer, e1, Bind.bind, Except.bind]
  exact C84_realization_iff (S := StateObj.plain T) hE e3 hS (by rw [show (StateObj.plain T : StateObj ℝ P).g = T from rfl, e2]; exact hG.dt)
    (hdd.trans e2.symm) hG.pos.2 (e4 hval)

/-- **C84**, step and impulse responses of a `Transfer` model on a given time array are those of any `State` model with the same values and
sampling period. Missing: rounded coefficients (`ClearModel` fails); the automatic time grid. -/
theorem C84_responses_partial (hbal : ∀ polys i, E.bal polys i ≠ 0) (hthr : E.lcmTol ≤ 1) (htol : ClearModel E.lcmTol E.remTol G) (hE : BalanceOk B)
    {A D : Matrix (Fin p) (Fin m) (List ℝ)} (hG : Normal G p m A D) (hS : Consistent S.g p m) (hdd : S.g.dt = G.dt)
    (hval : ∀ᶠ s : ℝ in atTop, ∀ M M' : Matrix (Fin p) (Fin m) ℝ, HasVal G p m s M → HasTF S.g p m s M' → M = M')
    {auto : StateM ℝ → ℝ × ℝ} {auto' : ℝ × ℝ} {r : SimOut × List ℝ} :
    (stepResponseTransfer E Nm B G auto (some t) = .ok r ↔ stepResponse Nm B S auto' (some t) = .ok r) ∧
    (impulseResponseTransfer E Nm B G auto (some t) = .ok r ↔ impulseResponse Nm B S auto' (some t) = .ok r) := by
  obtain ⟨T, e1, e2, e3, e4, -⟩ := t2s_same (Nm := Nm) (B := B) hbal hthr htol hE hG
  have key : ∀ {N : ℕ} {U : Matrix (Fin N) (Fin m) ℝ} {targ : Option (List ℝ)},
      simulate Nm B (StateObj.plain T) (Arr.of U) targ none true = .ok r ↔ simulate Nm B S (Arr.of U) targ none true = .ok r :=
    C84_realization_iff (S := StateObj.plain T) hE e3 hS (by rw [show (StateObj.plain T : StateObj ℝ P).g = T from rfl, e2]; exact hG.dt)
    (hdd.trans e2.symm) hG.pos.2 (e4 hval)
  have hm : (StateObj.plain T : StateObj ℝ P).g.m = m := e3.1.2
  have hm' : S.g.m = m := hS.1.2
  constructor
  · simp only [stepResponseTransfer, stepResponse, e1, Bind.bind, Except.bind, responseGrid, hm, hm']
    cases checkCustomTime t with
    | error e => simp
    | ok v => exact key
  · simp only [impulseResponseTransfer, impulseResponse, e1, Bind.bind, Except.bind, responseGrid, hm, hm']
    cases checkCustomTime t with
    | error e => simp
    | ok v => exact key

/-- **C84**: initial conditions are rejected with `ValueError`, whatever the model and the other arguments. -/
theorem C84_x0 (u : Arr ℝ) (v : List ℝ) (pc : Bool) : simulateTransfer E Nm B G u targ (some v) pc = .error .value := rfl

/-! ## Discrete models: the difference equation -/

theorem convOut_apply (w : ℕ → Matrix (Fin p) (Fin m) ℝ) (U : Matrix (Fin N) (Fin m) ℝ) (k : Fin N) (i : Fin p) :
    convOut w U k i = ∑ j, ∑ l ∈ Finset.range ((k : ℕ) + 1), w l i j * sampleSeq U j (k - l) := by
  have h1 : convOut w U k i = ∑ l ∈ Finset.range ((k : ℕ) + 1), ∑ j, w ((k : ℕ) - l) i j * sampleSeq U j l := by
    show (∑ l : Fin N with l ≤ k, w ((k : ℕ) - l) *ᵥ U l) i = _
    rw [Finset.sum_apply]
    refine Finset.sum_bij' (fun l _ => (l : ℕ)) (fun l hl => ⟨l, ?_⟩) ?_ ?_ ?_ ?_ ?_
    · have := Finset.mem_range.mp hl; omega
    · intro l hl
      have : l ≤ k := (Finset.mem_filter.mp hl).2
      have : (l : ℕ) ≤ k := this
      exact Finset.mem_range.mpr (by omega)
    · intro l hl
      have := Finset.mem_range.mp hl
      refine Finset.mem_filter.mpr ⟨Finset.mem_univ _, ?_⟩
      rw [Fin.le_def]
      show l ≤ (k : ℕ)
      omega
    · intro l hl; rfl
    · intro l hl; rfl
    · intro l hl
      simp [Matrix.mulVec, dotProduct, sampleSeq]
  rw [h1, ← Finset.sum_range_reflect, Finset.sum_comm]
  refine Finset.sum_congr rfl fun j _ => Finset.sum_congr rfl fun l hl => ?_
  have := Finset.mem_range.mp hl
  have e1 : (k : ℕ) + 1 - 1 - l = k - l := by omega
  have e2 : (k : ℕ) - (k - l) = l := by omega
  rw [e1, e2]

theorem sampleSeq_onlyChannel (U : Matrix (Fin N) (Fin m) ℝ) (j j' : Fin m) (k : ℕ) :
    sampleSeq (onlyChannel U j) j' k = if j' = j then sampleSeq U j' k else 0 := by
  unfold sampleSeq
  split_ifs <;> simp_all [onlyChannel]

theorem polyAt_pad (s : ℝ) {num den : List ℝ} : polyAt s (padNum num den) = polyAt s num := by
  simp [polyAt, padNum, toPoly_append, toPoly_replicate_zero]

/-- **C84**, discrete models: the output is the sum over the inputs of the solutions of the difference equations of the entries,
`a_0 y_k + a_1 y_(k-1) + ... = b_0 u_k + b_1 u_(k-1) + ...` with zero initial conditions, at the times `k dt` or those of a given admissible
time array; with `per_channel` the solutions are returned separately. Missing from the full claim: rounded coefficients (`ClearModel` fails, `C27_rounding_violated`), and
inputs of a single sample are rejected (`C39_single_sample_violated`). -/
theorem C84_difference_partial (hbal : ∀ polys i, E.bal polys i ≠ 0) (hthr : E.lcmTol ≤ 1) (htol : ClearModel E.lcmTol E.remTol G) (hE : BalanceOk B)
    {A D : Matrix (Fin p) (Fin m) (List ℝ)} (hG : Normal G p m A D) (hd : G.dt = some h) (hN : 2 ≤ N)
    (ht : (targ = none ∧ t = (List.range N).map fun k : ℕ => (k : ℝ) * h) ∨ (targ = some t ∧ GridOk t ∧ PeriodOk (some h) t ∧ t.length = N)) :
    ∃ w : Fin p → Fin m → ℕ → ℝ, (∀ i j, DiffEq (A i j) (D i j) (sampleSeq U j) (w i j)) ∧
      simulateTransfer E Nm B G (Arr.of U) targ none false = .ok (.flat (Arr.of (Matrix.of fun (k : Fin N) i => ∑ j, w i j k)), t) ∧
      (2 ≤ m → simulateTransfer E Nm B G (Arr.of U) targ none true
        = .ok (.perChannel (List.ofFn fun j => Arr.of (Matrix.of fun (k : Fin N) i => w i j k)), t)) := by
  obtain ⟨T, e1, e2, e3, -, n, A₁, B₁, C₁, D₁, h1, h2⟩ := t2s_same (Nm := Nm) (B := B) hbal hthr htol hE hG
  have hta : timeArray G.dt (some (Arr.of U)) targ = .ok t ∧ t.length = N := by
    rw [hd]
    rcases ht with ⟨rfl, rfl⟩ | ⟨rfl, h3, h4, h5⟩
    · exact ⟨timeArray_none U, by simp⟩
    · exact ⟨by unfold timeArray; exact checkT_ok h3 h4, h5⟩
  have hw : weights G.dt t A₁ B₁ C₁ D₁ = markov A₁ B₁ C₁ D₁ := by rw [hd]; rfl
  refine ⟨fun i j k => ∑ l ∈ Finset.range (k + 1), markov A₁ B₁ C₁ D₁ l i j * sampleSeq U j (k - l), fun i j => ?_, ?_, fun hm => ?_⟩
  · obtain ⟨l, hl⟩ : ∃ l, (D i j).length = l + 1 := by
      have := hG.lead i j
      cases hD : D i j with
      | nil => rw [hD] at this; simp at this
      | cons a b => exact ⟨_, rfl⟩
    have hpl : (padNum (A i j) (D i j)).length = l + 1 := by
      have := hG.causal i j
      simp [padNum]; omega
    have hz : ∀ (q : List ℝ) i, q.length = l + 1 → l < i → q.getD i 0 = 0 := fun q i hq hi => List.getD_eq_default _ _ (by omega)
    refine fun k => conv_assoc (h := fun r => markov A₁ B₁ C₁ D₁ r i j) (fun _ => rfl) (fun k => ?_) k
    refine markov_recursion (l := l) (fun r hr => hz _ r hl hr) i j k (fun r hr => hz _ r hpl hr) ?_
    filter_upwards [h1] with s hs
    have := hs i j
    rwa [← polyAt_pad (num := A i j) (den := D i j), polyAt_decr, polyAt_decr, hl, hpl] at this
  · simp only [simulateTransfer, e1, Bind.bind, Except.bind]
    rw [h2 false hN hta.1 hta.2, hw]
    unfold convResult
    rw [if_neg (by simp)]
    congr 5
    ext k i
    exact convOut_apply _ U k i
  · simp only [simulateTransfer, e1, Bind.bind, Except.bind]
    rw [h2 true hN hta.1 hta.2, hw]
    unfold convResult
    rw [if_pos ⟨rfl, by omega⟩]
    congr 5
    funext j
    congr 1
    ext k i
    rw [convOut_apply, Finset.sum_eq_single j]
    · simp [sampleSeq_onlyChannel]
    · intro j' _ hj
      simp [sampleSeq_onlyChannel, hj]
    · simp

/-- **C84**: the difference equation determines the response. -/
theorem C84_unique {num den : List ℝ} (hd : den.getD 0 0 ≠ 0) {u y y' : ℕ → ℝ} (h : DiffEq num den u y) (h' : DiffEq num den u y') : y = y' := by
  funext k
  induction k using Nat.strong_induction_on with
  | _ k ih =>
    have e := (h k).trans (h' k).symm
    rw [Finset.sum_range_succ', Finset.sum_range_succ'] at e
    have e2 : ∑ l ∈ Finset.range k, den.getD (l + 1) 0 * y (k - (l + 1)) = ∑ l ∈ Finset.range k, den.getD (l + 1) 0 * y' (k - (l + 1)) :=
      Finset.sum_congr rfl fun l hl => by
        have := Finset.mem_range.mp hl
        rw [ih _ (by omega)]
    rw [e2] at e
    exact mul_left_cancel₀ hd (add_left_cancel e)

/-- **C84**, continuous models: the output at the times `t0 + k h` is that of the solution of the state equations of any realization of `G`
that starts at rest, for the input held between the samples. Missing from the full claim: rounded coefficients (`ClearModel` fails, `C27_rounding_violated`). -/
theorem C84_continuous_partial (hbal : ∀ polys i, E.bal polys i ≠ 0) (hthr : E.lcmTol ≤ 1) (htol : ClearModel E.lcmTol E.remTol G) (hE : BalanceOk B)
    {Nu De : Matrix (Fin p) (Fin m) (List ℝ)} (hG : Normal G p m Nu De) (hd : G.dt = none) (hN : 2 ≤ N)
    {A : Matrix (Fin n) (Fin n) ℝ} {B₁ : Matrix (Fin n) (Fin m) ℝ} {C : Matrix (Fin p) (Fin n) ℝ} {D : Matrix (Fin p) (Fin m) ℝ}
    (hval : ∀ᶠ s : ℝ in atTop, ∀ M M' : Matrix (Fin p) (Fin m) ℝ, HasVal G p m s M → IsTF A B₁ C D s M' → M = M') {t0 : ℝ} (hh : 0 < h)
    {u : ℝ → Fin m → ℝ} {x : ℝ → Fin n → ℝ} (hx : IsSolution A B₁ u x t0 (t0 + (N - 1) * h))
    (hu : ∀ i : Fin N, ∀ τ ∈ Set.Ico (t0 + i * h) (t0 + (i + 1) * h), u τ = U i) (hx0 : x t0 = 0) :
    simulateTransfer E Nm B G (Arr.of U) (some (eqGrid N t0 h)) none false
      = .ok (.flat (Arr.of (Matrix.of fun i : Fin N => C *ᵥ x (t0 + i * h) + D *ᵥ U i)), eqGrid N t0 h) := by
  let S : StateObj ℝ P := StateObj.plain ⟨Arr.of A, Arr.of B₁, Arr.of C, Arr.of D, none, false⟩
  have hS : Consistent S.g p m := ⟨⟨rfl, rfl⟩, fun _ => ⟨rfl, rfl, rfl, rfl, rfl⟩⟩
  refine (C84_transfer_partial (S := S) hbal hthr htol hE hG hS hd.symm ?_).mpr
    (C41_continuous (S := S) hE hN hG.pos.2 rfl hh hx hu (Or.inl ⟨rfl, hx0⟩))
  filter_upwards [hval] with s hs M M' hM hM'
  refine hs M M' hM ?_
  rcases hM' with ⟨h', -⟩ | ⟨-, n', A', B', C', D', hA', hB', hC', hD', hM⟩
  · cases h'
  · have en : n = n' := congrArg Arr.r hA'
    subst en
    obtain rfl := Arr.of_inj.mp hA'
    obtain rfl := Arr.of_inj.mp hB'
    obtain rfl := Arr.of_inj.mp hC'
    obtain rfl := Arr.of_inj.mp hD'
    exact isTF_real.mp hM

/-! ## Non-vacuity -/

theorem lagDisc_normal : Normal lagDisc 1 1 (Matrix.of fun _ _ => [1]) (Matrix.of fun _ _ => [1, 1]) :=
  { lagTfR_normal with
    dt := fun t ht => by
      obtain rfl := Option.some.inj ht
      exact one_pos }

/-- The response of `1/(z+1)` to `1, 0, 0` is `0, 1, -1`. -/
example : simulateTransfer ⟨fun _ _ => 1, 1 / 10 ^ 9, 1 / 10 ^ 14⟩ Nm plainDNum lagDisc (Arr.of !![1; 0; 0]) none none false
    = .ok (.flat (Arr.of !![0; 1; -1]), [0, 1, 2]) := by
  obtain ⟨w, h1, h2, -⟩ := C84_difference_partial (E := ⟨fun _ _ => 1, 1 / 10 ^ 9, 1 / 10 ^ 14⟩) (Nm := Nm) (B := plainDNum) (U := (!![1; 0; 0] : Matrix (Fin 3) (Fin 1) ℝ))
    (fun _ _ => one_ne_zero) (by norm_num) (clearModel_int (by norm_num) (by norm_num) lagDisc_normal.num lagDisc_normal.den (fun _ _ => [1]) (fun _ _ => [1, 1])
      (by simp) (by simp) (by simp)) plainDNum_ok lagDisc_normal rfl (by norm_num) (.inl ⟨rfl, rfl⟩)
  have d := h1 0 0
  have d0 := d 0
  have d1 := d 1
  have d2 := d 2
  simp [DiffEq, padNum, Finset.sum_range_succ, sampleSeq] at d0 d1 d2
  have w0 : w 0 0 0 = 0 := by linarith
  have w1 : w 0 0 1 = 1 := by linarith
  have w2 : w 0 0 2 = -1 := by linarith
  rw [h2]
  congr 3
  · congr 1
    ext k i
    fin_cases i
    fin_cases k <;> simp [w0, w1, w2]
  · simp [List.range_succ]

/-- `1/(s+1)` and the lag with states scaled by two have the same values. -/
example : ∀ᶠ s : ℝ in atTop, ∀ M M' : Matrix (Fin 1) (Fin 1) ℝ, HasVal lagTfR 1 1 s M →
    IsTF (!![-1] : Matrix (Fin 1) (Fin 1) ℝ) !![2] !![1 / 2] !![0] s M' → M = M' := by
  filter_upwards [eventually_gt_atTop 0] with s hs M M' hM hM'
  have h1 := lagTfR_val s (by linarith)
  obtain ⟨N, D, e1, e2, e3⟩ := hM
  obtain ⟨N', D', f1, f2, f3⟩ := h1
  obtain rfl := Arr.of_inj.mp (e1.symm.trans f1)
  obtain rfl := Arr.of_inj.mp (e2.symm.trans f2)
  have hMM : M = !![1 / (s + 1)] := by
    ext i j
    rw [(e3 i j).2, (f3 i j).2]
  rw [hMM, hM'.2]
  ext i j
  fin_cases i; fin_cases j
  have hinv : (s • (1 : Matrix (Fin 1) (Fin 1) ℝ) - !![-1])⁻¹ = !![1 / (s + 1)] := by
    apply Matrix.inv_eq_left_inv
    ext i j
    fin_cases i; fin_cases j
    simp [Matrix.mul_apply]
    field_simp
  rw [hinv]
  simp [Matrix.mul_apply]
  ring

/-- Two different `State` models with the transfer function `1/(z+1)`: their simulations agree. -/
example : SameTF (⟨Arr.of !![-1], Arr.of !![1], Arr.of !![1], Arr.of !![0], some 1, false⟩ : StateM ℝ)
    ⟨Arr.of !![-1], Arr.of !![2], Arr.of !![1 / 2], Arr.of !![0], some 1, false⟩ 1 1 := by
  refine Eventually.of_forall fun s M M' h1 h2 => ?_
  rcases h1 with ⟨h', -⟩ | ⟨-, n, A, B, C, D, a1, a2, a3, a4, -, h1⟩
  · cases h'
  rcases h2 with ⟨h', -⟩ | ⟨-, n', A', B', C', D', b1, b2, b3, b4, -, h2⟩
  · cases h'
  have en : 1 = n := congrArg Arr.r a1
  have en' : 1 = n' := congrArg Arr.r b1
  subst en en'
  obtain rfl := Arr.of_inj.mp a1
  obtain rfl := Arr.of_inj.mp a2
  obtain rfl := Arr.of_inj.mp a3
  obtain rfl := Arr.of_inj.mp a4
  obtain rfl := Arr.of_inj.mp b1
  obtain rfl := Arr.of_inj.mp b2
  obtain rfl := Arr.of_inj.mp b3
  obtain rfl := Arr.of_inj.mp b4
  rw [h1, h2]
  ext i j
  fin_cases i; fin_cases j
  simp [Matrix.mul_apply]
  ring

end Harold
