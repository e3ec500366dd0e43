import Verif.Props.TransferObj

/-!
# C65: the discretisation attributes over histories of assignments
-/

namespace Harold

open Matrix Spec

variable {K P : Type} [Field K] [LinearOrder K] (E : TNum K) (N : Numerics K P)

/-- What the attributes `DiscretizedWith`, `DiscretizationMatrix`, `PrewarpFrequency` may hold: a known method name, a `2 × 2` array,
a number. -/
def Spec.AttrOk (discWith : Option String) (discMat : Option (Arr K)) : Prop :=
  (∀ s, discWith = some s → s ∈ knownMethods) ∧ ∀ q, discMat = some q → q.shape = (2, 2)

/-- The prewarping frequency does not exceed the Nyquist frequency. -/
def Spec.BelowNyquist (dt : Option K) (w : K) : Prop := ∀ t, dt = some t → w ≤ 1 / (2 * t)

/-- **C65** for `Transfer`: over every history the method name is a known one and the interconnection is a `2 × 2` array. -/
theorem C65_transfer_names {num den : TArg K} {dt : Option K} {S : TransferObj K P} (h : TransferObj.init E N num den dt = .ok S)
    (hist : List (TAssign K)) : AttrOk (S.run E N hist).discWith (S.run E N hist).discMat := by
  have h0 : AttrOk S.discWith S.discMat := by
    unfold TransferObj.init at h
    obtain ⟨⟨n, d, g⟩, h1, h'⟩ := bind_ok' h
    clear h
    obtain ⟨dt', h2, h⟩ := bind_ok' h'
    clear h'
    obtain ⟨-, -, e3, e4, -⟩ := TransferObj.recalc_g E N (⟨⟨n, d, g, dt'⟩, (n.r, n.c), none, none, 0, [], [], false⟩ : TransferObj K P)
    revert h
    split
    · next T hT =>
      intro h
      simp only [Except.ok.injEq] at h
      subst h
      rw [hT] at e3 e4
      simp only at e3 e4
      rw [e3, e4]
      exact ⟨fun s h => (by cases h), fun s h => (by cases h)⟩
    · intro h; cases h
  clear h
  unfold TransferObj.run
  induction hist generalizing S with
  | nil => exact h0
  | cons x l ih =>
    rw [List.foldl_cons]
    refine ih ?_
    cases x with
    | num v =>
      simp only [TransferObj.assign]
      split
      · exact h0
      · split_ifs
        · exact h0
        · obtain ⟨-, -, e3, e4, -⟩ := TransferObj.recalc_g E N { S with g := { S.g with num := _ } }
          rw [e3, e4]; exact h0
    | den v =>
      simp only [TransferObj.assign]
      split
      · exact h0
      · split_ifs
        · exact h0
        · obtain ⟨-, -, e3, e4, -⟩ := TransferObj.recalc_g E N { S with g := { S.g with den := _ } }
          rw [e3, e4]; exact h0
    | samplingPeriod v =>
      cases v with
      | none => exact h0
      | some t => simp only [TransferObj.assign]; split_ifs <;> exact h0
    | discretizedWith m =>
      simp only [TransferObj.assign]
      split_ifs with h1 h2
      · exact h0
      · exact ⟨fun s hs => by simp only [Option.some.injEq] at hs; exact hs ▸ h1, h0.2⟩
      · exact h0
    | discretizationMatrix q =>
      simp only [TransferObj.assign]
      split_ifs with h1 h2
      · exact h0
      · exact ⟨h0.1, fun s hs => by simp only [Option.some.injEq] at hs; exact hs ▸ not_not.mp h2⟩
      · exact h0
    | prewarpFrequency w =>
      simp only [TransferObj.assign]
      split_ifs
      · split
        · exact h0
        · split_ifs <;> exact h0
      · exact h0

/-- **C65**: exactly which values the setters of a `Transfer` accept. -/
theorem C65_transfer_accepts (S : TransferObj K P) :
    (∀ m, (S.assign E N (.discretizedWith m)).2 = none ↔ m ∈ knownMethods ∧ S.g.dt ≠ none) ∧
    (∀ q, (S.assign E N (.discretizationMatrix q)).2 = none ↔ S.discWith = some "lft" ∧ q.shape = (2, 2)) ∧
    (∀ w, (S.assign E N (.prewarpFrequency w)).2 = none ↔
      (∃ s, S.discWith = some s ∧ s ∈ tustinNames) ∧ ∃ t, S.g.dt = some t ∧ w ≤ 1 / (2 * t)) ∧
    (∀ v, (S.assign E N (.samplingPeriod v)).2 = none ↔ DtOk v) := by
  refine ⟨fun m => ?_, fun q => ?_, fun w => ?_, fun v => ?_⟩
  · simp only [TransferObj.assign]
    split_ifs with h1 h2
    · simp [Option.isNone_iff_eq_none.mp h2]
    · simpa [h1, Option.isNone_iff_eq_none] using h2
    · simp [h1]
  · simp only [TransferObj.assign]
    split_ifs with h1 h2
    · simp [h2]
    · simpa [h1] using h2
    · simp [h1]
  · simp only [TransferObj.assign]
    have key : S.discWith.getD "" ∈ tustinNames ↔ ∃ s, S.discWith = some s ∧ s ∈ tustinNames := by
      cases S.discWith with
      | none => simp [tustinNames]
      | some s => simp
    rw [← key]
    split_ifs with h1
    · cases hd : S.g.dt with
      | none => simp
      | some t =>
        simp only
        split_ifs with h2
        · refine ⟨fun h => (by cases h), fun ⟨_, t', h3, h4⟩ => ?_⟩
          simp only [Option.some.injEq] at h3
          exact absurd (h3 ▸ h4) (not_le.mpr h2)
        · exact ⟨fun _ => ⟨h1, t, rfl, not_lt.mp h2⟩, fun _ => rfl⟩
    · simp [h1]
  · cases v with
    | none => simp [TransferObj.assign, DtOk]
    | some t =>
      simp only [TransferObj.assign]
      split_ifs with h1
      · simpa [DtOk] using h1
      · simpa [DtOk] using h1

/-- **C65**: an accepted value is stored and nothing else changes. -/
theorem C65_transfer_stored (S : TransferObj K P) :
    (∀ m, (S.assign E N (.discretizedWith m)).2 = none → (S.assign E N (.discretizedWith m)).1 = { S with discWith := some m }) ∧
    (∀ q, (S.assign E N (.discretizationMatrix q)).2 = none →
      (S.assign E N (.discretizationMatrix q)).1 = { S with discMat := some q }) ∧
    (∀ w, (S.assign E N (.prewarpFrequency w)).2 = none → (S.assign E N (.prewarpFrequency w)).1 = { S with prewarp := w }) ∧
    (∀ v, (S.assign E N (.samplingPeriod v)).2 = none → (S.assign E N (.samplingPeriod v)).1 = { S with g := { S.g with dt := v } }) := by
  refine ⟨fun m => ?_, fun q => ?_, fun w => ?_, fun v => ?_⟩
  · simp only [TransferObj.assign]; split_ifs <;> simp
  · simp only [TransferObj.assign]; split_ifs <;> simp
  · simp only [TransferObj.assign]
    split_ifs
    · cases hd : S.g.dt with
      | none => simp
      | some t => simp only; split_ifs <;> simp
    · simp
  · cases v with
    | none => simp [TransferObj.assign]
    | some t => simp only [TransferObj.assign]; split_ifs <;> simp

/-- **C65** for `State`: over every history the method name is a known one. -/
theorem C65_state_names {a b c d : Option (Arr K)} {dt : Option K} {S : StateObj K P} (h : StateObj.init N a b c d dt = .ok S)
    (hist : List (Assign K)) : ∀ s, (S.run N hist).discWith = some s → s ∈ knownMethods := by
  have h0 : ∀ s, S.discWith = some s → s ∈ knownMethods := by
    unfold StateObj.init at h
    cases hg : mkState a b c d dt with
    | error e => rw [hg] at h; cases h
    | ok g =>
      rw [hg] at h
      simp only [bind, Except.bind, Except.ok.injEq] at h
      rw [← h]
      intro s hs
      simp [StateObj.recalc] at hs
  clear h
  unfold StateObj.run
  induction hist generalizing S with
  | nil => exact h0
  | cons x l ih =>
    rw [List.foldl_cons]
    refine ih ?_
    cases x with
    | a v => simp only [StateObj.assign]; (repeat' split) <;> exact h0
    | b v => simp only [StateObj.assign]; (repeat' split) <;> exact h0
    | c v => simp only [StateObj.assign]; (repeat' split) <;> exact h0
    | d v => simp only [StateObj.assign]; (repeat' split) <;> exact h0
    | samplingPeriod v =>
      cases v with
      | none => exact h0
      | some t => simp only [StateObj.assign]; split_ifs <;> exact h0
    | discretizedWith m =>
      simp only [StateObj.assign]
      split_ifs with h1 h2
      · exact h0
      · exact fun s hs => by simp only [Option.some.injEq] at hs; exact hs ▸ h1
      · exact h0
    | discretizationMatrix q => simp only [StateObj.assign]; split_ifs <;> exact h0
    | prewarpFrequency w =>
      simp only [StateObj.assign]
      split_ifs
      · split
        · exact h0
        · split_ifs <;> exact h0
      · exact h0

/-- **C65**: exactly which values the setters of a `State` accept. -/
theorem C65_state_accepts (S : StateObj K P) :
    (∀ m, (S.assign N (.discretizedWith m)).2 = none ↔ m ∈ knownMethods ∧ S.g.dt ≠ none) ∧
    (∀ w, (S.assign N (.prewarpFrequency w)).2 = none ↔
      (∃ s, S.discWith = some s ∧ s ∈ tustinNames) ∧ ∃ t, S.g.dt = some t ∧ w ≤ 1 / (2 * t)) ∧
    (∀ v, (S.assign N (.samplingPeriod v)).2 = none ↔ DtOk v) := by
  refine ⟨fun m => ?_, fun w => ?_, fun v => ?_⟩
  · simp only [StateObj.assign]
    split_ifs with h1 h2
    · simp [Option.isNone_iff_eq_none.mp h2]
    · simpa [h1, Option.isNone_iff_eq_none] using h2
    · simp [h1]
  · simp only [StateObj.assign]
    have key : S.discWith.getD "" ∈ tustinNames ↔ ∃ s, S.discWith = some s ∧ s ∈ tustinNames := by
      cases S.discWith with
      | none => simp [tustinNames]
      | some s => simp
    rw [← key]
    split_ifs with h1
    · cases hd : S.g.dt with
      | none => simp
      | some t =>
        simp only
        split_ifs with h2
        · refine ⟨fun h => (by cases h), fun ⟨_, t', h3, h4⟩ => ?_⟩
          simp only [Option.some.injEq] at h3
          exact absurd (h3 ▸ h4) (not_le.mpr h2)
        · exact ⟨fun _ => ⟨h1, t, rfl, not_lt.mp h2⟩, fun _ => rfl⟩
    · simp [h1]
  · cases v with
    | none => simp [StateObj.assign, DtOk]
    | some t =>
      simp only [StateObj.assign]
      split_ifs with h1
      · simpa [DtOk] using h1
      · simpa [DtOk] using h1

/-- **C65** fails: a prewarping frequency accepted for one sampling period stays when the sampling period is changed, also beyond
the new Nyquist frequency. -/
theorem C65_nyquist_violated (E : TNum ℚ) :
    TransferObj.init E num1 (.vec [1]) (.vec [1, 2]) none = .ok lagTObj ∧
    ¬ BelowNyquist (lagTObj.run E num1 [.samplingPeriod (some 1), .discretizedWith "tustin", .prewarpFrequency (1 / 2),
        .samplingPeriod (some 2)]).g.dt
      (lagTObj.run E num1 [.samplingPeriod (some 1), .discretizedWith "tustin", .prewarpFrequency (1 / 2),
        .samplingPeriod (some 2)]).prewarp := by
  refine ⟨lagTObj_init E, fun h => ?_⟩
  have n1 : ¬ ((1 : ℚ) ≤ 0) := by norm_num
  have n2 : ¬ ((2 : ℚ) ≤ 0) := by norm_num
  have n3 : ¬ ((1 : ℚ) / 2 > 1 / (2 * 1)) := by norm_num
  have e : lagTObj.run E num1 [.samplingPeriod (some 1), .discretizedWith "tustin", .prewarpFrequency (1 / 2),
      .samplingPeriod (some 2)] =
      { lagTObj with g := { lagTObj.g with dt := some 2 }, discWith := some "tustin", prewarp := 1 / 2 } := by
    have m1 : "tustin" ∈ knownMethods := by simp [knownMethods]
    have m2 : "tustin" ∈ tustinNames := by simp [tustinNames]
    simp only [TransferObj.run, List.foldl_cons, List.foldl_nil, TransferObj.assign, if_neg n1, if_neg n2, if_pos m1,
      Option.isNone_some, Bool.false_eq_true, if_false, Option.getD_some, if_pos m2, if_neg n3]
  rw [e] at h
  have h1 := h 2 rfl
  norm_num at h1

/-- **C65** fails for `State`: the interconnection of a `State` may have any shape. -/
theorem C65_state_matrix_violated (S : StateObj K P) (q : Arr K) (h : S.discWith = some "lft") :
    (S.assign N (.discretizationMatrix q)).2 = none ∧ (S.assign N (.discretizationMatrix q)).1.discMat = some q := by
  simp [StateObj.assign, h]

end Harold
