import Verif.Model.Repr
import Verif.Props.StateObj
import Std.Data.String.ToNat

/-!
# C134: the printed form of a model

Only the alphabet of the fixed-point format is assumed (`FixedOk`), nothing about `tabulate`.
-/

namespace Harold

open Harold.Spec

/-- `'{:.3f}'.format(x)` consists of digits, a decimal point and possibly a sign. -/
def FixedOk {K P : Type} (W : Printing K P) : Prop := ∀ x, ∀ c ∈ (W.fixed3 x).toList, c.isDigit = true ∨ c = '.' ∨ c = '-'

/-! ## Reading texts -/

/-- A text that starts with a word over an alphabet, followed by a character outside of it, determines the word. -/
theorem word_eq {q : Char → Prop} {a b : List Char} {x y : Char} {r s : List Char} (ha : ∀ c ∈ a, q c) (hb : ∀ c ∈ b, q c) (hx : ¬ q x) (hy : ¬ q y)
    (h : a ++ x :: r = b ++ y :: s) : a = b ∧ x = y ∧ r = s := by
  induction a generalizing b with
  | nil =>
    cases b with
    | nil => simpa using h
    | cons c b =>
      simp only [List.nil_append, List.cons_append, List.cons.injEq] at h
      exact absurd (h.1 ▸ hb c (by simp)) hx
  | cons c a ih =>
    cases b with
    | nil =>
      simp only [List.nil_append, List.cons_append, List.cons.injEq] at h
      exact absurd (h.1 ▸ ha c (by simp)) hy
    | cons c' b =>
      simp only [List.cons_append, List.cons.injEq] at h
      obtain ⟨h1, h2, h3⟩ := ih (fun c hc => ha c (by simp [hc])) (fun c hc => hb c (by simp [hc])) h.2
      exact ⟨by rw [h.1, h1], h2, h3⟩

theorem digits_all (n : ℕ) : ∀ c ∈ (toString n).toList, c.isDigit = true := by
  intro c hc
  have e : (toString n).toList = Nat.toDigits 10 n := by
    change (Nat.repr n).toList = _
    simp [Nat.repr]
  rw [e] at hc
  exact Nat.isDigit_of_mem_toDigits (by decide) (by decide) hc

theorem digits_ne (n : ℕ) : (toString n).toList ≠ [] := by
  change (Nat.repr n).toList ≠ []
  simp [Nat.repr]

/-- A number followed by a character that is not a digit. -/
theorem number_eq {a b : ℕ} {x y : Char} {r s : List Char} (hx : x.isDigit = false) (hy : y.isDigit = false)
    (h : (toString a).toList ++ x :: r = (toString b).toList ++ y :: s) : a = b ∧ x = y ∧ r = s := by
  obtain ⟨h1, h2⟩ := word_eq (q := fun c => c.isDigit = true) (digits_all a) (digits_all b) (by simp [hx]) (by simp [hy]) h
  exact ⟨Nat.repr_injective (String.ext h1), h2⟩

/-- The text of a number does not start with a line feed. -/
theorem number_ne_nl {a : ℕ} {r s : List Char} : (toString a).toList ++ r ≠ '\n' :: s := by
  intro h
  cases hd : (toString a).toList with
  | nil => exact digits_ne a hd
  | cons c l =>
    rw [hd] at h
    simp only [List.cons_append, List.cons.injEq] at h
    have := digits_all a c (by rw [hd]; exact List.mem_cons_self)
    rw [h.1] at this
    exact absurd this (by decide)

variable {K P : Type} [Field K] [LinearOrder K] {W : Printing K P}

/-- The two numbers of a discrete header and the text after it. -/
theorem fixed_pair_eq (hW : FixedOk W) {t t' : K} {r s : List Char}
    (h : (W.fixed3 t).toList ++ (" (".toList ++ ((W.fixed3 (1 / t)).toList ++ (" Hz.)\n".toList ++ r))) =
      (W.fixed3 t').toList ++ (" (".toList ++ ((W.fixed3 (1 / t')).toList ++ (" Hz.)\n".toList ++ s)))) :
    W.fixed3 t = W.fixed3 t' ∧ W.fixed3 (1 / t) = W.fixed3 (1 / t') ∧ r = s := by
  have e1 : " (".toList = [' ', '('] := rfl
  have e2 : " Hz.)\n".toList = [' ', 'H', 'z', '.', ')', '\n'] := rfl
  rw [e1, e2] at h
  simp only [List.cons_append, List.nil_append] at h
  have q0 : ¬ (' '.isDigit = true ∨ ' ' = '.' ∨ ' ' = '-') := by decide
  obtain ⟨h1, -, h2⟩ := word_eq (q := fun c => c.isDigit = true ∨ c = '.' ∨ c = '-') (hW t) (hW t') q0 q0 h
  simp only [List.cons.injEq, true_and] at h2
  obtain ⟨h3, -, h4⟩ := word_eq (q := fun c => c.isDigit = true ∨ c = '.' ∨ c = '-') (hW _) (hW _) q0 q0 h2
  simp only [List.cons.injEq, true_and] at h4
  exact ⟨String.ext h1, String.ext h3, h4⟩

/-- The line of a static gain. -/
theorem gainLine_eq {p m p' m' : ℕ} {r s : List Char} (h : (gainLine p m).toList ++ r = (gainLine p' m').toList ++ s) : p = p' ∧ m = m' := by
  have e : ∀ p m : ℕ, (gainLine p m).toList = '\n' :: ((toString p).toList ++ ('x' :: ((toString m).toList ++ " Static Gain\n".toList))) := by
    intro p m
    simp only [gainLine, String.toList_append]
    rw [show "\n".toList = ['\n'] from rfl, show "x".toList = ['x'] from rfl]
    simp
  rw [e, e] at h
  simp only [List.cons_append, List.append_assoc, List.cons.injEq, true_and] at h
  obtain ⟨h1, -, h2⟩ := number_eq (by decide) (by decide) h
  have e2 : " Static Gain\n".toList = ' ' :: "Static Gain\n".toList := rfl
  rw [e2] at h2
  obtain ⟨h3, -, -⟩ := number_eq (by decide) (by decide) h2
  exact ⟨h1, h3⟩

/-- The sizes in the text of a dynamic `State` model. -/
theorem stateLine_eq {n m p n' m' p' : ℕ} {r s : List Char}
    (h : (toString n ++ " state" ++ plural n ++ ", " ++ toString m ++ " input" ++ plural m ++ ", and " ++ toString p ++ " output" ++ plural p).toList ++ ('\n' :: r) =
      (toString n' ++ " state" ++ plural n' ++ ", " ++ toString m' ++ " input" ++ plural m' ++ ", and " ++ toString p' ++ " output" ++ plural p').toList ++ ('\n' :: s)) :
    n = n' ∧ m = m' ∧ p = p' := by
  simp only [String.toList_append, List.append_assoc] at h
  rw [show " state".toList = ' ' :: "state".toList from rfl, show " input".toList = ' ' :: "input".toList from rfl, show " output".toList = ' ' :: "output".toList from rfl] at h
  simp only [List.cons_append] at h
  obtain ⟨rfl, -, h⟩ := number_eq (by decide) (by decide) h
  obtain ⟨rfl, -, h⟩ := number_eq (by decide) (by decide) (List.append_cancel_left (List.append_cancel_left (List.append_cancel_left h)))
  obtain ⟨rfl, -, h⟩ := number_eq (by decide) (by decide) (List.append_cancel_left (List.append_cancel_left (List.append_cancel_left h)))
  exact ⟨rfl, rfl, rfl⟩

/-- The sizes in the text of a dynamic `Transfer` model. -/
theorem transferLine_eq {m p m' p' : ℕ} {r s : List Char}
    (h : (" " ++ toString m ++ " input" ++ plural m ++ " and " ++ toString p ++ " output" ++ plural p ++ "\n").toList ++ r =
      (" " ++ toString m' ++ " input" ++ plural m' ++ " and " ++ toString p' ++ " output" ++ plural p' ++ "\n").toList ++ s) : m = m' ∧ p = p' := by
  simp only [String.toList_append, List.append_assoc] at h
  rw [show " input".toList = ' ' :: "input".toList from rfl, show " output".toList = ' ' :: "output".toList from rfl] at h
  simp only [List.cons_append] at h
  obtain ⟨rfl, -, h⟩ := number_eq (by decide) (by decide) (List.append_cancel_left h)
  obtain ⟨rfl, -, h⟩ := number_eq (by decide) (by decide) (List.append_cancel_left (List.append_cancel_left (List.append_cancel_left h)))
  exact ⟨rfl, rfl⟩

/-! ## Printing always works -/

theorem run_dtOk (N : Numerics K P) {a b c d : Option (Arr K)} {dt : Option K} {S : StateObj K P} (h : StateObj.init N a b c d dt = .ok S) (hist : List (Assign K)) : DtOk (S.run N hist).g.dt := by
  have h0 : DtOk S.g.dt := by
    unfold StateObj.init at h
    cases hg : mkState a b c d dt with
    | error e => rw [hg] at h; cases h
    | ok g =>
      rw [hg] at h
      injection h with h
      unfold mkState at hg
      obtain ⟨r, h1, h2⟩ := bind_ok hg
      obtain ⟨t, h3, h4⟩ := bind_ok h2
      obtain ⟨h5, h6⟩ := checkDt_ok_iff.mp h3
      injection h4 with h4
      rw [← h, ← h4]
      simpa [StateObj.recalc, h6] using h5
  have key : ∀ (l : List (Assign K)) (S : StateObj K P), DtOk S.g.dt → DtOk (l.foldl (fun S x => (S.assign N x).1) S).g.dt := by
    intro l
    induction l with
    | nil => exact fun S h => h
    | cons x l ih => exact fun S h => ih _ (assign_dt N h x)
  exact key _ _ h0

theorem recalc_dt (E : TNum K) (N : Numerics K P) (S : TransferObj K P) : (S.recalc E N).1.g.dt = S.g.dt := by
  unfold TransferObj.recalc
  split_ifs
  · rfl
  · split
    · rfl
    · rfl
    · simp only
      split_ifs
      · rfl
      · split <;> rfl
  · split <;> rfl

theorem transfer_run_dtOk (E : TNum K) (N : Numerics K P) {num den : TArg K} {dt : Option K} {S : TransferObj K P} (h : TransferObj.init E N num den dt = .ok S) (hist : List (TAssign K)) :
    DtOk (S.run E N hist).g.dt := by
  have h0 : DtOk S.g.dt := by
    unfold TransferObj.init at h
    obtain ⟨⟨n, d, g⟩, h1, h2⟩ := bind_ok h
    obtain ⟨t, h3, h4⟩ := bind_ok h2
    obtain ⟨h5, h6⟩ := checkDt_ok_iff.mp h3
    have e := recalc_dt E N ⟨⟨n, d, g, t⟩, (n.r, n.c), none, none, 0, [], [], false⟩
    split at h4
    · rename_i S' hS'
      injection h4 with h4
      rw [hS'] at e
      simp only at e
      rw [← h4, e, h6]
      exact h5
    · cases h4
  have step : ∀ (S : TransferObj K P) (x : TAssign K), DtOk S.g.dt → DtOk (S.assign E N x).1.g.dt := by
    intro S x hS
    cases x with
    | num v =>
      simp only [TransferObj.assign]
      split
      · exact hS
      · split_ifs
        · exact hS
        · rw [recalc_dt]; exact hS
    | den v =>
      simp only [TransferObj.assign]
      split
      · exact hS
      · split_ifs
        · exact hS
        · rw [recalc_dt]; exact hS
    | samplingPeriod v =>
      cases v with
      | none => exact fun t ht => by simp [TransferObj.assign] at ht
      | some t =>
        simp only [TransferObj.assign]
        split_ifs with h
        · exact hS
        · intro t' ht'
          cases ht'
          exact not_le.mp h
    | discretizedWith v => simp only [TransferObj.assign]; split_ifs <;> exact hS
    | discretizationMatrix v => simp only [TransferObj.assign]; split_ifs <;> exact hS
    | prewarpFrequency v =>
      simp only [TransferObj.assign]
      split_ifs
      · split
        · exact hS
        · split_ifs <;> exact hS
      · exact hS
  have key : ∀ (l : List (TAssign K)) (S : TransferObj K P), DtOk S.g.dt → DtOk (l.foldl (fun S x => (S.assign E N x).1) S).g.dt := by
    intro l
    induction l with
    | nil => exact fun S h => h
    | cons x l ih => exact fun S h => ih _ (step S x h)
  exact key _ _ h0

/-- The first lines of the text of a `State` model. -/
theorem state_repr_ok {S : StateObj K P} (h : DtOk S.g.dt) : ∃ t, S.repr W = .ok t := by
  unfold StateObj.repr
  cases hd : S.g.dt with
  | none => cases S.g.isgain <;> simp [bind, Except.bind]
  | some t => cases S.g.isgain <;> simp [bind, Except.bind, discreteHeader, (h t hd).ne']

theorem transfer_repr_ok {S : TransferObj K P} (h : DtOk S.g.dt) : ∃ t, S.repr W = .ok t := by
  unfold TransferObj.repr
  cases hd : S.g.dt with
  | none => cases S.g.isgain <;> simp [bind, Except.bind]
  | some t => cases S.g.isgain <;> simp [bind, Except.bind, discreteHeader, (h t hd).ne']

/-- **C134** Printing never fails: a model that was constructed and then changed by any history of assignments,
accepted or rejected, can be printed. (The text divides by the sampling period.) -/
theorem C134_defined (E : TNum K) (N : Numerics K P) :
    (∀ (a b c d : Option (Arr K)) (dt : Option K) (S : StateObj K P), StateObj.init N a b c d dt = .ok S → ∀ hist, ∃ t, (S.run N hist).repr W = .ok t) ∧
    (∀ (num den : TArg K) (dt : Option K) (S : TransferObj K P), TransferObj.init E N num den dt = .ok S → ∀ hist, ∃ t, (S.run E N hist).repr W = .ok t) :=
  ⟨fun _ _ _ _ _ _ h hist => state_repr_ok (run_dtOk N h hist), fun _ _ _ _ h hist => transfer_repr_ok (transfer_run_dtOk E N h hist)⟩

/-! ## What the text says -/

/-- The text after the header of a `State` model. -/
def stateBody (W : Printing K P) (S : StateObj K P) : List Char :=
  if S.g.isgain then (gainLine S.shape.1 S.shape.2).toList ++ "\n\n".toList
  else (toString S.g.n ++ " state" ++ plural S.g.n ++ ", " ++ toString S.shape.2 ++ " input" ++ plural S.shape.2 ++ ", and " ++ toString S.shape.1 ++ " output" ++ plural S.shape.1).toList ++
    ('\n' :: ((W.tabulate (poleZeroTable W S.poles S.zeros) tableHeaders).toList ++ "\n\n".toList))

/-- The text after the header of a `Transfer` model. -/
def transferBody (W : Printing K P) (S : TransferObj K P) : List Char :=
  if S.g.isgain then (gainLine S.shape.1 S.shape.2).toList ++ "\n\n".toList
  else (" " ++ toString S.shape.2 ++ " input" ++ plural S.shape.2 ++ " and " ++ toString S.shape.1 ++ " output" ++ plural S.shape.1 ++ "\n").toList ++
    ('\n' :: ((W.tabulate (poleZeroTable W S.poles S.zeros) tableHeaders).toList ++ "\n\n".toList))

theorem gainLine_nl (p m : ℕ) : ∃ r, (gainLine p m).toList = '\n' :: r := by
  refine ⟨(toString p ++ "x" ++ toString m ++ " Static Gain\n").toList, ?_⟩
  simp only [gainLine, String.toList_append, show "\n".toList = ['\n'] from rfl, List.cons_append, List.nil_append, List.append_assoc]

theorem stateBody_eq {S T : StateObj K P} (h : stateBody W S = stateBody W T) : S.g.isgain = T.g.isgain ∧ S.shape = T.shape ∧ (S.g.isgain = false → S.g.n = T.g.n) := by
  unfold stateBody at h
  obtain ⟨r, hr⟩ := gainLine_nl S.shape.1 S.shape.2
  obtain ⟨r', hr'⟩ := gainLine_nl T.shape.1 T.shape.2
  cases hS : S.g.isgain <;> cases hT : T.g.isgain <;> rw [hS, hT] at h <;> simp only [Bool.false_eq_true, if_true, if_false] at h
  · obtain ⟨h1, h2, h3⟩ := stateLine_eq h
    exact ⟨rfl, Prod.ext h3 h2, fun _ => h1⟩
  · rw [hr'] at h
    simp only [String.toList_append, List.append_assoc, List.cons_append] at h
    exact absurd h number_ne_nl
  · rw [hr] at h
    simp only [String.toList_append, List.append_assoc, List.cons_append] at h
    exact absurd h.symm number_ne_nl
  · obtain ⟨h1, h2⟩ := gainLine_eq h
    exact ⟨rfl, Prod.ext h1 h2, fun h => by cases h⟩

theorem transferBody_eq {S T : TransferObj K P} (h : transferBody W S = transferBody W T) : S.g.isgain = T.g.isgain ∧ S.shape = T.shape := by
  unfold transferBody at h
  obtain ⟨r, hr⟩ := gainLine_nl S.shape.1 S.shape.2
  obtain ⟨r', hr'⟩ := gainLine_nl T.shape.1 T.shape.2
  have sp : " ".toList = [' '] := rfl
  cases hS : S.g.isgain <;> cases hT : T.g.isgain <;> rw [hS, hT] at h <;> simp only [Bool.false_eq_true, if_true, if_false] at h
  · obtain ⟨h1, h2⟩ := transferLine_eq h
    exact ⟨rfl, Prod.ext h2 h1⟩
  · rw [hr'] at h
    simp only [String.toList_append, List.append_assoc, List.cons_append, sp, List.cons.injEq] at h
    exact absurd h.1 (by decide)
  · rw [hr] at h
    simp only [String.toList_append, List.append_assoc, List.cons_append, sp, List.cons.injEq] at h
    exact absurd h.1 (by decide)
  · obtain ⟨h1, h2⟩ := gainLine_eq h
    exact ⟨rfl, Prod.ext h1 h2⟩

/-- The text of a discrete header. -/
def headerOf (W : Printing K P) (t : K) (r : List Char) : List Char :=
  (W.fixed3 t).toList ++ (" (".toList ++ ((W.fixed3 (1 / t)).toList ++ (" Hz.)\n".toList ++ r)))

theorem state_text {S : StateObj K P} (h : DtOk S.g.dt) {u : String} (hu : S.repr W = .ok u) :
    u.toList = match S.g.dt with
      | none => "\nContinuous-time state representation\n".toList ++ stateBody W S
      | some t => "\nDiscrete-Time state representation with ".toList ++ ("sampling time: ".toList ++ headerOf W t (stateBody W S)) := by
  unfold StateObj.repr at hu
  cases hd : S.g.dt with
  | none =>
    cases hg : S.g.isgain <;> simp only [hd, hg, bind, Except.bind, if_true, Bool.false_eq_true, if_false, Except.ok.injEq] at hu <;>
      simp only [← hu, stateBody, hg, if_true, Bool.false_eq_true, if_false, String.toList_append, List.append_assoc, show "\n".toList = ['\n'] from rfl, List.cons_append, List.nil_append]
  | some t =>
    cases hg : S.g.isgain <;> simp only [hd, hg, bind, Except.bind, discreteHeader, if_neg (h t hd).ne', if_true, Bool.false_eq_true, if_false, Except.ok.injEq] at hu <;>
      simp only [← hu, stateBody, headerOf, hg, if_true, Bool.false_eq_true, if_false, String.toList_append, List.append_assoc, show "\n".toList = ['\n'] from rfl, List.cons_append, List.nil_append]

theorem transfer_text {S : TransferObj K P} (h : DtOk S.g.dt) {u : String} (hu : S.repr W = .ok u) :
    u.toList = match S.g.dt with
      | none => "Continuous-Time Transfer function\n".toList ++ transferBody W S
      | some t => "Discrete-Time Transfer function with ".toList ++ ("sampling time: ".toList ++ headerOf W t (transferBody W S)) := by
  unfold TransferObj.repr at hu
  cases hd : S.g.dt with
  | none =>
    cases hg : S.g.isgain <;> simp only [hd, hg, bind, Except.bind, if_true, Bool.false_eq_true, if_false, Except.ok.injEq] at hu <;>
      simp only [← hu, transferBody, hg, if_true, Bool.false_eq_true, if_false, String.toList_append, List.append_assoc, show "\n".toList = ['\n'] from rfl, List.cons_append, List.nil_append]
  | some t =>
    cases hg : S.g.isgain <;> simp only [hd, hg, bind, Except.bind, discreteHeader, if_neg (h t hd).ne', if_true, Bool.false_eq_true, if_false, Except.ok.injEq] at hu <;>
      simp only [← hu, transferBody, headerOf, hg, if_true, Bool.false_eq_true, if_false, String.toList_append, List.append_assoc, show "\n".toList = ['\n'] from rfl, List.cons_append, List.nil_append]

/-- What two sampling periods that print alike have in common. -/
def PrintAlike (W : Printing K P) : Option K → Option K → Prop
  | none, none => True
  | some t, some t' => W.fixed3 t = W.fixed3 t' ∧ W.fixed3 (1 / t) = W.fixed3 (1 / t')
  | _, _ => False

/-- **C134** The text of a `State` model can be read back: models that print the same text are both continuous-time, or both
discrete-time with sampling periods and frequencies that agree to three decimals; both are static gains or neither is; and they
have the same numbers of outputs and inputs, and of states. Whatever the table of poles and zeros looks like, it cannot blur this. -/
theorem C134_state_text (hW : FixedOk W) {S T : StateObj K P} (hS : DtOk S.g.dt) (hT : DtOk T.g.dt) (h : S.repr W = T.repr W) :
    PrintAlike W S.g.dt T.g.dt ∧ S.g.isgain = T.g.isgain ∧ S.shape = T.shape ∧ (S.g.isgain = false → S.g.n = T.g.n) := by
  obtain ⟨u, hu⟩ := state_repr_ok (W := W) hS
  have e := (state_text hS hu).symm.trans (state_text hT (h ▸ hu))
  have e1 : "\nContinuous-time state representation\n".toList = '\n' :: 'C' :: "ontinuous-time state representation\n".toList := rfl
  have e2 : "\nDiscrete-Time state representation with ".toList = '\n' :: 'D' :: "iscrete-Time state representation with ".toList := rfl
  cases hs : S.g.dt with
  | none =>
    cases ht : T.g.dt with
    | none =>
      rw [hs, ht] at e
      exact ⟨trivial, stateBody_eq (List.append_cancel_left e)⟩
    | some t =>
      rw [hs, ht] at e
      simp only [e1, e2, List.cons_append, List.cons.injEq] at e
      exact absurd e.2.1 (by decide)
  | some t =>
    cases ht : T.g.dt with
    | none =>
      rw [hs, ht] at e
      simp only [e1, e2, List.cons_append, List.cons.injEq] at e
      exact absurd e.2.1 (by decide)
    | some t' =>
      rw [hs, ht] at e
      obtain ⟨h1, h2, h3⟩ := fixed_pair_eq hW (List.append_cancel_left (List.append_cancel_left e))
      exact ⟨⟨h1, h2⟩, stateBody_eq h3⟩

/-- **C134** The same for `Transfer` models. -/
theorem C134_transfer_text (hW : FixedOk W) {S T : TransferObj K P} (hS : DtOk S.g.dt) (hT : DtOk T.g.dt) (h : S.repr W = T.repr W) :
    PrintAlike W S.g.dt T.g.dt ∧ S.g.isgain = T.g.isgain ∧ S.shape = T.shape := by
  obtain ⟨u, hu⟩ := transfer_repr_ok (W := W) hS
  have e := (transfer_text hS hu).symm.trans (transfer_text hT (h ▸ hu))
  have e1 : "Continuous-Time Transfer function\n".toList = 'C' :: "ontinuous-Time Transfer function\n".toList := rfl
  have e2 : "Discrete-Time Transfer function with ".toList = 'D' :: "iscrete-Time Transfer function with ".toList := rfl
  cases hs : S.g.dt with
  | none =>
    cases ht : T.g.dt with
    | none =>
      rw [hs, ht] at e
      exact ⟨trivial, transferBody_eq (List.append_cancel_left e)⟩
    | some t =>
      rw [hs, ht] at e
      simp only [e1, e2, List.cons_append, List.cons.injEq] at e
      exact absurd e.1 (by decide)
  | some t =>
    cases ht : T.g.dt with
    | none =>
      rw [hs, ht] at e
      simp only [e1, e2, List.cons_append, List.cons.injEq] at e
      exact absurd e.1 (by decide)
    | some t' =>
      rw [hs, ht] at e
      obtain ⟨h1, h2, h3⟩ := fixed_pair_eq hW (List.append_cancel_left (List.append_cancel_left e))
      exact ⟨⟨h1, h2⟩, transferBody_eq h3⟩

/-- **C134** A `State` model and a `Transfer` model never print the same text. -/
theorem C134_classes {S : StateObj K P} {T : TransferObj K P} (hS : DtOk S.g.dt) (hT : DtOk T.g.dt) : S.repr W ≠ T.repr W := by
  intro h
  obtain ⟨u, hu⟩ := state_repr_ok (W := W) hS
  have e := (state_text hS hu).symm.trans (transfer_text hT (h ▸ hu))
  have e1 : "\nContinuous-time state representation\n".toList = '\n' :: "Continuous-time state representation\n".toList := rfl
  have e2 : "\nDiscrete-Time state representation with ".toList = '\n' :: "Discrete-Time state representation with ".toList := rfl
  have e3 : "Continuous-Time Transfer function\n".toList = 'C' :: "ontinuous-Time Transfer function\n".toList := rfl
  have e4 : "Discrete-Time Transfer function with ".toList = 'D' :: "iscrete-Time Transfer function with ".toList := rfl
  cases hs : S.g.dt <;> cases ht : T.g.dt <;> rw [hs, ht] at e <;> simp only [e1, e2, e3, e4, List.cons_append, List.cons.injEq] at e <;> exact absurd e.1 (by decide)

/-! ## The table -/

/-- The numbers in column `j` of a table, from top to bottom, without the blanks. -/
def column {α : Type} (rows : List (List (Option α))) (j : ℕ) : List α := rows.filterMap fun row => (row[j]?).join

theorem range_filterMap {α : Type} (l : List α) : ∀ k, l.length ≤ k → (List.range k).filterMap (fun i => l[i]?) = l := by
  intro k hk
  induction l generalizing k with
  | nil => simp
  | cons a l ih =>
    obtain ⟨k, rfl⟩ : ∃ k', k = k' + 1 := ⟨k - 1, by simp at hk; omega⟩
    rw [List.range_succ_eq_map, List.filterMap_cons]
    simp only [List.getElem?_cons_zero, List.filterMap_map, Function.comp_def, Nat.succ_eq_add_one, List.getElem?_cons_succ]
    rw [ih k (by simpa using hk)]

theorem length_le_foldr {l : List ℕ} {a : ℕ} (h : a ∈ l) : a ≤ l.foldr max 0 := by
  induction l with
  | nil => cases h
  | cons b l ih =>
    rcases List.mem_cons.mp h with rfl | h
    · exact le_max_left _ _
    · exact (ih h).trans (le_max_right _ _)

/-- Nothing is lost or invented by `zip_longest`. -/
theorem zipLongest_column {α : Type} {cols : List (List α)} {j : ℕ} {c : List α} (h : cols[j]? = some c) : column (zipLongest cols) j = c := by
  unfold column zipLongest
  rw [List.filterMap_map]
  have e : ((fun row : List (Option α) => (row[j]?).join) ∘ fun i : ℕ => cols.map fun c => c[i]?) = fun i : ℕ => c[i]? := by
    funext i
    simp [h]
  rw [e]
  exact range_filterMap c _ (length_le_foldr (List.mem_map.mpr ⟨c, List.mem_of_getElem? h, rfl⟩))

/-- The rows of a table show the poles and the zeros: the four columns are their real and imaginary parts, in the order of the lists
and with multiplicity, blanks only fill up the shorter pair of columns, the parts of a number stand in the same row, and there are as
many rows as the longer list has entries. -/
def Shows (W : Printing K P) (rows : List (List (Option K))) (poles zeros : List P) : Prop :=
  column rows 0 = poles.map W.re ∧ column rows 1 = poles.map W.im ∧ column rows 2 = zeros.map W.re ∧ column rows 3 = zeros.map W.im ∧
    rows.length = max poles.length zeros.length ∧
    ∀ (i : ℕ) (row : List (Option K)), rows[i]? = some row → row = [(poles[i]?).map W.re, (poles[i]?).map W.im, (zeros[i]?).map W.re, (zeros[i]?).map W.im]

omit [Field K] [LinearOrder K] in
theorem table_shows (poles zeros : List P) : Shows W (poleZeroTable W poles zeros) poles zeros := by
  refine ⟨zipLongest_column rfl, zipLongest_column rfl, zipLongest_column rfl, zipLongest_column rfl, ?_, fun i row h => ?_⟩
  · simp [poleZeroTable, zipLongest]
  · simp only [poleZeroTable, zipLongest, List.getElem?_map, Option.map_eq_some_iff] at h
    obtain ⟨k, h1, h2⟩ := h
    obtain ⟨h3, h4⟩ := List.getElem?_eq_some_iff.mp h1
    rw [List.getElem_range] at h4
    subst h4
    rw [← h2]
    simp

/-- **C134** The text of a dynamic model ends with a table, under the four headings, that shows every pole and every zero of the model
and nothing else. For a static gain no table is printed. -/
theorem C134_table :
    (∀ S : StateObj K P, DtOk S.g.dt → S.g.isgain = false → ∃ front rows, Shows W rows S.poles S.zeros ∧
      S.repr W = .ok (front ++ W.tabulate rows ["Poles(real)", "Poles(imag)", "Zeros(real)", "Zeros(imag)"] ++ "\n\n")) ∧
    (∀ S : TransferObj K P, DtOk S.g.dt → S.g.isgain = false → ∃ front rows, Shows W rows S.poles S.zeros ∧
      S.repr W = .ok (front ++ W.tabulate rows ["Poles(real)", "Poles(imag)", "Zeros(real)", "Zeros(imag)"] ++ "\n\n")) := by
  refine ⟨fun S hd hg => ?_, fun S hd hg => ?_⟩
  · unfold StateObj.repr
    cases ht : S.g.dt with
    | none =>
      simp only [hg, bind, Except.bind, Bool.false_eq_true, if_false, ← String.append_assoc]
      exact ⟨_, _, table_shows _ _, rfl⟩
    | some t =>
      simp only [hg, bind, Except.bind, Bool.false_eq_true, if_false, discreteHeader, if_neg (hd t ht).ne', ← String.append_assoc]
      exact ⟨_, _, table_shows _ _, rfl⟩
  · unfold TransferObj.repr
    cases ht : S.g.dt with
    | none =>
      simp only [hg, bind, Except.bind, Bool.false_eq_true, if_false, ← String.append_assoc]
      exact ⟨_, _, table_shows _ _, rfl⟩
    | some t =>
      simp only [hg, bind, Except.bind, Bool.false_eq_true, if_false, discreteHeader, if_neg (hd t ht).ne', ← String.append_assoc]
      exact ⟨_, _, table_shows _ _, rfl⟩

/-! ## The words -/

/-- A count with its noun: `1 state`, `2 states`. -/
def count (k : ℕ) (noun : String) : String := toString k ++ " " ++ noun ++ (if k = 1 then "" else "s")

theorem count_eq {k : ℕ} (hk : 0 < k) (noun : String) : count k noun = toString k ++ " " ++ noun ++ plural k := by
  unfold count plural
  by_cases h : k = 1
  · simp [h]
  · rw [if_neg h, if_pos (by omega)]

/-- **C134** What the text says, in words: the time domain (with the sampling period and the sampling frequency), and the numbers of states, inputs and outputs of
the model with their nouns in the right number; or the size of the static gain, outputs first. -/
theorem C134_words :
    (∀ S : StateObj K P, DtOk S.g.dt → ∃ rest,
      S.repr W = .ok ((match S.g.dt with
        | none => "\nContinuous-time state representation\n"
        | some t => "\nDiscrete-Time state representation with sampling time: " ++ W.fixed3 t ++ " (" ++ W.fixed3 (1 / t) ++ " Hz.)\n") ++ rest) ∧
      (S.g.isgain = true → rest = "\n" ++ toString S.shape.1 ++ "x" ++ toString S.shape.2 ++ " Static Gain\n\n\n") ∧
      (S.g.isgain = false → 0 < S.g.n → 0 < S.shape.1 → 0 < S.shape.2 → ∃ table, rest = count S.g.n "state" ++ ", " ++ count S.shape.2 "input" ++ ", and " ++ count S.shape.1 "output" ++ "\n" ++ table)) ∧
    (∀ S : TransferObj K P, DtOk S.g.dt → ∃ rest,
      S.repr W = .ok ((match S.g.dt with
        | none => "Continuous-Time Transfer function\n"
        | some t => "Discrete-Time Transfer function with sampling time: " ++ W.fixed3 t ++ " (" ++ W.fixed3 (1 / t) ++ " Hz.)\n") ++ rest) ∧
      (S.g.isgain = true → rest = "\n" ++ toString S.shape.1 ++ "x" ++ toString S.shape.2 ++ " Static Gain\n\n\n") ∧
      (S.g.isgain = false → 0 < S.shape.1 → 0 < S.shape.2 → ∃ table, rest = " " ++ count S.shape.2 "input" ++ " and " ++ count S.shape.1 "output" ++ "\n\n" ++ table)) := by
  have c1 : " Static Gain\n" ++ "\n\n" = " Static Gain\n\n\n" := rfl
  have c2 : "\nDiscrete-Time state representation with " ++ "sampling time: " = "\nDiscrete-Time state representation with sampling time: " := rfl
  have c3 : "Discrete-Time Transfer function with " ++ "sampling time: " = "Discrete-Time Transfer function with sampling time: " := rfl
  have c4 : " " ++ "state" = " state" := rfl
  have c5 : " " ++ "input" = " input" := rfl
  have c6 : " " ++ "output" = " output" := rfl
  have c7 : "\n" ++ "\n" = "\n\n" := rfl
  have hh : ∀ (pre : String) (t : K), t ≠ 0 → discreteHeader W pre t = .ok (pre ++ "sampling time: " ++ W.fixed3 t ++ " (" ++ W.fixed3 (1 / t) ++ " Hz.)\n") := fun pre t h => by
    simp [discreteHeader, h]
  refine ⟨fun S hd => ?_, fun S hd => ?_⟩
  · have hp : ∀ desc : String, ∃ rest, (if S.g.isgain then (.ok (desc ++ gainLine S.shape.1 S.shape.2 ++ "\n\n") : Res String)
        else .ok (desc ++ (toString S.g.n ++ " state" ++ plural S.g.n ++ ", " ++ toString S.shape.2 ++ " input" ++ plural S.shape.2 ++ ", and " ++
          toString S.shape.1 ++ " output" ++ plural S.shape.1) ++ ("\n" ++ W.tabulate (poleZeroTable W S.poles S.zeros) tableHeaders) ++ "\n\n")) = .ok (desc ++ rest) ∧
        (S.g.isgain = true → rest = "\n" ++ toString S.shape.1 ++ "x" ++ toString S.shape.2 ++ " Static Gain\n\n\n") ∧
        (S.g.isgain = false → 0 < S.g.n → 0 < S.shape.1 → 0 < S.shape.2 → ∃ table, rest = count S.g.n "state" ++ ", " ++ count S.shape.2 "input" ++ ", and " ++ count S.shape.1 "output" ++ "\n" ++ table) := by
      intro desc
      cases hg : S.g.isgain with
      | true =>
        refine ⟨gainLine S.shape.1 S.shape.2 ++ "\n\n", by simp [String.append_assoc], fun _ => ?_, fun h => by cases h⟩
        simp only [gainLine, String.append_assoc, c1]
      | false =>
        refine ⟨_, (by simp only [Bool.false_eq_true, if_false, String.append_assoc]; rfl), fun h => (by cases h), fun _ h1 h2 h3 => ⟨W.tabulate (poleZeroTable W S.poles S.zeros) tableHeaders ++ "\n\n", ?_⟩⟩
        rw [count_eq h1, count_eq h2, count_eq h3]
        simp only [String.append_assoc, ← c4, ← c5, ← c6]
    cases ht : S.g.dt with
    | none =>
      obtain ⟨rest, h1, h2⟩ := hp "\nContinuous-time state representation\n"
      refine ⟨rest, ?_, h2⟩
      rw [← h1]
      unfold StateObj.repr
      simp only [ht, bind, Except.bind]
    | some t =>
      obtain ⟨rest, h1, h2⟩ := hp ("\nDiscrete-Time state representation with sampling time: " ++ W.fixed3 t ++ " (" ++ W.fixed3 (1 / t) ++ " Hz.)\n")
      refine ⟨rest, ?_, h2⟩
      simp only
      rw [← h1]
      unfold StateObj.repr
      simp only [ht, bind, Except.bind, hh _ _ (hd t ht).ne', c2]
  · have hp : ∀ desc : String, ∃ rest, (if S.g.isgain then (.ok (desc ++ gainLine S.shape.1 S.shape.2 ++ "\n\n") : Res String)
        else .ok (desc ++ (" " ++ toString S.shape.2 ++ " input" ++ plural S.shape.2 ++ " and " ++ toString S.shape.1 ++ " output" ++ plural S.shape.1 ++ "\n") ++
          ("\n" ++ W.tabulate (poleZeroTable W S.poles S.zeros) tableHeaders) ++ "\n\n")) = .ok (desc ++ rest) ∧
        (S.g.isgain = true → rest = "\n" ++ toString S.shape.1 ++ "x" ++ toString S.shape.2 ++ " Static Gain\n\n\n") ∧
        (S.g.isgain = false → 0 < S.shape.1 → 0 < S.shape.2 → ∃ table, rest = " " ++ count S.shape.2 "input" ++ " and " ++ count S.shape.1 "output" ++ "\n\n" ++ table) := by
      intro desc
      cases hg : S.g.isgain with
      | true =>
        refine ⟨gainLine S.shape.1 S.shape.2 ++ "\n\n", by simp [String.append_assoc], fun _ => ?_, fun h => by cases h⟩
        simp only [gainLine, String.append_assoc, c1]
      | false =>
        refine ⟨_, (by simp only [Bool.false_eq_true, if_false, String.append_assoc]; rfl), fun h => (by cases h), fun _ h2 h3 => ⟨W.tabulate (poleZeroTable W S.poles S.zeros) tableHeaders ++ "\n\n", ?_⟩⟩
        rw [count_eq h2, count_eq h3]
        simp only [String.append_assoc, ← c5, ← c6]
        rw [← String.append_assoc (s₁ := "\n") (s₂ := "\n"), c7]
    cases ht : S.g.dt with
    | none =>
      obtain ⟨rest, h1, h2⟩ := hp "Continuous-Time Transfer function\n"
      refine ⟨rest, ?_, h2⟩
      rw [← h1]
      unfold TransferObj.repr
      simp only [ht, bind, Except.bind]
    | some t =>
      obtain ⟨rest, h1, h2⟩ := hp ("Discrete-Time Transfer function with sampling time: " ++ W.fixed3 t ++ " (" ++ W.fixed3 (1 / t) ++ " Hz.)\n")
      refine ⟨rest, ?_, h2⟩
      simp only
      rw [← h1]
      unfold TransferObj.repr
      simp only [ht, bind, Except.bind, hh _ _ (hd t ht).ne', c3]

/-! ## Concrete cases -/

/-- A format that meets `FixedOk`. -/
example : FixedOk (⟨fun _ => "0.100", fun _ _ => "", id, fun _ => 0⟩ : Printing ℚ ℚ) := by
  intro x c hc
  have e : "0.100".toList = ['0', '.', '1', '0', '0'] := rfl
  simp only [e, List.mem_cons, List.not_mem_nil, or_false] at hc
  rcases hc with rfl | rfl | rfl | rfl | rfl <;> decide

/-- A table with two poles and one zero. -/
example : poleZeroTable (⟨fun _ => "", fun _ _ => "", id, fun _ => 0⟩ : Printing ℚ ℚ) [-1, -2] [3] =
    [[some (-1), some 0, some 3, some 0], [some (-2), some 0, none, none]] := by
  simp [poleZeroTable, zipLongest, List.range_succ]

end Harold
