import Verif.Model.Getters
import Verif.Props.DiscAttr

/-!
# C87: properties read back what was written last
-/

namespace Harold

open Matrix Spec

variable {K P : Type} [Field K] [LinearOrder K] (E : TNum K) (N : Numerics K P)

/-- The statements of a history that did not raise, for an interpreter `step` of statements. -/
def Spec.accepted {σ α : Type} (step : σ → α → σ × Option Err) : σ → List α → List α
  | _, [] => []
  | s, x :: l => if (step s x).2 = none then x :: Spec.accepted step (step s x).1 l else Spec.accepted step (step s x).1 l

/-- The value of the last statement of the list that writes the property selected by `sel`. -/
def Spec.lastWrite {α V : Type} (sel : α → Option V) : List α → Option V
  | [] => none
  | x :: l => (Spec.lastWrite sel l).or (sel x)

/-- The property read from an object after a history: `now` shows the value of the last accepted write; without one it is what it was at the beginning. -/
def Spec.ReadsBack {V X : Type} (shows : V → X → Prop) (last : Option V) (start now : X) : Prop :=
  match last with
  | none => now = start
  | some v => shows v now

/-- How a matrix property shows a value: as it is; a row that was given where a column fits is turned; `None` leaves zeros. -/
def Spec.ShowsMatrix (v : Option (Arr K)) (x : Arr K) : Prop :=
  match v with
  | some v => x = v ∨ v.r = 1 ∧ x = v.T
  | none => ∀ i j, x.m i j = 0

theorem reads_back {σ α V X : Type} (step : σ → α → σ × Option Err) (π : σ → X) (sel : α → Option V) (shows : V → X → Prop)
    (h1 : ∀ s x v, (step s x).2 = none → sel x = some v → shows v (π (step s x).1))
    (h2 : ∀ s x, (step s x).2 = none → sel x = none → π (step s x).1 = π s)
    (h3 : ∀ s x, (step s x).2 ≠ none → π (step s x).1 = π s) (s : σ) (l : List α) :
    ReadsBack shows (lastWrite sel (accepted step s l)) (π s) (π (l.foldl (fun s x => (step s x).1) s)) := by
  induction l generalizing s with
  | nil => rfl
  | cons x l ih =>
    have h := ih (step s x).1
    rw [List.foldl_cons]
    unfold accepted
    by_cases ha : (step s x).2 = none
    · rw [if_pos ha]
      unfold lastWrite
      cases hl : lastWrite sel (accepted step (step s x).1 l) with
      | some v => rw [hl] at h; exact h
      | none =>
        rw [hl] at h
        simp only [ReadsBack] at h
        rw [h]
        cases hs : sel x with
        | some v => exact h1 s x v ha hs
        | none => exact h2 s x ha hs
    · rw [if_neg ha]
      rw [h3 s x ha] at h
      exact h

/-- Selectors of the statements that write one property of a `State`. -/
def Assign.writesA : Assign K → Option (Option (Arr K)) | .a v => some v | _ => none
def Assign.writesB : Assign K → Option (Option (Arr K)) | .b v => some v | _ => none
def Assign.writesC : Assign K → Option (Option (Arr K)) | .c v => some v | _ => none
def Assign.writesD : Assign K → Option (Option (Arr K)) | .d v => some v | _ => none
def Assign.writesPeriod : Assign K → Option (Option K) | .samplingPeriod v => some v | _ => none
def Assign.writesMethod : Assign K → Option String | .discretizedWith v => some v | _ => none
def Assign.writesMatrix : Assign K → Option (Arr K) | .discretizationMatrix v => some v | _ => none
def Assign.writesPrewarp : Assign K → Option K | .prewarpFrequency v => some v | _ => none

def TAssign.writesPeriod : TAssign K → Option (Option K) | .samplingPeriod v => some v | _ => none
def TAssign.writesMethod : TAssign K → Option String | .discretizedWith v => some v | _ => none
def TAssign.writesMatrix : TAssign K → Option (Arr K) | .discretizationMatrix v => some v | _ => none
def TAssign.writesPrewarp : TAssign K → Option K | .prewarpFrequency v => some v | _ => none

theorem validate_shows {a b c d : Option (Arr K)} (hb : b.isSome ∨ c.isSome ∨ d.isSome) (ha : a.isSome ∨ b.isSome ∨ c.isSome)
    {r : Arr K × Arr K × Arr K × Arr K × Bool} (h : validateState a b c d = .ok r) :
    r.1 = a.getD Arr.empty ∧ (r.2.1 = b.getD Arr.empty ∨ (b.getD Arr.empty).r = 1 ∧ r.2.1 = (b.getD Arr.empty).T) ∧
      r.2.2.1 = c.getD Arr.empty ∧ ShowsMatrix d r.2.2.2.1 := by
  unfold validateState at h
  simp only at h
  rw [if_neg (by rcases a with _ | a <;> rcases b with _ | b <;> rcases c with _ | c <;> rcases d with _ | d <;> simp_all),
    if_neg (by rcases a with _ | a <;> rcases b with _ | b <;> rcases c with _ | c <;> rcases d with _ | d <;> simp_all)] at h
  by_cases h1 : (a.getD Arr.empty).r ≠ (a.getD Arr.empty).c
  · rw [if_pos h1] at h; cases h
  rw [if_neg h1] at h
  split at h
  · cases h
  next b' hb' =>
  have hbs : b' = b.getD Arr.empty ∨ (b.getD Arr.empty).r = 1 ∧ b' = (b.getD Arr.empty).T := by
    split_ifs at hb' with h2 h3
    · cases hb'; exact .inr ⟨h3.1, rfl⟩
    · cases hb'; exact .inl rfl
  by_cases h4 : (c.getD Arr.empty).c ≠ (a.getD Arr.empty).c
  · rw [if_pos h4] at h; cases h
  rw [if_neg h4] at h
  cases d with
  | none =>
    simp only [Option.isNone_none, if_true] at h
    rw [if_pos ⟨rfl, rfl⟩] at h
    cases h
    exact ⟨rfl, hbs, rfl, fun i j => rfl⟩
  | some d =>
    simp only [Option.isNone_some, Option.getD_some, Bool.false_eq_true, if_false] at h
    split_ifs at h with h5 h6
    · cases h; exact ⟨rfl, hbs, rfl, .inl rfl⟩
    · cases h; exact ⟨rfl, hbs, rfl, .inr ⟨h6.1, rfl⟩⟩

theorem shows_getD {v : Option (Arr K)} {x : Arr K} (h : x = v.getD Arr.empty ∨ (v.getD Arr.empty).r = 1 ∧ x = (v.getD Arr.empty).T) : ShowsMatrix v x := by
  cases v with
  | some v => exact h
  | none =>
    rcases h with h | ⟨h, -⟩
    · subst h; exact fun i => i.elim0
    · cases h

theorem assign_shows (S : StateObj K P) (x : Assign K) (h : (S.assign N x).2 = none) :
    (∀ v, x.writesA = some v → ShowsMatrix v (S.assign N x).1.g.a) ∧ (x.writesA = none → (S.assign N x).1.g.a = S.g.a) ∧
    (∀ v, x.writesB = some v → ShowsMatrix v (S.assign N x).1.g.b) ∧ (x.writesB = none → (S.assign N x).1.g.b = S.g.b) ∧
    (∀ v, x.writesC = some v → ShowsMatrix v (S.assign N x).1.g.c) ∧ (x.writesC = none → (S.assign N x).1.g.c = S.g.c) ∧
    (∀ v, x.writesD = some v → ShowsMatrix v (S.assign N x).1.g.d) ∧ (x.writesD = none → (S.assign N x).1.g.d = S.g.d) := by
  cases x with
  | a v =>
    simp only [StateObj.assign] at h ⊢
    split at h
    · cases h
    next r hr =>
    have := validate_shows (by simp) (by simp) hr
    simp [Assign.writesA, Assign.writesB, Assign.writesC, Assign.writesD, hr, StateObj.recalc]
    exact shows_getD (.inl this.1)
  | b v =>
    simp only [StateObj.assign] at h ⊢
    split at h
    · cases h
    next r hr =>
    have := validate_shows (by simp) (by simp) hr
    simp [Assign.writesA, Assign.writesB, Assign.writesC, Assign.writesD, hr, StateObj.recalc]
    exact shows_getD this.2.1
  | c v =>
    simp only [StateObj.assign] at h ⊢
    split at h
    · cases h
    next r hr =>
    have := validate_shows (by simp) (by simp) hr
    simp [Assign.writesA, Assign.writesB, Assign.writesC, Assign.writesD, hr, StateObj.recalc]
    exact shows_getD (.inl this.2.2.1)
  | d v =>
    simp only [StateObj.assign] at h ⊢
    split at h
    · cases h
    next r hr =>
    have := validate_shows (by simp) (by simp) hr
    simp [Assign.writesA, Assign.writesB, Assign.writesC, Assign.writesD, hr, StateObj.recalc]
    exact this.2.2.2
  | samplingPeriod v =>
    cases v <;> simp only [StateObj.assign, Assign.writesA, Assign.writesB, Assign.writesC, Assign.writesD] <;> (try split_ifs) <;> simp
  | discretizedWith v =>
    simp only [StateObj.assign, Assign.writesA, Assign.writesB, Assign.writesC, Assign.writesD]; split_ifs <;> simp
  | discretizationMatrix v =>
    simp only [StateObj.assign, Assign.writesA, Assign.writesB, Assign.writesC, Assign.writesD]; split_ifs <;> simp
  | prewarpFrequency v =>
    simp only [StateObj.assign, Assign.writesA, Assign.writesB, Assign.writesC, Assign.writesD]
    split_ifs
    · split
      · simp
      · split_ifs <;> simp
    · simp

theorem assign_attrs (S : StateObj K P) (x : Assign K) (h : (S.assign N x).2 = none) :
    (∀ v, x.writesPeriod = some v → (S.assign N x).1.g.dt = v) ∧ (x.writesPeriod = none → (S.assign N x).1.g.dt = S.g.dt) ∧
    (∀ v, x.writesMethod = some v → (S.assign N x).1.discWith = some v) ∧ (x.writesMethod = none → (S.assign N x).1.discWith = S.discWith) ∧
    (∀ v, x.writesMatrix = some v → (S.assign N x).1.discMat = some v) ∧ (x.writesMatrix = none → (S.assign N x).1.discMat = S.discMat) ∧
    (∀ v, x.writesPrewarp = some v → (S.assign N x).1.prewarp = v) ∧ (x.writesPrewarp = none → (S.assign N x).1.prewarp = S.prewarp) := by
  cases x with
  | a v =>
    simp only [StateObj.assign] at h ⊢
    split at h
    · cases h
    next r hr => simp [Assign.writesPeriod, Assign.writesMethod, Assign.writesMatrix, Assign.writesPrewarp, StateObj.recalc]
  | b v =>
    simp only [StateObj.assign] at h ⊢
    split at h
    · cases h
    next r hr => simp [Assign.writesPeriod, Assign.writesMethod, Assign.writesMatrix, Assign.writesPrewarp, StateObj.recalc]
  | c v =>
    simp only [StateObj.assign] at h ⊢
    split at h
    · cases h
    next r hr => simp [Assign.writesPeriod, Assign.writesMethod, Assign.writesMatrix, Assign.writesPrewarp, StateObj.recalc]
  | d v =>
    simp only [StateObj.assign] at h ⊢
    split at h
    · cases h
    next r hr => simp [Assign.writesPeriod, Assign.writesMethod, Assign.writesMatrix, Assign.writesPrewarp, StateObj.recalc]
  | samplingPeriod v =>
    cases v with
    | none => simp [StateObj.assign, Assign.writesPeriod, Assign.writesMethod, Assign.writesMatrix, Assign.writesPrewarp]
    | some t =>
      simp only [StateObj.assign] at h ⊢
      split_ifs at h ⊢
      simp [Assign.writesPeriod, Assign.writesMethod, Assign.writesMatrix, Assign.writesPrewarp]
  | discretizedWith v =>
    simp only [StateObj.assign] at h ⊢
    split_ifs at h ⊢
    simp [Assign.writesPeriod, Assign.writesMethod, Assign.writesMatrix, Assign.writesPrewarp]
  | discretizationMatrix v =>
    simp only [StateObj.assign] at h ⊢
    split_ifs at h ⊢
    simp [Assign.writesPeriod, Assign.writesMethod, Assign.writesMatrix, Assign.writesPrewarp]
  | prewarpFrequency v =>
    simp only [StateObj.assign] at h ⊢
    split_ifs at h ⊢
    cases hd : S.g.dt with
    | none => rw [hd] at h; cases h
    | some t =>
      rw [hd] at h
      simp only at h ⊢
      split_ifs at h ⊢
      simp [Assign.writesPeriod, Assign.writesMethod, Assign.writesMatrix, Assign.writesPrewarp, hd]

/-- **C87** for `State`: after every history of assignments, each of `a`, `b`, `c`, `d`, `SamplingPeriod`, `DiscretizedWith` and `DiscretizationMatrix` reads the value of the last assignment to
it that did not raise (a row may be turned into a column, `None` becomes zeros), or its value at the beginning of the history. `PrewarpFrequency` does so as long as the model is discrete and
discretized by the bilinear map, and reads `None` otherwise. -/
theorem C87_state (S : StateObj K P) (hist : List (Assign K)) :
    ReadsBack ShowsMatrix (lastWrite Assign.writesA (accepted (StateObj.assign N) S hist)) S.matrices.1 (S.run N hist).matrices.1 ∧
    ReadsBack ShowsMatrix (lastWrite Assign.writesB (accepted (StateObj.assign N) S hist)) S.matrices.2.1 (S.run N hist).matrices.2.1 ∧
    ReadsBack ShowsMatrix (lastWrite Assign.writesC (accepted (StateObj.assign N) S hist)) S.matrices.2.2.1 (S.run N hist).matrices.2.2.1 ∧
    ReadsBack ShowsMatrix (lastWrite Assign.writesD (accepted (StateObj.assign N) S hist)) S.matrices.2.2.2 (S.run N hist).matrices.2.2.2 ∧
    ReadsBack (fun v x => x = v) (lastWrite Assign.writesPeriod (accepted (StateObj.assign N) S hist)) S.g.dt (S.run N hist).g.dt ∧
    ReadsBack (fun v x => x = some v) (lastWrite Assign.writesMethod (accepted (StateObj.assign N) S hist)) S.discretizedWith (S.run N hist).discretizedWith ∧
    ReadsBack (fun v x => x = some v) (lastWrite Assign.writesMatrix (accepted (StateObj.assign N) S hist)) S.discretizationMatrix (S.run N hist).discretizationMatrix ∧
    (∃ w, ReadsBack (fun v x => x = v) (lastWrite Assign.writesPrewarp (accepted (StateObj.assign N) S hist)) S.prewarp w ∧
      ((S.run N hist).g.dt ≠ none → (∃ s ∈ ["tustin", "bilinear", "trapezoidal"], (S.run N hist).discretizedWith = some s) → (S.run N hist).prewarpFrequency = some w)) ∧
    ((S.run N hist).g.dt = none ∨ (∀ s ∈ ["tustin", "bilinear", "trapezoidal"], (S.run N hist).discretizedWith ≠ some s) → (S.run N hist).prewarpFrequency = none) := by
  have h3 : ∀ (s : StateObj K P) (x : Assign K), (s.assign N x).2 ≠ none → (s.assign N x).1 = s := by
    intro s x h
    obtain ⟨e, he⟩ := Option.ne_none_iff_exists'.mp h
    exact C13_rejected_unchanged N s x e he
  refine ⟨?_, ?_, ?_, ?_, ?_, ?_, ?_, ⟨(S.run N hist).prewarp, ?_, ?_⟩, ?_⟩
  · exact reads_back (StateObj.assign N) (fun S => S.g.a) Assign.writesA ShowsMatrix (fun s x v h => (assign_shows N s x h).1 v) (fun s x h => (assign_shows N s x h).2.1) (fun s x h => by rw [h3 s x h]) S hist
  · exact reads_back (StateObj.assign N) (fun S => S.g.b) Assign.writesB ShowsMatrix (fun s x v h => (assign_shows N s x h).2.2.1 v) (fun s x h => (assign_shows N s x h).2.2.2.1) (fun s x h => by rw [h3 s x h]) S hist
  · exact reads_back (StateObj.assign N) (fun S => S.g.c) Assign.writesC ShowsMatrix (fun s x v h => (assign_shows N s x h).2.2.2.2.1 v) (fun s x h => (assign_shows N s x h).2.2.2.2.2.1) (fun s x h => by rw [h3 s x h]) S hist
  · exact reads_back (StateObj.assign N) (fun S => S.g.d) Assign.writesD ShowsMatrix (fun s x v h => (assign_shows N s x h).2.2.2.2.2.2.1 v) (fun s x h => (assign_shows N s x h).2.2.2.2.2.2.2) (fun s x h => by rw [h3 s x h]) S hist
  · exact reads_back (StateObj.assign N) (fun S => S.g.dt) Assign.writesPeriod (fun v x => x = v) (fun s x v h => (assign_attrs N s x h).1 v) (fun s x h => (assign_attrs N s x h).2.1) (fun s x h => by rw [h3 s x h]) S hist
  · exact reads_back (StateObj.assign N) (fun S => S.discWith) Assign.writesMethod (fun v x => x = some v) (fun s x v h => (assign_attrs N s x h).2.2.1 v) (fun s x h => (assign_attrs N s x h).2.2.2.1) (fun s x h => by rw [h3 s x h]) S hist
  · exact reads_back (StateObj.assign N) (fun S => S.discMat) Assign.writesMatrix (fun v x => x = some v) (fun s x v h => (assign_attrs N s x h).2.2.2.2.1 v) (fun s x h => (assign_attrs N s x h).2.2.2.2.2.1) (fun s x h => by rw [h3 s x h]) S hist
  · exact reads_back (StateObj.assign N) (fun S => S.prewarp) Assign.writesPrewarp (fun v x => x = v) (fun s x v h => (assign_attrs N s x h).2.2.2.2.2.2.1 v) (fun s x h => (assign_attrs N s x h).2.2.2.2.2.2.2) (fun s x h => by rw [h3 s x h]) S hist
  · rintro h1 ⟨s, hs, h2⟩
    unfold StateObj.prewarpFrequency
    unfold StateObj.discretizedWith at h2
    rw [if_neg]
    rintro (h | h)
    · exact h1 (Option.isNone_iff_eq_none.mp h)
    · rw [h2] at h; exact h hs
  · intro h
    unfold StateObj.prewarpFrequency
    unfold StateObj.discretizedWith at h
    rw [if_pos]
    rcases h with h | h
    · exact .inl (Option.isNone_iff_eq_none.mpr h)
    · right
      intro h'
      cases hd : (S.run N hist).discWith with
      | none => rw [hd] at h'; revert h'; decide
      | some s => rw [hd] at h'; exact h s h' hd

/-- **C87** for the sizes of a `State`: over every history `NumberOfOutputs`, `NumberOfInputs` and `SamplingSet` describe the model: the sizes are those at the beginning, `SamplingSet` is `'Z'` exactly
when there is a sampling period. -/
theorem C87_state_sizes (S : StateObj K P) (hist : List (Assign K)) :
    (S.run N hist).size = S.size ∧ (samplingSet (S.run N hist).g.dt = "Z" ↔ (S.run N hist).g.dt ≠ none) ∧
      (samplingSet (S.run N hist).g.dt = "R" ↔ (S.run N hist).g.dt = none) := by
  refine ⟨?_, ?_, ?_⟩
  · unfold StateObj.run StateObj.size
    induction hist generalizing S with
    | nil => rfl
    | cons x l ih =>
      rw [List.foldl_cons, ih]
      cases x <;> simp only [StateObj.assign]
      case a v => split <;> rfl
      case b v => split <;> rfl
      case c v => split <;> rfl
      case d v => split <;> rfl
      case samplingPeriod v => cases v <;> simp only <;> (try split_ifs) <;> rfl
      case discretizedWith v => split_ifs <;> rfl
      case discretizationMatrix v => split_ifs <;> rfl
      case prewarpFrequency v =>
        split_ifs
        · split
          · rfl
          · split_ifs <;> rfl
        · rfl
  · cases (S.run N hist).g.dt <;> simp [samplingSet]
  · cases (S.run N hist).g.dt <;> simp [samplingSet]

theorem tassign_attrs (S : TransferObj K P) (x : TAssign K) (h : (S.assign E N x).2 = none) :
    (∀ v, x.writesPeriod = some v → (S.assign E N x).1.g.dt = v) ∧ (∀ v, x.writesMethod = some v → (S.assign E N x).1.discWith = some v) ∧
    (∀ v, x.writesMatrix = some v → (S.assign E N x).1.discMat = some v) ∧ (∀ v, x.writesPrewarp = some v → (S.assign E N x).1.prewarp = v) := by
  cases x with
  | num v => simp [TAssign.writesPeriod, TAssign.writesMethod, TAssign.writesMatrix, TAssign.writesPrewarp]
  | den v => simp [TAssign.writesPeriod, TAssign.writesMethod, TAssign.writesMatrix, TAssign.writesPrewarp]
  | samplingPeriod v =>
    cases v with
    | none => simp [TransferObj.assign, TAssign.writesPeriod, TAssign.writesMethod, TAssign.writesMatrix, TAssign.writesPrewarp]
    | some t =>
      simp only [TransferObj.assign] at h ⊢
      split_ifs at h ⊢
      simp [TAssign.writesPeriod, TAssign.writesMethod, TAssign.writesMatrix, TAssign.writesPrewarp]
  | discretizedWith v =>
    simp only [TransferObj.assign] at h ⊢
    split_ifs at h ⊢
    simp [TAssign.writesPeriod, TAssign.writesMethod, TAssign.writesMatrix, TAssign.writesPrewarp]
  | discretizationMatrix v =>
    simp only [TransferObj.assign] at h ⊢
    split_ifs at h ⊢
    simp [TAssign.writesPeriod, TAssign.writesMethod, TAssign.writesMatrix, TAssign.writesPrewarp]
  | prewarpFrequency v =>
    simp only [TransferObj.assign] at h ⊢
    split_ifs at h ⊢
    cases hd : S.g.dt with
    | none => rw [hd] at h; cases h
    | some t =>
      rw [hd] at h
      simp only at h ⊢
      split_ifs at h ⊢
      simp [TAssign.writesPeriod, TAssign.writesMethod, TAssign.writesMatrix, TAssign.writesPrewarp]

theorem tassign_keeps (S : TransferObj K P) (x : TAssign K) (h : (S.assign E N x).2 ≠ none ∨ x.writesPeriod = none) :
    (S.assign E N x).1.g.dt = S.g.dt := by
  cases x with
  | num v =>
    simp only [TransferObj.assign]
    split
    · rfl
    · split_ifs
      · rfl
      · rw [(TransferObj.recalc_g E N _).1]
  | den v =>
    simp only [TransferObj.assign]
    split
    · rfl
    · split_ifs
      · rfl
      · rw [(TransferObj.recalc_g E N _).1]
  | samplingPeriod v =>
    cases v with
    | none => simp [TransferObj.assign, TAssign.writesPeriod] at h
    | some t =>
      simp only [TransferObj.assign, TAssign.writesPeriod] at h ⊢
      split_ifs at h ⊢
      · rfl
      · simp at h
  | discretizedWith v => simp only [TransferObj.assign]; split_ifs <;> rfl
  | discretizationMatrix v => simp only [TransferObj.assign]; split_ifs <;> rfl
  | prewarpFrequency v =>
    simp only [TransferObj.assign]
    split_ifs
    · split
      · rfl
      · split_ifs <;> rfl
    · rfl

theorem tassign_keeps' (S : TransferObj K P) (x : TAssign K) :
    ((S.assign E N x).2 ≠ none ∨ x.writesMethod = none → (S.assign E N x).1.discWith = S.discWith) ∧
    ((S.assign E N x).2 ≠ none ∨ x.writesMatrix = none → (S.assign E N x).1.discMat = S.discMat) ∧
    ((S.assign E N x).2 ≠ none ∨ x.writesPrewarp = none → (S.assign E N x).1.prewarp = S.prewarp) ∧ (S.assign E N x).1.shape = S.shape := by
  cases x with
  | num v =>
    simp only [TransferObj.assign]
    split
    · simp
    · split_ifs
      · simp
      · obtain ⟨-, e2, e3, e4, e5⟩ := TransferObj.recalc_g E N { S with g := { S.g with num := _ } }
        rw [e2, e3, e4, e5]; simp
  | den v =>
    simp only [TransferObj.assign]
    split
    · simp
    · split_ifs
      · simp
      · obtain ⟨-, e2, e3, e4, e5⟩ := TransferObj.recalc_g E N { S with g := { S.g with den := _ } }
        rw [e2, e3, e4, e5]; simp
  | samplingPeriod v =>
    cases v with
    | none => simp [TransferObj.assign]
    | some t => simp only [TransferObj.assign]; split_ifs <;> simp
  | discretizedWith v => simp only [TransferObj.assign, TAssign.writesMethod]; split_ifs <;> simp
  | discretizationMatrix v => simp only [TransferObj.assign, TAssign.writesMatrix]; split_ifs <;> simp
  | prewarpFrequency v =>
    simp only [TransferObj.assign, TAssign.writesPrewarp]
    split_ifs
    · split
      · simp
      · split_ifs <;> simp
    · simp

/-- **C87** for `Transfer`: after every history of assignments, `SamplingPeriod` reads the last accepted value. While the model is discrete, `DiscretizedWith` reads the last accepted method,
`DiscretizationMatrix` the last accepted matrix if the method is `'lft'`, `PrewarpFrequency` the last accepted frequency if the method is the bilinear map; otherwise they read `None`. -/
theorem C87_transfer (S : TransferObj K P) (hist : List (TAssign K)) :
    ReadsBack (fun v x => x = v) (lastWrite TAssign.writesPeriod (accepted (TransferObj.assign E N) S hist)) S.g.dt (S.run E N hist).g.dt ∧
    (∃ method, ReadsBack (fun v x => x = some v) (lastWrite TAssign.writesMethod (accepted (TransferObj.assign E N) S hist)) S.discWith method ∧
      ((S.run E N hist).g.dt ≠ none → (S.run E N hist).discretizedWith = method)) ∧
    (∃ q, ReadsBack (fun v x => x = some v) (lastWrite TAssign.writesMatrix (accepted (TransferObj.assign E N) S hist)) S.discMat q ∧
      ((S.run E N hist).discretizedWith = some "lft" → (S.run E N hist).discretizationMatrix = q)) ∧
    (∃ w, ReadsBack (fun v x => x = v) (lastWrite TAssign.writesPrewarp (accepted (TransferObj.assign E N) S hist)) S.prewarp w ∧
      ((∃ s ∈ ["tustin", "bilinear", "trapezoidal"], (S.run E N hist).discretizedWith = some s) → (S.run E N hist).prewarpFrequency = some w)) := by
  have hR : ∀ o : Option K, samplingSet o = "R" ↔ o = none := by intro o; cases o <;> simp [samplingSet]
  refine ⟨?_, ⟨(S.run E N hist).discWith, ?_, ?_⟩, ⟨(S.run E N hist).discMat, ?_, ?_⟩, ⟨(S.run E N hist).prewarp, ?_, ?_⟩⟩
  · exact reads_back (TransferObj.assign E N) (fun S => S.g.dt) TAssign.writesPeriod (fun v x => x = v) (fun s x v h => (tassign_attrs E N s x h).1 v)
      (fun s x _ h => tassign_keeps E N s x (.inr h)) (fun s x h => tassign_keeps E N s x (.inl h)) S hist
  · exact reads_back (TransferObj.assign E N) (fun S => S.discWith) TAssign.writesMethod (fun v x => x = some v) (fun s x v h => (tassign_attrs E N s x h).2.1 v)
      (fun s x _ h => (tassign_keeps' E N s x).1 (.inr h)) (fun s x h => (tassign_keeps' E N s x).1 (.inl h)) S hist
  · intro h
    unfold TransferObj.discretizedWith
    split_ifs with h1
    · rcases h1 with h1 | h1
      · exact absurd ((hR _).mp h1) h
      · exact h1.symm
    · rfl
  · exact reads_back (TransferObj.assign E N) (fun S => S.discMat) TAssign.writesMatrix (fun v x => x = some v) (fun s x v h => (tassign_attrs E N s x h).2.2.1 v)
      (fun s x _ h => (tassign_keeps' E N s x).2.1 (.inr h)) (fun s x h => (tassign_keeps' E N s x).2.1 (.inl h)) S hist
  · intro h
    have h' := h
    unfold TransferObj.discretizedWith at h'
    unfold TransferObj.discretizationMatrix
    rw [if_neg]
    rintro (h1 | h1)
    · rw [if_pos (.inl h1)] at h'; cases h'
    · exact h1 h
  · exact reads_back (TransferObj.assign E N) (fun S => S.prewarp) TAssign.writesPrewarp (fun v x => x = v) (fun s x v h => (tassign_attrs E N s x h).2.2.2 v)
      (fun s x _ h => (tassign_keeps' E N s x).2.2.1 (.inr h)) (fun s x h => (tassign_keeps' E N s x).2.2.1 (.inl h)) S hist
  · rintro ⟨s, hs, h⟩
    have h' := h
    unfold TransferObj.discretizedWith at h'
    unfold TransferObj.prewarpFrequency
    rw [if_neg]
    rintro (h1 | h1)
    · rw [if_pos (.inl h1)] at h'; cases h'
    · rw [h] at h1; exact h1 hs

/-- **C87** for `Transfer`: a continuous time model reports no discretization method, matrix or frequency, whatever happened before; the matrix is reported for `'lft'` only and the frequency for
the bilinear map only; the sizes never change. -/
theorem C87_transfer_continuous (S : TransferObj K P) (hist : List (TAssign K)) :
    ((S.run E N hist).g.dt = none → (S.run E N hist).discretizedWith = none ∧ (S.run E N hist).discretizationMatrix = none ∧ (S.run E N hist).prewarpFrequency = none) ∧
    ((S.run E N hist).discretizedWith ≠ some "lft" → (S.run E N hist).discretizationMatrix = none) ∧
    ((∀ s ∈ ["tustin", "bilinear", "trapezoidal"], (S.run E N hist).discretizedWith ≠ some s) → (S.run E N hist).prewarpFrequency = none) ∧
    (S.run E N hist).size = S.size := by
  have hR : ∀ o : Option K, samplingSet o = "R" ↔ o = none := by intro o; cases o <;> simp [samplingSet]
  refine ⟨fun h => ⟨?_, ?_, ?_⟩, fun h => ?_, fun h => ?_, ?_⟩
  · unfold TransferObj.discretizedWith; rw [if_pos (.inl ((hR _).mpr h))]
  · unfold TransferObj.discretizationMatrix; rw [if_pos (.inl ((hR _).mpr h))]
  · unfold TransferObj.prewarpFrequency; rw [if_pos (.inl ((hR _).mpr h))]
  · unfold TransferObj.discretizationMatrix; rw [if_pos (.inr h)]
  · unfold TransferObj.prewarpFrequency
    rw [if_pos]
    right
    intro h'
    cases hd : (S.run E N hist).discretizedWith with
    | none => rw [hd] at h'; revert h'; decide
    | some s => rw [hd] at h'; exact h s h' hd
  · unfold TransferObj.run TransferObj.size
    induction hist generalizing S with
    | nil => rfl
    | cons x l ih => rw [List.foldl_cons, ih, (tassign_keeps' E N S x).2.2.2]

/-- **C87**: assignments to `SamplingPeriod` and to the discretization attributes do not touch the polynomials of a `Transfer`. -/
theorem C87_transfer_frame (S : TransferObj K P) (hist : List (TAssign K)) (h : ∀ x ∈ hist, (∀ v, x ≠ .num v) ∧ ∀ v, x ≠ .den v) :
    (S.run E N hist).polynomials = S.polynomials := by
  unfold TransferObj.run TransferObj.polynomials
  induction hist generalizing S with
  | nil => rfl
  | cons x l ih =>
    rw [List.foldl_cons, ih _ fun y hy => h y (by simp [hy])]
    have hx := h x (by simp)
    cases x with
    | num v => exact absurd rfl (hx.1 v)
    | den v => exact absurd rfl (hx.2 v)
    | samplingPeriod v => cases v <;> simp only [TransferObj.assign] <;> (try split_ifs) <;> rfl
    | discretizedWith v => simp only [TransferObj.assign]; split_ifs <;> rfl
    | discretizationMatrix v => simp only [TransferObj.assign]; split_ifs <;> rfl
    | prewarpFrequency v =>
      simp only [TransferObj.assign]
      split_ifs
      · split
        · rfl
        · split_ifs <;> rfl
      · rfl

/-- **C87** for the sizes of a `Transfer`: over every history of assignments to a constructed model `NumberOfOutputs` and `NumberOfInputs` are the numbers of rows and columns of the polynomial arrays
returned by `polynomials`. -/
theorem C87_transfer_sizes {num den : TArg K} {dt : Option K} {S : TransferObj K P} (h : TransferObj.init E N num den dt = .ok S) (hist : List (TAssign K)) :
    ((S.run E N hist).polynomials.1.r, (S.run E N hist).polynomials.1.c) = (S.run E N hist).size ∧
    ((S.run E N hist).polynomials.2.r, (S.run E N hist).polynomials.2.c) = (S.run E N hist).size := by
  obtain ⟨h1, h2, h3, -⟩ := C63_shape E N h hist
  unfold TransferObj.size TransferObj.polynomials
  rw [h1]
  exact ⟨h2, h3⟩

example (E : TNum ℚ) (hist : List (TAssign ℚ)) : ((lagTObj.run E num1 hist).polynomials.1.r, (lagTObj.run E num1 hist).polynomials.1.c) = (1, 1) := by
  rw [(C87_transfer_sizes E num1 (lagTObj_init E) hist).1, (C87_transfer_continuous E num1 lagTObj hist).2.2.2]
  rfl

/-- **C87** for the sizes of a `State` after construction: `NumberOfOutputs` and `NumberOfInputs` are the numbers of rows and columns of the feedthrough matrix returned by `matrices`. -/
theorem C87_state_sizes_initial {a b c d : Option (Arr K)} {dt : Option K} {S : StateObj K P} (h : StateObj.init N a b c d dt = .ok S) :
    (S.matrices.2.2.2.r, S.matrices.2.2.2.c) = S.size := by
  obtain ⟨g, -, h⟩ := bind_ok h
  injection h with h
  subst h
  rfl

example : (lag2Obj.matrices.2.2.2.r, lag2Obj.matrices.2.2.2.c) = lag2Obj.size := C87_state_sizes_initial num1 lag2Obj_init

theorem one_not : ¬ (1 : ℚ) ≤ 0 := by decide +kernel

/-- A history that exercises the theorems: a period, a method, an interconnection, a rejected period, back to continuous time. -/
def sampleHist : List (Assign ℚ) :=
  [.samplingPeriod (some 1), .discretizedWith "lft", .discretizationMatrix (Arr.of !![1, 1; 1, 1/2]), .samplingPeriod (some (-1)), .samplingPeriod none]

example : accepted (StateObj.assign num1) lag2Obj sampleHist =
      [.samplingPeriod (some 1), .discretizedWith "lft", .discretizationMatrix (Arr.of !![1, 1; 1, 1/2]), .samplingPeriod none] := by
  simp [sampleHist, accepted, StateObj.assign, lag2Obj, knownMethods, one_not]

/-- **C87** fails for `State`: a model that was discretized and is made continuous by `G.SamplingPeriod = None` still reports a discretization method and matrix (a `Transfer` does not). -/
theorem C87_state_continuous_violated : ∃ S : StateObj ℚ ℚ, StateObj.init num1 (some (Arr.of !![-2])) (some (Arr.of !![1])) (some (Arr.of !![1])) (some (Arr.of !![0])) none = .ok S ∧
    ∃ hist : List (Assign ℚ), (S.run num1 hist).g.dt = none ∧ (S.run num1 hist).discretizedWith = some "lft" ∧
      (S.run num1 hist).discretizationMatrix = some (Arr.of !![1, 1; 1, 1/2]) :=
  ⟨lag2Obj, lag2Obj_init, sampleHist, by
    simp [sampleHist, StateObj.run, StateObj.assign, lag2Obj, knownMethods, one_not], by
    simp [sampleHist, StateObj.run, StateObj.assign, lag2Obj, knownMethods, one_not, StateObj.discretizedWith], by
    simp [sampleHist, StateObj.run, StateObj.assign, lag2Obj, knownMethods, one_not, StateObj.discretizationMatrix]⟩

end Harold
