import Verif.Model.StateObj
import Verif.Props.StateAlgebra

/-!
# C12-C14: construction of `State` objects and histories of property assignments
-/

namespace Harold

open Matrix Spec

variable {K P : Type} [Field K] [LinearOrder K]

/-! ## C12: construction -/

/-- Specification of a fitting quadruple. `b` may be given as a row if there is one input, `d` may
be given as a row if there is one input; an omitted `d` is zero. `n`, `m`, `p` are the numbers of
states, inputs, outputs; `A`, `B`, `C`, `D` the matrices the user means. -/
def Spec.Fits {K : Type} [Zero K] (a b c : Arr K) (d : Option (Arr K)) (n m p : ℕ)
    (A : Matrix (Fin n) (Fin n) K) (B : Matrix (Fin n) (Fin m) K) (C : Matrix (Fin p) (Fin n) K)
    (D : Matrix (Fin p) (Fin m) K) : Prop :=
  a = Arr.of A ∧ c = Arr.of C ∧
  (b = Arr.of B ∨ (m = 1 ∧ n ≠ 1 ∧ b = Arr.of Bᵀ)) ∧
  ((d = none ∧ D = 0) ∨ d = some (Arr.of D) ∨ (m = 1 ∧ p ≠ 1 ∧ d = some (Arr.of Dᵀ)))


theorem checkDt_ok_iff {dt dt' : Option K} : checkDt dt = .ok dt' ↔ DtOk dt ∧ dt' = dt := by
  constructor
  · intro h
    cases dt with
    | none =>
      refine ⟨fun t h => by simp at h, ?_⟩
      simpa [checkDt] using h.symm
    | some t =>
      by_cases ht : t ≤ 0
      · simp [checkDt, ht] at h
      · refine ⟨fun t' h' => by simp at h'; subst h'; exact not_le.mp ht, ?_⟩
        simpa [checkDt, ht] using h.symm
  · rintro ⟨h, rfl⟩
    exact checkDt_ok h

omit [Field K] [LinearOrder K] in
theorem Arr.exists_cols {x : Arr K} {n : ℕ} (h : x.c = n) :
    ∃ (p : ℕ) (C : Matrix (Fin p) (Fin n) K), x = Arr.of C := by
  subst h; exact ⟨x.r, x.m, rfl⟩

omit [Field K] [LinearOrder K] in
theorem Arr.exists_rows {x : Arr K} {n : ℕ} (h : x.r = n) :
    ∃ (m : ℕ) (C : Matrix (Fin n) (Fin m) K), x = Arr.of C := by
  subst h; exact ⟨x.c, x.m, rfl⟩

omit [Field K] [LinearOrder K] in
theorem Arr.exists_square {x : Arr K} (h : x.r = x.c) :
    ∃ (n : ℕ) (A : Matrix (Fin n) (Fin n) K), x = Arr.of A := by
  obtain ⟨A, hA⟩ := Arr.exists_of (x := x) rfl h.symm
  exact ⟨_, A, hA⟩

/-- The part of `validateState` after `b` has been put into shape. -/
theorem validateState_of_shaped {n m : ℕ} (A : Matrix (Fin n) (Fin n) K)
    (B : Matrix (Fin n) (Fin m) K) (b c : Arr K) (d : Option (Arr K))
    (hb : b = Arr.of B ∨ (m = 1 ∧ n ≠ 1 ∧ b = Arr.of Bᵀ))
    (R : Arr K × Arr K × Arr K × Arr K × Bool) :
    validateState (some (Arr.of A)) (some b) (some c) d = .ok R ↔
      ∃ (p : ℕ) (C : Matrix (Fin p) (Fin n) K) (D : Matrix (Fin p) (Fin m) K), c = Arr.of C ∧
        ((d = none ∧ D = 0) ∨ d = some (Arr.of D) ∨ (m = 1 ∧ p ≠ 1 ∧ d = some (Arr.of Dᵀ))) ∧
        R = (Arr.of A, Arr.of B, Arr.of C, Arr.of D, false) := by
  have key : validateState (some (Arr.of A)) (some b) (some c) d =
      (if c.c ≠ n then .error .value
        else
          let d' := if d.isNone then Arr.zeros c.r m else d.getD Arr.empty
          if d'.r = c.r ∧ d'.c = m then .ok (Arr.of A, Arr.of B, c, d', false)
          else if d'.r = 1 ∧ (d'.r = m ∧ d'.c = c.r) then .ok (Arr.of A, Arr.of B, c, d'.T, false)
          else .error .value) := by
    rcases hb with rfl | ⟨rfl, hn, rfl⟩
    · simp [validateState]
    · have : ¬ (1 = n) := fun h => hn h.symm
      simp [validateState, this, Arr.T_of]
  rw [key]
  constructor
  · intro h
    by_cases hc : c.c = n
    swap
    · simp [hc] at h
    obtain ⟨p, C, rfl⟩ := Arr.exists_cols hc
    refine ⟨p, C, ?_⟩
    cases d with
    | none =>
      simp [Arr.zeros] at h
      exact ⟨0, rfl, Or.inl ⟨rfl, rfl⟩, h.symm⟩
    | some d =>
      simp only [Arr.of_c, ne_eq, not_true_eq_false, if_false, Option.isNone_some,
        Bool.false_eq_true, Option.getD_some, Arr.of_r] at h
      split_ifs at h with h1 h2
      · obtain ⟨D, rfl⟩ := Arr.exists_of h1.1 h1.2
        injection h with h
        exact ⟨D, rfl, Or.inr (Or.inl rfl), h.symm⟩
      · obtain ⟨h2, h3, h4⟩ := h2
        have hm : m = 1 := by omega
        subst hm
        obtain ⟨E, rfl⟩ := Arr.exists_of h2 h4
        injection h with h
        refine ⟨Eᵀ, rfl, Or.inr (Or.inr ⟨rfl, ?_, by simp⟩), h.symm⟩
        intro h5
        simp only [Arr.of_r, Arr.of_c] at h1
        omega
  · rintro ⟨p, C, D, rfl, hd, rfl⟩
    rcases hd with ⟨rfl, rfl⟩ | rfl | ⟨rfl, hp, rfl⟩
    · simp [Arr.zeros]
    · simp
    · have : ¬ (1 = p) := fun h => hp h.symm
      simp [this, Arr.T_of]

theorem validateState_ok_iff (a b c : Arr K) (d : Option (Arr K))
    (R : Arr K × Arr K × Arr K × Arr K × Bool) :
    validateState (some a) (some b) (some c) d = .ok R ↔
      ∃ n m p A B C D, Fits a b c d n m p A B C D ∧
        R = (Arr.of A, Arr.of B, Arr.of C, Arr.of D, false) := by
  constructor
  · intro h
    by_cases ha : a.r = a.c
    swap
    · simp [validateState, ha] at h
    obtain ⟨n, A, rfl⟩ := Arr.exists_square ha
    by_cases hb : b.r = n
    · obtain ⟨m, B, rfl⟩ := Arr.exists_rows hb
      obtain ⟨p, C, D, hc, hd, hR⟩ :=
        (validateState_of_shaped A B _ c d (Or.inl rfl) R).mp h
      exact ⟨_, _, p, A, B, C, D, ⟨rfl, hc, Or.inl rfl, hd⟩, hR⟩
    · by_cases hb1 : b.r = 1 ∧ b.c = n
      · obtain ⟨E, rfl⟩ := Arr.exists_of hb1.1 hb1.2
        have hb2 : Arr.of E = Arr.of (Eᵀ)ᵀ := by simp
        have hn : n ≠ 1 := fun h => hb (by simp [h])
        obtain ⟨p, C, D, hc, hd, hR⟩ :=
          (validateState_of_shaped A Eᵀ _ c d (Or.inr ⟨rfl, hn, hb2⟩) R).mp h
        exact ⟨_, _, p, A, Eᵀ, C, D, ⟨rfl, hc, Or.inr ⟨rfl, hn, hb2⟩, hd⟩, hR⟩
      · simp only [validateState] at h
        simp [hb, hb1] at h
  · rintro ⟨n, m, p, A, B, C, D, ⟨rfl, hc, hb, hd⟩, hR⟩
    exact (validateState_of_shaped A B b c d hb R).mpr ⟨p, C, D, hc, hd, hR⟩

theorem validateState_getD (a b c d : Option (Arr K))
    (h : ¬ ((b = none ∧ c = none ∧ d = none) ∨ (a = none ∧ b = none ∧ c = none))) :
    validateState a b c d =
      validateState (some (a.getD Arr.empty)) (some (b.getD Arr.empty)) (some (c.getD Arr.empty)) d := by
  have h1 : (b.isNone && c.isNone && d.isNone) = false := by
    cases b <;> cases c <;> cases d <;> simp_all
  have h2 : (a.isNone && b.isNone && c.isNone) = false := by
    cases a <;> cases b <;> cases c <;> simp_all
  simp only [validateState, h1, h2, Option.isNone_some, Bool.false_and, Option.getD_some]

theorem validateState_error {a b c d : Option (Arr K)} {e : Err}
    (h : validateState a b c d = .error e) : e = .value := by
  by_contra hne
  have hv : e ≠ .value := hne
  simp only [validateState] at h
  repeat' split at h
  all_goals first | (simp only [Except.error.injEq] at h; exact hne h.symm) | simp at h | skip
  rename_i heq
  split_ifs at heq
  simp only [Except.error.injEq] at heq
  exact hv (by rw [← h, ← heq])

theorem mkState_ok_iff (a b c d : Option (Arr K)) (dt : Option K) (R : StateM K) :
    mkState a b c d dt = .ok R ↔ DtOk dt ∧ R.dt = dt ∧
      validateState a b c d = .ok (R.a, R.b, R.c, R.d, R.isgain) := by
  constructor
  · intro h
    obtain ⟨⟨a', b', c', d', g⟩, hr, h2⟩ := bind_ok h
    obtain ⟨dt', hdt, h3⟩ := bind_ok h2
    obtain ⟨hdt', rfl⟩ := checkDt_ok_iff.mp hdt
    simp only [Except.ok.injEq] at h3
    subst h3
    exact ⟨hdt', rfl, hr⟩
  · rintro ⟨hdt, rfl, hf⟩
    simp [mkState, hf, bind, Except.bind, checkDt_ok hdt]

/-- **C12**: `State(a, b, c, d, dt)` with `a, b, c` given (and `d` given or not) succeeds exactly
when the quadruple fits and the sampling period is `None` or positive, and the object then holds
the matrices the user means. -/
theorem C12_construct (a b c : Arr K) (d : Option (Arr K)) (dt : Option K) (R : StateM K) :
    mkState (some a) (some b) (some c) d dt = .ok R ↔
      DtOk dt ∧ ∃ n m p A B C D, Fits a b c d n m p A B C D ∧
        R = ⟨Arr.of A, Arr.of B, Arr.of C, Arr.of D, dt, false⟩ := by
  rw [mkState_ok_iff, validateState_ok_iff]
  constructor
  · rintro ⟨hdt, h1, n, m, p, A, B, C, D, hf, h2⟩
    refine ⟨hdt, n, m, p, A, B, C, D, hf, ?_⟩
    obtain ⟨a, b, c, d, dt, g⟩ := R
    simp only [Prod.mk.injEq] at h1 h2
    obtain ⟨rfl, rfl, rfl, rfl, rfl⟩ := h2
    rw [← h1]
  · rintro ⟨hdt, n, m, p, A, B, C, D, hf, rfl⟩
    exact ⟨hdt, rfl, n, m, p, A, B, C, D, hf, rfl⟩

example : Fits (Arr.of (!![1, 2; 3, 4] : Matrix (Fin 2) (Fin 2) ℚ))
    (Arr.of (!![5, 6] : Matrix (Fin 1) (Fin 2) ℚ)) (Arr.of (!![7, 8] : Matrix (Fin 1) (Fin 2) ℚ))
    none 2 1 1 !![1, 2; 3, 4] !![5; 6] !![7, 8] 0 := by
  refine ⟨rfl, rfl, Or.inr ⟨rfl, by decide, ?_⟩, Or.inl ⟨rfl, rfl⟩⟩
  congr 1
  ext i j; fin_cases i; fin_cases j <;> rfl

/-- **C12**: a single matrix, or only `d`, makes a static gain; every matrix is accepted. -/
theorem C12_gain (x : Arr K) (dt : Option K) (hdt : DtOk dt) :
    mkState (some x) none none none dt
        = .ok ⟨Arr.empty, Arr.empty, Arr.empty, x, dt, true⟩ ∧
    mkState none none none (some x) dt
        = .ok ⟨Arr.empty, Arr.empty, Arr.empty, x, dt, true⟩ := by
  refine ⟨mkGain_of hdt x, ?_⟩
  simp [mkState, validateState, checkDt_ok hdt, bind, Except.bind]

example : DtOk (some (1 / 10 : ℚ)) := by rintro t ⟨⟩; norm_num

/-- **C12**, all cases of omitted arguments: whatever is given, a constructed object is consistent
and its sampling period is `None` or positive; an omitted `b` or `c` counts as an empty `0 × 0`
matrix, so it is only accepted for a model without states. -/
theorem C12_consistent (a b c d : Option (Arr K)) (dt : Option K) (R : StateM K)
    (h : mkState a b c d dt = .ok R) :
    Consistent R R.d.r R.d.c ∧ DtOk R.dt ∧ R.dt = dt ∧
      (R.isgain = true ↔ (b = none ∧ c = none ∧ d = none) ∨ (a = none ∧ b = none ∧ c = none)) ∧
      (R.isgain = true → R.d = ((a.orElse fun _ => d).getD Arr.empty)) := by
  obtain ⟨hdt, rfl, hv⟩ := (mkState_ok_iff a b c d dt R).mp h
  clear h
  rename' hv => h
  refine ⟨?_, hdt, rfl, ?_⟩
  · by_cases hg : (b = none ∧ c = none ∧ d = none) ∨ (a = none ∧ b = none ∧ c = none)
    · have : R.isgain = true := by
        rcases hg with ⟨rfl, rfl, rfl⟩ | ⟨rfl, rfl, rfl⟩
        · simp [validateState] at h
          simp [← h.2.2.2.2]
        · cases d <;> simp [validateState] at h <;> simp [← h.2.2.2.2]
      exact ⟨⟨rfl, rfl⟩, by simp [this]⟩
    · rw [validateState_getD a b c d hg, validateState_ok_iff] at h
      obtain ⟨n, m, p, A, B, C, D, -, h⟩ := h
      simp only [Prod.mk.injEq] at h
      obtain ⟨h1, h2, h3, h4, h5⟩ := h
      refine ⟨⟨rfl, rfl⟩, fun _ => ?_⟩
      simp [h1, h2, h3, h4]
  · by_cases hg : (b = none ∧ c = none ∧ d = none) ∨ (a = none ∧ b = none ∧ c = none)
    · simp only [hg, iff_true]
      rcases hg with ⟨rfl, rfl, rfl⟩ | ⟨rfl, rfl, rfl⟩
      · simp [validateState] at h
        refine ⟨h.2.2.2.2, fun _ => ?_⟩
        rw [← h.2.2.2.1]; cases a <;> rfl
      · cases d <;> simp [validateState] at h <;>
          exact ⟨h.2.2.2.2, fun _ => by rw [← h.2.2.2.1]; rfl⟩
    · rw [validateState_getD a b c d hg, validateState_ok_iff] at h
      obtain ⟨n, m, p, A, B, C, D, -, h⟩ := h
      simp only [Prod.mk.injEq] at h
      simp [h.2.2.2.2, hg]

example : mkState (some (Arr.of !![-1])) (some (Arr.of !![1])) (some (Arr.of !![1]))
    (some (Arr.of !![0])) (none : Option ℚ) = .ok lag := mkState_of dtOk_none _ _ _ _

/-- **C12**: everything else is a `ValueError`. -/
theorem C12_error (a b c d : Option (Arr K)) (dt : Option K) (e : Err)
    (h : mkState a b c d dt = .error e) : e = .value := by
  cases hv : validateState a b c d with
  | ok r =>
    simp only [mkState, hv, bind, Except.bind] at h
    cases dt with
    | none => simp [checkDt] at h
    | some t =>
      by_cases ht : t ≤ 0
      · simpa [checkDt, ht] using h.symm
      · simp [checkDt, ht] at h
  | error e' =>
    simp only [mkState, hv, bind, Except.bind, Except.error.injEq] at h
    subst h
    exact validateState_error hv

example : mkState (some (Arr.of !![1, 2])) (some (Arr.of !![1])) none none (none : Option ℚ)
    = .error .value := by
  simp [mkState, validateState, bind, Except.bind]


/-! ## C13: histories of assignments -/

variable (N : Numerics K P)

theorem StateObj.recalc_g (S : StateObj K P) : (S.recalc N).g = S.g := rfl
theorem StateObj.recalc_shape (S : StateObj K P) : (S.recalc N).shape = S.shape := rfl

/-- The attempted assignment does not empty a static gain: assigning `None` or a `0 × 0` array to
`d`. -/
def Assign.emptiesD {K : Type} : Assign K → Prop
  | .d none => True
  | .d (some x) => x.r = 0 ∧ x.c = 0
  | _ => False

/-- The two objects have matrices of equal shapes, equal gain flags and equal recorded shapes. -/
def Spec.SameShape {K P : Type} (S T : StateObj K P) : Prop :=
  T.g.isgain = S.g.isgain ∧ T.shape = S.shape ∧ T.g.a.shape = S.g.a.shape ∧
  T.g.b.shape = S.g.b.shape ∧ T.g.c.shape = S.g.c.shape ∧ T.g.d.shape = S.g.d.shape

/-- What is kept: the recorded shape describes the stored matrices, the sampling period is `None`
or positive, and a static gain has no state space matrices. -/
def Spec.Inv (S : StateObj K P) : Prop :=
  Consistent S.g S.shape.1 S.shape.2 ∧ DtOk S.g.dt ∧
  (S.g.isgain = true → S.g.a.shape = (0, 0) ∧ S.g.b.shape = (0, 0) ∧ S.g.c.shape = (0, 0))

theorem inv_init {a b c d : Option (Arr K)} {dt : Option K} {S : StateObj K P}
    (h : StateObj.init N a b c d dt = .ok S) : Inv S := by
  obtain ⟨g, hg, h⟩ := bind_ok h
  simp only [Except.ok.injEq] at h
  subst h
  have h1 := C12_consistent a b c d dt g hg
  refine ⟨h1.1, h1.2.1, fun hgain => ?_⟩
  obtain ⟨-, -, hv⟩ := (mkState_ok_iff a b c d dt g).mp hg
  rcases h1.2.2.2.1.mp hgain with ⟨rfl, rfl, rfl⟩ | ⟨rfl, rfl, rfl⟩
  · simp only [validateState, Option.isNone_none, Bool.and_true, if_true, Except.ok.injEq,
      Prod.mk.injEq] at hv
    obtain ⟨h1, h2, h3, -⟩ := hv
    simp [StateObj.recalc, ← h1, ← h2, ← h3, Arr.shape, Arr.empty]
  · cases d <;> simp [validateState] at hv <;> obtain ⟨h1, h2, h3, -⟩ := hv <;>
      simp [StateObj.recalc, ← h1, ← h2, ← h3, Arr.shape, Arr.empty]

theorem assign_rejected (S : StateObj K P) (x : Assign K) (e : Err)
    (h : (S.assign N x).2 = some e) : (S.assign N x).1 = S := by
  cases x with
  | a v => simp only [StateObj.assign] at h ⊢; split <;> simp_all
  | b v => simp only [StateObj.assign] at h ⊢; split <;> simp_all
  | c v => simp only [StateObj.assign] at h ⊢; split <;> simp_all
  | d v => simp only [StateObj.assign] at h ⊢; split <;> simp_all
  | samplingPeriod v =>
    cases v with
    | none => simp [StateObj.assign] at h
    | some t => simp only [StateObj.assign] at h ⊢; split <;> simp_all
  | discretizedWith m => simp only [StateObj.assign] at h ⊢; split_ifs <;> simp_all
  | discretizationMatrix q => simp only [StateObj.assign] at h ⊢; split_ifs <;> simp_all
  | prewarpFrequency w =>
    simp only [StateObj.assign] at h ⊢
    split_ifs at h ⊢ with h1
    · rcases hdt : S.g.dt with _ | t
      · simp
      · simp only [hdt] at h ⊢
        split_ifs at h ⊢ <;> simp_all
    · rfl

theorem validateState_shapes {a b c d : Option (Arr K)}
    {r : Arr K × Arr K × Arr K × Arr K × Bool} (h : validateState a b c d = .ok r)
    (hg : ¬ ((b = none ∧ c = none ∧ d = none) ∨ (a = none ∧ b = none ∧ c = none))) :
    ∃ n m p : ℕ, (r.1.shape = (n, n) ∧ r.2.1.shape = (n, m) ∧ r.2.2.1.shape = (p, n) ∧
      r.2.2.2.1.shape = (p, m)) ∧
      (∀ x, a = some x → x.shape = (n, n)) ∧ (∀ x, c = some x → x.shape = (p, n)) ∧
      (∀ x, b = some x → x.shape = (n, m) ∨ (m = 1 ∧ n ≠ 1 ∧ x.shape = (1, n))) ∧
      (∀ x, d = some x → x.shape = (p, m) ∨ (m = 1 ∧ p ≠ 1 ∧ x.shape = (1, p))) := by
  rw [validateState_getD a b c d hg, validateState_ok_iff] at h
  obtain ⟨n, m, p, A, B, C, D, ⟨ha, hc, hb, hd⟩, rfl⟩ := h
  refine ⟨n, m, p, ⟨rfl, rfl, rfl, rfl⟩, ?_, ?_, ?_, ?_⟩
  · rintro x rfl; simp only [Option.getD_some] at ha; rw [ha]; rfl
  · rintro x rfl; simp only [Option.getD_some] at hc; rw [hc]; rfl
  · rintro x rfl
    simp only [Option.getD_some] at hb
    rcases hb with rfl | ⟨h1, h2, rfl⟩
    · exact Or.inl rfl
    · subst h1; exact Or.inr ⟨rfl, h2, rfl⟩
  · rintro x rfl
    rcases hd with ⟨h, -⟩ | h | ⟨h1, h2, h⟩
    · simp at h
    · simp only [Option.some.injEq] at h; subst h; exact Or.inl rfl
    · simp only [Option.some.injEq] at h; subst h; subst h1; exact Or.inr ⟨rfl, h2, rfl⟩

/-- The shapes of the matrices as one of the two kinds of consistent objects. -/
theorem inv_cases {S : StateObj K P} (h : Inv S) :
    (S.g.isgain = false ∧ ∃ n, S.g.a.shape = (n, n) ∧ S.g.b.shape = (n, S.shape.2) ∧
        S.g.c.shape = (S.shape.1, n) ∧ S.g.d.shape = S.shape) ∨
    (S.g.isgain = true ∧ S.g.a.shape = (0, 0) ∧ S.g.b.shape = (0, 0) ∧ S.g.c.shape = (0, 0) ∧
        S.g.d.shape = S.shape) := by
  obtain ⟨⟨⟨h1, h2⟩, h3⟩, -, h4⟩ := h
  have hd : S.g.d.shape = S.shape := by ext <;> simp [Arr.shape, h1, h2]
  cases hg : S.g.isgain with
  | false =>
    obtain ⟨e1, e2, e3, e4, e5⟩ := h3 hg
    exact Or.inl ⟨rfl, S.g.a.r, by simp [Arr.shape, ← e1], by simp [Arr.shape, e2, e3],
      by simp [Arr.shape, e4, e5], hd⟩
  | true => exact Or.inr ⟨rfl, (h4 hg).1, (h4 hg).2.1, (h4 hg).2.2, hd⟩

theorem inv_of_sameShape {S T : StateObj K P} (h : Inv S) (hs : SameShape S T)
    (hdt : DtOk T.g.dt) : Inv T := by
  obtain ⟨e1, e2, e3, e4, e5, e6⟩ := hs
  simp only [Arr.shape, Prod.mk.injEq] at e3 e4 e5 e6
  obtain ⟨⟨⟨h1, h2⟩, h3⟩, -, h4⟩ := h
  refine ⟨⟨⟨?_, ?_⟩, ?_⟩, hdt, ?_⟩
  · rw [e6.1, h1, e2]
  · rw [e6.2, h2, e2]
  · rw [e1, e2, e3.1, e3.2, e4.1, e4.2, e5.1, e5.2]; exact h3
  · simp only [Arr.shape, e1, e3.1, e3.2, e4.1, e4.2, e5.1, e5.2]; exact h4

theorem Arr.zerosLike_shape (x : Arr K) : x.zerosLike.shape = x.shape := rfl

theorem assign_sameShape {S : StateObj K P} (h : Inv S) (x : Assign K)
    (hg : S.g.isgain = true → (0 < S.shape.1 ∧ 0 < S.shape.2) ∧ ¬ x.emptiesD) :
    SameShape S (S.assign N x).1 := by
  have hrefl : SameShape S S := ⟨rfl, rfl, rfl, rfl, rfl, rfl⟩
  have hc := inv_cases h
  cases x with
  | a v =>
    simp only [StateObj.assign]
    split
    · exact hrefl
    · rename_i r hr
      refine ⟨rfl, rfl, ?_, rfl, rfl, rfl⟩
      obtain ⟨n, m, p, ⟨h1, -⟩, -, h2, h3, h4⟩ := validateState_shapes hr (by simp)
      have h2 := h2 _ rfl; have h3 := h3 _ rfl; have h4 := h4 _ rfl
      rw [Arr.zerosLike_shape] at h2 h3 h4
      simp only [StateObj.recalc_g]
      rw [h1]
      rcases hc with ⟨hg', k, e1, e2, e3, e4⟩ | ⟨hg', e1, e2, e3, e4⟩
      · rw [e3, Prod.mk.injEq] at h2
        rw [e1, h2.2]
      · rw [e3, Prod.mk.injEq] at h2
        rw [e1, ← h2.2]
  | b v =>
    simp only [StateObj.assign]
    split
    · exact hrefl
    · rename_i r hr
      refine ⟨rfl, rfl, rfl, ?_, rfl, rfl⟩
      obtain ⟨n, m, p, ⟨-, h1, -⟩, ha, h2, -, h4⟩ := validateState_shapes hr (by simp)
      have ha := ha _ rfl; have h2 := h2 _ rfl; have h4 := h4 _ rfl
      rw [Arr.zerosLike_shape] at ha h2 h4
      simp only [StateObj.recalc_g]
      rw [h1]
      rcases hc with ⟨hg', k, e1, e2, e3, e4⟩ | ⟨hg', e1, e2, e3, e4⟩
      · rw [e3, Prod.mk.injEq] at h2
        rw [e4, Prod.ext_iff, Prod.ext_iff] at h4
        rw [e2, Prod.mk.injEq]
        simp only at h4
        omega
      · have hp := (hg hg').1
        rw [e3, Prod.mk.injEq] at h2
        rw [e4, Prod.ext_iff, Prod.ext_iff] at h4
        rw [e2, Prod.mk.injEq]
        simp only at h4
        omega
  | c v =>
    simp only [StateObj.assign]
    split
    · exact hrefl
    · rename_i r hr
      refine ⟨rfl, rfl, rfl, rfl, ?_, rfl⟩
      obtain ⟨n, m, p, ⟨-, -, h1, -⟩, ha, -, h2, h4⟩ := validateState_shapes hr (by simp)
      have ha := ha _ rfl; have h2 := h2 _ rfl; have h4 := h4 _ rfl
      rw [Arr.zerosLike_shape] at ha h2 h4
      simp only [StateObj.recalc_g]
      rw [h1]
      rcases hc with ⟨hg', k, e1, e2, e3, e4⟩ | ⟨hg', e1, e2, e3, e4⟩
      · rw [e1, Prod.mk.injEq] at ha
        rw [e2, Prod.mk.injEq, Prod.mk.injEq] at h2
        rw [e4, Prod.ext_iff, Prod.ext_iff] at h4
        rw [e3, Prod.mk.injEq]
        simp only at h4
        omega
      · have hp := (hg hg').1
        rw [e1, Prod.mk.injEq] at ha
        rw [e2, Prod.mk.injEq, Prod.mk.injEq] at h2
        rw [e4, Prod.ext_iff, Prod.ext_iff] at h4
        rw [e3, Prod.mk.injEq]
        simp only at h4
        omega
  | d v =>
    simp only [StateObj.assign]
    split
    · exact hrefl
    · rename_i r hr
      refine ⟨rfl, rfl, rfl, rfl, rfl, ?_⟩
      obtain ⟨n, m, p, ⟨-, -, -, h1⟩, ha, hc', h2, h4⟩ := validateState_shapes hr (by simp)
      have ha := ha _ rfl; have h2 := h2 _ rfl; have hc' := hc' _ rfl
      rw [Arr.zerosLike_shape] at ha h2 hc'
      simp only [StateObj.recalc_g]
      rw [h1]
      rcases hc with ⟨hg', k, e1, e2, e3, e4⟩ | ⟨hg', e1, e2, e3, e4⟩
      · rw [e1, Prod.mk.injEq] at ha
        rw [e2, Prod.mk.injEq, Prod.mk.injEq] at h2
        rw [e3, Prod.mk.injEq] at hc'
        rw [e4, Prod.ext_iff]
        simp only
        omega
      · exfalso
        have hp := (hg hg').1
        have hemp := (hg hg').2
        rw [e1, Prod.mk.injEq] at ha
        rw [e2, Prod.mk.injEq, Prod.mk.injEq] at h2
        rw [e3, Prod.mk.injEq] at hc'
        cases v with
        | none => exact hemp trivial
        | some x =>
          have h4 := h4 _ rfl
          simp only [Arr.shape, Prod.mk.injEq] at h4
          apply hemp
          show x.r = 0 ∧ x.c = 0
          omega
  | samplingPeriod v =>
    cases v with
    | none => exact ⟨rfl, rfl, rfl, rfl, rfl, rfl⟩
    | some t =>
      simp only [StateObj.assign]
      split <;> exact ⟨rfl, rfl, rfl, rfl, rfl, rfl⟩
  | discretizedWith m =>
    simp only [StateObj.assign]; split_ifs <;> exact ⟨rfl, rfl, rfl, rfl, rfl, rfl⟩
  | discretizationMatrix q =>
    simp only [StateObj.assign]; split_ifs <;> exact ⟨rfl, rfl, rfl, rfl, rfl, rfl⟩
  | prewarpFrequency w =>
    simp only [StateObj.assign]
    split_ifs
    · rcases S.g.dt with _ | t
      · exact hrefl
      · dsimp only; split_ifs <;> exact ⟨rfl, rfl, rfl, rfl, rfl, rfl⟩
    · exact hrefl

theorem assign_dt {S : StateObj K P} (h : DtOk S.g.dt) (x : Assign K) :
    DtOk (S.assign N x).1.g.dt := by
  cases x with
  | a v => simp only [StateObj.assign]; split <;> exact h
  | b v => simp only [StateObj.assign]; split <;> exact h
  | c v => simp only [StateObj.assign]; split <;> exact h
  | d v => simp only [StateObj.assign]; split <;> exact h
  | samplingPeriod v =>
    cases v with
    | none => exact dtOk_none
    | some t =>
      simp only [StateObj.assign]
      split
      · exact h
      · rename_i ht
        intro t' e
        simp only [Option.some.injEq] at e
        subst e
        exact not_le.mp ht
  | discretizedWith m => simp only [StateObj.assign]; split_ifs <;> exact h
  | discretizationMatrix q => simp only [StateObj.assign]; split_ifs <;> exact h
  | prewarpFrequency w =>
    simp only [StateObj.assign]
    split_ifs
    · rcases hdt : S.g.dt with _ | t
      · exact h
      · dsimp only; split_ifs <;> exact h
    · exact h

theorem SameShape.trans {S T U : StateObj K P} (h : SameShape S T) (h' : SameShape T U) :
    SameShape S U := by
  obtain ⟨e1, e2, e3, e4, e5, e6⟩ := h
  obtain ⟨f1, f2, f3, f4, f5, f6⟩ := h'
  exact ⟨f1.trans e1, f2.trans e2, f3.trans e3, f4.trans e4, f5.trans e5, f6.trans e6⟩

theorem run_inv {S : StateObj K P} (h : Inv S) (hist : List (Assign K))
    (hg : S.g.isgain = true →
      (0 < S.shape.1 ∧ 0 < S.shape.2) ∧ ∀ x ∈ hist, ¬ x.emptiesD) :
    Inv (S.run N hist) ∧ SameShape S (S.run N hist) := by
  induction hist generalizing S with
  | nil => exact ⟨h, rfl, rfl, rfl, rfl, rfl, rfl⟩
  | cons x hist ih =>
    have h1 := assign_sameShape N h x fun hh => ⟨(hg hh).1, (hg hh).2 x (by simp)⟩
    have h2 := inv_of_sameShape h h1 (assign_dt N h.2.1 x)
    have h3 := ih h2 (fun hh => by
      rw [h1.1] at hh
      rw [h1.2.1]
      exact ⟨(hg hh).1, fun y hy => (hg hh).2 y (by simp [hy])⟩)
    exact ⟨h3.1, SameShape.trans h1 h3.2⟩

/-- **C13**: after any history of assignments to a constructed object, the shapes of the matrices,
the number of states, the recorded shape and the gain flag are those after construction, the
matrices form a consistent quadruple of that shape and the sampling period is `None` or positive.
Missing from the full claim: on a static gain the assignments `G.d = None` and `G.d = <0 × 0 array>`
are excluded (see `C13_gain_emptied_violated`), and a static gain without inputs or outputs. -/
theorem C13_history_partial {a b c d : Option (Arr K)} {dt : Option K} {S : StateObj K P}
    (h : StateObj.init N a b c d dt = .ok S) (hist : List (Assign K))
    (hg : S.g.isgain = true →
      (0 < S.shape.1 ∧ 0 < S.shape.2) ∧ ∀ x ∈ hist, ¬ x.emptiesD) :
    SameShape S (S.run N hist) ∧ Consistent (S.run N hist).g S.shape.1 S.shape.2 ∧
      DtOk (S.run N hist).g.dt := by
  obtain ⟨h1, h2⟩ := run_inv N (inv_init N h) hist hg
  refine ⟨h2, ?_, h1.2.1⟩
  have := h1.1
  rwa [h2.2.1] at this

/-- **C13**: an assignment that raises an exception leaves the object as it was. -/
theorem C13_rejected_unchanged (S : StateObj K P) (x : Assign K) (e : Err)
    (h : (S.assign N x).2 = some e) : (S.assign N x).1 = S := assign_rejected N S x e h

/-- Exact numerics for models with at most one state, used in the concrete cases below. -/
def num1 : Numerics ℚ ℚ where
  eig x := if h : 0 < x.r ∧ 0 < x.c then [x.m ⟨0, h.1⟩ ⟨0, h.2⟩] else []
  tz _ _ _ _ := []
  inDisc z := decide (|z| < 1)
  inLeft z := decide (z < 0)

/-- `State(-2, 1, 1, 0)` as an object. -/
def lag2Obj : StateObj ℚ ℚ :=
  ⟨⟨Arr.of !![-2], Arr.of !![1], Arr.of !![1], Arr.of !![0], none, false⟩, (1, 1), none, none, 0,
    [-2], [], true⟩

theorem lag2Obj_init : StateObj.init num1 (some (Arr.of !![-2])) (some (Arr.of !![1]))
    (some (Arr.of !![1])) (some (Arr.of !![0])) none = .ok lag2Obj := by
  simp [StateObj.init, mkState_of dtOk_none, bind, Except.bind, StateObj.recalc, lag2Obj, num1,
    Arr.shape]

example : ∃ S, StateObj.init num1 (some (Arr.of !![-2])) (some (Arr.of !![1]))
    (some (Arr.of !![1])) (some (Arr.of !![0])) none = .ok S ∧ S.g.isgain = false ∧
    (S.assign num1 (.a (some (Arr.of !![3])))).2 = none ∧
    (S.assign num1 (.b (some (Arr.of !![3, 4])))).2 = some .value :=
  ⟨lag2Obj, lag2Obj_init, rfl, by
    simp [lag2Obj, StateObj.assign, validateState, Arr.zerosLike, Arr.zeros], by
    simp [lag2Obj, StateObj.assign, validateState, Arr.zerosLike, Arr.zeros]⟩

/-- **C13** fails on static gains: `G = State(2); G.d = None` is accepted and leaves an object whose
recorded shape is `(1, 1)` while its gain is a `0 × 0` array. -/
theorem C13_gain_emptied_violated :
    ∃ S : StateObj ℚ ℚ, StateObj.init num1 (some (Arr.of !![2])) none none none none = .ok S ∧
      (S.assign num1 (.d none)).2 = none ∧ (S.assign num1 (.d none)).1.shape = (1, 1) ∧
      (S.assign num1 (.d none)).1.g.d.shape = (0, 0) := by
  refine ⟨⟨⟨Arr.empty, Arr.empty, Arr.empty, Arr.of !![2], none, true⟩, (1, 1), none, none, 0,
    [], [], true⟩, ?_, ?_⟩
  · have := mkGain_of (dtOk_none (K := ℚ)) (Arr.of !![2])
    rw [mkGain] at this
    simp [StateObj.init, this, bind, Except.bind, StateObj.recalc, Arr.shape]
  · refine ⟨?_, ?_, ?_⟩ <;>
    simp [StateObj.assign, validateState, Arr.zerosLike, Arr.zeros, StateObj.recalc, Arr.shape,
      Arr.empty]

/-! ## C14: the reported poles, zeros and stability -/

/-- The poles and zeros that belong to the current matrices. -/
def Spec.PolesCurrent (N : Numerics K P) (S : StateObj K P) : Prop :=
  S.poles = (if S.g.isgain then [] else N.eig S.g.a) ∧
  S.zeros = (if S.g.isgain then [] else N.tz S.g.a S.g.b S.g.c S.g.d)

/-- The flag is true exactly when all poles are in the stability region of the current time
domain. -/
def Spec.FlagCurrent (N : Numerics K P) (S : StateObj K P) : Prop :=
  S.isstable = true ↔
    ∀ z ∈ S.poles, if S.g.dt.isSome then N.inDisc z = true else N.inLeft z = true

theorem recalc_current (S : StateObj K P) :
    PolesCurrent N (S.recalc N) ∧ FlagCurrent N (S.recalc N) := by
  refine ⟨⟨rfl, rfl⟩, ?_⟩
  unfold FlagCurrent StateObj.recalc
  by_cases h : S.g.dt.isSome <;> simp [h]

theorem assign_poles {S : StateObj K P} (h : PolesCurrent N S) (x : Assign K) :
    PolesCurrent N (S.assign N x).1 := by
  cases x with
  | a v => simp only [StateObj.assign]; split; exacts [h, (recalc_current N _).1]
  | b v => simp only [StateObj.assign]; split; exacts [h, (recalc_current N _).1]
  | c v => simp only [StateObj.assign]; split; exacts [h, (recalc_current N _).1]
  | d v => simp only [StateObj.assign]; split; exacts [h, (recalc_current N _).1]
  | samplingPeriod v =>
    cases v with
    | none => exact h
    | some t => simp only [StateObj.assign]; split <;> exact h
  | discretizedWith m => simp only [StateObj.assign]; split_ifs <;> exact h
  | discretizationMatrix q => simp only [StateObj.assign]; split_ifs <;> exact h
  | prewarpFrequency w =>
    simp only [StateObj.assign]
    split_ifs
    · rcases hdt : S.g.dt with _ | t
      · exact h
      · dsimp only; split_ifs <;> exact h
    · exact h

/-- The assignment keeps the time domain (continuous or discrete) of `S`. -/
def Assign.keepsDomain (S : StateObj K P) : Assign K → Prop
  | .samplingPeriod v => v.isSome = S.g.dt.isSome
  | _ => True

theorem assign_flag {S : StateObj K P} (h : FlagCurrent N S) (x : Assign K)
    (hx : x.keepsDomain S) :
    FlagCurrent N (S.assign N x).1 ∧ (S.assign N x).1.g.dt.isSome = S.g.dt.isSome := by
  cases x with
  | a v => simp only [StateObj.assign]; split; exacts [⟨h, rfl⟩, ⟨(recalc_current N _).2, rfl⟩]
  | b v => simp only [StateObj.assign]; split; exacts [⟨h, rfl⟩, ⟨(recalc_current N _).2, rfl⟩]
  | c v => simp only [StateObj.assign]; split; exacts [⟨h, rfl⟩, ⟨(recalc_current N _).2, rfl⟩]
  | d v => simp only [StateObj.assign]; split; exacts [⟨h, rfl⟩, ⟨(recalc_current N _).2, rfl⟩]
  | samplingPeriod v =>
    have hx : v.isSome = S.g.dt.isSome := hx
    cases v with
    | none =>
      refine ⟨?_, hx⟩
      have hn : S.g.dt = none := by
        cases hd : S.g.dt with
        | none => rfl
        | some t => rw [hd] at hx; simp at hx
      have : (S.assign N (.samplingPeriod none)).1 = S := by
        simp only [StateObj.assign, ← hn]
      rw [this]; exact h
    | some t =>
      simp only [StateObj.assign]
      split
      · exact ⟨h, rfl⟩
      · refine ⟨?_, hx⟩
        have h1 : S.g.dt.isSome = true := by rw [← hx]; rfl
        simpa [FlagCurrent, h1] using h
  | discretizedWith m => simp only [StateObj.assign]; split_ifs <;> exact ⟨h, rfl⟩
  | discretizationMatrix q => simp only [StateObj.assign]; split_ifs <;> exact ⟨h, rfl⟩
  | prewarpFrequency w =>
    simp only [StateObj.assign]
    split_ifs
    · rcases hdt : S.g.dt with _ | t
      · exact ⟨h, by simp [hdt]⟩
      · dsimp only; split_ifs
        · exact ⟨h, by simp [hdt]⟩
        · exact ⟨h, by simp [hdt]⟩
    · exact ⟨h, rfl⟩

/-- **C14**, poles and zeros: after any history of assignments the reported poles and zeros are
those of the current matrices. -/
theorem C14_poles_zeros {a b c d : Option (Arr K)} {dt : Option K} {S : StateObj K P}
    (h : StateObj.init N a b c d dt = .ok S) (hist : List (Assign K)) :
    PolesCurrent N (S.run N hist) := by
  have h0 : PolesCurrent N S := by
    obtain ⟨g, hg, h⟩ := bind_ok h
    simp only [Except.ok.injEq] at h
    subst h
    exact (recalc_current N _).1
  clear h
  induction hist generalizing S with
  | nil => exact h0
  | cons x hist ih => exact ih (assign_poles N h0 x)

/-- **C14**, stability: after any history of assignments in which the sampling period is never
switched between `None` and a number, the flag is that of the current matrices and sampling period.
Missing from the full claim: assignments to `SamplingPeriod` that change the time domain (see
`C14_stale_flag_violated`). -/
theorem C14_flag_partial {a b c d : Option (Arr K)} {dt : Option K} {S : StateObj K P}
    (h : StateObj.init N a b c d dt = .ok S) (hist : List (Assign K))
    (hk : ∀ x ∈ hist, x.keepsDomain S) :
    FlagCurrent N (S.run N hist) := by
  have h0 : FlagCurrent N S := by
    obtain ⟨g, hg, h⟩ := bind_ok h
    simp only [Except.ok.injEq] at h
    subst h
    exact (recalc_current N _).2
  clear h
  induction hist generalizing S with
  | nil => exact h0
  | cons x hist ih =>
    have h1 := assign_flag N h0 x (hk x (by simp))
    refine ih (fun y hy => ?_) h1.1
    have := hk y (by simp [hy])
    cases y <;> try trivial
    simp only [Assign.keepsDomain] at this ⊢
    rw [this, h1.2]

/-- **C14**, stability: an accepted assignment to a matrix brings the flag up to date whatever
happened before. Missing: assignments to the sampling period leave the old flag (`C14_stale_flag_violated`). -/
theorem C14_flag_after_matrix_partial (S : StateObj K P) (x : Assign K)
    (hx : (∃ v, x = .a v) ∨ (∃ v, x = .b v) ∨ (∃ v, x = .c v) ∨ (∃ v, x = .d v))
    (hok : (S.assign N x).2 = none) : FlagCurrent N (S.assign N x).1 := by
  rcases hx with ⟨v, rfl⟩ | ⟨v, rfl⟩ | ⟨v, rfl⟩ | ⟨v, rfl⟩ <;>
  · simp only [StateObj.assign] at hok ⊢
    split at hok
    · simp at hok
    · rename_i r hr
      exact (recalc_current N _).2

example : (lag2Obj.assign num1 (.a (some (Arr.of !![3])))).2 = none ∧
    (lag2Obj.assign num1 (.a (some (Arr.of !![3])))).1.isstable = false := by
  constructor <;>
  simp [lag2Obj, StateObj.assign, validateState, Arr.zerosLike, Arr.zeros, StateObj.recalc, num1]

/-- **C14** fails: `G = State(-2, 1, 1, 0); G.SamplingPeriod = 1` leaves the flag `True` of the
continuous-time model although the pole `-2` is outside the unit disc. -/
theorem C14_stale_flag_violated :
    ∃ S : StateObj ℚ ℚ, StateObj.init num1 (some (Arr.of !![-2])) (some (Arr.of !![1]))
        (some (Arr.of !![1])) (some (Arr.of !![0])) none = .ok S ∧
      (S.assign num1 (.samplingPeriod (some 1))).2 = none ∧
      ¬ FlagCurrent num1 (S.assign num1 (.samplingPeriod (some 1))).1 := by
  refine ⟨lag2Obj, lag2Obj_init, ?_, ?_⟩
  · simp [lag2Obj, StateObj.assign, not_le.mpr (zero_lt_one (α := ℚ))]
  · simp [lag2Obj, StateObj.assign, FlagCurrent, num1, not_le.mpr (zero_lt_one (α := ℚ))]

end Harold
