import Verif.Model.TransferObj
import Verif.Props.Transfer
import Verif.Props.StateObj

/-!
# C63, C14: `Transfer` objects over histories of assignments
-/

namespace Harold

open Matrix Spec Polynomial

variable {K P : Type} [Field K] [LinearOrder K] (E : TNum K) (N : Numerics K P)

namespace TransferObj

theorem recalc_g (S : TransferObj K P) : (recalc E N S).1.g = S.g ∧ (recalc E N S).1.shape = S.shape ∧
    (recalc E N S).1.discWith = S.discWith ∧ (recalc E N S).1.discMat = S.discMat ∧
    (recalc E N S).1.prewarp = S.prewarp := by
  unfold recalc
  split_ifs with h1 h2
  · simp [setStability]
  · split
    · simp
    · simp
    · dsimp only
      split_ifs
      · simp [setStability]
      · split <;> simp [setStability]
  · split <;> simp [setStability]

/-- The constructed object holds the model that the constructor returns. -/
theorem init_mk {num den : TArg K} {dt : Option K} {S : TransferObj K P} (h : init E N num den dt = .ok S) :
    validateTransfer num den = .ok (S.g.num, S.g.den, S.g.isgain) ∧ S.shape = (S.g.num.r, S.g.num.c) ∧ S.g.dt = dt ∧
      DtOk dt ∧ ∃ T, recalc E N T = (S, none) := by
  unfold init at h
  obtain ⟨⟨n, d, g⟩, h1, h'⟩ := bind_ok' h
  clear h
  obtain ⟨dt', h2, h⟩ := bind_ok' h'
  clear h'
  obtain ⟨h3, rfl⟩ := checkDt_ok_iff.mp h2
  obtain ⟨e1, e2, -⟩ := recalc_g E N (⟨⟨n, d, g, dt'⟩, (n.r, n.c), none, none, 0, [], [], false⟩ : TransferObj K P)
  revert h
  split
  · next T hT =>
    intro h
    simp only [Except.ok.injEq] at h
    subst h
    rw [hT] at e1 e2
    simp only at e1 e2
    rw [e1, e2]
    exact ⟨h1, rfl, rfl, h3, _, hT⟩
  · intro h; cases h

/-- What an assignment does to the stored arrays. -/
theorem assign_cases (S : TransferObj K P) (x : TAssign K) :
    let T := (S.assign E N x).1
    T.shape = S.shape ∧ T.g.isgain = S.g.isgain ∧
    ((T.g.num = S.g.num ∧ T.g.den = S.g.den) ∨
      (∃ v d g, x = .num v ∧ validateTransfer v (S.stored S.g.den) = .ok (T.g.num, d, g) ∧
        (T.g.num.r, T.g.num.c) = S.shape ∧ T.g.den = S.g.den) ∨
      (∃ v n g, x = .den v ∧ validateTransfer (S.stored S.g.num) v = .ok (n, T.g.den, g) ∧
        (n.r, n.c) = S.shape ∧ T.g.num = S.g.num)) ∧
    (DtOk S.g.dt → DtOk T.g.dt) := by
  cases x with
  | num v =>
    simp only [assign]
    cases h : validateTransfer v (S.stored S.g.den) with
    | error e => simp
    | ok r =>
      obtain ⟨n, d, g⟩ := r
      simp only
      by_cases h1 : (n.r, n.c) = S.shape
      · rw [if_neg (by simpa using h1)]
        obtain ⟨e1, e2, -⟩ := recalc_g E N { S with g := { S.g with num := n } }
        rw [e1, e2]
        exact ⟨rfl, rfl, Or.inr (Or.inl ⟨v, d, g, rfl, h, h1, rfl⟩), id⟩
      · rw [if_pos h1]; simp
  | den v =>
    simp only [assign]
    cases h : validateTransfer (S.stored S.g.num) v with
    | error e => simp
    | ok r =>
      obtain ⟨n, d, g⟩ := r
      simp only
      by_cases h1 : (n.r, n.c) = S.shape
      · rw [if_neg (by simpa using h1)]
        obtain ⟨e1, e2, -⟩ := recalc_g E N { S with g := { S.g with den := d } }
        rw [e1, e2]
        exact ⟨rfl, rfl, Or.inr (Or.inr ⟨v, n, g, rfl, h, h1, rfl⟩), id⟩
      · rw [if_pos h1]; simp
  | samplingPeriod v =>
    cases v with
    | none => simp [assign, DtOk]
    | some t =>
      simp only [assign]
      split_ifs with h
      · simp
      · refine ⟨rfl, rfl, Or.inl ⟨rfl, rfl⟩, fun _ t' e => ?_⟩
        simp only [Option.some.injEq] at e
        subst e
        exact not_le.mp h
  | discretizedWith m => simp only [assign]; split_ifs <;> simp
  | discretizationMatrix q => simp only [assign]; split_ifs <;> simp
  | prewarpFrequency w =>
    simp only [assign]
    split_ifs
    · split
      · simp
      · split_ifs <;> simp
    · simp

/-- Invariant: numerator and denominator have the recorded shape, which is not empty; `dt` is admissible. -/
def TInv (S : TransferObj K P) : Prop :=
  S.shape = (S.g.num.r, S.g.num.c) ∧ S.shape = (S.g.den.r, S.g.den.c) ∧ 0 < S.shape.1 ∧ 0 < S.shape.2 ∧ DtOk S.g.dt

theorem tinv_init {num den : TArg K} {dt : Option K} {S : TransferObj K P} (h : init E N num den dt = .ok S) : TInv S := by
  obtain ⟨h1, h2, h3, h4, -⟩ := init_mk E N h
  obtain ⟨⟨h5, h6⟩, ⟨h7, h8⟩, -⟩ := validate_shape h1
  rw [← h3] at h4
  exact ⟨h2, by rw [h2, h5, h6], by rw [h2]; exact h7, by rw [h2]; exact h8, h4⟩

theorem tinv_assign {S : TransferObj K P} (h : TInv S) (x : TAssign K) : TInv (S.assign E N x).1 := by
  obtain ⟨h1, h2, h3, h4, h5⟩ := h
  obtain ⟨e1, -, e2, e3⟩ := assign_cases E N S x
  refine ⟨?_, ?_, by rw [e1]; exact h3, by rw [e1]; exact h4, e3 h5⟩
  · rw [e1]
    rcases e2 with ⟨e, -⟩ | ⟨v, d, g, -, -, e, -⟩ | ⟨v, n, g, -, -, -, e⟩
    · rw [e, h1]
    · exact e.symm
    · rw [e, h1]
  · rw [e1]
    rcases e2 with ⟨-, e⟩ | ⟨v, d, g, -, -, -, e⟩ | ⟨v, n, g, -, hv, e, -⟩
    · rw [e, h2]
    · rw [e, h2]
    · obtain ⟨⟨a1, a2⟩, -⟩ := validate_shape hv
      rw [← e, a1, a2]

end TransferObj

open TransferObj

/-- **C63**, shapes: after any history of assignments to a constructed object, whether they succeed or raise, the shape and the
gain flag are those after construction, numerator and denominator have that shape, and the sampling period is `None` or
positive. -/
theorem C63_shape {num den : TArg K} {dt : Option K} {S : TransferObj K P}
    (h : TransferObj.init E N num den dt = .ok S) (hist : List (TAssign K)) :
    let T := S.run E N hist
    T.shape = S.shape ∧ (T.g.num.r, T.g.num.c) = S.shape ∧ (T.g.den.r, T.g.den.c) = S.shape ∧
      T.g.isgain = S.g.isgain ∧ DtOk T.g.dt := by
  have h0 : ∀ (hist : List (TAssign K)) (S : TransferObj K P), TInv S →
      TInv (S.run E N hist) ∧ (S.run E N hist).shape = S.shape ∧ (S.run E N hist).g.isgain = S.g.isgain := by
    intro hist
    induction hist with
    | nil => exact fun S hS => ⟨hS, rfl, rfl⟩
    | cons x hist ih =>
      intro S hS
      obtain ⟨h1, h2, h3⟩ := ih _ (tinv_assign E N hS x)
      obtain ⟨e1, e2, -⟩ := assign_cases E N S x
      exact ⟨h1, h2.trans e1, h3.trans e2⟩
  obtain ⟨h1, h2, h3⟩ := h0 hist S (tinv_init E N h)
  refine ⟨h2, ?_, ?_, h3, h1.2.2.2.2⟩
  · rw [← h2]; exact h1.1.symm
  · rw [← h2]; exact h1.2.1.symm

/-- **C63**, gain flag: as long as `den` is not assigned, the flag says whether all denominators are constants (have length one).
`_partial`: the flag is not updated by assignments to `den`, see `C63_flag_violated`. -/
theorem C63_flag_partial {num den : TArg K} {dt : Option K} {S : TransferObj K P}
    (h : TransferObj.init E N num den dt = .ok S) (hist : List (TAssign K)) (hden : ∀ x ∈ hist, ∀ v, x ≠ .den v) :
    let T := S.run E N hist
    T.g.den = S.g.den ∧ (T.g.isgain = true ↔ maxSize T.g.den = 1) := by
  have h0 : ∀ (hist : List (TAssign K)) (S : TransferObj K P), (∀ x ∈ hist, ∀ v, x ≠ .den v) →
      (S.run E N hist).g.den = S.g.den := by
    intro hist
    induction hist with
    | nil => exact fun S _ => rfl
    | cons x hist ih =>
      intro S hS
      have h1 := ih (S.assign E N x).1 fun y hy => hS y (by simp [hy])
      obtain ⟨-, -, e2, -⟩ := assign_cases E N S x
      refine h1.trans ?_
      rcases e2 with ⟨-, e⟩ | ⟨v, d, g, -, -, -, e⟩ | ⟨v, n, g, hx, -, -, -⟩
      · exact e
      · exact e
      · exact absurd hx (hS x (by simp) v)
  have h1 := h0 hist S hden
  refine ⟨h1, ?_⟩
  rw [h1, (C63_shape E N h hist).2.2.2.1]
  obtain ⟨h2, -⟩ := init_mk E N h
  obtain ⟨-, -, h3, -⟩ := validate_shape h2
  rw [h3]
  simp

/-- **C63**, rejected assignments: an assignment that raises leaves the object as it was, or the new value passed all checks and
computing the poles and zeros failed afterwards. `_partial`: the second case happens, see `C63_rejected_violated`. -/
theorem C63_rejected_partial (S : TransferObj K P) (x : TAssign K) (e : Err) (h : (S.assign E N x).2 = some e) :
    (S.assign E N x).1 = S ∨
    (∃ v, x = .num v ∧ ∃ r, validateTransfer v (S.stored S.g.den) = .ok r ∧
      (recalc E N { S with g := { S.g with num := r.1 } }).2 = some e) ∨
    (∃ v, x = .den v ∧ ∃ r, validateTransfer (S.stored S.g.num) v = .ok r ∧
      (recalc E N { S with g := { S.g with den := r.2.1 } }).2 = some e) := by
  cases x with
  | num v =>
    simp only [TransferObj.assign] at h ⊢
    cases hv : validateTransfer v (S.stored S.g.den) with
    | error e => left; simp
    | ok r =>
      rw [hv] at h
      simp only at h ⊢
      by_cases h1 : (r.1.r, r.1.c) = S.shape
      · rw [if_neg (by simpa using h1)] at h
        right; left
        exact ⟨v, rfl, r, hv, h⟩
      · left; rw [if_pos h1]
  | den v =>
    simp only [TransferObj.assign] at h ⊢
    cases hv : validateTransfer (S.stored S.g.num) v with
    | error e => left; simp
    | ok r =>
      rw [hv] at h
      simp only at h ⊢
      by_cases h1 : (r.1.r, r.1.c) = S.shape
      · rw [if_neg (by simpa using h1)] at h
        right; right
        exact ⟨v, rfl, r, hv, h⟩
      · left; rw [if_pos h1]
  | samplingPeriod v =>
    left
    cases v with
    | none => simp [TransferObj.assign] at h
    | some t => simp only [TransferObj.assign] at h ⊢; split_ifs at h ⊢; simp
  | discretizedWith m => left; simp only [TransferObj.assign] at h ⊢; split_ifs at h ⊢ <;> simp_all
  | discretizationMatrix q => left; simp only [TransferObj.assign] at h ⊢; split_ifs at h ⊢ <;> simp_all
  | prewarpFrequency w =>
    left
    simp only [TransferObj.assign] at h ⊢
    split_ifs at h ⊢ with h1
    · split at h
      · simp_all
      · next t ht =>
        split_ifs at h ⊢ <;> simp_all
    · rfl

/-- Setting the sampling period or a discretisation attribute: either it is stored, or the exception leaves the object as it was. -/
theorem C63_attributes (S : TransferObj K P) (x : TAssign K) (hx : (∀ v, x ≠ .num v) ∧ ∀ v, x ≠ .den v) (e : Err)
    (h : (S.assign E N x).2 = some e) : (S.assign E N x).1 = S := by
  rcases C63_rejected_partial E N S x e h with h1 | ⟨v, h1, -⟩ | ⟨v, h1, -⟩
  · exact h1
  · exact absurd h1 (hx.1 v)
  · exact absurd h1 (hx.2 v)

theorem validate_vec {a b : List K} (hb : 0 < b.length) (hab : a.length ≤ b.length) :
    validateTransfer (.vec a) (.vec b) = .ok (constArr 1 1 a, constArr 1 1 b, decide (b.length = 1)) := by
  unfold validateTransfer
  simp only [regArg, combineArgs, bind, Except.bind, if_neg (not_lt.mpr hab), maxSize_const]
  rw [if_neg (by simp [constArr])]

theorem entry_const (l : List K) : (constArr 1 1 l).entry 0 0 = l := rfl

/-- **C63**, accepted assignments: for a dynamic SISO model with nonzero leading denominator coefficient every causal numerator
with nonzero leading coefficient is accepted and stored; everything but numerator, poles, zeros and flag is kept. -/
theorem C63_num_accepted {S : TransferObj K P} {d₀ : K} {d : List K} (hS : S.g.den = constArr 1 1 (d₀ :: d))
    (hs : S.g.isSISO = true) (hsh : S.shape = (1, 1)) (hg : S.g.isgain = false) (hd₀ : d₀ ≠ 0) (hd : d ≠ [])
    {n₀ : K} (hn₀ : n₀ ≠ 0) (n : List K) (hn : n.length ≤ d.length) :
    let r := S.assign E N (.num (.vec (n₀ :: n)))
    r.2 = none ∧ r.1.g = { S.g with num := constArr 1 1 (n₀ :: n) } ∧ r.1.shape = S.shape := by
  have hst : S.stored S.g.den = .vec (d₀ :: d) := by
    unfold TransferObj.stored
    rw [if_pos hs, hS, entry_const]
  have hv := validate_vec (a := n₀ :: n) (b := d₀ :: d) (by simp) (by simpa using hn)
  simp only [TransferObj.assign, hst, hv]
  rw [if_neg (by simp [hsh, constArr])]
  obtain ⟨e1, e2, -⟩ := recalc_g E N { S with g := { S.g with num := constArr 1 1 (n₀ :: n) } }
  refine ⟨?_, e1, e2⟩
  unfold TransferObj.recalc
  rw [if_neg (by simp [hg]), if_pos (by simp [TransferM.isSISO, constArr])]
  simp only [hS, entry_const]
  rw [companion_eq (d₀ :: d) (trimZeros_of_cons hd₀ d) hd₀ hd]
  simp only
  split_ifs with h1
  · rfl
  · rw [companion_eq (n₀ :: n) (trimZeros_of_cons hn₀ n) hn₀ (by rintro rfl; simp at h1)]

/-! ### Counterexamples -/

/-- `Transfer(1, 2)` as an object. -/
def halfObj : TransferObj ℚ ℚ := ⟨⟨constArr 1 1 [1], constArr 1 1 [2], true, none⟩, (1, 1), none, none, 0, [], [], true⟩

/-- `1 / (s + 2)` as an object. -/
def lagTObj : TransferObj ℚ ℚ := ⟨⟨constArr 1 1 [1], constArr 1 1 [1, 2], false, none⟩, (1, 1), none, none, 0, [-2], [], true⟩

theorem halfObj_init (E : TNum ℚ) : TransferObj.init E num1 (.vec [1]) (.vec [2]) none = .ok halfObj := by
  unfold TransferObj.init
  rw [validate_vec (by simp) (by simp)]
  simp [bind, Except.bind, checkDt, TransferObj.recalc, halfObj, TransferObj.setStability, constArr]

theorem companion_12 : companion [(1 : ℚ), 2] = .ok (some (Arr.of !![-2])) := by
  have h := companion_eq [(1 : ℚ), 2] (trimZeros_of_cons one_ne_zero [2]) one_ne_zero (by simp)
  rw [h]
  congr 2
  rw [Arr.of_inj]
  refine Matrix.ext fun i j => ?_
  have hi : i = ⟨0, by simp⟩ := Fin.ext (by have := i.2; have h1 : ([2] : List ℚ).length = 1 := rfl; show i.val = 0; omega)
  have hj : j = ⟨0, by simp⟩ := Fin.ext (by have := j.2; have h1 : ([2] : List ℚ).length = 1 := rfl; show j.val = 0; omega)
  rw [hi, hj]
  simp [compM, monicCoeffs]

theorem lagTObj_init (E : TNum ℚ) : TransferObj.init E num1 (.vec [1]) (.vec [1, 2]) none = .ok lagTObj := by
  unfold TransferObj.init
  rw [validate_vec (by simp) (by simp)]
  simp only [bind, Except.bind, checkDt, TransferObj.recalc, TransferM.isSISO, entry_const, companion_12, num1, lagTObj]
  simp [TransferObj.setStability, constArr]

/-- Non-vacuity of `C63_shape`, `C63_num_accepted`, `C63_flag_partial`: `1/(s+2)` is a constructed object, and `G.num = [3, 1]` is accepted. -/
example (E : TNum ℚ) : (lagTObj.assign E num1 (.num (.vec [3, 1]))).2 = none ∧
    (lagTObj.run E num1 [.num (.vec [3, 1]), .samplingPeriod (some (-1))]).shape = (1, 1) :=
  ⟨(C63_num_accepted E num1 (S := lagTObj) rfl rfl rfl rfl one_ne_zero (by simp) three_ne_zero [1] (by simp)).1,
    (C63_shape E num1 (lagTObj_init E) _).1⟩

/-- **C63** fails: `G = Transfer(1, 2); G.den = [1, 2]` is accepted, the model is now `1/(s+2)`, and the gain flag is still set. -/
theorem C63_flag_violated (E : TNum ℚ) : TransferObj.init E num1 (.vec [1]) (.vec [2]) none = .ok halfObj ∧
    (halfObj.assign E num1 (.den (.vec [1, 2]))).2 = none ∧
    (halfObj.assign E num1 (.den (.vec [1, 2]))).1.g.den = constArr 1 1 [1, 2] ∧
    (halfObj.assign E num1 (.den (.vec [1, 2]))).1.g.isgain = true := by
  refine ⟨halfObj_init E, ?_⟩
  have hst : halfObj.stored halfObj.g.num = .vec [1] := by
    unfold TransferObj.stored
    rw [if_pos (by simp [TransferM.isSISO, halfObj, constArr])]
    rfl
  have hv := validate_vec (a := [(1 : ℚ)]) (b := [1, 2]) (by simp) (by simp)
  simp only [TransferObj.assign, hst, hv]
  rw [if_neg (by simp [halfObj, constArr])]
  simp [TransferObj.recalc, halfObj, TransferObj.setStability]

/-- **C63** fails: for `G = Transfer([1], [1, 2])` the assignment `G.num = np.array([0, 1])` raises `ValueError` (the companion matrix of a constant
is empty) and leaves the new numerator in the object. -/
theorem C63_rejected_violated (E : TNum ℚ) : TransferObj.init E num1 (.vec [1]) (.vec [1, 2]) none = .ok lagTObj ∧
    (lagTObj.assign E num1 (.num (.vec [0, 1]))).2 = some .value ∧
    (lagTObj.assign E num1 (.num (.vec [0, 1]))).1.g.num ≠ lagTObj.g.num := by
  refine ⟨lagTObj_init E, ?_⟩
  have hst : lagTObj.stored lagTObj.g.den = .vec [1, 2] := by
    unfold TransferObj.stored
    rw [if_pos (by simp [TransferM.isSISO, lagTObj, constArr])]
    rfl
  have hv := validate_vec (a := [(0 : ℚ), 1]) (b := [1, 2]) (by simp) (by simp)
  have c2 : companion [(0 : ℚ), 1] = .ok none := by simp [companion, trimZeros]
  have hr : TransferObj.recalc E num1 { lagTObj with g := { lagTObj.g with num := constArr 1 1 [0, 1] } }
      = ({ lagTObj with g := { lagTObj.g with num := constArr 1 1 [0, 1] } }, some .value) := by
    unfold TransferObj.recalc
    rw [if_neg (by simp [lagTObj]), if_pos (by simp [TransferM.isSISO, lagTObj, constArr])]
    simp only [lagTObj, entry_const, companion_12, c2]
    simp [num1]
  simp only [TransferObj.assign, hst, hv]
  rw [if_neg (by simp [lagTObj, constArr]), hr]
  refine ⟨rfl, fun h => ?_⟩
  simp only [lagTObj, constArr, Arr.of_inj] at h
  have := congrFun (congrFun h 0) 0
  simp at this

/-! ## C14 for `Transfer` -/

/-- Poles and zeros are those of the current polynomials: none for static gains, the eigenvalues of the companion matrices for
SISO models, those of the realization for MIMO models. -/
def Spec.TPolesCurrent (E : TNum K) (N : Numerics K P) (S : TransferObj K P) : Prop :=
  if S.g.isgain then S.poles = [] ∧ S.zeros = []
  else if S.g.isSISO then
    (∃ A, companion (S.g.den.entry 0 0) = .ok (some A) ∧ S.poles = N.eig A) ∧
    (((S.g.num.entry 0 0).length = 1 ∧ S.zeros = []) ∨
      ∃ B, companion (S.g.num.entry 0 0) = .ok (some B) ∧ S.zeros = N.eig B)
  else S.g.mimoPZ E N = .ok (S.poles, S.zeros)

/-- The flag is true exactly when all poles are in the stability region of the current time domain. -/
def Spec.TFlagCurrent (N : Numerics K P) (S : TransferObj K P) : Prop :=
  S.isstable = true ↔ ∀ z ∈ S.poles, if S.g.dt.isSome then N.inDisc z = true else N.inLeft z = true

theorem setStability_flag (S : TransferObj K P) : TFlagCurrent N (TransferObj.setStability N S) := by
  unfold TFlagCurrent TransferObj.setStability
  by_cases h : S.g.dt.isSome <;> simp [h]

theorem recalc_current' {S T : TransferObj K P} (h : TransferObj.recalc E N S = (T, none)) :
    TPolesCurrent E N T ∧ TFlagCurrent N T := by
  unfold TransferObj.recalc at h
  split_ifs at h with h1 h2
  · simp only [Prod.mk.injEq, and_true] at h
    subst h
    refine ⟨?_, setStability_flag N _⟩
    unfold TPolesCurrent
    simp [TransferObj.setStability, h1]
  · revert h
    split
    · intro h; cases h
    · intro h; cases h
    · next A hA =>
      simp only
      split_ifs with h3
      · intro h
        simp only [Prod.mk.injEq, and_true] at h
        subst h
        refine ⟨?_, setStability_flag N _⟩
        unfold TPolesCurrent
        rw [if_neg (by simpa [TransferObj.setStability] using h1), if_pos (by simpa [TransferObj.setStability] using h2)]
        exact ⟨⟨A, hA, rfl⟩, Or.inl ⟨h3, rfl⟩⟩
      · split
        · intro h; cases h
        · intro h; cases h
        · next B hB =>
          intro h
          simp only [Prod.mk.injEq, and_true] at h
          subst h
          refine ⟨?_, setStability_flag N _⟩
          unfold TPolesCurrent
          rw [if_neg (by simpa [TransferObj.setStability] using h1), if_pos (by simpa [TransferObj.setStability] using h2)]
          exact ⟨⟨A, hA, rfl⟩, Or.inr ⟨B, hB, rfl⟩⟩
  · revert h
    split
    · intro h; cases h
    · next q z hq =>
      intro h
      simp only [Prod.mk.injEq, and_true] at h
      subst h
      refine ⟨?_, setStability_flag N _⟩
      unfold TPolesCurrent
      rw [if_neg (by simpa [TransferObj.setStability] using h1), if_neg (by simpa [TransferObj.setStability] using h2)]
      exact hq

/-- **C14** for `Transfer`: after construction, and after every accepted assignment to `num` or `den`, poles, zeros and the
stability flag are those of the current polynomials and sampling period. Missing: assignments to the sampling period leave the old flag (`C14_transfer_violated`). -/
theorem C14_transfer_partial {num den : TArg K} {dt : Option K} {S : TransferObj K P} :
    (TransferObj.init E N num den dt = .ok S → TPolesCurrent E N S ∧ TFlagCurrent N S) ∧
    (∀ T : TransferObj K P, ∀ v, (T.assign E N (.num v)).2 = none →
      TPolesCurrent E N (T.assign E N (.num v)).1 ∧ TFlagCurrent N (T.assign E N (.num v)).1) ∧
    (∀ T : TransferObj K P, ∀ v, (T.assign E N (.den v)).2 = none →
      TPolesCurrent E N (T.assign E N (.den v)).1 ∧ TFlagCurrent N (T.assign E N (.den v)).1) := by
  have hr : ∀ T : TransferObj K P, (TransferObj.recalc E N T).2 = none →
      TPolesCurrent E N (TransferObj.recalc E N T).1 ∧ TFlagCurrent N (TransferObj.recalc E N T).1 := fun T h =>
    recalc_current' E N (S := T) (by rw [← h])
  refine ⟨fun h => ?_, fun T v h => ?_, fun T v h => ?_⟩
  · obtain ⟨-, -, -, -, T, hT⟩ := init_mk E N h
    exact recalc_current' E N hT
  · simp only [TransferObj.assign] at h ⊢
    cases hv : validateTransfer v (T.stored T.g.den) with
    | error e => simp [hv] at h
    | ok r =>
      rw [hv] at h
      simp only at h ⊢
      split_ifs at h ⊢ with h1
      exact hr _ h
  · simp only [TransferObj.assign] at h ⊢
    cases hv : validateTransfer (T.stored T.g.num) v with
    | error e => simp [hv] at h
    | ok r =>
      rw [hv] at h
      simp only at h ⊢
      split_ifs at h ⊢ with h1
      exact hr _ h

/-- **C14** fails for `Transfer`: after `G = Transfer([1], [1, 2]); G.SamplingPeriod = 1` the flag still says stable although the pole `-2` is
outside the unit disc. -/
theorem C14_transfer_violated (E : TNum ℚ) : TransferObj.init E num1 (.vec [1]) (.vec [1, 2]) none = .ok lagTObj ∧
    (lagTObj.assign E num1 (.samplingPeriod (some 1))).2 = none ∧
    ¬ TFlagCurrent num1 (lagTObj.assign E num1 (.samplingPeriod (some 1))).1 := by
  refine ⟨lagTObj_init E, ?_⟩
  simp only [TransferObj.assign]
  rw [if_neg (by norm_num)]
  refine ⟨rfl, fun h => ?_⟩
  have := h.mp rfl (-2) (by simp [lagTObj])
  simp [num1] at this

/-- The assignments of a history that are covered: one to `num` or `den` is accepted or leaves the object as it was, one to `SamplingPeriod` that is accepted does not switch between
continuous and discrete time. -/
def Spec.TKeeps (E : TNum K) (N : Numerics K P) : TransferObj K P → List (TAssign K) → Prop
  | _, [] => True
  | S, x :: hist => (match x with
      | .num _ => (S.assign E N x).2 = none ∨ (S.assign E N x).1 = S
      | .den _ => (S.assign E N x).2 = none ∨ (S.assign E N x).1 = S
      | .samplingPeriod v => v.isSome = S.g.dt.isSome ∨ (S.assign E N x).2 ≠ none
      | _ => True) ∧ Spec.TKeeps E N (S.assign E N x).1 hist

theorem attr_current {S T : TransferObj K P} (hp : TPolesCurrent E N S) (hf : TFlagCurrent N S) (h1 : T.g.num = S.g.num) (h2 : T.g.den = S.g.den) (h3 : T.g.isgain = S.g.isgain)
    (h4 : T.g.dt.isSome = S.g.dt.isSome) (h5 : T.poles = S.poles) (h6 : T.zeros = S.zeros) (h7 : T.isstable = S.isstable) : TPolesCurrent E N T ∧ TFlagCurrent N T := by
  have hs : T.g.isSISO = S.g.isSISO := by unfold TransferM.isSISO; rw [h1]
  have hm : T.g.mimoPZ E N = S.g.mimoPZ E N := by unfold TransferM.mimoPZ TransferM.p TransferM.m; rw [h1, h2]
  constructor
  · unfold TPolesCurrent
    rw [h1, h2, h3, h5, h6, hs, hm]
    exact hp
  · unfold TFlagCurrent
    rw [h7, h5, h4]
    exact hf

/-- **C14** for `Transfer`, histories: poles, zeros and the stability flag are those of the current polynomials and sampling period after every history of assignments in which no assignment to
`num` or `den` fails half-way (`C63_rejected_violated`) and none to `SamplingPeriod` switches the time domain (`C14_transfer_violated`). -/
theorem C14_transfer_history_partial {num den : TArg K} {dt : Option K} {S : TransferObj K P} (h : TransferObj.init E N num den dt = .ok S) (hist : List (TAssign K)) (hk : TKeeps E N S hist) :
    TPolesCurrent E N (S.run E N hist) ∧ TFlagCurrent N (S.run E N hist) := by
  obtain ⟨hp, hf⟩ := (C14_transfer_partial E N (num := num) (den := den) (dt := dt) (S := S)).1 h
  clear h
  induction hist generalizing S with
  | nil => exact ⟨hp, hf⟩
  | cons x hist ih =>
    obtain ⟨hx, hk⟩ := hk
    have key : TPolesCurrent E N (S.assign E N x).1 ∧ TFlagCurrent N (S.assign E N x).1 := by
      by_cases he : (S.assign E N x).1 = S
      · rw [he]; exact ⟨hp, hf⟩
      cases x with
      | num v => exact (C14_transfer_partial E N (num := num) (den := den) (dt := dt) (S := S)).2.1 S v (hx.resolve_right he)
      | den v => exact (C14_transfer_partial E N (num := num) (den := den) (dt := dt) (S := S)).2.2 S v (hx.resolve_right he)
      | samplingPeriod v =>
        cases v with
        | none =>
          have : S.g.dt.isSome = false := by
            rcases hx with hx | hx
            · simpa using hx.symm
            · exact absurd rfl hx
          exact attr_current E N hp hf rfl rfl rfl (by simp [TransferObj.assign, this]) rfl rfl rfl
        | some t =>
          simp only [TransferObj.assign] at hx he ⊢
          split_ifs at hx he ⊢ with ht
          · exact absurd rfl he
          have : S.g.dt.isSome = true := by
            rcases hx with hx | hx
            · simpa using hx.symm
            · exact absurd rfl hx
          exact attr_current E N hp hf rfl rfl rfl (by simp [this]) rfl rfl rfl
      | discretizedWith m =>
        simp only [TransferObj.assign] at he ⊢
        split_ifs at he ⊢ <;> first | exact absurd rfl he | exact attr_current E N hp hf rfl rfl rfl rfl rfl rfl rfl
      | discretizationMatrix q =>
        simp only [TransferObj.assign] at he ⊢
        split_ifs at he ⊢ <;> first | exact absurd rfl he | exact attr_current E N hp hf rfl rfl rfl rfl rfl rfl rfl
      | prewarpFrequency w =>
        simp only [TransferObj.assign] at he ⊢
        split_ifs at he ⊢ with h1
        · split at he
          · exact absurd rfl he
          · next t ht =>
            split_ifs at he with h2
            · exact absurd rfl he
            · simp only [if_neg h2]
              exact attr_current E N hp hf rfl rfl rfl rfl rfl rfl rfl
        · exact absurd rfl he
    exact ih hk key.1 key.2

-- A covered history with an accepted numerator, a rejected sampling period and a rejected attribute.
example (E : TNum ℚ) : TKeeps E num1 lagTObj [.num (.vec [3, 1]), .samplingPeriod (some (-1)), .discretizedWith "zoh"] := by
  refine ⟨Or.inl (C63_num_accepted E num1 (S := lagTObj) rfl rfl rfl rfl one_ne_zero (by simp) three_ne_zero [1] (by simp)).1, Or.inr ?_, trivial, trivial⟩
  simp only [TransferObj.assign]
  rw [if_pos (by norm_num)]
  simp

/-- **C14** fails for `Transfer`: `G = Transfer(1, 2); G.den = [1, -2]` is accepted, the model is now `1/(s-2)`, but no pole is reported and the flag says stable. -/
theorem C14_transfer_gain_violated (E : TNum ℚ) : TransferObj.init E num1 (.vec [1]) (.vec [2]) none = .ok halfObj ∧
    (halfObj.assign E num1 (.den (.vec [1, -2]))).2 = none ∧
    (halfObj.assign E num1 (.den (.vec [1, -2]))).1.g.den = constArr 1 1 [1, -2] ∧
    (halfObj.assign E num1 (.den (.vec [1, -2]))).1.poles = [] ∧
    (halfObj.assign E num1 (.den (.vec [1, -2]))).1.isstable = true := by
  refine ⟨halfObj_init E, ?_⟩
  have hst : halfObj.stored halfObj.g.num = .vec [1] := by
    unfold TransferObj.stored
    rw [if_pos (by simp [TransferM.isSISO, halfObj, constArr])]
    rfl
  have hv := validate_vec (a := [(1 : ℚ)]) (b := [1, -2]) (by simp) (by simp)
  simp only [TransferObj.assign, hst, hv]
  rw [if_neg (by simp [halfObj, constArr])]
  simp [TransferObj.recalc, halfObj, TransferObj.setStability]

end Harold
