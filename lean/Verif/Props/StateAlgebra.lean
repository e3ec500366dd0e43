import Verif.Lemmas.StateBroadcast
import Verif.Lemmas.StateGetitem

/-!
# C15-C20: arithmetic of `State` models

`HasTF G p m s M` (in `Verif.Spec.TF`): `G` has `p` outputs and `m` inputs, `s` is not an eigenvalue
of its state matrix and `G(s) = M`. `fuel` is the recursion depth that Python has left.
-/

namespace Harold

open Matrix Spec

variable {K L : Type} [Field K] [LinearOrder K] [Field L] [Algebra K L]
variable {G H : StateM K} {p m q k : ℕ} {s : L}

local notation "φ" => algebraMap K L

/-! ## Concrete models used to show that hypotheses are met -/

/-- `State(-1, 1, 1, 0)`, the model of `1/(s+1)`. -/
def lag : StateM ℚ := ⟨Arr.of !![-1], Arr.of !![1], Arr.of !![1], Arr.of !![0], none, false⟩

/-- Two outputs, one input, one state: `[1/(s+1); 1 + 2/(s+1)]`. -/
def lag21 : StateM ℚ :=
  ⟨Arr.of !![-1], Arr.of !![1], Arr.of !![1; 2], Arr.of !![0; 1], none, false⟩

/-- `State(-1, 1, 1, 0, dt=0.1)`. -/
def lagDt : StateM ℚ :=
  ⟨Arr.of !![-1], Arr.of !![1], Arr.of !![1], Arr.of !![0], some (1 / 10), false⟩

/-- The static gain `[[2, 3]]`. -/
def gain12 : StateM ℚ := ⟨Arr.empty, Arr.empty, Arr.empty, Arr.of !![2, 3], none, true⟩

/-- The static gain `2`. -/
def gain11 : StateM ℚ := ⟨Arr.empty, Arr.empty, Arr.empty, Arr.of !![2], none, true⟩

theorem lag_hasTF : HasTF lag 1 1 (1 : ℚ) !![1 / 2] := by
  refine HasTF.of_dyn (isTF_iff_sol.mpr ⟨?_, !![1 / 2], ?_, ?_⟩)
  · simp
  · ext i j; fin_cases i; fin_cases j; simp [Matrix.mul_apply]; norm_num
  · ext i j; fin_cases i; fin_cases j; simp

theorem lagDt_hasTF : HasTF lagDt 1 1 (1 : ℚ) !![1 / 2] := by
  refine HasTF.of_dyn (isTF_iff_sol.mpr ⟨?_, !![1 / 2], ?_, ?_⟩)
  · simp
  · ext i j; fin_cases i; fin_cases j; simp [Matrix.mul_apply]; norm_num
  · ext i j; fin_cases i; fin_cases j; simp

theorem lag21_hasTF : HasTF lag21 2 1 (1 : ℚ) !![1 / 2; 2] := by
  refine HasTF.of_dyn (isTF_iff_sol.mpr ⟨?_, !![1 / 2], ?_, ?_⟩)
  · simp
  · ext i j; fin_cases i; fin_cases j; simp [Matrix.mul_apply]; norm_num
  · ext i j; fin_cases i <;> fin_cases j <;> simp; norm_num

theorem gain12_hasTF : HasTF gain12 1 2 (1 : ℚ) !![2, 3] := by
  have h := HasTF.of_gain (L := ℚ) (s := 1) (D := (!![2, 3] : Matrix (Fin 1) (Fin 2) ℚ))
    (a := Arr.empty) (b := Arr.empty) (c := Arr.empty) (dt := none)
  exact h

theorem gain11_hasTF : HasTF gain11 1 1 (1 : ℚ) !![2] := by
  have h := HasTF.of_gain (L := ℚ) (s := 1) (D := (!![2] : Matrix (Fin 1) (Fin 1) ℚ))
    (a := Arr.empty) (b := Arr.empty) (c := Arr.empty) (dt := none)
  exact h

theorem dtOk_none : DtOk (none : Option K) := fun t h => by simp at h

/-! ## C15: addition and negation -/

/-- **C15**, negation: `(-G)(s) = -G(s)`. -/
theorem C15_neg {M : Matrix (Fin p) (Fin m) L} (h : HasTF G p m s M) (hdt : DtOk G.dt) :
    ∃ R, G.neg = .ok R ∧ HasTF R p m s (-M) ∧ R.dt = G.dt := by
  obtain ⟨R, e, h1, h2, -⟩ := neg_hasTF h hdt
  exact ⟨R, e, h1, h2⟩

example : HasTF lag21 2 1 (1 : ℚ) !![1 / 2; 2] ∧ DtOk lag21.dt := ⟨lag21_hasTF, dtOk_none⟩

/-- **C15**, addition of models of equal shape: `(G+H)(s) = G(s)+H(s)`. Missing from the full claim:
a dynamic SISO model plus a static SISO model, where the code does not return
(`C15_static_siso_violated`). -/
theorem C15_add_partial {M N : Matrix (Fin p) (Fin m) L} (h : HasTF G p m s M)
    (h' : HasTF H p m s N) (hdt : DtOk G.dt) (he : G.dt = H.dt)
    (hs : G.isgain = H.isgain ∨ ¬ (p = 1 ∧ m = 1)) (fuel : ℕ) :
    ∃ R, G.add (fuel + 2) H = .ok R ∧ HasTF R p m s (M + N) := by
  obtain ⟨R, e, h1, -⟩ := add_hasTF h h' hdt he hs fuel
  exact ⟨R, e, h1⟩

example : ∃ R, lag.add 2 lag = .ok R ∧ HasTF R 1 1 (1 : ℚ) (!![1 / 2] + !![1 / 2]) :=
  C15_add_partial lag_hasTF lag_hasTF dtOk_none rfl (Or.inl rfl) 0

/-- **C15**, subtraction: `(G-H)(s) = G(s)-H(s)`, same domain as `C15_add_partial`. -/
theorem C15_sub_partial {M N : Matrix (Fin p) (Fin m) L} (h : HasTF G p m s M)
    (h' : HasTF H p m s N) (hdt : DtOk G.dt) (he : G.dt = H.dt)
    (hs : G.isgain = H.isgain ∨ ¬ (p = 1 ∧ m = 1)) (fuel : ℕ) :
    ∃ R, G.sub (fuel + 2) H = .ok R ∧ HasTF R p m s (M - N) := by
  obtain ⟨H', e', h1', h2', h3'⟩ := neg_hasTF h' (he ▸ hdt)
  obtain ⟨R, e, h1, -⟩ := add_hasTF h h1' hdt (he.trans h2'.symm) (by rw [h3']; exact hs) fuel
  refine ⟨R, by simp [StateM.sub, e', e, bind, Except.bind], ?_⟩
  rw [sub_eq_add_neg]; exact h1

example : ∃ R, lag21.sub 2 lag21 = .ok R ∧ HasTF R 2 1 (1 : ℚ) (!![1 / 2; 2] - !![1 / 2; 2]) :=
  C15_sub_partial lag21_hasTF lag21_hasTF dtOk_none rfl (Or.inl rfl) 0

/-- **C15**, a SISO model (static or dynamic) is added to every entry of a MIMO model. -/
theorem C15_add_siso_broadcast {M : Matrix (Fin 1) (Fin 1) L} {N : Matrix (Fin p) (Fin m) L}
    (h : HasTF G 1 1 s M) (h' : HasTF H p m s N) (hdt : DtOk G.dt) (he : G.dt = H.dt)
    (hs : ¬ (p = 1 ∧ m = 1)) (fuel : ℕ) :
    (∃ R, G.add (fuel + 3) H = .ok R ∧ HasTF R p m s (Matrix.of fun i j => M 0 0 + N i j)) ∧
    (∃ R, H.add (fuel + 3) G = .ok R ∧ HasTF R p m s (Matrix.of fun i j => N i j + M 0 0)) :=
  ⟨add_bcast_left_hasTF h h' hdt he hs fuel,
    add_bcast_right_hasTF h' h (he ▸ hdt) he.symm hs fuel⟩

example : HasTF lag 1 1 (1 : ℚ) !![1 / 2] ∧ HasTF gain12 1 2 (1 : ℚ) !![2, 3] ∧
    lag.dt = gain12.dt ∧ ¬ ((1 : ℕ) = 1 ∧ (2 : ℕ) = 1) :=
  ⟨lag_hasTF, gain12_hasTF, rfl, by simp⟩

/-- **C15**, scalars: `G + k` adds `k` to every entry (also for `k` a 1-D array with one entry). -/
theorem C15_add_scalar {M : Matrix (Fin p) (Fin m) L} (h : HasTF G p m s M) (hdt : DtOk G.dt)
    (x : K) (fuel : ℕ) :
    (∃ R, G.addGain (fuel + 1) (.scalar x) = .ok R ∧
      HasTF R p m s (Matrix.of fun i j => M i j + φ x) ∧ R.dt = G.dt) ∧
    G.addGain (fuel + 1) (.vec [x]) = G.addGain (fuel + 1) (.scalar x) := by
  obtain ⟨R, e, h1, h2, -⟩ := addSA_scalar_hasTF h hdt x fuel
  exact ⟨⟨R, e, h1, h2⟩, rfl⟩

/-- **C15**, arrays: `G + X` for an array of the shape of `G`, and for SISO `G` and any array that is
not `1 × 1`. Missing: dynamic SISO `G` and `1 × 1` arrays (`C15_one_by_one_array_violated`). -/
theorem C15_add_array_partial {M : Matrix (Fin p) (Fin m) L} (h : HasTF G p m s M)
    (hdt : DtOk G.dt) (fuel : ℕ) :
    (∀ X : Matrix (Fin p) (Fin m) K, (G.isgain = true ∨ ¬ (p = 1 ∧ m = 1)) →
      ∃ R, G.addGain (fuel + 1) (.arr (Arr.of X)) = .ok R ∧ HasTF R p m s (M + X.map φ) ∧
        R.dt = G.dt) ∧
    (∀ (q k : ℕ) (X : Matrix (Fin q) (Fin k) K) (hp : p = 1) (hm : m = 1), G.isgain = false →
      ¬ (q = 1 ∧ k = 1) →
      ∃ R, G.addGain (fuel + 2) (.arr (Arr.of X)) = .ok R ∧
        HasTF R q k s (Matrix.of fun i j => M ⟨0, by omega⟩ ⟨0, by omega⟩ + φ (X i j)) ∧
        R.dt = G.dt) := by
  constructor
  · intro X hs
    obtain ⟨R, e, h1, h2, -⟩ := addSA_hasTF h hdt X hs fuel
    exact ⟨R, e, h1, h2⟩
  · intro q k X hp hm hg hs
    subst hp; subst hm
    obtain ⟨R, e, h1, h2, -⟩ := addSA_siso_hasTF h hdt hg X hs fuel
    exact ⟨R, e, h1, h2⟩

example : ∃ R, lag.addGain 2 (.arr (Arr.of (!![1, 2] : Matrix (Fin 1) (Fin 2) ℚ))) = .ok R ∧
    HasTF R 1 2 (1 : ℚ)
      (Matrix.of fun i j => (!![1 / 2] : Matrix (Fin 1) (Fin 1) ℚ) 0 0
        + algebraMap ℚ ℚ ((!![1, 2] : Matrix (Fin 1) (Fin 2) ℚ) i j)) ∧ R.dt = lag.dt :=
  (C15_add_array_partial lag_hasTF dtOk_none 0).2 1 2 _ rfl rfl rfl (by simp)

/-- The code violates **C15**: a dynamic SISO model plus a `1 × 1` array recurses on itself
(`_classes.py:2083-2087`), so the sum never returns, whatever recursion depth is available. -/
theorem C15_one_by_one_array_violated {M : Matrix (Fin 1) (Fin 1) L} (h : HasTF G 1 1 s M)
    (hdt : DtOk G.dt) (hg : G.isgain = false) (X : Matrix (Fin 1) (Fin 1) K) (fuel : ℕ) :
    G.addGain fuel (.arr (Arr.of X)) = .error .recursion := by
  show G.addSA fuel (.ar (Arr.of X)) = .error .recursion
  induction fuel generalizing G M with
  | zero => rfl
  | succ fuel ih =>
    obtain ⟨G', e, h1, h2, h3, -⟩ := broadcast_hasTF h hg hdt 1 1
    rw [StateM.addSA]
    simp only [hg, siso_of_hasTF h, and_self, decide_true, if_true, Bool.false_eq_true, if_false,
      Arr.of_r, Arr.of_c, bind, Except.bind, e]
    exact ih h1 (h2 ▸ hdt) h3

/-- The code violates **C15**: `State(-1,1,1,0) + State(2)` never returns. -/
theorem C15_static_siso_violated (fuel : ℕ) :
    lag.add (fuel + 1) gain11 = .error .recursion ∧
    gain11.add (fuel + 1) lag = .error .recursion := by
  have key := C15_one_by_one_array_violated lag_hasTF dtOk_none rfl
    (!![2] : Matrix (Fin 1) (Fin 1) ℚ) fuel
  constructor <;>
  · rw [StateM.add]
    simpa [lag, gain11, StateM.addGain, Gain.regular] using key

/-! ## C16: sampling periods -/

theorem mkState_dt {a b c d : Option (Arr K)} {dt : Option K} {R : StateM K}
    (h : mkState a b c d dt = .ok R) : R.dt = dt := by
  simp only [mkState, bind, Except.bind] at h
  split at h
  · simp at h
  · rename_i v hv
    unfold checkDt at h
    cases dt with
    | none => simp at h; rw [← h]
    | some t =>
      simp only at h
      split_ifs at h
      simp at h; rw [← h]

theorem mkState_isgain {a b c : Arr K} {d : Option (Arr K)} {dt : Option K} {R : StateM K}
    (h : mkState (some a) (some b) (some c) d dt = .ok R) : R.isgain = false := by
  simp only [mkState, bind, Except.bind] at h
  split at h
  · simp at h
  · rename_i v hv
    split at h
    · simp at h
    · simp at h
      rw [← h]
      unfold validateState at hv
      simp only [Option.isNone_some, Bool.false_and, Bool.false_eq_true, if_false] at hv
      split_ifs at hv
      all_goals first
        | (simp at hv; done)
        | skip
      all_goals
        split at hv
        · simp at hv
        · split_ifs at hv <;> first | (simp at hv; done) | (simp at hv; rw [← hv])

/-- **C16**, rejection: operands with different sampling periods raise `ValueError`. -/
theorem C16_mismatch_rejected (h : G.dt ≠ H.dt) (fuel : ℕ) :
    G.add (fuel + 1) H = .error .value ∧ G.matmul (fuel + 1) H = .error .value := by
  constructor
  · rw [StateM.add, if_pos h]
  · rw [StateM.matmul, if_pos h]

/-- **C16**, rejection of differences. -/
theorem C16_mismatch_rejected_sub {N : Matrix (Fin p) (Fin m) L} (h' : HasTF H p m s N)
    (hdt : DtOk H.dt) (h : G.dt ≠ H.dt) (fuel : ℕ) :
    G.sub (fuel + 1) H = .error .value := by
  obtain ⟨H', e', -, h2', -⟩ := neg_hasTF h' hdt
  simp only [StateM.sub, e', bind, Except.bind]
  rw [StateM.add, if_pos (by rw [h2']; exact h)]

example : lag.dt ≠ lagDt.dt := by simp [lag, lagDt]

theorem bind_ok {α β : Type} {x : Res α} {f : α → Res β} {b : β} (h : (x >>= f) = .ok b) :
    ∃ a, x = .ok a ∧ f a = .ok b := by
  cases x with
  | error e => simp [bind, Except.bind] at h
  | ok a => exact ⟨a, rfl, h⟩

theorem rmatmulGain_dt {g : Gain K} {R : StateM K} (h : StateM.rmatmulGain g G = .ok R) :
    R.dt = G.dt := by
  unfold StateM.rmatmulGain at h
  cases g with
  | vec v => simp at h
  | scalar x =>
    simp only at h
    split_ifs at h <;> exact mkState_dt h
  | arr x =>
    simp only at h
    split_ifs at h
    · split at h
      · exact mkState_dt h
      · obtain ⟨_, _, h⟩ := bind_ok h; exact mkState_dt h
      · simp at h
    · unfold StateM.sisoTimesArr at h
      obtain ⟨_, _, h⟩ := bind_ok h
      split_ifs at h <;> exact mkState_dt h
    · exact mkState_dt h
    · obtain ⟨_, _, h⟩ := bind_ok h
      obtain ⟨_, _, h⟩ := bind_ok h
      exact mkState_dt h

theorem matmulGain_dt {g : Gain K} {R : StateM K} (h : G.matmulGain g = .ok R) :
    R.dt = G.dt := by
  unfold StateM.matmulGain at h
  split at h
  · simp at h
  unfold StateM.matmulSA at h
  split at h
  · split_ifs at h <;> exact mkState_dt h
  · split_ifs at h
    · split at h
      · exact mkState_dt h
      · simp at h
      · simp at h
    · unfold StateM.sisoTimesArr at h
      obtain ⟨_, _, h⟩ := bind_ok h
      split_ifs at h <;> exact mkState_dt h
    · exact mkState_dt h
    · obtain ⟨_, _, h⟩ := bind_ok h
      obtain ⟨_, _, h⟩ := bind_ok h
      exact mkState_dt h

/-- **C16**, products (of models, and with scalars and arrays on either side) keep the sampling
period. -/
theorem C16_mul_keeps_dt {R : StateM K} {g : Gain K} {fuel : ℕ} :
    (G.matmul fuel H = .ok R → R.dt = G.dt ∧ R.dt = H.dt) ∧
    (G.matmulGain g = .ok R → R.dt = G.dt) ∧
    (StateM.rmatmulGain g G = .ok R → R.dt = G.dt) := by
  refine ⟨?_, matmulGain_dt, rmatmulGain_dt⟩
  intro h
  induction fuel generalizing G H with
  | zero => simp [StateM.matmul] at h
  | succ fuel ih =>
    rw [StateM.matmul] at h
    by_cases he : G.dt = H.dt
    swap
    · simp [he] at h
    suffices R.dt = G.dt from ⟨this, this.trans he⟩
    simp only [he, ne_eq, not_true_eq_false, if_false] at h
    rw [he]
    cases hg : G.isgain <;> cases hg' : H.isgain <;>
      simp only [hg, hg', Bool.and_self, Bool.and_false, Bool.and_true, Bool.false_eq_true,
        if_false, if_true] at h
    · split_ifs at h
      · exact (ih h).1
      · exact (ih h).2
      · obtain ⟨_, _, h⟩ := bind_ok h; exact (ih h).1
      · obtain ⟨_, _, h⟩ := bind_ok h; exact (ih h).2
      · exact (ih h).2
      · rw [← he]; exact (ih h).2
      · obtain ⟨_, _, h⟩ := bind_ok h; rw [← he]; exact (ih h).1
      · obtain ⟨_, _, h⟩ := bind_ok h; rw [← he]; exact (ih h).2
      · unfold StateM.series at h
        iterate 9
          obtain ⟨_, _, h⟩ := bind_ok h
        rw [← he]
        exact mkState_dt h
    · rw [← he]
      split_ifs at h <;> exact matmulGain_dt h
    · split_ifs at h <;> exact rmatmulGain_dt h
    · obtain ⟨_, _, h⟩ := bind_ok h
      exact mkState_dt h

/-- A product with sampling period `1/10` exists. -/
example : ∃ R, lagDt.matmul 1 lagDt = .ok R ∧ R.dt = some (1 / 10) := by
  obtain ⟨R, e, -, h, -⟩ := matmul_hasTF lagDt_hasTF lagDt_hasTF
    (fun t h => by simp [lagDt] at h; rw [← h]; norm_num) rfl 0
  exact ⟨R, e, h⟩

theorem addSA_dt {sa : SA K} {R : StateM K} {fuel : ℕ} (h : G.addSA fuel sa = .ok R) :
    R.dt = G.dt := by
  induction fuel generalizing G with
  | zero => simp [StateM.addSA] at h
  | succ fuel ih =>
    unfold StateM.addSA at h
    split_ifs at h
    · cases sa with
      | sc x => exact mkState_dt h
      | ar x => obtain ⟨_, _, h⟩ := bind_ok h; exact mkState_dt h
    · cases sa with
      | sc x => exact mkState_dt h
      | ar x =>
        obtain ⟨G', h', h⟩ := bind_ok h
        unfold StateM.broadcast at h'
        obtain ⟨_, _, h'⟩ := bind_ok h'
        exact (ih h).trans (mkState_dt h')
    · cases sa with
      | sc x => exact mkState_dt h
      | ar x => obtain ⟨_, _, h⟩ := bind_ok h; exact mkState_dt h

/-- **C16**, sums with a static model, a scalar or an array keep the sampling period. Missing: sums
of two dynamic models, where the code drops it (`C16_sum_drops_dt_violated`). -/
theorem C16_add_keeps_dt_partial {R : StateM K} {fuel : ℕ} {g : Gain K} :
    (G.add fuel H = .ok R → (G.isgain = true ∨ H.isgain = true) → R.dt = G.dt ∧ R.dt = H.dt) ∧
    (G.addGain fuel g = .ok R → R.dt = G.dt) := by
  refine ⟨?_, addSA_dt⟩
  intro h hg
  cases fuel with
  | zero => simp [StateM.add] at h
  | succ fuel =>
    rw [StateM.add] at h
    by_cases he : G.dt = H.dt
    swap
    · simp [he] at h
    suffices R.dt = G.dt from ⟨this, this.trans he⟩
    simp only [he, ne_eq, not_true_eq_false, if_false] at h
    rw [he]
    split_ifs at h with h1 h2 h3
    · obtain ⟨_, _, h⟩ := bind_ok h; exact mkState_dt h
    · exact addSA_dt h
    · rw [← he]; exact addSA_dt h
    all_goals simp_all

/-- The code violates **C16**: the sum of two dynamic models with the same sampling period has no
sampling period, i.e. is a continuous-time model (`_classes.py:1982` does not pass `dt`). -/
theorem C16_sum_drops_dt_violated {M N : Matrix (Fin p) (Fin m) L} {t : K}
    (h : HasTF G p m s M) (h' : HasTF H p m s N) (hG : G.isgain = false) (hH : H.isgain = false)
    (ht : 0 < t) (hdt : G.dt = some t) (hdt' : H.dt = some t) (fuel : ℕ) :
    ∃ R, G.add (fuel + 2) H = .ok R ∧ R.dt = none ∧ R.dt ≠ G.dt := by
  obtain ⟨R, e, -, h2⟩ := add_hasTF h h' (by rw [hdt]; intro t' h; simp at h; rwa [← h])
    (hdt.trans hdt'.symm) (Or.inl (hG.trans hH.symm)) fuel
  refine ⟨R, e, ?_, ?_⟩ <;> rw [h2] <;> simp [hG, hH, hdt]

example : ∃ R, lagDt.add 2 lagDt = .ok R ∧ R.dt = none ∧ R.dt ≠ lagDt.dt :=
  C16_sum_drops_dt_violated (t := 1 / 10) lagDt_hasTF lagDt_hasTF rfl rfl (by norm_num) rfl rfl 0

/-! ## C17: products of models -/

/-- **C17**: for compatible models (static ones included) `(G@H)(s) = G(s)H(s)`; the product of two
dynamic models has as many states as the factors together. -/
theorem C17_matmul {M : Matrix (Fin p) (Fin q) L} {N : Matrix (Fin q) (Fin m) L}
    (h : HasTF G p q s M) (h' : HasTF H q m s N) (hdt : DtOk G.dt) (he : G.dt = H.dt) (fuel : ℕ) :
    ∃ R, G.matmul (fuel + 1) H = .ok R ∧ HasTF R p m s (M * N) ∧ R.dt = G.dt ∧
      (G.isgain = false → H.isgain = false → R.n = G.n + H.n) :=
  matmul_hasTF h h' hdt he fuel

example : ∃ R, lag21.matmul 1 lag = .ok R ∧
    HasTF R 2 1 (1 : ℚ) ((!![1 / 2; 2] : Matrix (Fin 2) (Fin 1) ℚ) * (!![1 / 2] : Matrix (Fin 1) (Fin 1) ℚ)) ∧
    R.dt = none ∧ (lag21.isgain = false → lag.isgain = false → R.n = lag21.n + lag.n) :=
  C17_matmul lag21_hasTF lag_hasTF dtOk_none rfl 0

/-- **C17**: a dynamic SISO factor scales a dynamic model it is otherwise incompatible with. Missing: a SISO factor next to a static model (`C17_static_scaling_violated`). -/
theorem C17_matmul_siso_partial {M : Matrix (Fin 1) (Fin 1) L} {N : Matrix (Fin p) (Fin m) L}
    (h : HasTF G 1 1 s M) (h' : HasTF H p m s N) (hdt : DtOk G.dt) (he : G.dt = H.dt)
    (hg : G.isgain = false) (hg' : H.isgain = false) (fuel : ℕ) :
    (p ≠ 1 → ∃ R, G.matmul (fuel + 2) H = .ok R ∧ HasTF R p m s (M 0 0 • N) ∧ R.dt = G.dt) ∧
    (m ≠ 1 → ∃ R, H.matmul (fuel + 2) G = .ok R ∧ HasTF R p m s (M 0 0 • N) ∧ R.dt = G.dt) :=
  ⟨fun hp => matmul_bcast_left_hasTF h h' hdt he hg hg' hp fuel, fun hm => by
    obtain ⟨R, e, h1, h2⟩ := matmul_bcast_right_hasTF h' h (he ▸ hdt) he.symm hg' hg hm fuel
    exact ⟨R, e, h1, h2.trans he.symm⟩⟩

/-- **C17**: a static SISO factor scales a dynamic model it is otherwise incompatible with. -/
theorem C17_matmul_static_siso {M : Matrix (Fin 1) (Fin 1) L} {N : Matrix (Fin p) (Fin m) L}
    (h : HasTF G 1 1 s M) (h' : HasTF H p m s N) (hdt : DtOk G.dt) (he : G.dt = H.dt)
    (hg : G.isgain = true) (hg' : H.isgain = false) (fuel : ℕ) :
    (∃ R, G.matmul (fuel + 1) H = .ok R ∧ HasTF R p m s (M 0 0 • N) ∧ R.dt = G.dt) ∧
    (∃ R, H.matmul (fuel + 1) G = .ok R ∧ HasTF R p m s (M 0 0 • N) ∧ R.dt = G.dt) := by
  obtain ⟨D, hD, rfl⟩ := gain_elim h hg
  constructor
  · obtain ⟨R, e, h1, h2⟩ := rmatmul_scalar_hasTF h' (he ▸ hdt) (D 0 0)
    refine ⟨R, ?_, by simpa using h1, h2.trans he.symm⟩
    rw [StateM.matmul]
    simpa [he, hg, hg', siso_of_hasTF h, hD, bget_scalar] using e
  · obtain ⟨R, e, h1, h2⟩ := matmul_scalar_hasTF h' hg' (he ▸ hdt) (D 0 0)
    refine ⟨R, ?_, by simpa using h1, h2.trans he.symm⟩
    rw [StateM.matmul]
    simpa [he, hg, hg', siso_of_hasTF h, hD, bget_scalar] using e

example : HasTF gain11 1 1 (1 : ℚ) !![2] ∧ HasTF lag21 2 1 (1 : ℚ) !![1 / 2; 2] ∧
    gain11.dt = lag21.dt ∧ gain11.isgain = true ∧ lag21.isgain = false :=
  ⟨gain11_hasTF, lag21_hasTF, rfl, rfl, rfl⟩

/-- **C17**: products of models that are not SISO and do not fit raise `ValueError`. -/
theorem C17_matmul_incompatible {p m p' m' : ℕ} (hG : Consistent G p m) (hH : Consistent H p' m')
    (hs : ¬ (p = 1 ∧ m = 1)) (hs' : ¬ (p' = 1 ∧ m' = 1)) (hne : m ≠ p') (fuel : ℕ) :
    G.matmul (fuel + 1) H = .error .value := by
  obtain ⟨⟨rfl, rfl⟩, -⟩ := hG
  obtain ⟨⟨rfl, rfl⟩, -⟩ := hH
  have e1 : G.isSISO = false := by simpa [StateM.isSISO] using hs
  have e2 : H.isSISO = false := by simpa [StateM.isSISO] using hs'
  rw [StateM.matmul]
  by_cases he : G.dt = H.dt
  swap
  · simp [he]
  simp only [he, ne_eq, not_true_eq_false, if_false, e1, e2]
  cases hg : G.isgain <;> cases hg' : H.isgain
  · simp [StateM.m, StateM.p, hne]
  · simp [StateM.matmulGain, StateM.matmulShapeBad, StateM.matmulSA, StateM.m, hne, e1]
  · simp [StateM.rmatmulGain, StateM.p, Ne.symm hne, e2]
  · simp [Arr.matmul_error hne, bind, Except.bind]

example : Consistent lag21 2 1 ∧ ¬ ((2 : ℕ) = 1 ∧ (1 : ℕ) = 1) ∧ (1 : ℕ) ≠ 2 :=
  ⟨⟨⟨rfl, rfl⟩, fun _ => ⟨rfl, rfl, rfl, rfl, rfl⟩⟩, by simp, by simp⟩

/-- The code violates **C17**: a *static* SISO factor does not scale a static MIMO model,
`State(2) @ State(eye(2))` raises `ValueError` (`_classes.py:2144-2153`). -/
theorem C17_static_scaling_violated (fuel : ℕ) :
    gain11.matmul (fuel + 1) (⟨Arr.empty, Arr.empty, Arr.empty, Arr.eye 2, none, true⟩ : StateM ℚ)
      = .error .value := by
  rw [StateM.matmul]
  simp [gain11, Arr.matmul, Arr.eye, bind, Except.bind]

/-! ## C18: scalars and arrays -/

/-- **C18**, left multiplication by a scalar, all models. -/
theorem C18_scalar_left {M : Matrix (Fin p) (Fin m) L} (h : HasTF G p m s M) (hdt : DtOk G.dt)
    (x : K) :
    ∃ R, StateM.rmatmulGain (.scalar x) G = .ok R ∧ HasTF R p m s (φ x • M) ∧ R.dt = G.dt :=
  rmatmul_scalar_hasTF h hdt x

/-- **C18**, right multiplication by a scalar, dynamic models. Missing: static models, for which the
code raises (`C18_static_times_scalar_violated`). -/
theorem C18_scalar_right_partial {M : Matrix (Fin p) (Fin m) L} (h : HasTF G p m s M)
    (hg : G.isgain = false) (hdt : DtOk G.dt) (x : K) :
    ∃ R, G.matmulGain (.scalar x) = .ok R ∧ HasTF R p m s (φ x • M) ∧ R.dt = G.dt :=
  matmul_scalar_hasTF h hg hdt x

/-- The code violates **C18**: a static model times a scalar, `State(D) @ 2` (and `State(D) * 2`),
raises `TypeError` (`_classes.py:2300-2303` multiplies the method object `to_array`). -/
theorem C18_static_times_scalar_violated (hg : G.isgain = true) (x : K) :
    G.matmulGain (.scalar x) = .error .type := by
  simp [StateM.matmulGain, StateM.matmulShapeBad, StateM.matmulSA, Gain.regular, hg]

/-- **C18**, right multiplication by an array with as many rows as `G` has inputs, all models. -/
theorem C18_array_right {M : Matrix (Fin p) (Fin q) L} (h : HasTF G p q s M) (hdt : DtOk G.dt)
    (X : Matrix (Fin q) (Fin m) K) :
    ∃ R, G.matmulGain (.arr (Arr.of X)) = .ok R ∧ HasTF R p m s (M * X.map φ) ∧ R.dt = G.dt :=
  matmul_arr_hasTF h hdt X

/-- **C18**, left multiplication by an array with as many columns as `G` has outputs. -/
theorem C18_array_left {M : Matrix (Fin q) (Fin m) L} (h : HasTF G q m s M) (hdt : DtOk G.dt)
    (X : Matrix (Fin p) (Fin q) K) :
    ∃ R, StateM.rmatmulGain (.arr (Arr.of X)) G = .ok R ∧ HasTF R p m s (X.map φ * M) ∧
      R.dt = G.dt :=
  rmatmul_arr_hasTF h hdt X

example : HasTF lag21 2 1 (1 : ℚ) !![1 / 2; 2] ∧ DtOk lag21.dt ∧ lag21.isgain = false :=
  ⟨lag21_hasTF, dtOk_none, rfl⟩

/-- **C18**, a dynamic SISO model times an array of any shape, on either side, is the array with
entries `X i j * g(s)`. -/
theorem C18_siso_array {M : Matrix (Fin 1) (Fin 1) L} (h : HasTF G 1 1 s M)
    (hg : G.isgain = false) (hdt : DtOk G.dt) (X : Matrix (Fin p) (Fin m) K) :
    (∃ R, G.matmulGain (.arr (Arr.of X)) = .ok R ∧
      HasTF R p m s (Matrix.of fun i j => φ (X i j) * M 0 0) ∧ R.dt = G.dt) ∧
    (∃ R, StateM.rmatmulGain (.arr (Arr.of X)) G = .ok R ∧
      HasTF R p m s (Matrix.of fun i j => φ (X i j) * M 0 0) ∧ R.dt = G.dt) := by
  obtain ⟨R, e, h1, h2⟩ := sisoArr_hasTF h hg hdt X
  constructor
  · refine ⟨R, ?_, h1, h2⟩
    simp only [StateM.matmulGain, StateM.matmulShapeBad, StateM.matmulSA, hg, siso_of_hasTF h, Gain.regular]
    simpa using e
  · refine ⟨R, ?_, h1, h2⟩
    simp only [StateM.rmatmulGain, hg, siso_of_hasTF h]
    simpa using e

/-- The code violates **C18**: a static SISO model is not multiplied entrywise from the left,
`State(2) @ eye(2)` raises `TypeError`. -/
theorem C18_static_siso_array_violated :
    gain11.matmulGain (.arr (Arr.eye 2)) = .error .type := by
  simp [StateM.matmulGain, StateM.matmulShapeBad, StateM.matmulSA, gain11, Arr.matmul, Arr.eye, Gain.regular, StateM.m, StateM.isSISO]

/-- **C18**, wrong shapes raise `ValueError` (models that are not SISO). -/
theorem C18_array_incompatible (hs : ¬ (G.p = 1 ∧ G.m = 1)) (x : Arr K) :
    (x.r ≠ G.m → G.matmulGain (.arr x) = .error .value) ∧
    (x.c ≠ G.p → StateM.rmatmulGain (.arr x) G = .error .value) := by
  have e1 : G.isSISO = false := by simpa [StateM.isSISO, StateM.p, StateM.m] using hs
  constructor
  · intro h; simp [StateM.matmulGain, StateM.matmulShapeBad, StateM.matmulSA, e1, Ne.symm h]
  · intro h; simp [StateM.rmatmulGain, e1, Ne.symm h]

/-- The code violates **C18** for 1-D arrays: `G @ v` with as many entries as inputs (at least two)
raises `ValueError`, and `v @ G` raises `IndexError` for every `v`. -/
theorem C18_vector_violated (v : List K) :
    StateM.rmatmulGain (.vec v) G = .error .index ∧
    (G.isgain = false → Consistent G p m → ¬ (p = 1 ∧ m = 1) → v.length = m → 2 ≤ m →
      G.matmulGain (.vec v) = .error .value) := by
  refine ⟨rfl, ?_⟩
  rintro hg ⟨⟨rfl, rfl⟩, hc⟩ hs hv hm
  have e1 : G.isSISO = false := by simpa [StateM.isSISO] using hs
  obtain ⟨x, y, w, rfl⟩ : ∃ x y w, v = x :: y :: w := by
    match v, hv with
    | [], h => simp at h; omega
    | [_], h => simp at h; omega
    | x :: y :: w, _ => exact ⟨x, y, w, rfl⟩
  have hb : G.b.c ≠ (rowArr (x :: y :: w)).r := by
    rw [(hc hg).2.2.1]; show G.d.c ≠ 1; omega
  simp [StateM.matmulGain, StateM.matmulShapeBad, StateM.matmulSA, Gain.regular, hg, e1, StateM.m, hv.symm, Arr.matmul_error hb, bind,
    Except.bind]

/-! ## C19: inverses -/

/-- **C19**: if no singular value of the feedthrough is below the threshold of the code, then
`1/G` exists, keeps the sampling period, and at every `s` that is an eigenvalue neither of `G` nor
of `1/G` its value is the two-sided inverse of `G(s)`. -/
theorem C19_inverse [IsStrictOrderedRing K] {D : Matrix (Fin m) (Fin m) K}
    (hG : Consistent G m m) (hD : G.d = Arr.of D) (hdt : DtOk G.dt)
    (hsv : ¬ HasSVBelow spacing1 D) :
    ∃ R, StateM.rtruedivGain (.scalar 1) G = .ok R ∧ R.dt = G.dt ∧
      ∀ (s : L) (M N : Matrix (Fin m) (Fin m) L), HasTF G m m s M → HasTF R m m s N →
        N * M = 1 ∧ M * N = 1 := by
  have hdet : D.det ≠ 0 := det_ne_zero_of_not_svBelow (by simp [spacing1]) hsv
  have hDD : D⁻¹ * D = 1 := Matrix.nonsing_inv_mul _ (isUnit_iff_ne_zero.mpr hdet)
  have hDDφ : D⁻¹.map φ * D.map φ = 1 := by
    rw [← map_mul', hDD, Matrix.map_one _ (map_zero _) (map_one _)]
  have hdyn : G.isgain = false → ∃ (n : ℕ) (A : Matrix (Fin n) (Fin n) K)
      (B : Matrix (Fin n) (Fin m) K) (C : Matrix (Fin m) (Fin n) K),
      G.a = Arr.of A ∧ G.b = Arr.of B ∧ G.c = Arr.of C := by
    intro hg
    obtain ⟨h1, h2, h3, h4, h5⟩ := hG.2 hg
    obtain ⟨A, hA⟩ := Arr.exists_of rfl h1.symm
    obtain ⟨B, hB⟩ := Arr.exists_of h2 h3
    obtain ⟨C, hC⟩ := Arr.exists_of h4 h5
    exact ⟨G.a.r, A, B, C, hA, hB, hC⟩
  obtain ⟨R0, e0, d0, g0, dd0, hR0⟩ := invert_hasTF hdt hD hsv (by
    cases hg : G.isgain
    · exact Or.inr (hdyn hg)
    · exact Or.inl rfl)
  -- `1 @ R0` is `R0` up to the SISO special cases
  have hcons : StateM.rmatmulGain (.scalar 1) R0 = .ok ⟨if R0.isgain then Arr.empty else R0.a,
      if R0.isgain then Arr.empty else R0.b, if R0.isgain then Arr.empty else R0.c, R0.d, R0.dt,
      R0.isgain⟩ := by
    cases hg : G.isgain
    · obtain ⟨n, A, B, C, hA, hB, hC⟩ := hdyn hg
      obtain ⟨ha, hb, hc⟩ := hR0 n A B C hg hA hB hC
      have := mkState_of (d0 ▸ hdt : DtOk R0.dt) (A - B * (D⁻¹ * C)) (B * D⁻¹) (-(D⁻¹ * C)) D⁻¹
      simp only [StateM.rmatmulGain, g0, hg, Bool.false_eq_true, if_false, one_ne_zero, ite_self,
        ha, hb, hc, dd0, Arr.smul_of, one_smul]
      exact this
    · simp only [StateM.rmatmulGain, g0, hg, if_true, dd0, Arr.smul_of, one_smul]
      exact mkGain_of (d0 ▸ hdt) _
  have hred : StateM.rtruedivGain (.scalar 1) G = StateM.rmatmulGain (.scalar 1) R0 := by
    simp only [StateM.rtruedivGain, e0, bind, Except.bind]
  have hfin := hred.trans hcons
  refine ⟨_, hfin, d0, ?_⟩
  intro s M N hM hN
  cases hg : G.isgain
  · obtain ⟨n, A, B, C, hA, hB, hC⟩ := hdyn hg
    obtain ⟨ha, hb, hc⟩ := hR0 n A B C hg hA hB hC
    obtain ⟨n1, A1, B1, C1, D1, hA1, hB1, hC1, hD1, hT1⟩ := dyn_elim hM hg
    obtain ⟨n2, A2, B2, C2, D2, hA2, hB2, hC2, hD2, hT2⟩ := dyn_elim hN (by simp [g0, hg])
    simp only [g0, hg, Bool.false_eq_true, if_false] at hA2 hB2 hC2 hD2
    have e1 : n1 = n := by rw [hA1] at hA; exact congrArg Arr.r hA
    have e2 : n2 = n := by rw [hA2] at ha; exact congrArg Arr.r ha
    subst e1; subst e2
    rw [hA1, Arr.of_inj] at hA
    rw [hB1, Arr.of_inj] at hB
    rw [hC1, Arr.of_inj] at hC
    rw [hD1, Arr.of_inj] at hD
    rw [hA2, Arr.of_inj] at ha
    rw [hB2, Arr.of_inj] at hb
    rw [hC2, Arr.of_inj] at hc
    rw [hD2, Arr.of_inj] at dd0
    subst hA hB hC hD ha hb hc dd0
    have hmap : (A1 - B1 * (D1⁻¹ * C1)).map φ
        = A1.map φ - B1.map φ * (D1⁻¹.map φ * C1.map φ) := by
      rw [map_sub', map_mul', map_mul']
    have hmap2 : (-(D1⁻¹ * C1)).map φ = -(D1⁻¹.map φ * C1.map φ) := by
      rw [map_neg', map_mul']
    rw [hmap, hmap2, map_mul'] at hT2
    obtain ⟨N', hN', h1, h2⟩ := hT1.inv hDDφ hT2.1
    rw [hT2.unique hN']
    exact ⟨h1, h2⟩
  · obtain ⟨D1, hD1, rfl⟩ := gain_elim hM hg
    obtain ⟨D2, hD2, rfl⟩ := gain_elim hN (by simp [g0, hg])
    simp only at hD2
    rw [hD1, Arr.of_inj] at hD
    rw [hD2, Arr.of_inj] at dd0
    subst hD dd0
    exact ⟨hDDφ, mul_eq_one_comm.mp hDDφ⟩

/-- **C19**: a singular feedthrough (more generally one with a singular value below `2⁻⁵²`) raises
`LinAlgError`; a nonsquare model raises `ValueError`. -/
theorem C19_inverse_error [IsStrictOrderedRing K] (g : Gain K) :
    (G.d.r ≠ G.d.c → StateM.rtruedivGain g G = .error .value) ∧
    (∀ D : Matrix (Fin m) (Fin m) K, G.d = Arr.of D → D.det = 0 →
      StateM.rtruedivGain g G = .error .linAlg) := by
  constructor
  · intro h
    simp [StateM.rtruedivGain, StateM.invert, h, bind, Except.bind]
  · intro D hD h0
    have : HasSVBelow spacing1 D := by
      by_contra hn
      exact det_ne_zero_of_not_svBelow (by simp [spacing1]) hn h0
    have h2 : HasSVBelow spacing1 (G.d.m.submatrix id (Fin.cast (by rw [hD]) :
        Fin G.d.r → Fin G.d.c)) := by
      obtain ⟨a, b, c, d, dt, g⟩ := G
      simp only at hD
      subst hD
      simpa using this
    have h1 : G.d.r = G.d.c := by rw [hD]
    simp only [StateM.rtruedivGain, StateM.invert, bind, Except.bind]
    rw [dif_pos h1, if_pos h2]

/-- `State(-1, 1, 1, 2)` meets the hypotheses of `C19_inverse`. -/
example : Consistent (⟨Arr.of !![-1], Arr.of !![1], Arr.of !![1], Arr.of !![2], none, false⟩ :
      StateM ℚ) 1 1 ∧ ¬ HasSVBelow (spacing1 : ℚ) (!![2] : Matrix (Fin 1) (Fin 1) ℚ) := by
  refine ⟨⟨⟨rfl, rfl⟩, fun _ => ⟨rfl, rfl, rfl, rfl, rfl⟩⟩, ?_⟩
  rintro ⟨x, hx, h⟩
  simp [Matrix.mulVec, dotProduct, spacing1] at h
  nlinarith [mul_self_nonneg (x 0)]

/-! ## C20: indexing -/

/-- **C20**: `G[rows, cols]` for any index expressions (integers, sequences, slices) that select at
least one output and one input is the model with the selected submatrix of `G(s)`. -/
theorem C20_getitem {M : Matrix (Fin p) (Fin m) L} (h : HasTF G p m s M) (hdt : DtOk G.dt)
    {rows cols : Idx} {rs cs : List ℕ} (hr : Selects p rows rs) (hc : Selects m cols cs)
    (hr0 : rs ≠ []) (hc0 : cs ≠ []) :
    ∃ R, G.getitem rows cols = .ok R ∧ R.dt = G.dt ∧
      HasTF R rs.length cs.length s (Matrix.of fun i j =>
        M ⟨rs[i], hr.lt _ (rs.getElem_mem _)⟩ ⟨cs[j], hc.lt _ (cs.getElem_mem _)⟩) := by
  obtain ⟨R, e, h1, h2, -⟩ := getitem_hasTF h hdt hr hc hr0 hc0
  exact ⟨R, e, h2, h1⟩

/-- **C20**: an out of range integer index raises `IndexError`. -/
theorem C20_getitem_out_of_range {i : ℤ} (h : ∀ k, ¬ Resolves G.p i k) (cols : Idx) :
    G.getitem (.int i) cols = .error .index := by
  cases hi : pyIndex G.p i with
  | ok k => exact absurd (pyIndex_ok_iff.mp hi) (h k)
  | error e =>
    obtain ⟨rfl, -⟩ := pyIndex_error hi
    simp [StateM.getitem, arangeIdx, hi, bind, Except.bind]

example : HasTF lag21 2 1 (1 : ℚ) !![1 / 2; 2] ∧ Selects 2 (.int (-1)) [1] ∧
    Selects 1 (.slice none none none) [0] := by
  refine ⟨lag21_hasTF, .int ⟨by norm_num, Or.inr (by norm_num)⟩, ?_⟩
  have := Selects.slice (n := 1) (start := none) (stop := none) (step := none) (by decide)
  simpa [sliceSpec_full] using this

end Harold
