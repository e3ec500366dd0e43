import Verif.Props.LoopPoles

/-!
# C100: the poles of sums, products and inverses of models
-/

namespace Harold

open Matrix Harold.Spec
open scoped Kronecker

section
variable {K L : Type} [Field K] [LinearOrder K] [Field L] [Algebra K L] {m p q : ℕ} {G H R : StateM K} {s g h r : L}

local notation "φ" => algebraMap K L

theorem mkState_arr {a b c d : Arr K} {dt : Option K} {T : StateM K} (h : mkState (some a) (some b) (some c) (some d) dt = .ok T) : T.a = a ∧ T.dt = dt := by
  have h2 := (mkState_ok_iff _ _ _ _ _ _).mp h
  have h1 := h2.2.2
  refine ⟨?_, h2.2.1⟩
  unfold validateState at h1
  simp only [Option.isNone_some, Option.getD_some, Bool.and_self, Bool.false_eq_true, if_false] at h1
  split_ifs at h1 <;>
  · simp only [] at h1
    split_ifs at h1 <;>
    · simp only [Except.ok.injEq, Prod.mk.injEq] at h1
      exact h1.1.symm

theorem mkGain_flag {d : Arr K} {dt : Option K} {T : StateM K} (h : mkGain d dt = .ok T) : T.isgain = true ∧ T.dt = dt := by
  have h2 := (mkState_ok_iff _ _ _ _ _ _).mp h
  have h1 := h2.2.2
  refine ⟨?_, h2.2.1⟩
  simp only [validateState, Option.isNone_some, Option.isNone_none, Except.ok.injEq, Prod.mk.injEq] at h1
  simp_all

/-- A model with the state matrix of `G`. -/
theorem char_same {b c d : Arr K} {dt : Option K} (hi : G.isgain = false) (e : mkState (some G.a) (some b) (some c) (some d) dt = .ok R) (hg : CharAt G s g) : CharAt R s g := by
  rcases hg with ⟨h1, _⟩ | ⟨_, n, A, hA, hv⟩
  · rw [hi] at h1; cases h1
  · exact Or.inr ⟨mkState_isgain e, n, A, (mkState_arr e).1.trans hA, hv⟩

omit [LinearOrder K] in
theorem char_gain (hi : G.isgain = true) (hg : CharAt G s g) : g = 1 := CharAt_unique hg (Or.inl ⟨hi, rfl⟩)

theorem char_mkGain {d : Arr K} {dt : Option K} (e : mkGain d dt = .ok R) : CharAt R s 1 := Or.inl ⟨(mkGain_flag e).1, rfl⟩

omit [LinearOrder K] in
theorem char_dyn (hi : G.isgain = false) (hg : CharAt G s g) :
    ∃ (n : ℕ) (A : Matrix (Fin n) (Fin n) K), G.a = Arr.of A ∧ g = (s • (1 : Matrix (Fin n) (Fin n) L) - A.map φ).det := by
  rcases hg with ⟨h1, _⟩ | ⟨_, h⟩
  · rw [hi] at h1; cases h1
  · exact h

/-- **C100**: `-G` has the poles of `G`. -/
theorem C100_neg (e : G.neg = .ok R) (hg : CharAt G s g) : CharAt R s g := by
  unfold StateM.neg at e
  cases hi : G.isgain with
  | true =>
    rw [if_pos hi] at e
    rw [char_gain hi hg]
    exact char_mkGain e
  | false =>
    rw [hi] at e
    exact char_same hi e hg

theorem char_broadcast {dt : Option K} (hi : G.isgain = false) (e : G.broadcast p m dt = .ok R) (hg : CharAt G s g) : R.isgain = false ∧ CharAt R s g := by
  obtain ⟨d, _, e⟩ := bind_ok e
  exact ⟨mkState_isgain e, char_same hi e hg⟩

theorem char_addSA {fuel : ℕ} {x : SA K} (e : G.addSA fuel x = .ok R) (hg : CharAt G s g) : CharAt R s g := by
  induction fuel generalizing G x with
  | zero => cases e
  | succ fuel ih =>
    cases hi : G.isgain with
    | true =>
      rw [char_gain hi hg]
      cases x with
      | sc k =>
        simp only [StateM.addSA, hi, if_true] at e
        exact char_mkGain e
      | ar x =>
        simp only [StateM.addSA, hi, if_true] at e
        obtain ⟨mat, _, e⟩ := bind_ok e
        exact char_mkGain e
    | false =>
      cases x with
      | sc k =>
        simp only [StateM.addSA, hi, Bool.false_eq_true, if_false, ite_self] at e
        exact char_same hi e hg
      | ar x =>
        simp only [StateM.addSA, hi, Bool.false_eq_true, if_false] at e
        split_ifs at e
        · obtain ⟨G', e', e⟩ := bind_ok e
          exact ih e (char_broadcast hi e' hg).2
        · obtain ⟨d, _, e⟩ := bind_ok e
          exact char_same hi e hg

/-- **C100**: adding a number or an array keeps the poles. -/
theorem C100_add_gain {fuel : ℕ} {x : Gain K} (e : G.addGain fuel x = .ok R) (hg : CharAt G s g) : CharAt R s g := char_addSA e hg

theorem char_parallel (hi : G.isgain = false) (hi' : H.isgain = false) (e : G.parallel H = .ok R) (hg : CharAt G s g) (hh : CharAt H s h) : CharAt R s (g * h) := by
  obtain ⟨n, A, hA, rfl⟩ := char_dyn hi hg
  obtain ⟨n', A', hA', rfl⟩ := char_dyn hi' hh
  obtain ⟨b, _, e⟩ := bind_ok e
  obtain ⟨c, _, e⟩ := bind_ok e
  obtain ⟨d, _, e⟩ := bind_ok e
  have ha := (mkState_arr e).1
  rw [hA, hA', Arr.blockDiag_of] at ha
  refine Or.inr ⟨mkState_isgain e, n + n', _, ha, ?_⟩
  rw [blk_map, Matrix.map_zero _ (map_zero _), Matrix.map_zero _ (map_zero _), smul_one_sub_blk, neg_zero, neg_zero, det_blk_lower]

/-- **C100**: the characteristic polynomial of `G + H` is the product of those of `G` and `H`, for all shapes `+` accepts. -/
theorem C100_add {fuel : ℕ} (e : G.add fuel H = .ok R) (hg : CharAt G s g) (hh : CharAt H s h) : CharAt R s (g * h) := by
  induction fuel generalizing G H with
  | zero => cases e
  | succ fuel ih =>
    rw [StateM.add] at e
    by_cases hdt : G.dt ≠ H.dt
    · rw [if_pos hdt] at e; cases e
    rw [if_neg hdt] at e
    cases hi : G.isgain <;> cases hi' : H.isgain <;> simp only [hi, hi', Bool.and_self, Bool.and_true, Bool.and_false, Bool.false_eq_true, if_true, if_false] at e
    · cases hs : G.isSISO <;> cases hs' : H.isSISO <;>
        simp only [hs, hs', Bool.and_self, Bool.and_true, Bool.and_false, Bool.false_eq_true, Bool.not_true, Bool.not_false, if_true, if_false] at e
      · split_ifs at e
        exact char_parallel hi hi' e hg hh
      · obtain ⟨H', e', e⟩ := bind_ok e
        exact ih e hg (char_broadcast hi' e' hh).2
      · obtain ⟨G', e', e⟩ := bind_ok e
        exact ih e (char_broadcast hi e' hg).2 hh
      · exact char_parallel hi hi' e hg hh
    · rw [char_gain hi' hh, mul_one]
      exact char_addSA e hg
    · rw [char_gain hi hg, one_mul]
      exact char_addSA e hh
    · obtain ⟨d, _, e⟩ := bind_ok e
      rw [char_gain hi hg, char_gain hi' hh, one_mul]
      exact char_mkGain e

/-- **C100**: the same for `G - H`. -/
theorem C100_sub {fuel : ℕ} (e : G.sub fuel H = .ok R) (hg : CharAt G s g) (hh : CharAt H s h) : CharAt R s (g * h) := by
  obtain ⟨H', e', e⟩ := bind_ok e
  exact C100_add e hg (C100_neg e' hh)

theorem det_repDiag {n : ℕ} (k : ℕ) (A : Matrix (Fin n) (Fin n) K) :
    (s • (1 : Matrix (Fin (k * n)) (Fin (k * n)) L) - (kronM (1 : Matrix (Fin k) (Fin k) K) A).map φ).det = (s • (1 : Matrix (Fin n) (Fin n) L) - A.map φ).det ^ k := by
  have e1 : s • (1 : Matrix (Fin (k * n)) (Fin (k * n)) L) - (kronM (1 : Matrix (Fin k) (Fin k) K) A).map φ =
      ((1 : Matrix (Fin k) (Fin k) L) ⊗ₖ (s • (1 : Matrix (Fin n) (Fin n) L) - A.map φ)).submatrix finProdFinEquiv.symm finProdFinEquiv.symm := by
    rw [kronM_map]
    ext i j
    obtain ⟨⟨i, i'⟩, rfl⟩ := finProdFinEquiv.surjective i
    obtain ⟨⟨j, j'⟩, rfl⟩ := finProdFinEquiv.surjective j
    by_cases h1 : i = j <;> by_cases h2 : i' = j' <;> simp [h1, h2]
  rw [e1, det_submatrix_equiv_self, det_kronecker, det_one, one_pow, one_mul, Fintype.card_fin]

theorem char_siso_arr {x : Arr K} (hi : G.isgain = false) (e : G.sisoTimesArr x = .ok R) (hg : CharAt G s g) : R.isgain = false ∧ CharAt R s (g ^ min x.r x.c) := by
  obtain ⟨n, A, hA, rfl⟩ := char_dyn hi hg
  obtain ⟨d, _, e⟩ := bind_ok e
  rw [hA, repDiag_of] at e
  rw [← det_repDiag]
  split_ifs at e
  · exact ⟨mkState_isgain e, Or.inr ⟨mkState_isgain e, _, _, (mkState_arr e).1, rfl⟩⟩
  · exact ⟨mkState_isgain e, Or.inr ⟨mkState_isgain e, _, _, (mkState_arr e).1, rfl⟩⟩

/-- **C100**, `G @ x` for an array `x`: the poles of `G`; for models with one input and one output, which multiply every entry of the array, each pole appears `min(rows, columns)` times, and a zero array gives a
static gain. -/
theorem C100_matmul_array {x : Arr K} (hi : G.isgain = false) (e : G.matmulGain (.arr x) = .ok R) (hg : CharAt G s g) :
    CharAt R s (if G.isSISO then if x.any then g ^ min x.r x.c else 1 else g) := by
  unfold StateM.matmulGain at e
  split_ifs at e with h1
  simp only [Gain.regular, StateM.matmulSA, hi, Bool.false_eq_true, if_false] at e
  split_ifs at e ⊢ with hs hx
  · exact (char_siso_arr hi e hg).2
  · exact char_mkGain e
  · obtain ⟨b, _, e⟩ := bind_ok e
    obtain ⟨d, _, e⟩ := bind_ok e
    exact char_same hi e hg

/-- **C100**, `x @ G` for an array `x`. -/
theorem C100_rmatmul_array {x : Arr K} (hi : G.isgain = false) (e : StateM.rmatmulGain (.arr x) G = .ok R) (hg : CharAt G s g) :
    CharAt R s (if G.isSISO then if x.any then g ^ min x.r x.c else 1 else g) := by
  simp only [StateM.rmatmulGain, hi, Bool.false_eq_true, if_false] at e
  split_ifs at e ⊢ with h0 hs hx
  · exact (char_siso_arr hi e hg).2
  · exact char_mkGain e
  · obtain ⟨b, _, e⟩ := bind_ok e
    obtain ⟨d, _, e⟩ := bind_ok e
    exact char_same hi e hg

/-- **C100**, `k @ G` for a number `k`: the poles of `G`, except that `0 @ G` of a model with one input and one output is static. -/
theorem C100_scalar {k : K} (hi : G.isgain = false) (e : StateM.rmatmulGain (.scalar k) G = .ok R) (hg : CharAt G s g) :
    CharAt R s (if G.isSISO = true ∧ k = 0 then 1 else g) := by
  simp only [StateM.rmatmulGain, hi, Bool.false_eq_true, if_false] at e
  split_ifs at e ⊢ with h1 h2 h3 h4 h5
  all_goals first
    | exact char_mkGain e
    | exact char_same hi e hg
    | simp_all

theorem C100_scalar_right {k : K} (hi : G.isgain = false) (e : G.matmulGain (.scalar k) = .ok R) (hg : CharAt G s g) :
    CharAt R s (if G.isSISO = true ∧ k = 0 then 1 else g) := by
  simp only [StateM.matmulGain, StateM.matmulShapeBad, Gain.regular, StateM.matmulSA, hi, Bool.false_eq_true, if_false] at e
  split_ifs at e ⊢ with h1 h2 h3 h4 h5
  all_goals first
    | exact char_mkGain e
    | exact char_same hi e hg
    | simp_all

theorem char_series (hG : Consistent G p q) (hH : Consistent H q m) (hi : G.isgain = false) (hi' : H.isgain = false) (e : G.series H = .ok R) (hg : CharAt G s g) (hh : CharAt H s h) :
    R.isgain = false ∧ CharAt R s (g * h) := by
  obtain ⟨a, b, c, D, dt, rfl⟩ | ⟨n, A, B, C, D, dt, rfl⟩ := consistent_cases hG
  · cases hi
  obtain ⟨a, b, c, D', dt', rfl⟩ | ⟨n', A', B', C', D', dt', rfl⟩ := consistent_cases hH
  · cases hi'
  have z : (Arr.zeros n' n : Arr K) = Arr.of 0 := rfl
  simp only [StateM.series, Arr.vstack_of, Arr.hstack_of, Arr.matmul_of, z, bind, Except.bind] at e
  obtain rfl := CharAt_unique hg (Or.inr ⟨rfl, n, A, rfl, rfl⟩)
  obtain rfl := CharAt_unique hh (Or.inr ⟨rfl, n', A', rfl, rfl⟩)
  refine ⟨mkState_isgain e, Or.inr ⟨mkState_isgain e, n + n', _, (mkState_arr e).1, ?_⟩⟩
  rw [vcat_hcat, blk_map, Matrix.map_zero _ (map_zero _), smul_one_sub_blk, neg_zero, det_blk_upper]

/-- **C100**: the characteristic polynomial of the product of two models with states and matching sizes is the product of the characteristic polynomials. -/
theorem C100_matmul {fuel : ℕ} (hG : Consistent G p q) (hH : Consistent H q m) (hi : G.isgain = false) (hi' : H.isgain = false) (e : G.matmul fuel H = .ok R) (hg : CharAt G s g)
    (hh : CharAt H s h) : CharAt R s (g * h) := by
  cases fuel with
  | zero => cases e
  | succ fuel =>
    rw [StateM.matmul] at e
    by_cases hdt : G.dt ≠ H.dt
    · rw [if_pos hdt] at e; cases e
    have hm : G.m = H.p := hG.1.2.trans hH.1.1.symm
    simp only [if_neg hdt, hi, hi', Bool.and_self, Bool.false_eq_true, if_false, hm, ne_eq, not_true_eq_false, decide_false, Bool.and_false] at e
    exact (char_series hG hH hi hi' e hg hh).2

theorem siso_eye {k : ℕ} (hk : 1 ≤ k) (hG : Consistent G 1 1) (hi : G.isgain = false) (e : G.matmulGain (.arr (Arr.eye k)) = .ok R) (hg : CharAt G s g) :
    R.isgain = false ∧ Consistent R k k ∧ CharAt R s (g ^ k) := by
  have hs : G.isSISO = true := by simp [StateM.isSISO, hG.1.1, hG.1.2]
  have hany : (Arr.eye k : Arr K).any = true := (Arr.any_iff _).mpr ⟨⟨0, hk⟩, ⟨0, hk⟩, by simp [Arr.eye, Arr.of]⟩
  have e1 : G.sisoTimesArr (Arr.eye k) = .ok R := by
    simpa [StateM.matmulGain, StateM.matmulShapeBad, hs, Gain.regular, StateM.matmulSA, hi, hany] using e
  obtain ⟨h1, h2⟩ := char_siso_arr hi e1 hg
  refine ⟨h1, ?_, by simpa [Arr.eye] using h2⟩
  obtain ⟨a, b, c, D, dt, rfl⟩ | ⟨n, A, B, C, D, dt, rfl⟩ := consistent_cases hG
  · cases hi
  have h3 : (Arr.eye k : Arr K) = Arr.of 1 := rfl
  rw [h3] at e1
  simp only [StateM.sisoTimesArr, mul_scalar, Bind.bind, Except.bind, Arr.of_r, Arr.of_c, lt_irrefl, if_false, min_self] at e1
  rw [repDiag_of, repDiag_of, Arr.kron_of, Arr.of_cast rfl (mul_one k).symm (kronM 1 B), Arr.of_cast (mul_one k).symm rfl (kronM 1 C), mkState_of ((mkState_ok_iff _ _ _ _ _ _).mp e1).1] at e1
  cases e1
  exact ⟨⟨rfl, rfl⟩, fun _ => ⟨rfl, rfl, rfl, rfl, rfl⟩⟩

/-- **C100**, products with a model of one input and one output whose size does not match: it multiplies every entry and its poles appear `min(p, m)` times. -/
theorem C100_matmul_siso {fuel : ℕ} (hp : 2 ≤ p) (hm : 1 ≤ m) (hG : Consistent G 1 1) (hH : Consistent H p m) (hi : G.isgain = false) (hi' : H.isgain = false)
    (hg : CharAt G s g) (hh : CharAt H s h) (e : G.matmul fuel H = .ok R) : CharAt R s (g ^ min p m * h) := by
  cases fuel with
  | zero => cases e
  | succ fuel =>
    rw [StateM.matmul] at e
    by_cases hdt : G.dt ≠ H.dt
    · rw [if_pos hdt] at e; cases e
    have hs : G.isSISO = true := by simp [StateM.isSISO, hG.1.1, hG.1.2]
    have hs' : H.isSISO = false := by
      simp only [StateM.isSISO, hH.1.1, decide_eq_false_iff_not]
      omega
    have e1 : G.m = 1 := hG.1.2
    have e2 : H.p = p := hH.1.1
    have e3 : H.m = m := hH.1.2
    have e4 : (1 : ℕ) ≠ p := by omega
    simp only [if_neg hdt, hi, hi', Bool.and_self, Bool.false_eq_true, if_false, hs, hs', e1, e2, e3, ne_eq, e4, not_false_eq_true, decide_true, Bool.and_true, Bool.bne_false, if_true] at e
    by_cases h1 : m = 1
    · subst h1
      rw [if_pos rfl] at e
      rw [min_eq_right (by omega), pow_one, mul_comm]
      exact C100_matmul hH hG hi' hi e hh hg
    · rw [if_neg h1, if_neg e4.symm] at e
      by_cases h2 : m ≤ p
      · rw [if_pos h2, min_eq_right h2] at e
        obtain ⟨G', e', e⟩ := bind_ok e
        obtain ⟨a1, a2, a3⟩ := siso_eye hm hG hi e' hg
        rw [min_eq_right h2, mul_comm]
        exact C100_matmul hH a2 hi' a1 e hh a3
      · rw [if_neg h2, min_eq_left (by omega)] at e
        obtain ⟨G', e', e⟩ := bind_ok e
        obtain ⟨a1, a2, a3⟩ := siso_eye (by omega) hG hi e' hg
        rw [min_eq_left (by omega)]
        exact C100_matmul a2 hH a1 hi' e a3 hh

/-- **C100**, the same with the other order of the factors. -/
theorem C100_matmul_siso_right {fuel : ℕ} (hp : 1 ≤ p) (hm : 2 ≤ m) (hG : Consistent G p m) (hH : Consistent H 1 1) (hi : G.isgain = false) (hi' : H.isgain = false)
    (hg : CharAt G s g) (hh : CharAt H s h) (e : G.matmul fuel H = .ok R) : CharAt R s (g * h ^ min p m) := by
  cases fuel with
  | zero => cases e
  | succ fuel =>
    rw [StateM.matmul] at e
    by_cases hdt : G.dt ≠ H.dt
    · rw [if_pos hdt] at e; cases e
    have hs : H.isSISO = true := by simp [StateM.isSISO, hH.1.1, hH.1.2]
    have hs' : G.isSISO = false := by
      simp only [StateM.isSISO, hG.1.2, decide_eq_false_iff_not]
      omega
    have e1 : H.p = 1 := hH.1.1
    have e2 : G.p = p := hG.1.1
    have e3 : G.m = m := hG.1.2
    have e4 : m ≠ 1 := by omega
    simp only [if_neg hdt, hi, hi', Bool.and_self, Bool.false_eq_true, if_false, hs, hs', e1, e2, e3, ne_eq, e4, not_false_eq_true, decide_true, Bool.and_true, Bool.bne_true, Bool.not_false, if_true] at e
    by_cases h1 : p = 1
    · subst h1
      rw [if_pos rfl] at e
      rw [min_eq_left (by omega), pow_one, mul_comm]
      exact C100_matmul hH hG hi' hi e hh hg
    · rw [if_neg h1] at e
      by_cases h2 : m ≤ p
      · rw [if_pos h2, min_eq_right h2] at e
        obtain ⟨H', e', e⟩ := bind_ok e
        obtain ⟨a1, a2, a3⟩ := siso_eye (by omega) hH hi' e' hh
        rw [min_eq_right h2]
        exact C100_matmul hG a2 hi a1 e hg a3
      · rw [if_neg h2, min_eq_left (by omega)] at e
        obtain ⟨H', e', e⟩ := bind_ok e
        obtain ⟨a1, a2, a3⟩ := siso_eye (by omega) hH hi' e' hh
        rw [min_eq_left (by omega), mul_comm]
        exact C100_matmul a2 hG a1 hi e a3 hg

/-- **C100**: indexing keeps all poles. -/
theorem C100_getitem {rows cols : Idx} (e : G.getitem rows cols = .ok R) (hg : CharAt G s g) : CharAt R s g := by
  obtain ⟨rc, _, e⟩ := bind_ok e
  obtain ⟨cb, _, e⟩ := bind_ok e
  split_ifs at e with h1 h2
  · rw [char_gain h2 hg]
    exact char_mkGain e
  · exact char_same (by simpa using h2) e hg

omit [LinearOrder K] [Algebra K L] [Field K] in
theorem det_inverse {n : ℕ} {A : Matrix (Fin n) (Fin n) L} {B : Matrix (Fin n) (Fin m) L} {C : Matrix (Fin m) (Fin n) L} {D E M : Matrix (Fin m) (Fin m) L} (hT : IsTF A B C D s M) (hE : D * E = 1) :
    (s • (1 : Matrix (Fin n) (Fin n) L) - (A - B * (E * C))).det * D.det = (s • (1 : Matrix (Fin n) (Fin n) L) - A).det * M.det := by
  obtain ⟨hd, X, hX, hM⟩ := isTF_iff_sol.mp hT
  have e1 : s • (1 : Matrix (Fin n) (Fin n) L) - (A - B * (E * C)) = (s • (1 : Matrix (Fin n) (Fin n) L) - A) + B * (E * C) := by abel
  have hY : (s • (1 : Matrix (Fin n) (Fin n) L) - A)⁻¹ * B = X := by rw [← hX, ← Matrix.mul_assoc, nonsing_inv_mul _ (Ne.isUnit hd), Matrix.one_mul]
  rw [e1, det_add_mul _ _ (Ne.isUnit hd), mul_assoc, mul_comm _ D.det, ← det_mul, Matrix.mul_assoc (E * C), hY, Matrix.mul_add, Matrix.mul_one, Matrix.mul_assoc, ← Matrix.mul_assoc D, hE,
    Matrix.one_mul, hM, add_comm D]

/-- **C100**: the poles of `1/G` are the zeros of `det G(s)`, as far as they are not poles of `G`: the characteristic polynomial of the inverse times `det D` is that of `G` times `det G(s)`. -/
theorem C100_inverse [IsStrictOrderedRing K] {D : Matrix (Fin m) (Fin m) K} {M : Matrix (Fin m) (Fin m) L} (hD : G.d = Arr.of D) (hdt : DtOk G.dt)
    (e : StateM.rtruedivGain (.scalar 1) G = .ok R) (hM : HasTF G m m s M) (hg : CharAt G s g) (hr : CharAt R s r) : D.det ≠ 0 ∧ r * φ D.det = g * M.det := by
  obtain ⟨R0, e0, e⟩ := bind_ok e
  have hsv : ¬ HasSVBelow spacing1 D := by
    intro hsv
    have h1 : G.d.r = G.d.c := by rw [hD]
    have h2 : HasSVBelow spacing1 (G.d.m.submatrix id (Fin.cast h1)) := by
      clear hM hg
      obtain ⟨a, b, c, d, dt, g⟩ := G
      simp only at hD
      subst hD
      simpa using hsv
    rw [StateM.invert, dif_pos h1, if_pos h2] at e0
    cases e0
  have hdet : D.det ≠ 0 := det_ne_zero_of_not_svBelow (by simp [spacing1]) hsv
  refine ⟨hdet, ?_⟩
  have hDD : D * D⁻¹ = 1 := Matrix.mul_nonsing_inv _ (Ne.isUnit hdet)
  have hDφ : D.map φ * D⁻¹.map φ = 1 := by rw [← map_mul', hDD, Matrix.map_one _ (map_zero _) (map_one _)]
  have hφ : φ D.det = (D.map φ).det := by rw [RingHom.map_det, RingHom.mapMatrix_apply]
  have hdyn : G.isgain = true ∨ ∃ (n : ℕ) (A : Matrix (Fin n) (Fin n) K) (B : Matrix (Fin n) (Fin m) K) (C : Matrix (Fin m) (Fin n) K), G.a = Arr.of A ∧ G.b = Arr.of B ∧ G.c = Arr.of C := by
    rcases hM with ⟨h, _⟩ | ⟨_, n, A, B, C, D', hA, hB, hC, _⟩
    · exact Or.inl h
    · exact Or.inr ⟨n, A, B, C, hA, hB, hC⟩
  obtain ⟨R1, e1, d1, g1, dd1, hR1⟩ := invert_hasTF hdt hD hsv hdyn
  obtain rfl : R0 = R1 := Except.ok.inj (e0.symm.trans e1)
  rw [hφ]
  cases hi : G.isgain with
  | true =>
    obtain ⟨D1, hD1, rfl⟩ := gain_elim hM hi
    rw [hD, Arr.of_inj] at hD1
    subst hD1
    rw [char_gain hi hg]
    have : R.isgain = true := by
      simp only [StateM.rmatmulGain, g1, hi, if_true] at e
      exact (mkGain_flag e).1
    rw [char_gain this hr]
  | false =>
    obtain ⟨n, A, B, C, D1, hA, hB, hC, hD1, hT⟩ := dyn_elim hM hi
    rw [hD, Arr.of_inj] at hD1
    subst hD1
    obtain ⟨ha, -, -⟩ := hR1 n A B C hi hA hB hC
    have h3 := C100_scalar (g1.trans hi) e (Or.inr ⟨g1.trans hi, n, _, ha, rfl⟩ : CharAt R0 s _)
    rw [if_neg (by simp)] at h3
    rw [CharAt_unique hr h3, CharAt_unique hg (Or.inr ⟨hi, n, A, hA, rfl⟩), map_sub', map_mul', map_mul']
    exact det_inverse hT hDφ

end

section
variable {p m p' m' p'' m'' q : ℕ} {N : Numerics ℝ ℂ} {S T U : StateObj ℝ ℂ} {R : StateM ℝ}

/-- The reported poles are the zeros of the characteristic polynomial with their multiplicities. -/
theorem char_poles (hN : EigExact N) (hP : PolesCurrent N S) (hc : Consistent S.g p m) (s : ℂ) : CharAt S.g s ((S.poles.map fun z => s - z).prod) := by
  cases hi : S.g.isgain with
  | true =>
    rw [poles_gain hP hi]
    exact Or.inl ⟨hi, rfl⟩
  | false =>
    obtain ⟨a, b, c, D, dt, hG⟩ | ⟨n, A, B, C, D, dt, hG⟩ := consistent_cases hc
    · simp [hG] at hi
    · have hA : S.g.a = Arr.of A := by rw [hG]
      refine Or.inr ⟨hi, n, A, hA, ?_⟩
      rw [poles_dyn hP hi hA, ← map_charpoly_eval, hN A, Polynomial.eval_list_prod, List.map_map]
      congr 1
      refine List.map_congr_left fun z _ => ?_
      simp

theorem perm_of_prod {l k : List ℂ} (h : ∀ s : ℂ, (l.map fun z => s - z).prod = (k.map fun z => s - z).prod) : l.Perm k := by
  have h1 : (l.map fun z => Polynomial.X - Polynomial.C z).prod = (k.map fun z => Polynomial.X - Polynomial.C z).prod := by
    refine Polynomial.funext fun s => ?_
    rw [Polynomial.eval_list_prod, Polynomial.eval_list_prod, List.map_map, List.map_map]
    simpa [Function.comp_def] using h s
  have h2 := congrArg Polynomial.roots h1
  have key : ∀ l : List ℂ, (l.map fun z => Polynomial.X - Polynomial.C z).prod.roots = (l : Multiset ℂ) := by
    intro l
    have := Polynomial.roots_multiset_prod_X_sub_C (l : Multiset ℂ)
    simpa using this
  rw [key, key] at h2
  exact Multiset.coe_eq_coe.mp h2

theorem poles_of_char (hN : EigExact N) (hS : PolesCurrent N S) (hT : PolesCurrent N T) (hU : PolesCurrent N U) (cS : Consistent S.g p m) (cT : Consistent T.g p' m') (cU : Consistent U.g p'' m'')
    {i j : ℕ} (h : ∀ s g k : ℂ, CharAt S.g s g → CharAt T.g s k → CharAt U.g s (g ^ i * k ^ j)) :
    U.poles.Perm ((List.replicate i S.poles).flatten ++ (List.replicate j T.poles).flatten) := by
  refine perm_of_prod fun s => ?_
  have rep : ∀ (n : ℕ) (l : List ℂ), (((List.replicate n l).flatten).map fun z => s - z).prod = (l.map fun z => s - z).prod ^ n := by
    intro n l
    induction n with
    | zero => simp
    | succ n ih => rw [List.replicate_succ, List.flatten_cons, List.map_append, List.prod_append, ih, pow_succ, mul_comm]
  rw [CharAt_unique (char_poles hN hU cU s) (h s _ _ (char_poles hN hS cS s) (char_poles hN hT cT s)), List.map_append, List.prod_append, rep, rep]

/-- **C100**, reported poles: those of a sum are the poles of the two summands, with multiplicities. -/
theorem C100_add_poles (hN : EigExact N) (hS : PolesCurrent N S) (hT : PolesCurrent N T) (hU : PolesCurrent N U) (cS : Consistent S.g p m) (cT : Consistent T.g p' m') (cU : Consistent U.g p'' m'')
    {fuel : ℕ} (e : S.g.add fuel T.g = .ok U.g) : U.poles.Perm (S.poles ++ T.poles) := by
  have := poles_of_char (i := 1) (j := 1) hN hS hT hU cS cT cU fun s g k hg hk => by
    rw [pow_one, pow_one]
    exact C100_add e hg hk
  simpa using this

/-- **C100**, reported poles: those of a product are the poles of the two factors, with multiplicities. -/
theorem C100_matmul_poles (hN : EigExact N) (hS : PolesCurrent N S) (hT : PolesCurrent N T) (hU : PolesCurrent N U) (cS : Consistent S.g p q) (cT : Consistent T.g q m) (cU : Consistent U.g p'' m'')
    (hi : S.g.isgain = false) (hi' : T.g.isgain = false) {fuel : ℕ} (e : S.g.matmul fuel T.g = .ok U.g) : U.poles.Perm (S.poles ++ T.poles) := by
  have := poles_of_char (i := 1) (j := 1) hN hS hT hU cS cT cU fun s g k hg hk => by
    rw [pow_one, pow_one]
    exact C100_matmul cS cT hi hi' e hg hk
  simpa using this

theorem stable_of_char {G : StateM ℝ} {z₀ v₀ : ℂ} (h : CharAt G z₀ v₀) : StableModel G ↔ ∀ z, CharAt G z 0 → StablePoint G.dt z := by
  rcases h with ⟨hi, _⟩ | ⟨hi, n, A, hA, _⟩
  · exact ⟨fun _ z hz => absurd (char_gain hi hz).symm one_ne_zero, fun _ => Or.inl hi⟩
  · have h1 : StableModel G ↔ MotionsVanish G.dt A := by
      constructor
      · rintro (h | ⟨n', A', hA', h⟩)
        · rw [hi] at h; cases h
        · rw [hA] at hA'
          obtain rfl : n = n' := congrArg Arr.r hA'
          obtain rfl := Arr.of_inj.mp hA'
          exact h
      · exact fun h => Or.inr ⟨n, A, hA, h⟩
    rw [h1, motions_iff]
    refine forall_congr' fun z => ?_
    have : CharAt G z 0 ↔ IsEig A z := ⟨fun h => (CharAt_unique h (Or.inr ⟨hi, n, A, hA, rfl⟩)).symm, fun h => Or.inr ⟨hi, n, A, hA, h.symm⟩⟩
    rw [this]

theorem stable_of_mul {G H : StateM ℝ} (cG : Consistent G p m) (cH : Consistent H p' m') (h : ∀ s g k : ℂ, CharAt G s g → CharAt H s k → CharAt R s (g * k)) (h1 : R.dt = G.dt) (h2 : R.dt = H.dt) :
    StableModel R ↔ StableModel G ∧ StableModel H := by
  obtain ⟨g, hg⟩ := exists_char cG (0 : ℂ)
  obtain ⟨k, hk⟩ := exists_char cH (0 : ℂ)
  rw [stable_of_char (h _ _ _ hg hk), stable_of_char hg, stable_of_char hk, ← h1, ← h2]
  constructor
  · intro hR
    refine ⟨fun z hz => ?_, fun z hz => ?_⟩
    · obtain ⟨k, hk⟩ := exists_char cH z
      have := h z 0 k hz hk
      rw [zero_mul] at this
      exact hR z this
    · obtain ⟨g, hg⟩ := exists_char cG z
      have := h z g 0 hg hz
      rw [mul_zero] at this
      exact hR z this
  · rintro ⟨hG, hH⟩ z hz
    obtain ⟨g, hg⟩ := exists_char cG z
    obtain ⟨k, hk⟩ := exists_char cH z
    have := CharAt_unique (h z g k hg hk) hz
    rcases mul_eq_zero.mp this with rfl | rfl
    · exact hG z hg
    · exact hH z hk

/-- **C100**, stability of products: the product is stable exactly if both factors are. -/
theorem C100_matmul_stable {G H : StateM ℝ} (cG : Consistent G p q) (cH : Consistent H q m) (hi : G.isgain = false) (hi' : H.isgain = false) {fuel : ℕ} (e : G.matmul fuel H = .ok R) :
    StableModel R ↔ StableModel G ∧ StableModel H := by
  obtain ⟨h1, h2⟩ := (C16_mul_keeps_dt (g := .scalar 0)).1 e
  exact stable_of_mul cG cH (fun s g k hg hk => C100_matmul cG cH hi hi' e hg hk) h1 h2

/-- **C100**, stability of sums of continuous models: the sum is stable exactly if both summands are. Missing: models with a sampling period, see `C100_sum_stable_violated`. -/
theorem C100_add_stable_partial {G H : StateM ℝ} (cG : Consistent G p m) (cH : Consistent H p' m') {fuel : ℕ} (e : G.add fuel H = .ok R) (hG : G.dt = none) (hR : R.dt = none) :
    StableModel R ↔ StableModel G ∧ StableModel H := by
  have hdt : G.dt = H.dt := by
    cases fuel with
    | zero => cases e
    | succ fuel =>
      by_contra h
      rw [StateM.add, if_pos h] at e
      cases e
  exact stable_of_mul cG cH (fun s g k hg hk => C100_add e hg hk) (hR.trans hG.symm) (by rw [hR, ← hG, hdt])

end

theorem char_one_state {K L : Type} [Field K] [Field L] [Algebra K L] {a : K} {b c d : Arr K} {dt : Option K} (s : L) :
    CharAt (⟨Arr.of !![a], b, c, d, dt, false⟩ : StateM K) s (s - algebraMap K L a) :=
  Or.inr ⟨rfl, 1, !![a], rfl, by simp⟩

/-- **C100** fails for the stability of sums of models with a sampling period: `1/(z - 0.5)` is stable, `G + G` has the pole `0.5` twice and, since the sampling period is lost, is a continuous model which is not
stable. -/
theorem C100_sum_stable_violated : ∃ (G R : StateM ℝ), G.dt = some 1 ∧ StableModel G ∧ G.add 2 G = .ok R ∧ ¬ StableModel R := by
  have tf : HasTF (⟨Arr.of !![1 / 2], Arr.of !![1], Arr.of !![1], Arr.of !![0], some 1, false⟩ : StateM ℝ) 1 1 (1 : ℝ) !![2] := by
    refine HasTF.of_dyn (isTF_iff_sol.mpr ⟨?_, !![2], ?_, ?_⟩)
    · simp [Matrix.det_fin_one]
      norm_num
    · ext i j; fin_cases i; fin_cases j
      simp [Matrix.mul_apply]
      norm_num
    · ext i j; fin_cases i; fin_cases j; simp [Matrix.mul_apply]
  obtain ⟨R, e, hd, -⟩ := C16_sum_drops_dt_violated (t := 1) tf tf rfl rfl one_pos rfl rfl 0
  refine ⟨_, R, rfl, ?_, e, ?_⟩
  · refine Or.inr ⟨1, !![1 / 2], rfl, motions_iff.mpr fun z hz => ?_⟩
    have := one_state_schur (a := 1 / 2) (by norm_num [abs_of_pos]) z hz
    simpa [StablePoint] using this
  · have hc := C100_add e (char_one_state (algebraMap ℝ ℂ (1 / 2))) (char_one_state (algebraMap ℝ ℂ (1 / 2)))
    rw [stable_of_char hc]
    intro h
    rw [sub_self, zero_mul] at hc
    have := h _ hc
    rw [hd] at this
    norm_num [StablePoint] at this

/-- `(1/(s+1))·(1/(s+1))` over the rationals: `det(s I - A) = (s+1)²`, `4` at `s = 1`. -/
example : ∃ R, lag.matmul 1 lag = .ok R ∧ CharAt R (1 : ℚ) 4 := by
  obtain ⟨R, e, -⟩ := C17_matmul lag_hasTF lag_hasTF dtOk_none rfl 0
  refine ⟨R, e, ?_⟩
  have := C100_matmul (hasTF_consistent lag_hasTF) (hasTF_consistent lag_hasTF) rfl rfl e (char_one_state (1 : ℚ)) (char_one_state (1 : ℚ))
  norm_num at this
  exact this

/-- `1/(s+1) + 1/(s+1)`. -/
example : ∃ R, lag.add 2 lag = .ok R ∧ CharAt R (1 : ℚ) 4 := by
  obtain ⟨R, e, -⟩ := C15_add_partial lag_hasTF lag_hasTF dtOk_none rfl (Or.inl rfl) 0
  refine ⟨R, e, ?_⟩
  have := C100_add e (char_one_state (1 : ℚ)) (char_one_state (1 : ℚ))
  norm_num at this
  exact this

/-- The inverse of `State(-1, 1, 1, 2)`, that is of `(2 s + 3)/(s + 1)`: the pole is at `-3/2`. -/
example : ∃ R, StateM.rtruedivGain (.scalar 1) (⟨Arr.of !![-1], Arr.of !![1], Arr.of !![1], Arr.of !![2], none, false⟩ : StateM ℚ) = .ok R ∧ CharAt R (0 : ℚ) (3 / 2) := by
  have hc : Consistent (⟨Arr.of !![-1], Arr.of !![1], Arr.of !![1], Arr.of !![2], none, false⟩ : StateM ℚ) 1 1 := ⟨⟨rfl, rfl⟩, fun _ => ⟨rfl, rfl, rfl, rfl, rfl⟩⟩
  have hsv : ¬ HasSVBelow (spacing1 : ℚ) (!![2] : Matrix (Fin 1) (Fin 1) ℚ) := by
    rintro ⟨x, hx, h⟩
    simp [Matrix.mulVec, dotProduct, spacing1] at h
    nlinarith [mul_self_nonneg (x 0)]
  obtain ⟨R, e, -, -⟩ := C19_inverse (L := ℚ) hc rfl dtOk_none hsv
  have tf : HasTF (⟨Arr.of !![-1], Arr.of !![1], Arr.of !![1], Arr.of !![2], none, false⟩ : StateM ℚ) 1 1 (0 : ℚ) !![3] := by
    refine HasTF.of_dyn (isTF_iff_sol.mpr ⟨?_, !![1], ?_, ?_⟩)
    · simp [Matrix.det_fin_one]
    · ext i j; fin_cases i; fin_cases j; simp [Matrix.mul_apply]
    · ext i j; fin_cases i; fin_cases j; simp [Matrix.mul_apply]; norm_num
  refine ⟨R, e, ?_⟩
  have hgain : R.isgain = false ∧ ∃ (n : ℕ) (A : Matrix (Fin n) (Fin n) ℚ), R.a = Arr.of A := by
    obtain ⟨R0, e0, e1⟩ := bind_ok e
    obtain ⟨R1, e2, d1, g1, dd1, hR1⟩ := invert_hasTF (G := ⟨Arr.of !![-1], Arr.of !![1], Arr.of !![1], Arr.of !![2], none, false⟩) dtOk_none rfl hsv (Or.inr ⟨1, _, _, _, rfl, rfl, rfl⟩)
    obtain rfl : R0 = R1 := Except.ok.inj (e0.symm.trans e2)
    obtain ⟨ha, -, -⟩ := hR1 1 _ _ _ rfl rfl rfl rfl
    have h3 := C100_scalar (s := (0 : ℚ)) (g1.trans rfl) e1 (Or.inr ⟨g1.trans rfl, 1, _, ha, rfl⟩)
    rw [if_neg (by simp)] at h3
    simp only [StateM.rmatmulGain, g1, Bool.false_eq_true, if_false, one_ne_zero, ite_self] at e1
    exact ⟨mkState_isgain e1, 1, _, (mkState_arr e1).1.trans ha⟩
  obtain ⟨hi, n, A, hA⟩ := hgain
  have hr : CharAt R (0 : ℚ) _ := Or.inr ⟨hi, n, A, hA, rfl⟩
  obtain ⟨-, h1⟩ := C100_inverse rfl dtOk_none e tf (char_one_state (0 : ℚ)) hr
  simp [Matrix.det_fin_one] at h1
  convert hr using 1
  simp
  linarith

end Harold
