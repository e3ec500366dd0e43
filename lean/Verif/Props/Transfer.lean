import Verif.Lemmas.TransferSucc
import Verif.Props.Convert

/-!
# C21-C25: construction, arithmetic and indexing of `Transfer` models

`E.lcmTol`, `E.remTol` are the thresholds below which the code replaces coefficients by zero, `E.bal` the
scalings of `matrix_balance`. The theorems are about nonzero scalings and about models for which no
coefficient is below the thresholds, in the sense of `Spec/Coarse.lean`; models with integer coefficients
and monic denominators are of this kind for thresholds up to one (`Lemmas/CoarseInt.lean`).
-/

namespace Harold

open Matrix Spec Polynomial TransferM

variable {K L : Type} [Field K] [LinearOrder K] [IsStrictOrderedRing K] [Field L] [Algebra K L]
  {E : TNum K} {s : L} {p m : ℕ}

/-! ## C21: construction -/

omit [IsStrictOrderedRing K] in
/-- **C21**, shapes: numerators and denominators of a constructed model have the same nonempty shape, the
gain flag says whether the longest denominator has length one, the sampling period is the given one and
is admissible. -/
theorem C21_shape {num den : TArg K} {dt : Option K} {G : TransferM K} (h : mkTransfer E num den dt = .ok G) :
    G.num.r = G.den.r ∧ G.num.c = G.den.c ∧ 0 < G.p ∧ 0 < G.m ∧ (G.isgain = true ↔ maxSize G.den = 1) ∧
      G.dt = dt ∧ DtOk dt := by
  obtain ⟨h1, h2, h3, -⟩ := mkTransfer_inv h
  obtain ⟨⟨h4, h5⟩, ⟨h6, h7⟩, h8, -⟩ := validate_shape h1
  exact ⟨h4, h5, h6, h7, by rw [h8]; simp, h2, h3⟩

omit [IsStrictOrderedRing K] in
theorem degree_le_of_trim {n d : List K} (h : (trimZeros n).length ≤ (trimZeros d).length) :
    (toPoly n).degree ≤ (toPoly d).degree := by
  rcases trimZeros_cases n with ⟨-, h1⟩ | ⟨a, t, h1, ha⟩
  · rw [h1]; simp
  · rcases trimZeros_cases d with ⟨h2, -⟩ | ⟨b, u, h2, hb⟩
    · rw [h1, h2] at h; simp at h
    · rw [← toPoly_trimZeros n, ← toPoly_trimZeros d, h1, h2, degree_toPoly_cons ha, degree_toPoly_cons hb]
      rw [h1, h2] at h
      simp only [List.length_cons] at h
      norm_cast
      omega

omit [IsStrictOrderedRing K] in
/-- **C21**, causality for lists of lists (MIMO): no numerator has higher degree than its denominator.
`_partial`: array arguments with leading zeros and zero denominators get through, see the `_violated`
theorems. -/
theorem C21_causal_lists_partial {N D : Matrix (Fin p) (Fin m) (List K)} (hpm : ¬ (p = 1 ∧ m = 1))
    {dt : Option K} {G : TransferM K}
    (h : mkTransfer E (.lists (Arr.of N)) (.lists (Arr.of D)) dt = .ok G) :
    G.num = Arr.of N ∧ G.den = Arr.of D ∧ ∀ i j, (toPoly (N i j)).degree ≤ (toPoly (D i j)).degree := by
  obtain ⟨h1, h2, -⟩ := mkTransfer_lists h
  refine ⟨h1, h2, fun i j => degree_le_of_trim ?_⟩
  obtain ⟨h3, -⟩ := mkTransfer_inv h
  obtain ⟨-, -, -, hp, hm⟩ := validate_lists h3
  unfold validateTransfer at h3
  have hr : ∀ X : Matrix (Fin p) (Fin m) (List K), regArg (.lists (Arr.of X)) = .ok (.mimo (Arr.of X)) := fun X => by
    simp only [regArg, Arr.of_r, Arr.of_c, if_neg hpm]
    rw [if_neg (by omega)]
  simp only [hr, bind, Except.bind, combineArgs, Arr.of_r, Arr.of_c, and_self, not_true_eq_false, if_false] at h3
  by_contra hc
  rw [if_pos ⟨(i : ℕ), (j : ℕ), by rw [entry_of N i j, entry_of D i j]; exact not_le.mp hc⟩] at h3
  cases h3

omit [IsStrictOrderedRing K] in
/-- **C21**, causality for coefficient lists (SISO) with a nonzero denominator. Missing: zero denominators (`C21_zero_den_violated`). -/
theorem C21_causal_flat_partial {a b : List K} (hb0 : toPoly b ≠ 0) {dt : Option K} {G : TransferM K}
    (h : mkTransfer E (.flat a) (.flat b) dt = .ok G) :
    (toPoly (G.num.entry 0 0)).degree ≤ (toPoly (G.den.entry 0 0)).degree ∧
      toPoly (G.num.entry 0 0) = toPoly a ∧ toPoly (G.den.entry 0 0) = toPoly b := by
  obtain ⟨h1, -⟩ := mkTransfer_inv h
  have hreg : ∀ l : List K, (∃ e, regArg (.flat l) = .error e) ∨
      ∃ l', regArg (.flat l) = .ok (.siso l') ∧ Trimmed l' ∧ toPoly l' = toPoly l := by
    intro l
    simp only [regArg]
    by_cases h1 : l = []
    · exact Or.inl ⟨.value, by rw [if_pos h1]⟩
    · right
      by_cases h2 : ∀ x ∈ l, x = 0
      · refine ⟨[0], by rw [if_neg h1, if_pos h2], Or.inl rfl, ?_⟩
        rw [(toPoly_eq_zero_iff _).mpr h2]
        simp [toPoly]
      · refine ⟨trimZeros l, by rw [if_neg h1, if_neg h2], ?_, toPoly_trimZeros l⟩
        rcases trimZeros_cases l with ⟨-, h3⟩ | ⟨b, u, h3, hb⟩
        · exact absurd ((toPoly_eq_zero_iff l).mp h3) h2
        · exact Or.inr ⟨b, u, h3, hb⟩
  unfold validateTransfer at h1
  rcases hreg a with ⟨e, ha⟩ | ⟨a', ha, ha1, ha2⟩
  · simp [ha, bind, Except.bind] at h1
  rcases hreg b with ⟨e, hb⟩ | ⟨b', hb, hb1, hb2⟩
  · simp [ha, hb, bind, Except.bind] at h1
  simp only [ha, hb, bind, Except.bind, combineArgs] at h1
  split_ifs at h1 with h2
  simp only [constArr] at h1
  simp only [one_ne_zero, or_self, if_false, Except.ok.injEq, Prod.mk.injEq] at h1
  obtain ⟨e1, e2, -⟩ := h1
  have e3 : G.num.entry 0 0 = a' := by rw [← e1]; rfl
  have e4 : G.den.entry 0 0 = b' := by rw [← e2]; rfl
  rw [e3, e4]
  refine ⟨?_, ha2, hb2⟩
  by_cases h0 : toPoly a' = 0
  · simp [h0]
  · have hl := trimmed_length ha1 h0
    rcases hb1 with rfl | ⟨c, u, rfl, hc⟩
    · exact absurd (by rw [← hb2]; simp [toPoly]) hb0
    · rw [degree_toPoly_cons hc, degree_eq_natDegree h0]
      simp only [List.length_cons] at h2
      norm_cast
      omega

omit [IsStrictOrderedRing K] in
theorem maxSize_const (l : List K) : maxSize (constArr 1 1 l) = l.length := by
  apply le_antisymm
  · exact maxSize_le fun i j => le_rfl
  · exact length_le_maxSize (Matrix.of fun (_ _ : Fin 1) => l) 0 0

omit [IsStrictOrderedRing K] in
/-- What the constructor does with two 1-D arrays. -/
theorem mkTransfer_vec (E : TNum K) {a b : List K} (hb : 0 < b.length) (hab : a.length ≤ b.length) {dt : Option K}
    (hdt : DtOk dt) : mkTransfer E (.vec a) (.vec b) dt =
      (TransferM.poleMatrix E ⟨constArr 1 1 a, constArr 1 1 b, decide (b.length = 1), dt⟩).map
        fun _ => ⟨constArr 1 1 a, constArr 1 1 b, decide (b.length = 1), dt⟩ := by
  unfold mkTransfer validateTransfer
  simp only [regArg, combineArgs, bind, Except.bind, if_neg (not_lt.mpr hab), maxSize_const, checkDt_ok hdt]
  rw [if_neg (by simp [constArr])]
  simp only
  cases TransferM.poleMatrix E ⟨constArr 1 1 a, constArr 1 1 b, decide (b.length = 1), dt⟩ <;> rfl

/-- **C21** fails: `Transfer(np.array([1]), np.array([0]))` is accepted, like `Transfer(1, 0)`. -/
theorem C21_zero_den_violated (E : TNum ℚ) : ∃ G, mkTransfer E (.vec [1]) (.vec [0]) none = .ok G ∧
    toPoly (G.den.entry 0 0) = 0 := by
  refine ⟨_, mkTransfer_vec E (by simp) (by simp) dtOk_none, ?_⟩
  show toPoly [0] = 0
  simp [toPoly]

/-- **C21** fails: 1-D array arguments are compared with their leading zeros, so
`Transfer(np.array([1, 2, 3]), np.array([0, 1, 2]))` is accepted although it is not causal. -/
theorem C21_noncausal_violated (E : TNum ℚ) : ∃ G, mkTransfer E (.vec [1, 2, 3]) (.vec [0, 1, 2]) none = .ok G ∧
    (toPoly (G.den.entry 0 0)).degree < (toPoly (G.num.entry 0 0)).degree := by
  refine ⟨⟨constArr 1 1 [1, 2, 3], constArr 1 1 [0, 1, 2], false, none⟩, ?_, ?_⟩
  · rw [mkTransfer_vec E (by simp) (by simp) dtOk_none]
    have c1 := companion_eq [1, 2, (3 : ℚ)] (trimZeros_of_cons one_ne_zero _) one_ne_zero (by simp)
    have c2 := companion_eq [0, (1 : ℚ), 2] (a := 1) (t := [2]) (by simp [trimZeros]) one_ne_zero (by simp)
    have e1 : ∀ a b c : ℚ, (constArr 1 1 [a, b, c]).entry 0 0 = [a, b, c] := fun a b c => rfl
    simp only [poleMatrix, isSISO, e1, c1, c2, bind, Except.bind]
    simp [constArr, Except.map]
  · show (toPoly [0, 1, 2]).degree < (toPoly [1, 2, 3]).degree
    have h1 : toPoly [0, (1 : ℚ), 2] = toPoly [1, 2] := by simp [toPoly]
    rw [h1, degree_toPoly_cons one_ne_zero, degree_toPoly_cons one_ne_zero]
    norm_cast

/-! ## C22: sums -/

/-- **C22**: sum of two models of the same shape: sum of the values, wherever both are defined; both must
have the same sampling period, which is kept. Missing: sums whose leading terms cancel are rejected (`C22_cancel_violated`). -/
theorem C22_add_partial (hbal : ∀ polys i, E.bal polys i ≠ 0) {G H F : TransferM K}
    (hthr : SumClear E.lcmTol G H) {M M' : Matrix (Fin p) (Fin m) L} (hG : Valued G p m s M) (hH : Valued H p m s M')
    (h : add E G H = .ok F) : Valued F p m s (M + M') ∧ F.dt = G.dt ∧ G.dt = H.dt :=
  add_valued hbal hthr hG hH h

/-- **C22**. Missing: as in `C22_add_partial`. -/
theorem C22_sub_partial (hbal : ∀ polys i, E.bal polys i ≠ 0) {G H F : TransferM K}
    (hthr : SumClear E.lcmTol G H) {M M' : Matrix (Fin p) (Fin m) L} (hG : Valued G p m s M) (hH : Valued H p m s M')
    (h : sub E G H = .ok F) : Valued F p m s (M - M') ∧ F.dt = G.dt ∧ G.dt = H.dt := by
  unfold TransferM.sub at h
  obtain ⟨N, h1, h2⟩ := bind_ok' h
  obtain ⟨h3, h4⟩ := neg_valued hH h1
  have hthr' : SumClear E.lcmTol G N := fun i j => by
    rw [show N.den = H.den by
      obtain ⟨P, Q, g, dt, rfl, -⟩ := hH.elim
      exact (mkTransfer_lists (N := Matrix.of fun i j => (P i j).map fun x => -x) h1).2.1]
    exact hthr i j
  obtain ⟨h5, h6, h7⟩ := add_valued hbal hthr' hG h3 h2
  rw [sub_eq_add_neg]
  exact ⟨h5, h6, h7.trans h4⟩

/-- **C22**: negation. Missing: as in `C22_add_partial`. -/
theorem C22_neg_partial {G F : TransferM K} {M : Matrix (Fin p) (Fin m) L} (hG : Valued G p m s M)
    (h : neg E G = .ok F) : Valued F p m s (-M) ∧ F.dt = G.dt :=
  neg_valued hG h

omit [IsStrictOrderedRing K] in
theorem Spec.Valued.shape {G : TransferM K} {M : Matrix (Fin p) (Fin m) L} (h : Valued G p m s M) :
    G.num.r = p ∧ G.num.c = m := by
  obtain ⟨N, D, g, dt, rfl, -⟩ := h.elim
  exact ⟨rfl, rfl⟩

omit [IsStrictOrderedRing K] in
theorem toArray_valued {G : TransferM K} {M : Matrix (Fin p) (Fin m) L} (hG : Valued G p m s M) {x : Arr K}
    (h : G.toArray = .ok x) : ∃ X : Matrix (Fin p) (Fin m) K, x = Arr.of X ∧ X.map (algebraMap K L) = M := by
  obtain ⟨N, D, g, dt, rfl, hv⟩ := hG.elim
  unfold toArray at h
  split_ifs at h
  obtain ⟨X, h1, h2, -⟩ := gainArr_valued h hv
  exact ⟨X, h1, h2⟩

/-- **C22**: adding an array of the same shape adds its entries. Missing: as in `C22_add_partial`. -/
theorem C22_add_array_partial (hbal : ∀ polys i, E.bal polys i ≠ 0) (hthr : E.lcmTol ≤ 1) (hp : 0 < p)
    (hm : 0 < m) {G F : TransferM K} (hden : DenClear E.lcmTol G) {M : Matrix (Fin p) (Fin m) L} (hG : Valued G p m s M)
    {Y : Matrix (Fin p) (Fin m) K} (h : addGain E G (.arr (Arr.of Y)) = .ok F) :
    Valued F p m s (M + Y.map (algebraMap K L)) ∧ F.dt = G.dt := by
  unfold addGain at h
  split_ifs at h with h1 h2
  · obtain ⟨x, hx, h⟩ := bind_ok' h
    obtain ⟨X, rfl, rfl⟩ := toArray_valued hG hx
    simp only [Gain.regular, Arr.add_of, bind, Except.bind] at h
    obtain ⟨h3, h4⟩ := mkArr_valued hp hm h s
    refine ⟨?_, h4⟩
    convert h3 using 1
    ext i j
    simp
  · obtain ⟨rfl, rfl⟩ : p = 1 ∧ m = 1 := by
      have := hG.shape
      simpa [isSISO, this] using h2
    simp only [Gain.regular] at h
    obtain ⟨F', h3, h⟩ := bind_ok' h
    obtain ⟨H, h4, h⟩ := bind_ok' h
    obtain ⟨h5, h6⟩ := mulArr_valued hG h3
    obtain ⟨h7, h8⟩ := mkList_valued h4 s
    have hG' : Valued G 1 1 s (Matrix.of fun _ _ => M 0 0) := by
      convert hG using 1
      ext i j
      rw [Subsingleton.elim i 0, Subsingleton.elim j 0]
      rfl
    have hsc : SumClear E.lcmTol F' H := sumClear_one h5 hthr (fun i j => by
      rcases mulArr_siso_den hG' h3 i j with e | e
      · rw [e]; exact hden 0 0
      · rw [e]; simpa [toPoly] using coarse_one hthr) fun i j => mkList_den h4 i j
    obtain ⟨h9, h10, h11⟩ := add_valued hbal hsc h5 h7 h
    refine ⟨?_, h10.trans h6⟩
    convert h9 using 2
    ext i j
    simp
  · simp only at h
    split_ifs at h with h3
    obtain ⟨H, h4, h⟩ := bind_ok' h
    obtain ⟨h7, h8⟩ := mkList_valued h4 s
    obtain ⟨h9, h10, h11⟩ := add_valued hbal
      (sumClear_one hG hthr (fun i j => hden i j) fun i j => mkList_den h4 i j) hG h7 h
    exact ⟨h9, h10⟩

/-- **C22**: adding a number adds it to every entry. Missing: as in `C22_add_partial`. -/
theorem C22_add_scalar_partial (hbal : ∀ polys i, E.bal polys i ≠ 0) (hthr : E.lcmTol ≤ 1) (hp : 0 < p)
    (hm : 0 < m) {G F : TransferM K} (hden : DenClear E.lcmTol G) {M : Matrix (Fin p) (Fin m) L} (hG : Valued G p m s M) {k : K}
    (h : addGain E G (.scalar k) = .ok F) :
    Valued F p m s (M + Matrix.of fun _ _ => algebraMap K L k) ∧ F.dt = G.dt := by
  unfold addGain at h
  split_ifs at h with h1 h2
  · obtain ⟨x, hx, h⟩ := bind_ok' h
    obtain ⟨X, rfl, rfl⟩ := toArray_valued hG hx
    simp only [Gain.regular, Arr.addScalar] at h
    obtain ⟨h3, h4⟩ := mkArr_valued hp hm h s
    refine ⟨?_, h4⟩
    convert h3 using 1
    ext i j
    simp
  · obtain ⟨rfl, rfl⟩ : p = 1 ∧ m = 1 := by
      have := hG.shape
      simpa [isSISO, this] using h2
    simp only [Gain.regular] at h
    obtain ⟨H, h4, h⟩ := bind_ok' h
    obtain ⟨h7, h8⟩ := mkScalar_valued h4 s
    obtain ⟨h9, h10, h11⟩ := add_valued hbal
      (sumClear_one hG hthr (fun i j => hden i j) fun i j => mkScalar_den h4 i j) hG h7 h
    exact ⟨h9, h10⟩
  · simp only at h
    obtain ⟨e1, e2⟩ := hG.shape
    rw [e1, e2] at h
    obtain ⟨H, h4, h⟩ := bind_ok' h
    obtain ⟨h7, h8⟩ := mkArr_valued (X := Matrix.of fun (_ : Fin p) (_ : Fin m) => k * 1) hp hm h4 s
    obtain ⟨h9, h10, h11⟩ := add_valued hbal
      (sumClear_one hG hthr (fun i j => hden i j) fun i j =>
        mkArr_den (X := Matrix.of fun (_ : Fin p) (_ : Fin m) => k * 1) hp hm h4 i j) hG h7 h
    refine ⟨?_, h10⟩
    convert h9 using 2
    ext i j
    simp

/-- **C22**: a SISO model plus an array has the shape of the array. Missing: as in `C22_add_partial`; SISO models next to MIMO models (`C22_broadcast_violated`). -/
theorem C22_add_siso_array_partial (hbal : ∀ polys i, E.bal polys i ≠ 0) (hthr : E.lcmTol ≤ 1) (hp : 0 < p)
    (hm : 0 < m) {G F : TransferM K} (hden : DenClear E.lcmTol G) {v : L} (hG : Valued G 1 1 s (Matrix.of fun _ _ => v))
    {Y : Matrix (Fin p) (Fin m) K} (h : addGain E G (.arr (Arr.of Y)) = .ok F) :
    Valued F p m s (Matrix.of fun i j => v + algebraMap K L (Y i j)) ∧ F.dt = G.dt := by
  have hs : G.isSISO = true := by
    have := hG.shape
    simp [isSISO, this]
  unfold addGain at h
  rw [if_pos hs] at h
  split_ifs at h with h1
  · obtain ⟨x, hx, h⟩ := bind_ok' h
    obtain ⟨X, rfl, hX⟩ := toArray_valued hG hx
    simp only [Gain.regular, scalar_add_arr, bind, Except.bind] at h
    obtain ⟨h3, h4⟩ := mkArr_valued hp hm h s
    refine ⟨?_, h4⟩
    convert h3 using 1
    ext i j
    have := congrFun (congrFun hX 0) 0
    simp at this
    simp [this]
  · simp only [Gain.regular] at h
    obtain ⟨F', h3, h⟩ := bind_ok' h
    obtain ⟨H, h4, h⟩ := bind_ok' h
    obtain ⟨h5, h6⟩ := mulArr_siso_valued hG h3
    obtain ⟨h7, h8⟩ := mkList_valued h4 s
    have hsc : SumClear E.lcmTol F' H := sumClear_one h5 hthr (fun i j => by
      rcases mulArr_siso_den hG h3 i j with e | e
      · rw [e]; exact hden 0 0
      · rw [e]; simpa [toPoly] using coarse_one hthr) fun i j => mkList_den h4 i j
    obtain ⟨h9, h10, h11⟩ := add_valued hbal hsc h5 h7 h
    refine ⟨?_, h10.trans h6⟩
    convert h9 using 2
    ext i j
    simp

/-- `Transfer(x.tolist(), dt=dt)` succeeds. -/
theorem mkList_normal (E : TNum K) (hp : 0 < p) (hm : 0 < m) (X : Matrix (Fin p) (Fin m) K) {dt : Option K}
    (hdt : DtOk dt) :
    ∃ F, mkList E (Arr.of X) dt = .ok F ∧ Normal F p m (Matrix.of fun i j => [X i j]) (Matrix.of fun _ _ => [1]) ∧
      F.dt = dt := by
  set N : Matrix (Fin p) (Fin m) (List K) := Matrix.of fun i j => [X i j] with hN
  set D : Matrix (Fin p) (Fin m) (List K) := Matrix.of fun _ _ => [1] with hD
  have hne : ∀ i j, D i j ≠ [] := fun i j => by simp [hD]
  have hmax : maxSize (Arr.of D) = 1 := (maxSize_eq_one hp hm hne).mpr fun i j => by simp [hD]
  have hv : validateTransfer (.lists (Arr.of N)) .none = .ok (Arr.of N, Arr.of D, true) := by
    unfold validateTransfer
    by_cases hpm : p = 1 ∧ m = 1
    · obtain ⟨rfl, rfl⟩ := hpm
      have e1 : constArr 1 1 (N 0 0) = Arr.of N := constArr_entry rfl rfl N
      have e2 : constArr 1 1 ([1] : List K) = Arr.of D := rfl
      have e3 : (Arr.of N).entry 0 0 = N 0 0 := entry_of N 0 0
      have e4 : (N 0 0).length = 1 := rfl
      simp only [regArg, Arr.of_r, Arr.of_c, and_self, if_true, bind, Except.bind, combineArgs, e3, e4, lt_irrefl,
        if_false, e1, e2, hmax, decide_true]
      simp
    · have hr : regArg (.lists (Arr.of N)) = .ok (.mimo (Arr.of N)) := by
        simp only [regArg, Arr.of_r, Arr.of_c, if_neg hpm]
        rw [if_neg (by omega)]
      have e2 : constArr p m ([1] : List K) = Arr.of D := rfl
      have hn : regArg (.none : TArg K) = .ok .none := rfl
      simp only [hr, hn, bind, Except.bind, combineArgs, Arr.of_r, Arr.of_c, Arr.of_m, e2, hmax, decide_true]
      rw [if_neg (by simp [hN])]
      simp only
      rw [if_neg (by simp; omega)]
      simp [hmax]
  refine ⟨⟨Arr.of N, Arr.of D, true, dt⟩, ?_, ⟨⟨hp, hm⟩, rfl, rfl, fun i j => ?_, fun i j => by simp [hD],
    fun i j => by simp [hN, hD], by simp [hD], hdt⟩, rfl⟩
  · show mkTransfer E (.lists (Arr.of N)) .none dt = _
    unfold mkTransfer
    simp only [hv, bind, Except.bind, checkDt_ok hdt, poleMatrix, if_true]
  · by_cases h : X i j = 0
    · left; simp [hN, h]
    · right; exact ⟨X i j, [], rfl, h⟩

omit [IsStrictOrderedRing K] in
/-- The entries of a static gain in normal form. -/
theorem Spec.Normal.gain_entry {G : TransferM K} {N D : Matrix (Fin p) (Fin m) (List K)} (h : Normal G p m N D)
    (hg : G.isgain = true) (i : Fin p) (j : Fin m) :
    N i j = [(N i j).getD 0 0] ∧ D i j = [(D i j).getD 0 0] ∧ (D i j).getD 0 0 ≠ 0 := by
  have h1 := h.flag.mp hg i j
  have h2 := h.causal i j
  have h3 := List.length_pos_iff.mpr (h.trimmed i j).ne_nil
  refine ⟨?_, ?_, h.lead i j⟩
  · obtain ⟨a, e⟩ := List.length_eq_one_iff.mp (show (N i j).length = 1 by omega)
    rw [e]; simp
  · obtain ⟨a, e⟩ := List.length_eq_one_iff.mp h1
    rw [e]; simp

omit [IsStrictOrderedRing K] in
theorem Spec.Normal.toArray {G : TransferM K} {N D : Matrix (Fin p) (Fin m) (List K)} (h : Normal G p m N D)
    (hg : G.isgain = true) :
    gainArr G.num G.den = .ok (Arr.of (Matrix.of fun i j => (N i j).getD 0 0 / (D i j).getD 0 0)) := by
  rw [h.num, h.den]
  refine gainArr_of (fun i j => ?_) fun i j => ?_
  · rw [(h.gain_entry hg i j).1]; simp
  · rw [(h.gain_entry hg i j).2.1]; simp

/-- **C22**: the sum of two models in normal form with the same shape and sampling period exists and is
in normal form, if all sums are zero or no leading terms cancel. The other case is rejected by the code
(`C22_cancel_violated`). -/
theorem C22_add_success_partial (hbal : ∀ polys i, E.bal polys i ≠ 0) (hthr : E.lcmTol ≤ 1)
    {G H : TransferM K} {N D N' D' : Matrix (Fin p) (Fin m) (List K)} (hG : Normal G p m N D)
    (hH : Normal H p m N' D') (hsum : SumClear E.lcmTol G H) (hdt : G.dt = H.dt)
    (hdeg : ∀ i j, (toPoly (N i j) * toPoly (D' i j) + toPoly (N' i j) * toPoly (D i j)).degree
      = max (toPoly (N i j) * toPoly (D' i j)).degree (toPoly (N' i j) * toPoly (D i j)).degree)
    (hne : ∀ i j, toPoly (N i j) * toPoly (D' i j) + toPoly (N' i j) * toPoly (D i j) ≠ 0) :
    ∃ F N₂ D₂, add E G H = .ok F ∧ Normal F p m N₂ D₂ ∧ F.dt = G.dt := by
  unfold TransferM.add
  rw [if_neg (by simp [hdt])]
  split_ifs with h1 h2
  · unfold addGains TransferM.toArray
    rw [if_pos h1.1, if_pos h1.2, hG.toArray h1.1, hH.toArray h1.2, hG.num]
    simp only [bind, Except.bind, Arr.add_of, Arr.of_r, Arr.of_c, ne_eq, not_true_eq_false, if_false, and_self, if_true]
    obtain ⟨F, h3, h4, h5⟩ := mkList_normal E hG.pos.1 hG.pos.2
      ((Matrix.of fun i j => (N i j).getD 0 0 / (D i j).getD 0 0) + Matrix.of fun i j => (N' i j).getD 0 0 / (D' i j).getD 0 0)
      hG.dt
    exact ⟨F, _, _, h3, h4, h5⟩
  · have h3 : ∀ i j, ∃ e, addEntry E (N i j) (D i j) (N' i j) (D' i j) = .ok e ∧ EntryNormal e ∧ toPoly e.1 ≠ 0 :=
      fun i j => addEntry_normal hbal (by
        have := hsum i j
        rwa [hG.den, hH.den, entry_of, entry_of] at this) (hG.entry i j) (hH.entry i j) (hdeg i j) (hne i j)
    choose e h4 h5 h6 using h3
    obtain ⟨F, h7, h8, h9⟩ := mkTransfer_normal hbal hthr hG.pos.1 hG.pos.2 (N := Matrix.of fun i j => (e i j).1)
      (D := Matrix.of fun i j => (e i j).2) hG.dt (fun i j => (h5 i j).1) (fun i j => (h5 i j).2.1)
      (fun i j => (h5 i j).2.2)
    refine ⟨F, _, _, ?_, h8, h9⟩
    unfold addSame
    rw [hG.num, hG.den, hH.num, hH.den]
    have h10 : matM (fun (i : Fin (Arr.of N).r) (j : Fin (Arr.of N).c) =>
        if i < (Arr.of N').r ∧ j < (Arr.of N').c then
          addEntry E ((Arr.of N).m i j) ((Arr.of D).entry i j) ((Arr.of N').entry i j) ((Arr.of D').entry i j)
        else .error .index) = .ok e := matM_ok.mpr fun i j => by
      have e1 := entry_of D i j
      have e2 := entry_of N' i j
      have e3 := entry_of D' i j
      have hi : (i : ℕ) < p := i.isLt
      have hj : (j : ℕ) < m := j.isLt
      rw [if_pos ⟨hi, hj⟩, e1, e2, e3]
      exact h4 i j
    simp only [h10, bind, Except.bind]
    rw [if_pos]
    · exact h7
    · refine ⟨⟨0, hG.pos.1⟩, ⟨0, hG.pos.2⟩, fun h => h6 ⟨0, hG.pos.1⟩ ⟨0, hG.pos.2⟩ ?_⟩
      exact (toPoly_eq_zero_iff _).mpr h
  · exfalso
    apply h2
    simp [isSISO, hG.num, hH.num]

omit [IsStrictOrderedRing K] in
/-- **C22** fails: there is no broadcasting of SISO models, the sum of a SISO and a MIMO model raises
`AttributeError` (unless both are static gains). -/
theorem C22_broadcast_violated (G H : TransferM K) (hdt : G.dt = H.dt) (h : G.isSISO ≠ H.isSISO)
    (hg : ¬ (G.isgain = true ∧ H.isgain = true)) : add E G H = .error .attribute := by
  unfold TransferM.add
  rw [if_neg (by simp [hdt]), if_neg hg, if_neg h]

omit [IsStrictOrderedRing K] in
theorem add_mismatch_dt (G H : TransferM K) (hdt : G.dt ≠ H.dt) : add E G H = .error .value := by
  unfold TransferM.add
  rw [if_pos hdt]

/-- **C16** for `Transfer`: sums and products of models with different sampling periods are rejected. -/
theorem C16_transfer_mismatch (G H : TransferM K) (hdt : G.dt ≠ H.dt) :
    add E G H = .error .value ∧ mul E G H = .error .value ∧ matmul E G H = .error .value := by
  have h : mul E G H = .error .value := by unfold TransferM.mul; rw [if_pos hdt]
  refine ⟨add_mismatch_dt G H hdt, h, ?_⟩
  unfold TransferM.matmul
  rw [if_pos hdt, h]
  simp

theorem normal_siso (E : TNum K) {a b : List K} (hb : b.getD 0 0 ≠ 0) (ha : Trimmed a)
    (hab : a.length ≤ b.length) {dt : Option K} (hdt : DtOk dt) :
    Normal (⟨constArr 1 1 a, constArr 1 1 b, decide (b.length = 1), dt⟩ : TransferM K) 1 1
      (Matrix.of fun _ _ => a) (Matrix.of fun _ _ => b) :=
  ⟨⟨by norm_num, by norm_num⟩, rfl, rfl, fun _ _ => ha, fun _ _ => hb, fun _ _ => hab, by simp, hdt⟩

/-- `(s + 1) / (s + 2)` and `-s / (s + 2)`. -/
def cancelG : TransferM ℚ := ⟨constArr 1 1 [1, 1], constArr 1 1 [1, 2], false, none⟩
def cancelH : TransferM ℚ := ⟨constArr 1 1 [-1, 0], constArr 1 1 [1, 2], false, none⟩

/-- **C22** fails: `(s + 1)/(s + 2) + (-s)/(s + 2)` raises `ValueError`: the leading terms cancel, the sum of the
numerators keeps the leading zero, and the constructor takes it for a constant polynomial. Both operands
are models that the constructor returns. -/
theorem C22_cancel_violated (E : TNum ℚ) (hbal : ∀ polys i, E.bal polys i ≠ 0) (hthr : E.lcmTol ≤ 1) :
    mkTransfer E (.vec [1, 1]) (.vec [1, 2]) none = .ok cancelG ∧
    mkTransfer E (.vec [-1, 0]) (.vec [1, 2]) none = .ok cancelH ∧
    add E cancelG cancelH = .error .value := by
  refine ⟨mkTransfer_siso_ok E dtOk_none (by simp) (by simp) (Or.inr ⟨1, [1], rfl, by simp⟩) (by simp),
    mkTransfer_siso_ok E dtOk_none (by simp) (by simp) (Or.inr ⟨-1, [0], rfl, by simp⟩) (by simp), ?_⟩
  have hp1 : toPoly [(1 : ℚ), 1] = X + 1 := by simp [toPoly]
  have hp2 : toPoly [(1 : ℚ), 2] = X + C 2 := by simp [toPoly]
  have hp3 : toPoly [(-1 : ℚ), 0] = -X := by simp [toPoly]
  have hd2 : (X + C 2 : ℚ[X]) ≠ 0 := X_add_C_ne_zero 2
  rcases addEntry_spec hbal [1, 1] [1, 2] [-1, 0] [1, 2] (by simpa using coarseLcm_int2 hthr [2] [2])
    (by simp) (by simp) with ⟨h, -⟩ |
    ⟨n, d, -, -, h, h3, h4, h5, x, y, g1, g2, g3, g4, g5, g6⟩
  · simp at h
  rw [hp1, hp2, hp3] at h4
  rw [hp1, hp2] at g2
  rw [hp2, hp3] at g3
  rw [hp2] at h5
  have hdv : toPoly d ∣ X + C 2 := h5 _ dvd_rfl dvd_rfl
  -- `n (X + 2) = d`
  have h6 : toPoly n * (X + C 2) = toPoly d := by
    apply mul_right_cancel₀ hd2
    linear_combination h4
  have hd0 : toPoly d ≠ 0 := fun e => by rw [e] at hdv; exact hd2 (zero_dvd_iff.mp hdv)
  have hn0 : toPoly n ≠ 0 := fun e => by rw [e, zero_mul] at h6; exact hd0 h6.symm
  have hdeg1 : (X + C 2 : ℚ[X]).natDegree = 1 := natDegree_X_add_C 2
  have hd1 : (toPoly d).natDegree = (toPoly n).natDegree + 1 := by
    rw [← h6, natDegree_mul hn0 hd2, hdeg1]
  have hd1' : (toPoly d).natDegree ≤ 1 := by
    have := natDegree_le_of_dvd hdv hd2
    rwa [hdeg1] at this
  have hx0 : x ≠ 0 := by
    rintro rfl
    rw [zero_mul] at g2
    have : (X + 1 : ℚ[X]) ≠ 0 := X_add_C_ne_zero 1
    exact (mul_ne_zero this hd0) g2.symm
  have hx : x.natDegree = 1 := by
    have := congrArg natDegree g2
    have h1 : (X + 1 : ℚ[X]) ≠ 0 := X_add_C_ne_zero 1
    have h1' : (X + 1 : ℚ[X]).natDegree = 1 := natDegree_X_add_C 1
    rw [natDegree_mul hx0 hd2, natDegree_mul h1 hd0, h1', hdeg1] at this
    omega
  have hy0 : y ≠ 0 := by
    rintro rfl
    rw [zero_mul] at g3
    exact (mul_ne_zero (neg_ne_zero.mpr X_ne_zero) hd0) g3.symm
  have hy : y.natDegree = 1 := by
    have := congrArg natDegree g3
    rw [natDegree_mul hy0 hd2, natDegree_mul (neg_ne_zero.mpr X_ne_zero) hd0, natDegree_neg, natDegree_X, hdeg1] at this
    omega
  have hl : n.length = 2 := by
    apply le_antisymm
    · apply g4
      · rw [degree_eq_natDegree hx0, hx]; norm_cast
      · rw [degree_eq_natDegree hy0, hy]; norm_cast
    · have := g5
      rw [degree_eq_natDegree hx0, hx] at this
      norm_cast at this
  obtain ⟨a, b, rfl⟩ : ∃ a b, n = [a, b] := by
    match n, hl with
    | [a, b], _ => exact ⟨a, b, rfl⟩
  have ha : a = 0 := by
    by_contra ha
    have : (toPoly [a, b]).natDegree = 1 := natDegree_eq_of_degree_eq_some (degree_toPoly_cons ha [b])
    omega
  subst ha
  have hb : b ≠ 0 := by
    rintro rfl
    simp [toPoly] at hn0
  have hdl : d.length = 2 := by
    cases d with
    | nil => simp at h3
    | cons c t =>
      have := natDegree_eq_of_degree_eq_some (degree_toPoly_cons (a := c) (by simpa using h3) t)
      simp only [List.length_cons]
      omega
  have hdd : ∃ c t, d = c :: t ∧ c ≠ 0 ∧ t ≠ [] := by
    cases d with
    | nil => simp at hdl
    | cons c t => exact ⟨c, t, rfl, by simpa using h3, by rintro rfl; simp at hdl⟩
  obtain ⟨c, t, rfl, hc, ht⟩ := hdd
  have hlv : ∀ l : List ℚ, regArg (.lists (Arr.of (Matrix.of fun (_ _ : Fin 1) => l))) = regArg (.vec l) := fun l => by
    simp only [regArg, Arr.of_r, Arr.of_c, and_self, if_true]
    rfl
  have hmk : mkTransfer E (.lists (Arr.of (Matrix.of fun (_ _ : Fin 1) => [0, b])))
      (.lists (Arr.of (Matrix.of fun (_ _ : Fin 1) => c :: t))) none = .error .value := by
    have e1 : mkTransfer E (.lists (Arr.of (Matrix.of fun (_ _ : Fin 1) => [0, b])))
      (.lists (Arr.of (Matrix.of fun (_ _ : Fin 1) => c :: t))) none = mkTransfer E (.vec [0, b]) (.vec (c :: t)) none := by
      unfold mkTransfer validateTransfer
      rw [hlv, hlv]
    rw [e1, mkTransfer_vec E (by simp) (by rw [hdl]; simp) dtOk_none]
    have e2 : (constArr 1 1 [0, b]).entry 0 0 = [0, b] := rfl
    have e3 : (constArr 1 1 (c :: t)).entry 0 0 = c :: t := rfl
    have c1 := companion_eq (c :: t) (trimZeros_of_cons hc _) hc ht
    have c2 : companion [0, b] = .ok none := by simp [companion, trimZeros, hb]
    unfold TransferM.poleMatrix
    rw [if_neg (by simp only [hdl]; simp), if_pos (by simp [isSISO, constArr])]
    simp only [e2, e3, c1, c2, bind, Except.bind]
    simp [Except.map]
  unfold TransferM.add
  rw [if_neg (by simp [cancelG, cancelH]), if_neg (by simp [cancelG]),
    if_pos (by simp [isSISO, cancelG, cancelH, constArr])]
  unfold addSame
  have h10 : matM (fun (i : Fin cancelG.num.r) (j : Fin cancelG.num.c) =>
      if i < cancelH.num.r ∧ j < cancelH.num.c then
        addEntry E (cancelG.num.m i j) (cancelG.den.entry i j) (cancelH.num.entry i j) (cancelH.den.entry i j)
      else .error .index) = .ok (fun _ _ => ([0, b], c :: t)) := matM_ok.mpr fun i j => by
    obtain ⟨i, hi⟩ := i
    obtain ⟨j, hj⟩ := j
    have hi' : i < 1 := hi
    have hj' : j < 1 := hj
    obtain rfl : i = 0 := by omega
    obtain rfl : j = 0 := by omega
    exact h
  simp only [h10, bind, Except.bind]
  rw [if_pos ⟨⟨0, by simp [cancelG, constArr]⟩, ⟨0, by simp [cancelG, constArr]⟩, by simp [hb]⟩]
  exact hmk

/-- **C22** fails: operands of different MIMO shapes are not rejected when the right one is larger; the
extra outputs are dropped silently. Here the left operand has shape `1 × 2`, the right one `2 × 2`. -/
theorem C22_shape_violated (E : TNum ℚ) (hbal : ∀ polys i, E.bal polys i ≠ 0) (hthr : E.lcmTol ≤ 1) : ∃ G H F : TransferM ℚ,
    mkTransfer E (.lists (constArr 1 2 [1])) (.lists (constArr 1 2 [1, 1])) none = .ok G ∧
    mkTransfer E (.lists (constArr 2 2 [1])) (.lists (constArr 2 2 [1, 1])) none = .ok H ∧
    add E G H = .ok F ∧ F.p = 1 ∧ F.m = 2 := by
  have h1 : ∀ p m : ℕ, 0 < p → 0 < m → ∃ F, mkTransfer E (.lists (constArr p m [1])) (.lists (constArr p m [1, 1])) none = .ok F ∧
      Normal F p m (Matrix.of fun _ _ => [1]) (Matrix.of fun _ _ => [1, 1]) ∧ F.dt = none := fun p m hp hm =>
    mkTransfer_normal hbal hthr hp hm dtOk_none (fun _ _ => by simp) (fun _ _ => Or.inr ⟨1, [], rfl, one_ne_zero⟩)
      fun _ _ => by simp
  obtain ⟨G, e1, hG, hGd⟩ := h1 1 2 (by norm_num) (by norm_num)
  obtain ⟨H, e2, hH, hHd⟩ := h1 2 2 (by norm_num) (by norm_num)
  refine ⟨G, H, ?_⟩
  have hne : toPoly [(1 : ℚ)] * toPoly [1, 1] + toPoly [1] * toPoly [1, 1] ≠ 0 ∧
      (toPoly [(1 : ℚ)] * toPoly [1, 1] + toPoly [1] * toPoly [1, 1]).degree
        = max (toPoly [(1 : ℚ)] * toPoly [1, 1]).degree (toPoly [(1 : ℚ)] * toPoly [1, 1]).degree := by
    have h2 : toPoly [(1 : ℚ)] * toPoly [1, 1] + toPoly [1] * toPoly [1, 1] = C 2 * toPoly [1, 1] := by
      have h3 : toPoly [(1 : ℚ)] = 1 := by simp [toPoly]
      rw [h3, one_mul, ← two_mul, map_ofNat]
    have h3 : toPoly [(1 : ℚ), 1] ≠ 0 := by
      have h4 := degree_toPoly_cons (a := (1 : ℚ)) one_ne_zero [1]
      intro e; rw [e] at h4; simp at h4
    rw [h2]
    refine ⟨mul_ne_zero (by simp) h3, ?_⟩
    rw [degree_C_mul (by norm_num), max_self, show toPoly [(1 : ℚ)] = 1 by simp [toPoly], one_mul]
  obtain ⟨e, h4, h5, h6⟩ := addEntry_normal hbal (E := E) (n₁ := [1]) (d₁ := [1, 1]) (n₂ := [1]) (d₂ := [1, 1])
    (by simpa using coarseLcm_int2 hthr [1] [1])
    (hG.entry 0 0) (hG.entry 0 0) hne.2 hne.1
  obtain ⟨F, h7, h8, h9⟩ := mkTransfer_normal hbal hthr (p := 1) (m := 2) (by norm_num) (by norm_num)
    (N := Matrix.of fun i j => e.1) (D := Matrix.of fun i j => e.2) dtOk_none (fun i j => h5.1) (fun i j => h5.2.1)
    (fun i j => h5.2.2)
  refine ⟨F, e1, e2, ?_, by rw [TransferM.p, h8.num], by rw [TransferM.m, h8.num]⟩
  unfold TransferM.add
  have hGg : G.isgain = false := by
    by_contra h
    have := hG.flag.mp (by simpa using h) 0 0
    simp at this
  rw [if_neg (by simp [hGd, hHd]), if_neg (by simp [hGg]), if_pos (by simp [isSISO, hG.num, hH.num])]
  unfold addSame
  rw [hG.num, hG.den, hH.num, hH.den, hGd]
  have h10 : matM (fun (i : Fin (Arr.of (Matrix.of fun (_ : Fin 1) (_ : Fin 2) => [(1 : ℚ)])).r)
      (j : Fin (Arr.of (Matrix.of fun (_ : Fin 1) (_ : Fin 2) => [(1 : ℚ)])).c) =>
      if i < (Arr.of (Matrix.of fun (_ : Fin 2) (_ : Fin 2) => [(1 : ℚ)])).r ∧
        j < (Arr.of (Matrix.of fun (_ : Fin 2) (_ : Fin 2) => [(1 : ℚ)])).c then
        addEntry E ((Arr.of (Matrix.of fun (_ : Fin 1) (_ : Fin 2) => [(1 : ℚ)])).m i j)
          ((Arr.of (Matrix.of fun (_ : Fin 1) (_ : Fin 2) => [(1 : ℚ), 1])).entry i j)
          ((Arr.of (Matrix.of fun (_ : Fin 2) (_ : Fin 2) => [(1 : ℚ)])).entry i j)
          ((Arr.of (Matrix.of fun (_ : Fin 2) (_ : Fin 2) => [(1 : ℚ), 1])).entry i j)
      else .error .index) = .ok (fun _ _ => e) := matM_ok.mpr fun i j => by
    obtain ⟨i, hi⟩ := i
    obtain ⟨j, hj⟩ := j
    have hi' : i < 1 := hi
    have hj' : j < 2 := hj
    have hi2 : i < 2 := by omega
    rw [if_pos ⟨hi2, hj'⟩]
    rw [show (Arr.of (Matrix.of fun (_ : Fin 1) (_ : Fin 2) => [(1 : ℚ), 1])).entry i j = [1, 1] from
        entry_of (Matrix.of fun (_ : Fin 1) (_ : Fin 2) => [(1 : ℚ), 1]) ⟨i, hi'⟩ ⟨j, hj'⟩,
      show (Arr.of (Matrix.of fun (_ : Fin 2) (_ : Fin 2) => [(1 : ℚ)])).entry i j = [1] from
        entry_of (Matrix.of fun (_ : Fin 2) (_ : Fin 2) => [(1 : ℚ)]) ⟨i, hi2⟩ ⟨j, hj'⟩,
      show (Arr.of (Matrix.of fun (_ : Fin 2) (_ : Fin 2) => [(1 : ℚ), 1])).entry i j = [1, 1] from
        entry_of (Matrix.of fun (_ : Fin 2) (_ : Fin 2) => [(1 : ℚ), 1]) ⟨i, hi2⟩ ⟨j, hj'⟩]
    exact h4
  simp only [h10, bind, Except.bind]
  rw [if_pos]
  · exact h7
  · exact ⟨⟨0, by simp⟩, ⟨0, by simp⟩, fun h => h6 ((toPoly_eq_zero_iff _).mpr h)⟩

/-- Two models that satisfy the hypotheses of the theorems on sums, with the threshold of the code:
`(s+3)/(s+1)` and `1/(s+2)`. -/
example (E : TNum ℚ) (hthr : E.lcmTol = 1 / 10 ^ 9) :
    SumClear E.lcmTol (⟨constArr 1 1 [1, 3], constArr 1 1 [1, 1], false, none⟩ : TransferM ℚ)
      ⟨constArr 1 1 [1], constArr 1 1 [1, 2], false, none⟩ ∧
    DenClear E.lcmTol (⟨constArr 1 1 [1, 3], constArr 1 1 [1, 1], false, none⟩ : TransferM ℚ) ∧ Normal (⟨constArr 1 1 [1, 3], constArr 1 1 [1, 1], false, none⟩ : TransferM ℚ) 1 1
      (Matrix.of fun _ _ => [1, 3]) (Matrix.of fun _ _ => [1, 1]) ∧
    Normal (⟨constArr 1 1 [1], constArr 1 1 [1, 2], false, none⟩ : TransferM ℚ) 1 1
      (Matrix.of fun _ _ => [1]) (Matrix.of fun _ _ => [1, 2]) ∧
    Valued (⟨constArr 1 1 [1, 3], constArr 1 1 [1, 1], false, none⟩ : TransferM ℚ) 1 1 (1 : ℚ) (Matrix.of fun _ _ => 2) ∧
    (toPoly [(1 : ℚ), 3] * toPoly [1, 2] + toPoly [1] * toPoly [1, 1]).degree
      = max (toPoly [(1 : ℚ), 3] * toPoly [1, 2]).degree (toPoly [(1 : ℚ)] * toPoly [1, 1]).degree := by
  have hV : Valued (⟨constArr 1 1 [1, 3], constArr 1 1 [1, 1], false, none⟩ : TransferM ℚ) 1 1 (1 : ℚ)
      (Matrix.of fun _ _ => 2) := by
    refine valued_of (N := Matrix.of fun _ _ => [1, 3]) (D := Matrix.of fun _ _ => [1, 1]) fun i j => ⟨?_, ?_, ?_⟩
    · simp [polyAt, toPoly]
    · simp [polyAt, toPoly]
      norm_num
    · simp
  have h1 : E.lcmTol ≤ 1 := by rw [hthr]; norm_num
  refine ⟨sumClear_of hV fun i j => ?_, fun i j => ?_,
    normal_siso E (by simp) (Or.inr ⟨1, [3], rfl, one_ne_zero⟩) (by simp) dtOk_none,
    normal_siso E (by simp) (Or.inr ⟨1, [], rfl, one_ne_zero⟩) (by simp) dtOk_none, hV, ?_⟩
  · rw [Subsingleton.elim i 0, Subsingleton.elim j 0]
    show CoarseLcm E.lcmTol [toPoly [1, 1], toPoly [1, 2]]
    simpa using coarseLcm_int2 h1 [1] [2]
  · by_cases h : i < 1 ∧ j < 1
    · obtain ⟨rfl, rfl⟩ : i = 0 ∧ j = 0 := by omega
      show Coarse E.lcmTol (C (toPoly [1, 1]).leadingCoeff⁻¹ * toPoly [1, 1])
      rw [leadingCoeff_toPoly_cons one_ne_zero, inv_one, C_1, one_mul]
      have := coarse_int h1 (toPoly [1, 1])
      rw [← toPoly_cast] at this
      simpa using this
    · intro k
      left
      unfold Arr.entry
      rw [dif_neg (by simpa [constArr] using h)]
      simp
  · have h1 := degree_toPoly_cons (a := (1 : ℚ)) one_ne_zero [3]
    have h2 := degree_toPoly_cons (a := (1 : ℚ)) one_ne_zero [2]
    have h3 := degree_toPoly_cons (a := (1 : ℚ)) one_ne_zero [1]
    have h4 := degree_toPoly_cons (a := (1 : ℚ)) one_ne_zero []
    have h5 : (toPoly [(1 : ℚ)] * toPoly [1, 1]).degree < (toPoly [(1 : ℚ), 3] * toPoly [1, 2]).degree := by
      rw [degree_mul, degree_mul, h1, h2, h3, h4]
      simp
      norm_cast
    rw [degree_add_eq_left_of_degree_lt h5, max_eq_left h5.le]

/-! ## C23: products -/

/-- **C23**: `G * H` multiplies the entries of two models of the same shape. The denominators of static
entries of the left operand must be one: see `C23_gain_den_violated`. -/
theorem C23_mul_partial {G H F : TransferM K} {M M' : Matrix (Fin p) (Fin m) L} (hG : Valued G p m s M)
    (hu : UnitDen G) (hf : FlagOk G) (hH : Valued H p m s M') (h : mul E G H = .ok F) :
    Valued F p m s (Matrix.of fun i j => M i j * M' i j) ∧ F.dt = G.dt ∧ G.dt = H.dt :=
  mul_valued hG hu hf hH h

/-- **C23**: a SISO model on the left multiplies every entry. Missing: static gains with a denominator other than one (`C23_gain_den_violated`). -/
theorem C23_mul_siso_left_partial {G H F : TransferM K} {v : L} {M : Matrix (Fin p) (Fin m) L}
    (hG : Valued G 1 1 s (Matrix.of fun _ _ => v)) (hu : UnitDen G) (hf : FlagOk G) (hH : Valued H p m s M)
    (h : mul E G H = .ok F) :
    Valued F p m s (Matrix.of fun i j => v * M i j) ∧ F.dt = G.dt ∧ G.dt = H.dt :=
  mul_siso_left_valued hG hu hf hH h

/-- **C23**: a SISO model on the right multiplies every entry. Missing: static gains with a denominator other than one (`C23_gain_den_violated`). -/
theorem C23_mul_siso_right_partial {G H F : TransferM K} {v : L} {M : Matrix (Fin p) (Fin m) L}
    (hG : Valued G p m s M) (hu : UnitDen G) (hf : FlagOk G) (hH : Valued H 1 1 s (Matrix.of fun _ _ => v))
    (h : mul E G H = .ok F) :
    Valued F p m s (Matrix.of fun i j => v * M i j) ∧ F.dt = G.dt ∧ G.dt = H.dt :=
  mul_siso_right_valued hG hu hf hH h

/-- **C23**: products with numbers and arrays of the same shape. -/
theorem C23_mul_scalar {G F : TransferM K} {M : Matrix (Fin p) (Fin m) L} (hG : Valued G p m s M)
    {k : K} (h : mulGain E G (.scalar k) = .ok F) : Valued F p m s (algebraMap K L k • M) ∧ F.dt = G.dt :=
  mulScalar_valued hG h

theorem C23_mul_array {G F : TransferM K} {M : Matrix (Fin p) (Fin m) L} (hG : Valued G p m s M)
    {X : Matrix (Fin p) (Fin m) K} (h : mulGain E G (.arr (Arr.of X)) = .ok F) :
    Valued F p m s (Matrix.of fun i j => algebraMap K L (X i j) * M i j) ∧ F.dt = G.dt :=
  mulArr_valued hG h

theorem C23_mul_siso_array {G F : TransferM K} {v : L} (hG : Valued G 1 1 s (Matrix.of fun _ _ => v))
    {X : Matrix (Fin p) (Fin m) K} (h : mulGain E G (.arr (Arr.of X)) = .ok F) :
    Valued F p m s (Matrix.of fun i j => algebraMap K L (X i j) * v) ∧ F.dt = G.dt :=
  mulArr_siso_valued hG h

/-- **C23**: `G @ H` is the matrix product. Missing: static gains with a denominator other than one (`C23_gain_den_violated`). -/
theorem C23_matmul_partial (hbal : ∀ polys i, E.bal polys i ≠ 0) {k : ℕ}
    {G H F : TransferM K} (hthr : MatmulClear E.lcmTol p k m G H) {A : Matrix (Fin p) (Fin k) L} {B : Matrix (Fin k) (Fin m) L}
    (hG : Valued G p k s A) (hu : UnitDen G) (hf : FlagOk G) (hH : Valued H k m s B)
    (h : matmul E G H = .ok F) : Valued F p m s (A * B) ∧ F.dt = G.dt ∧ G.dt = H.dt :=
  matmul_valued hbal hthr hG hu hf hH h

/-- **C23**: `G @ X` for an array. -/
theorem C23_matmul_array (hbal : ∀ polys i, E.bal polys i ≠ 0) {k : ℕ} (hp : 0 < p) (hm : 0 < m)
    {G F : TransferM K} (hthr : RowsClear E.lcmTol p k G) {A : Matrix (Fin p) (Fin k) L} {X : Matrix (Fin k) (Fin m) K}
    (hG : Valued G p k s A) (h : matmulGain E G (.arr (Arr.of X)) = .ok F) :
    Valued F p m s (A * X.map (algebraMap K L)) ∧ F.dt = G.dt :=
  matmulArr_valued hbal hp hm hthr hG h

/-- Multiplication by a number succeeds. -/
theorem mulScalar_normal (hbal : ∀ polys i, E.bal polys i ≠ 0) (hthr : E.lcmTol ≤ 1)
    {G : TransferM K} {N D : Matrix (Fin p) (Fin m) (List K)} (hG : Normal G p m N D) (k : K) :
    ∃ F N₂ D₂, mulScalar E G k = .ok F ∧ Normal F p m N₂ D₂ ∧ F.dt = G.dt := by
  unfold mulScalar
  rw [hG.num, hG.den]
  refine mkEntries_normal hbal hthr hG.pos.1 hG.pos.2 hG.dt fun i j => ⟨_, rfl, ?_⟩
  rw [show (Arr.of D).entry i j = D i j from entry_of D i j]
  exact scaleEntry_normal k (hG.entry i j)

theorem mulArr_normal (hbal : ∀ polys i, E.bal polys i ≠ 0) (hthr : E.lcmTol ≤ 1)
    {G : TransferM K} {N D : Matrix (Fin p) (Fin m) (List K)} (hG : Normal G p m N D) (X : Matrix (Fin p) (Fin m) K) :
    ∃ F N₂ D₂, mulArr E G (Arr.of X) = .ok F ∧ Normal F p m N₂ D₂ ∧ F.dt = G.dt := by
  unfold mulArr
  split_ifs with h1 h2 h3
  · exact mulScalar_normal hbal hthr hG _
  · exfalso
    have : p = 1 ∧ m = 1 := by simpa [isSISO, hG.num] using h2
    apply h1
    simp [this.1, this.2]
  · rw [hG.num, hG.den]
    refine mkEntries_normal hbal hthr hG.pos.1 hG.pos.2 hG.dt fun i j => ⟨_, rfl, ?_⟩
    rw [show (Arr.of D).entry i j = D i j from entry_of D i j, show (Arr.of N).entry i j = N i j from entry_of N i j]
    exact scaleEntry_normal _ (hG.entry i j)
  · exact absurd (by simp [hG.num]) h3

theorem mulArr_siso_normal (hbal : ∀ polys i, E.bal polys i ≠ 0) (hthr : E.lcmTol ≤ 1)
    {G : TransferM K} {N D : Matrix (Fin 1) (Fin 1) (List K)} (hG : Normal G 1 1 N D) (hp : 0 < p) (hm : 0 < m)
    (X : Matrix (Fin p) (Fin m) K) :
    ∃ F N₂ D₂, mulArr E G (Arr.of X) = .ok F ∧ Normal F p m N₂ D₂ ∧ F.dt = G.dt := by
  by_cases h : p * m = 1
  · obtain ⟨rfl, rfl⟩ : p = 1 ∧ m = 1 := ⟨Nat.eq_one_of_mul_eq_one_right h, Nat.eq_one_of_mul_eq_one_left h⟩
    exact mulArr_normal hbal hthr hG X
  · unfold mulArr
    rw [if_neg (by simpa using h), if_pos (by simp [isSISO, hG.num]), hG.num, hG.den]
    refine mkEntries_normal hbal hthr hp hm hG.dt fun i j => ⟨_, rfl, ?_⟩
    rw [show (Arr.of D).entry 0 0 = D 0 0 from entry_of D 0 0, show (Arr.of N).entry 0 0 = N 0 0 from entry_of N 0 0]
    exact scaleEntry_normal _ (hG.entry 0 0)

/-- **C23**: the product of two models in normal form with the same shape and sampling period exists and
is in normal form. -/
theorem C23_mul_success (hbal : ∀ polys i, E.bal polys i ≠ 0) (hthr : E.lcmTol ≤ 1)
    {G H : TransferM K} {N D N' D' : Matrix (Fin p) (Fin m) (List K)} (hG : Normal G p m N D)
    (hH : Normal H p m N' D') (hdt : G.dt = H.dt) :
    ∃ F N₂ D₂, mul E G H = .ok F ∧ Normal F p m N₂ D₂ ∧ F.dt = G.dt := by
  unfold TransferM.mul
  rw [if_neg (by simp [hdt])]
  split_ifs with h1 h2 h3 h4 h5
  · obtain ⟨rfl, rfl⟩ : p = 1 ∧ m = 1 := by simpa [isSISO, hG.num] using h2
    have e : G.num.entry 0 0 = [(N 0 0).getD 0 0] := by
      rw [hG.num, show (Arr.of N).entry 0 0 = N 0 0 from entry_of N 0 0]
      exact (hG.gain_entry h1 0 0).1
    rw [e, hdt]
    exact mulScalar_normal hbal hthr hH _
  · simp only [hG.toArray h1, bind, Except.bind]
    rw [hdt]
    exact mulArr_normal hbal hthr hH _
  · obtain ⟨rfl, rfl⟩ : p = 1 ∧ m = 1 := by simpa [isSISO, hG.num] using h3
    rw [hG.num, hG.den, hH.num, hH.den]
    refine mkEntries_normal hbal hthr hG.pos.1 hG.pos.2 hG.dt fun i j => ?_
    rw [show (Arr.of D').entry i j = D' i j from entry_of D' i j, show (Arr.of D).entry 0 0 = D 0 0 from entry_of D 0 0,
      show (Arr.of N).entry 0 0 = N 0 0 from entry_of N 0 0]
    exact mulEntry_normal (hG.entry 0 0) (hH.entry i j)
  · exfalso
    apply h3
    rw [← h4]
    simp [isSISO, hG.num, hH.num]
  · rw [hG.num, hG.den, hH.num, hH.den]
    refine mkEntries_normal hbal hthr hG.pos.1 hG.pos.2 hG.dt fun i j => ?_
    rw [show (Arr.of D').entry i j = D' i j from entry_of D' i j, show (Arr.of D).entry i j = D i j from entry_of D i j,
      show (Arr.of N').entry i j = N' i j from entry_of N' i j]
    exact mulEntry_normal (hG.entry i j) (hH.entry i j)
  · exact absurd (by simp [hG.num, hH.num]) h5

/-- **C23**: the same for a SISO left operand. -/
theorem C23_mul_siso_left_success (hbal : ∀ polys i, E.bal polys i ≠ 0) (hthr : E.lcmTol ≤ 1)
    {G H : TransferM K} {N D : Matrix (Fin 1) (Fin 1) (List K)} {N' D' : Matrix (Fin p) (Fin m) (List K)}
    (hG : Normal G 1 1 N D) (hH : Normal H p m N' D') (hdt : G.dt = H.dt) :
    ∃ F N₂ D₂, mul E G H = .ok F ∧ Normal F p m N₂ D₂ ∧ F.dt = G.dt := by
  have hs : G.isSISO = true := by simp [isSISO, hG.num]
  unfold TransferM.mul
  rw [if_neg (by simp [hdt]), if_pos hs, if_pos hs]
  split_ifs with h1
  · have e : G.num.entry 0 0 = [(N 0 0).getD 0 0] := by
      rw [hG.num, show (Arr.of N).entry 0 0 = N 0 0 from entry_of N 0 0]
      exact (hG.gain_entry h1 0 0).1
    rw [e, hdt]
    exact mulScalar_normal hbal hthr hH _
  · rw [hG.num, hG.den, hH.num, hH.den]
    refine mkEntries_normal hbal hthr hH.pos.1 hH.pos.2 hG.dt fun i j => ?_
    rw [show (Arr.of D').entry i j = D' i j from entry_of D' i j, show (Arr.of D).entry 0 0 = D 0 0 from entry_of D 0 0,
      show (Arr.of N).entry 0 0 = N 0 0 from entry_of N 0 0]
    exact mulEntry_normal (hG.entry 0 0) (hH.entry i j)

/-- **C23**: the same for a SISO right operand. -/
theorem C23_mul_siso_right_success (hbal : ∀ polys i, E.bal polys i ≠ 0) (hthr : E.lcmTol ≤ 1)
    {G H : TransferM K} {N D : Matrix (Fin p) (Fin m) (List K)} {N' D' : Matrix (Fin 1) (Fin 1) (List K)}
    (hG : Normal G p m N D) (hH : Normal H 1 1 N' D') (hdt : G.dt = H.dt) :
    ∃ F N₂ D₂, mul E G H = .ok F ∧ Normal F p m N₂ D₂ ∧ F.dt = G.dt := by
  by_cases hpm : p = 1 ∧ m = 1
  · obtain ⟨rfl, rfl⟩ := hpm
    exact C23_mul_success hbal hthr hG hH hdt
  have hs : ¬ (G.isSISO = true) := by simpa [isSISO, hG.num] using hpm
  have hs' : H.isSISO = true := by simp [isSISO, hH.num]
  unfold TransferM.mul
  rw [if_neg (by simp [hdt]), if_neg hs, if_neg hs, if_pos hs']
  split_ifs with h1
  · simp only [hG.toArray h1, bind, Except.bind]
    rw [hdt]
    exact mulArr_siso_normal hbal hthr hH hG.pos.1 hG.pos.2 _
  · rw [hG.num, hG.den, hH.num, hH.den]
    refine mkEntries_normal hbal hthr hG.pos.1 hG.pos.2 hG.dt fun i j => ?_
    rw [show (Arr.of D').entry 0 0 = D' 0 0 from entry_of D' 0 0, show (Arr.of D).entry i j = D i j from entry_of D i j,
      show (Arr.of N').entry 0 0 = N' 0 0 from entry_of N' 0 0]
    exact mulEntry_normal (hH.entry 0 0) (hG.entry i j)

/-- `Transfer(2, 4)` and `1 / (s + 1)`. -/
def halfGain : TransferM ℚ := ⟨constArr 1 1 [2], constArr 1 1 [4], true, none⟩
def lagTf : TransferM ℚ := ⟨constArr 1 1 [1], constArr 1 1 [1, 1], false, none⟩

/-- **C23** fails: `Transfer(2, 4) * G` ignores the denominator `4`: at `s = 1` the operands have the values
`1/2` and `1/2`, the product has the value `1`. -/
theorem C23_gain_den_violated (E : TNum ℚ) (hbal : ∀ polys i, E.bal polys i ≠ 0) (hthr : E.lcmTol ≤ 1) :
    mkTransfer E (.vec [2]) (.vec [4]) none = .ok halfGain ∧ mkTransfer E (.vec [1]) (.vec [1, 1]) none = .ok lagTf ∧
    HasVal halfGain 1 1 (1 : ℚ) !![1 / 2] ∧ HasVal lagTf 1 1 (1 : ℚ) !![1 / 2] ∧
    ∃ F, mul E halfGain lagTf = .ok F ∧ HasVal F 1 1 (1 : ℚ) !![1] := by
  have hL : Normal lagTf 1 1 (Matrix.of fun _ _ => [1]) (Matrix.of fun _ _ => [1, 1]) :=
    normal_siso E (a := [1]) (b := [1, 1]) (dt := none) (by simp) (Or.inr ⟨1, [], rfl, one_ne_zero⟩) (by simp) dtOk_none
  have hV : Valued lagTf 1 1 (1 : ℚ) !![1 / 2] := valued_of (N := Matrix.of fun _ _ => [1]) (D := Matrix.of fun _ _ => [1, 1])
    fun i j => by
      rw [Subsingleton.elim i 0, Subsingleton.elim j 0]
      refine ⟨?_, ?_, by simp⟩
      · simp [polyAt, toPoly]
      · simp [polyAt, toPoly]; norm_num
  refine ⟨mkTransfer_vec E (by simp) (by simp) dtOk_none,
    mkTransfer_siso_ok E dtOk_none (by simp) (by simp) (Or.inr ⟨1, [], rfl, by simp⟩) (by simp), ?_, hV.1, ?_⟩
  · refine ⟨Matrix.of fun _ _ => [2], Matrix.of fun _ _ => [4], rfl, rfl, fun i j => ?_⟩
    rw [Subsingleton.elim i 0, Subsingleton.elim j 0]
    refine ⟨?_, ?_⟩
    · simp [polyAt, toPoly]
    · simp [polyAt, toPoly]; norm_num
  · obtain ⟨F, -, -, h1, -, -⟩ := mulScalar_normal hbal hthr hL 2
    have h2 := mulScalar_valued hV h1
    refine ⟨F, ?_, ?_⟩
    · unfold TransferM.mul
      rw [if_neg (by simp [halfGain, lagTf]), if_pos (by rfl), if_pos (by simp [isSISO, halfGain, constArr])]
      rw [show halfGain.num.entry 0 0 = [2] from rfl]
      exact h1
    · convert h2.1.1 using 1
      ext i j
      rw [Subsingleton.elim i 0, Subsingleton.elim j 0]
      simp

/-- **C23** fails: an array times a discrete time model is always rejected (the sampling period is passed
as the denominator, and the product is then one of a continuous and a discrete time model). -/
theorem C23_array_discrete_violated (G : TransferM K) {t : K} (hdt : G.dt = some t) (x : Arr K)
    (hx : x.r * x.c ≠ 1) (F : TransferM K) : rmatmulGain E G (.arr x) ≠ .ok F := by
  intro h
  unfold rmatmulGain at h
  simp only [hx, if_false] at h
  obtain ⟨H, h1, h2⟩ := bind_ok' h
  obtain ⟨-, h3, -⟩ := mkTransfer_inv h1
  rw [(C16_transfer_mismatch H G (by rw [h3, hdt]; simp)).2.2] at h2
  cases h2

theorem lagTf_valued : Valued lagTf 1 1 (1 : ℚ) !![1 / 2] :=
  valued_of (N := Matrix.of fun _ _ => [1]) (D := Matrix.of fun _ _ => [1, 1])
    fun i j => by
      rw [Subsingleton.elim i 0, Subsingleton.elim j 0]
      refine ⟨?_, ?_, by simp⟩
      · simp [polyAt, toPoly]
      · simp [polyAt, toPoly]; norm_num

theorem lagTf_normal (E : TNum ℚ) : Normal lagTf 1 1 (Matrix.of fun _ _ => [1]) (Matrix.of fun _ _ => [1, 1]) :=
  normal_siso E (a := [1]) (b := [1, 1]) (dt := none) (by simp) (Or.inr ⟨1, [], rfl, one_ne_zero⟩) (by simp) dtOk_none

/-- `1 / (s + 1)` satisfies the hypotheses of the theorems on products. -/
example : Valued lagTf 1 1 (1 : ℚ) !![1 / 2] ∧ UnitDen lagTf ∧ FlagOk lagTf :=
  ⟨lagTf_valued, fun i j h => absurd (show 2 = 1 from h) (by norm_num), fun h => by simp [lagTf] at h⟩

/-- `[1/(s+1), 1/(s²+3s+2)] @ [1/(s+2); 1/(s²+1)]` satisfies the hypotheses on the denominators with the
threshold of the code. -/
example (E : TNum ℚ) (hthr : E.lcmTol = 1 / 10 ^ 9) :
    MatmulClear E.lcmTol 1 2 1
      (⟨Arr.of !![[1], [1]], Arr.of !![[1, 1], [1, 3, 2]], false, none⟩ : TransferM ℚ)
      ⟨Arr.of !![[1]; [1]], Arr.of !![[1, 2]; [1, 0, 1]], false, none⟩ ∧
    RowsClear E.lcmTol 1 2 (⟨Arr.of !![[1], [1]], Arr.of !![[1, 1], [1, 3, 2]], false, none⟩ : TransferM ℚ) := by
  have h1 : E.lcmTol ≤ 1 := by rw [hthr]; norm_num
  have hG : ∀ (r : Fin 1) (i : Fin 2), (Arr.of (!![[1, 1], [1, 3, 2]] : Matrix (Fin 1) (Fin 2) (List ℚ))).entry r i
      = ((!![[1, 1], [1, 3, 2]] : Matrix (Fin 1) (Fin 2) (List ℤ)) r i).map fun x : ℤ => (x : ℚ) := by
    intro r i
    rw [entry_of]
    fin_cases r; fin_cases i <;> simp
  have hH : ∀ (r : Fin 2) (i : Fin 1), (Arr.of (!![[1, 2]; [1, 0, 1]] : Matrix (Fin 2) (Fin 1) (List ℚ))).entry r i
      = ((!![[1, 2]; [1, 0, 1]] : Matrix (Fin 2) (Fin 1) (List ℤ)) r i).map fun x : ℤ => (x : ℚ) := by
    intro r i
    rw [entry_of]
    fin_cases i; fin_cases r <;> simp
  have hD : ∀ r i, ∃ t, (!![[1, 1], [1, 3, 2]] : Matrix (Fin 1) (Fin 2) (List ℤ)) r i = 1 :: t := by
    intro r i; fin_cases r; fin_cases i <;> exact ⟨_, rfl⟩
  have hD' : ∀ r i, ∃ t, (!![[1, 2]; [1, 0, 1]] : Matrix (Fin 2) (Fin 1) (List ℤ)) r i = 1 :: t := by
    intro r i; fin_cases i; fin_cases r <;> exact ⟨_, rfl⟩
  exact ⟨matmulClear_int h1 _ _ hG hH hD hD', rowsClear_int h1 _ hG hD⟩

/-! ## C24: inverses -/

/-- **C24**: `k / G` has the value `k / G(s)` and keeps the sampling period. Missing: that the result is causal (`C24_noncausal_violated`). -/
theorem C24_rdiv_partial {G F : TransferM K} {v : L} (hG : HasVal G 1 1 s (Matrix.of fun _ _ => v)) (hv : v ≠ 0) {k : K}
    (h : rdiv E k G = .ok F) :
    HasVal F 1 1 s (Matrix.of fun _ _ => algebraMap K L k / v) ∧ F.dt = G.dt := by
  obtain ⟨N, D, hN, hD, hND⟩ := hG
  have hs : G.isSISO = true := by simp [isSISO, hN]
  unfold rdiv at h
  rw [if_pos hs] at h
  split_ifs at h with h1
  obtain ⟨H, h2, h3⟩ := bind_ok' h
  obtain ⟨h4, h5, -⟩ := mkTransfer_inv h2
  rw [hN, hD, show (Arr.of D).entry 0 0 = D 0 0 from entry_of D 0 0,
    show (Arr.of N).entry 0 0 = N 0 0 from entry_of N 0 0] at h4
  unfold validateTransfer at h4
  simp only [regArg, combineArgs, bind, Except.bind] at h4
  split_ifs at h4 with h6
  simp only [constArr] at h4
  simp only [one_ne_zero, or_self, if_false, Except.ok.injEq, Prod.mk.injEq] at h4
  obtain ⟨e1, e2, -⟩ := h4
  unfold mulScalar at h3
  rw [← e1, ← e2] at h3
  obtain ⟨e, g1, g2, g3, g4⟩ := mkEntries_inv h3
  obtain ⟨a1, a2⟩ := hND 0 0
  simp only [of_apply] at a2
  have a3 : polyAt s (N 0 0) ≠ 0 := fun e => hv (by rw [a2, e, zero_div])
  have g5 : e 0 0 = scaleEntry k (D 0 0) (N 0 0) := by
    have := g1 0 0
    simp only [Except.ok.injEq] at this
    rw [← this]
    rfl
  refine ⟨hasVal_of g2 g3 fun i j => ?_, g4.trans h5⟩
  rw [Subsingleton.elim i 0, Subsingleton.elim j 0]
  simp only [of_apply, g5]
  unfold scaleEntry
  split_ifs with hk
  · simp [hk, polyAt, toPoly]
  · refine ⟨a3, ?_⟩
    simp only
    rw [polyAt_map_mul, a2]
    field_simp

theorem mkTransfer_vec_eq (E : TNum K) (a b : List K) (dt : Option K) :
    mkTransfer E (.vec a) (.vec b) dt = mkTransfer E (.lists (Arr.of (Matrix.of fun (_ _ : Fin 1) => a)))
      (.lists (Arr.of (Matrix.of fun (_ _ : Fin 1) => b))) dt := by
  have hlv : ∀ l : List K, regArg (.lists (Arr.of (Matrix.of fun (_ _ : Fin 1) => l))) = regArg (.vec l) := fun l => by
    simp only [regArg, Arr.of_r, Arr.of_c, and_self, if_true]
    rfl
  unfold mkTransfer validateTransfer
  rw [hlv, hlv]

/-- **C24**: the inverse of a biproper SISO model exists and is in normal form (so causal). -/
theorem C24_biproper_success (hbal : ∀ polys i, E.bal polys i ≠ 0) (hthr : E.lcmTol ≤ 1)
    {G : TransferM K} {N D : Matrix (Fin 1) (Fin 1) (List K)} (hG : Normal G 1 1 N D)
    (h0 : toPoly (N 0 0) ≠ 0) (hdeg : (toPoly (N 0 0)).degree = (toPoly (D 0 0)).degree) (k : K) :
    ∃ F N₂ D₂, rdiv E k G = .ok F ∧ Normal F 1 1 N₂ D₂ ∧ F.dt = G.dt := by
  have hs : G.isSISO = true := by simp [isSISO, hG.num]
  have hDt : Trimmed (D 0 0) := by
    have := hG.lead 0 0
    match h : D 0 0 with
    | [] => simp [h] at this
    | a :: t => exact Or.inr ⟨a, t, rfl, by simpa [h] using this⟩
  have hlen : (N 0 0).length = (D 0 0).length := by
    have h1 := trimmed_length (hG.trimmed 0 0) h0
    have h2 : toPoly (D 0 0) ≠ 0 := fun e => by
      rw [e, degree_zero, degree_eq_bot] at hdeg; exact h0 hdeg
    have h3 := trimmed_length hDt h2
    rw [natDegree_eq_of_degree_eq hdeg] at h1
    omega
  have hNl : (N 0 0).getD 0 0 ≠ 0 := by
    rcases hG.trimmed 0 0 with h | ⟨a, t, h, ha⟩
    · rw [h] at h0; simp [toPoly] at h0
    · rw [h]; simpa using ha
  unfold rdiv
  rw [if_pos hs, hG.num, hG.den, show (Arr.of D).entry 0 0 = D 0 0 from entry_of D 0 0,
    show (Arr.of N).entry 0 0 = N 0 0 from entry_of N 0 0, if_neg (by simp [hlen]), mkTransfer_vec_eq]
  obtain ⟨H, h1, h2, h3⟩ := mkTransfer_normal hbal hthr (p := 1) (m := 1) (by norm_num) (by norm_num)
    (N := Matrix.of fun _ _ => D 0 0) (D := Matrix.of fun _ _ => N 0 0) hG.dt (fun _ _ => hNl) (fun _ _ => hDt)
    fun _ _ => hlen.ge
  simp only [h1, bind, Except.bind]
  rw [← h3]
  exact mulScalar_normal hbal hthr h2 k

/-- **C24**: the inverse of a strictly proper SISO model in normal form is rejected. -/
theorem C24_strictly_proper_rejected {G : TransferM K} {N D : Matrix (Fin 1) (Fin 1) (List K)} (hG : Normal G 1 1 N D)
    (h0 : toPoly (N 0 0) ≠ 0) (hdeg : (toPoly (N 0 0)).degree < (toPoly (D 0 0)).degree) (k : K) :
    rdiv E k G = .error .value := by
  have hs : G.isSISO = true := by simp [isSISO, hG.num]
  unfold rdiv
  rw [if_pos hs, hG.num, hG.den, show (Arr.of D).entry 0 0 = D 0 0 from entry_of D 0 0,
    show (Arr.of N).entry 0 0 = N 0 0 from entry_of N 0 0, if_pos]
  have h1 := trimmed_length (hG.trimmed 0 0) h0
  have h2 := degree_toPoly_lt (D 0 0)
  rw [degree_eq_natDegree h0] at hdeg
  have h3 := lt_of_lt_of_le hdeg (Order.le_pred_of_lt h2)
  have h4 : toPoly (D 0 0) ≠ 0 := fun e => by rw [e] at hdeg; simp at hdeg
  rw [degree_eq_natDegree h4] at hdeg h2
  norm_cast at hdeg h2
  omega

/-- **C24** fails for denominators of equal length but lower degree: with
`G = Transfer(np.array([0, 1, 1]), np.array([1, 2, 3]))`, which is strictly proper, `1 / G` is accepted and is not
causal. -/
theorem C24_noncausal_violated (E : TNum ℚ) :
    ∃ G F, mkTransfer E (.vec [0, 1, 1]) (.vec [1, 2, 3]) none = .ok G ∧ rdiv E 1 G = .ok F ∧
      (toPoly (F.den.entry 0 0)).degree < (toPoly (F.num.entry 0 0)).degree := by
  have c1 := companion_eq [1, 2, (3 : ℚ)] (trimZeros_of_cons one_ne_zero _) one_ne_zero (by simp)
  have c2 := companion_eq [0, (1 : ℚ), 1] (a := 1) (t := [1]) (by simp [trimZeros]) one_ne_zero (by simp)
  have e1 : ∀ a b c : ℚ, (constArr 1 1 [a, b, c]).entry 0 0 = [a, b, c] := fun a b c => rfl
  have m1 : mkTransfer E (.vec [0, 1, 1]) (.vec [1, 2, 3]) none =
      .ok ⟨constArr 1 1 [0, 1, 1], constArr 1 1 [1, 2, 3], false, none⟩ := by
    rw [mkTransfer_vec E (by simp) (by simp) dtOk_none]
    simp only [poleMatrix, isSISO, e1, c1, c2, bind, Except.bind]
    simp [constArr, Except.map]
  have m2 : mkTransfer E (.vec [1, 2, 3]) (.vec [0, 1, 1]) none =
      .ok ⟨constArr 1 1 [1, 2, 3], constArr 1 1 [0, 1, 1], false, none⟩ := by
    rw [mkTransfer_vec E (by simp) (by simp) dtOk_none]
    simp only [poleMatrix, isSISO, e1, c1, c2, bind, Except.bind]
    simp [constArr, Except.map]
  refine ⟨_, ⟨constArr 1 1 [1, 2, 3], constArr 1 1 [0, 1, 1], false, none⟩, m1, ?_, ?_⟩
  · unfold rdiv
    rw [if_pos (by simp [isSISO, constArr])]
    simp only [e1, List.length_cons, List.length_nil, ne_eq, not_true_eq_false, if_false, m2, bind, Except.bind]
    unfold mulScalar mkEntries
    have : matM (fun (i : Fin (constArr 1 1 [(1 : ℚ), 2, 3]).r) (j : Fin (constArr 1 1 [(1 : ℚ), 2, 3]).c) =>
        (Except.ok (scaleEntry 1 ((constArr 1 1 [(1 : ℚ), 2, 3]).m i j) ((constArr 1 1 [(0 : ℚ), 1, 1]).entry i j)) : Res _))
        = .ok fun _ _ => ([1, 2, 3], [0, 1, 1]) := matM_ok.mpr fun i j => by
      obtain ⟨i, hi⟩ := i
      obtain ⟨j, hj⟩ := j
      have hi' : i < 1 := hi
      have hj' : j < 1 := hj
      obtain rfl : i = 0 := by omega
      obtain rfl : j = 0 := by omega
      simp [scaleEntry, constArr]
      rfl
    simp only [this, bind, Except.bind]
    rw [← m2, mkTransfer_vec_eq]
    rfl
  · show (toPoly [0, 1, 1]).degree < (toPoly [1, 2, 3]).degree
    have h1 : toPoly [0, (1 : ℚ), 1] = toPoly [1, 1] := by simp [toPoly]
    rw [h1, degree_toPoly_cons one_ne_zero, degree_toPoly_cons one_ne_zero]
    norm_cast

/-- `(2 s + 1) / (s + 1)` is biproper, `1 / (s + 1)` strictly proper. -/
example (E : TNum ℚ) : Normal (⟨constArr 1 1 [2, 1], constArr 1 1 [1, 1], false, none⟩ : TransferM ℚ) 1 1
      (Matrix.of fun _ _ => [2, 1]) (Matrix.of fun _ _ => [1, 1]) ∧ toPoly [(2 : ℚ), 1] ≠ 0 ∧
      (toPoly [(2 : ℚ), 1]).degree = (toPoly [(1 : ℚ), 1]).degree ∧
    Normal lagTf 1 1 (Matrix.of fun _ _ => [1]) (Matrix.of fun _ _ => [1, 1]) ∧
      (toPoly [(1 : ℚ)]).degree < (toPoly [(1 : ℚ), 1]).degree := by
  have h2 := degree_toPoly_cons (a := (2 : ℚ)) (by norm_num) [1]
  refine ⟨normal_siso E (by simp) (Or.inr ⟨2, [1], rfl, by norm_num⟩) (by simp) dtOk_none, fun e => ?_, ?_,
    lagTf_normal E, ?_⟩
  · rw [e] at h2; simp at h2
  · rw [h2, degree_toPoly_cons one_ne_zero]
  · rw [degree_toPoly_cons one_ne_zero, degree_toPoly_cons one_ne_zero]; norm_cast

/-! ## C25: `to_array` and indexing -/

/-- **C25**: `to_array` of a static gain is the array of its values. -/
theorem C25_to_array {G : TransferM K} {N D : Matrix (Fin p) (Fin m) (List K)} (hG : Normal G p m N D)
    (hg : G.isgain = true) (s : L) :
    ∃ X : Matrix (Fin p) (Fin m) K, TransferM.toArray G = .ok (Arr.of X) ∧ HasVal G p m s (X.map (algebraMap K L)) := by
  refine ⟨_, by unfold TransferM.toArray; rw [if_pos hg, hG.toArray hg], N, D, hG.num, hG.den, fun i j => ?_⟩
  obtain ⟨h1, h2, h3⟩ := hG.gain_entry hg i j
  rw [h1, h2]
  simp only [map_apply, of_apply, List.getD_cons_zero]
  refine ⟨by simpa [polyAt, toPoly] using h3, by simp [polyAt, toPoly]⟩

/-- **C25**: `to_array` of a dynamic model is rejected. -/
theorem C25_to_array_dynamic {G : TransferM K} (hg : G.isgain = false) : TransferM.toArray G = .error .value := by
  unfold TransferM.toArray
  simp [hg]

/-- **C25**: indexing a MIMO model selects the numerators and denominators at the selected rows and columns and keeps the
sampling period. Missing: a `1 × 1` selection must be made with two integers (`hint`); the code returns a malformed
object for `G[[0], [0]]`. -/
theorem C25_getitem_partial (hbal : ∀ polys i, E.bal polys i ≠ 0) (hthr : E.lcmTol ≤ 1)
    {G : TransferM K} {N D : Matrix (Fin p) (Fin m) (List K)} (hG : Normal G p m N D) (hpm : ¬ (p = 1 ∧ m = 1))
    {rows cols : Idx} {rs cs : List ℕ} (hr : Selects p rows rs) (hc : Selects m cols cs)
    (hr0 : rs ≠ []) (hc0 : cs ≠ [])
    (_hint : rs.length = 1 → cs.length = 1 → (∃ i, rows = .int i) ∧ ∃ j, cols = .int j) :
    ∃ F, getitem E G rows cols = .ok F ∧ F.dt = G.dt ∧ Normal F rs.length cs.length
      (Matrix.of fun i j => N ⟨rs[i], hr.lt _ (rs.getElem_mem _)⟩ ⟨cs[j], hc.lt _ (cs.getElem_mem _)⟩)
      (Matrix.of fun i j => D ⟨rs[i], hr.lt _ (rs.getElem_mem _)⟩ ⟨cs[j], hc.lt _ (cs.getElem_mem _)⟩) := by
  have hs : ¬ (G.isSISO = true) := by simpa [isSISO, hG.num] using hpm
  have hp' : G.p = p := by rw [TransferM.p, hG.num]
  have hm' : G.m = m := by rw [TransferM.m, hG.num]
  unfold getitem
  rw [hp', hm', arangeIdx_ok hr, arangeIdx_ok hc]
  simp only [bind, Except.bind, if_neg hs]
  obtain ⟨F, h1, h2, h3⟩ := mkTransfer_normal hbal hthr (List.length_pos_iff.mpr hr0) (List.length_pos_iff.mpr hc0)
    (N := Matrix.of fun (i : Fin rs.length) (j : Fin cs.length) =>
      N ⟨rs[i], hr.lt _ (rs.getElem_mem _)⟩ ⟨cs[j], hc.lt _ (cs.getElem_mem _)⟩)
    (D := Matrix.of fun (i : Fin rs.length) (j : Fin cs.length) =>
      D ⟨rs[i], hr.lt _ (rs.getElem_mem _)⟩ ⟨cs[j], hc.lt _ (cs.getElem_mem _)⟩)
    hG.dt (fun i j => hG.lead _ _) (fun i j => hG.trimmed _ _) (fun i j => hG.causal _ _)
  refine ⟨F, ?_, h3, h2⟩
  rw [← h1, hG.num, hG.den]
  have e : ∀ M : Matrix (Fin p) (Fin m) (List K),
      (Matrix.of fun (i : Fin rs.length) (j : Fin cs.length) => (Arr.of M).entry (rs.get i) (cs.get j))
      = Matrix.of fun (i : Fin rs.length) (j : Fin cs.length) =>
        M ⟨rs[i], hr.lt _ (rs.getElem_mem _)⟩ ⟨cs[j], hc.lt _ (cs.getElem_mem _)⟩ := fun M =>
    Matrix.ext fun i j => entry_of M ⟨rs[i], hr.lt _ (rs.getElem_mem _)⟩ ⟨cs[j], hc.lt _ (cs.getElem_mem _)⟩
  rw [e, e]

/-- **C25**: indexing a SISO model returns it. -/
theorem C25_getitem_siso {G : TransferM K} {N D : Matrix (Fin 1) (Fin 1) (List K)} (hG : Normal G 1 1 N D)
    {rows cols : Idx} {rs cs : List ℕ} (hr : Selects 1 rows rs) (hc : Selects 1 cols cs) :
    getitem E G rows cols = .ok G := by
  have hs : G.isSISO = true := by simp [isSISO, hG.num]
  have hp' : G.p = 1 := by rw [TransferM.p, hG.num]
  have hm' : G.m = 1 := by rw [TransferM.m, hG.num]
  unfold getitem
  rw [hp', hm', arangeIdx_ok hr, arangeIdx_ok hc]
  simp only [bind, Except.bind, if_pos hs]

/-- A `2 × 1` model with a selection of its second output. -/
example (E : TNum ℚ) : ∃ G : TransferM ℚ, Normal G 2 1 (Matrix.of fun _ _ => [1]) (Matrix.of fun _ _ => [1, 1]) ∧
    Selects 2 (.int (-1)) [1] :=
  ⟨⟨Arr.of (Matrix.of fun _ _ => [1]), Arr.of (Matrix.of fun _ _ => [1, 1]), false, none⟩,
    ⟨⟨by norm_num, by norm_num⟩, rfl, rfl, fun _ _ => Or.inr ⟨1, [], rfl, one_ne_zero⟩, fun _ _ => by simp,
      fun _ _ => by simp, by simp, dtOk_none⟩, .int ⟨by norm_num, Or.inr (by norm_num)⟩⟩

/-! ## C64: the constructor accepts every causal model -/

/-- **C64**: lists of coefficients without leading zeros, with nonzero denominators and no numerator longer
than its denominator, are accepted and kept as they are. `_partial`: with leading zeros in the numerators
see `C64_leading_zero_violated`. -/
theorem C64_accepts_partial (hbal : ∀ polys i, E.bal polys i ≠ 0) (hthr : E.lcmTol ≤ 1)
    (hp : 0 < p) (hm : 0 < m) {N D : Matrix (Fin p) (Fin m) (List K)} {dt : Option K} (hdt : DtOk dt)
    (hD : ∀ i j, (D i j).getD 0 0 ≠ 0) (hN : ∀ i j, Trimmed (N i j))
    (hND : ∀ i j, (N i j).length ≤ (D i j).length) :
    ∃ F, mkTransfer E (.lists (Arr.of N)) (.lists (Arr.of D)) dt = .ok F ∧ Normal F p m N D ∧ F.dt = dt :=
  mkTransfer_normal hbal hthr hp hm hdt hD hN hND

/-- Numerators `1, s⁰` written as `[1], [0, 1]`. -/
def lzNum : Matrix (Fin 1) (Fin 2) (List ℚ) := Matrix.of fun _ j => if j = 0 then [1] else [0, 1]
def lzDen : Matrix (Fin 1) (Fin 2) (List ℚ) := Matrix.of fun _ _ => [1, 1]

/-- **C64** fails: `Transfer([[[1], [0, 1]]], [[[1, 1], [1, 1]]])`, that is `[1/(s+1), 1/(s+1)]` with a leading zero in the
second numerator, raises `ValueError`. -/
theorem C64_leading_zero_violated (E : TNum ℚ) :
    (∀ i j, ProperPair (lzNum i j) (lzDen i j)) ∧
    mkTransfer E (.lists (Arr.of lzNum)) (.lists (Arr.of lzDen)) none = .error .value := by
  have hdeg := degree_toPoly_cons (a := (1 : ℚ)) one_ne_zero [1]
  have hT : ∀ j, toPoly (lzNum 0 j) = 1 := fun j => by
    simp only [lzNum, of_apply]
    split_ifs <;> simp [toPoly]
  refine ⟨fun i j => ⟨fun e => ?_, ?_⟩, ?_⟩
  · change toPoly [1, 1] = 0 at e
    rw [e] at hdeg; simp at hdeg
  · rw [Subsingleton.elim i 0, hT]
    change _ ≤ (toPoly [1, 1]).degree
    rw [hdeg, degree_one]
    norm_cast
  · have hne : ∀ i j, lzDen i j ≠ [] := fun i j => by simp [lzDen]
    have hmax : ¬ maxSize (Arr.of lzDen) = 1 := by
      rw [maxSize_eq_one (by norm_num) (by norm_num) hne]
      intro h
      have := h 0 0
      simp [lzDen] at this
    have hv : validateTransfer (.lists (Arr.of lzNum)) (.lists (Arr.of lzDen)) = .ok (Arr.of lzNum, Arr.of lzDen, false) := by
      unfold validateTransfer
      have hr : ∀ X : Matrix (Fin 1) (Fin 2) (List ℚ), regArg (.lists (Arr.of X)) = .ok (.mimo (Arr.of X)) := fun X => by
        simp [regArg]
      simp only [hr, bind, Except.bind, combineArgs, Arr.of_r, Arr.of_c, and_self, not_true_eq_false, if_false]
      rw [if_neg]
      · simp [hmax]
      · rintro ⟨i, j, h⟩
        by_cases hij : i < 1 ∧ j < 2
        · rw [show (Arr.of lzNum).entry i j = lzNum ⟨i, hij.1⟩ ⟨j, hij.2⟩ from entry_of lzNum ⟨i, hij.1⟩ ⟨j, hij.2⟩,
            show (Arr.of lzDen).entry i j = lzDen ⟨i, hij.1⟩ ⟨j, hij.2⟩ from entry_of lzDen ⟨i, hij.1⟩ ⟨j, hij.2⟩] at h
          simp only [lzNum, lzDen, of_apply] at h
          split_ifs at h <;> simp [trimZeros] at h
        · unfold Arr.entry at h
          rw [dif_neg hij, dif_neg hij] at h
          exact lt_irrefl _ h
    unfold mkTransfer
    simp only [hv, bind, Except.bind, checkDt_ok dtOk_none]
    unfold TransferM.poleMatrix
    rw [if_neg (by simp), if_neg (by simp [isSISO])]
    have ht : t2sTuple E (.lists (Arr.of lzNum)) (.lists (Arr.of lzDen)) = .error .value := by
      unfold t2sTuple
      simp only [hv, bind, Except.bind]
      unfold t2sData
      rw [if_neg (by simp), if_neg (by simp)]
      unfold t2sMimo
      have hM : matM (fun (x : Fin (Arr.of lzNum).r) (y : Fin (Arr.of lzNum).c) =>
          t2sEntry E.remTol ((Arr.of lzNum).m x y) ((Arr.of lzDen).entry x y)) = .ok (fun x y => (0, lzNum x y, [1, 1])) :=
        matM_ok.mpr fun x y => by
          rw [show (Arr.of lzDen).entry x y = lzDen x y from entry_of lzDen x y]
          show t2sEntry E.remTol (lzNum x y) (lzDen x y) = _
          simp only [lzNum, lzDen, of_apply]
          split_ifs <;> simp [t2sEntry, t2sSplit, trimZeros, bind, Except.bind]
      simp only [hM, bind, Except.bind]
      rw [if_neg, if_neg (by simp)]
      · unfold t2sTall
        have hex : ∃ d : List ℚ, ∀ (x : Fin 2) (y : Fin 1), ([1, 1] : List ℚ) = d := ⟨_, fun _ _ => rfl⟩
        rw [dif_pos hex]
        have hch : hex.choose = [1, 1] := (hex.choose_spec 0 0).symm
        rw [hch]
        unfold t2sCommon
        rw [if_pos]
        refine ⟨(1 : Fin 2), (0 : Fin 1), by simp, ?_⟩
        simp [lzNum]
      · intro h
        have := h (0 : Fin 1) (0 : Fin 2)
        simp [lzNum] at this
    simp only [ht, bind, Except.bind]

/-- The hypotheses of `C64_accepts_partial` hold for `[1/(s+1), 1/(s+1)]`. -/
example : (∀ i j, (lzDen i j).getD 0 0 ≠ 0) ∧ (∀ i j, Trimmed ((Matrix.of fun (_ : Fin 1) (_ : Fin 2) => [(1 : ℚ)]) i j)) :=
  ⟨fun i j => by simp [lzDen], fun i j => Or.inr ⟨1, [], rfl, one_ne_zero⟩⟩

end Harold
