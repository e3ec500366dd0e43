import Verif.Lemmas.TransferOps
import Verif.Lemmas.Index

/-!
# Partial correctness of the `Transfer` operations: if they return, the value is right
-/

namespace Harold

open Matrix Spec Polynomial TransferM

section basics
variable {K L : Type} [Field K] [LinearOrder K] [Field L] [Algebra K L] {E : TNum K} {s : L} {p m : ℕ}

omit [LinearOrder K] in
/-- Entries of a model with a value. -/
theorem Spec.Valued.elim {G : TransferM K} {M : Matrix (Fin p) (Fin m) L} (h : Valued G p m s M) :
    ∃ (N D : Matrix (Fin p) (Fin m) (List K)) (g : Bool) (dt : Option K), G = ⟨Arr.of N, Arr.of D, g, dt⟩ ∧
      ∀ i j, EntryVal s (N i j, D i j) (M i j) := by
  obtain ⟨⟨N, D, hN, hD, h⟩, hl⟩ := h
  obtain ⟨n, d, g, dt⟩ := G
  simp only at hN hD
  subst hN; subst hD
  exact ⟨N, D, g, dt, rfl, fun i j => ⟨(h i j).1, (h i j).2, hl i j⟩⟩

omit [LinearOrder K] in
theorem valued_of {N D : Matrix (Fin p) (Fin m) (List K)} {g : Bool} {dt : Option K}
    {M : Matrix (Fin p) (Fin m) L} (h : ∀ i j, EntryVal s (N i j, D i j) (M i j)) :
    Valued (⟨Arr.of N, Arr.of D, g, dt⟩ : TransferM K) p m s M :=
  ⟨⟨N, D, rfl, rfl, fun i j => ⟨(h i j).1, (h i j).2.1⟩⟩, fun i j => (h i j).2.2⟩

theorem mkEntries_valued {f : Fin p → Fin m → Res (List K × List K)}
    {dt : Option K} {F : TransferM K} (h : mkEntries E p m f dt = .ok F)
    {M : Matrix (Fin p) (Fin m) L} (hf : ∀ i j e, f i j = .ok e → EntryVal s e (M i j)) :
    Valued F p m s M ∧ F.dt = dt := by
  obtain ⟨h1, h2, h3⟩ := mkEntries_val h hf
  exact ⟨⟨h1, h3⟩, h2⟩

theorem mkList_valued {X : Matrix (Fin p) (Fin m) K} {dt : Option K}
    {F : TransferM K} (h : mkList E (Arr.of X) dt = .ok F) (s : L) :
    Valued F p m s (X.map (algebraMap K L)) ∧ F.dt = dt := by
  obtain ⟨h1, h2, h3⟩ := mkList_val h s
  exact ⟨⟨h1, h3⟩, h2⟩

theorem mkLists_valued {N D : Matrix (Fin p) (Fin m) (List K)} {dt : Option K} {F : TransferM K}
    (h : mkTransfer E (.lists (Arr.of N)) (.lists (Arr.of D)) dt = .ok F) {M : Matrix (Fin p) (Fin m) L}
    (hv : ∀ i j, EntryVal s (N i j, D i j) (M i j)) : Valued F p m s M ∧ F.dt = dt := by
  obtain ⟨h1, h2, h3⟩ := mkTransfer_lists h
  obtain ⟨n, d, g, dt'⟩ := F
  simp only at h1 h2 h3
  subst h1; subst h2
  exact ⟨valued_of hv, h3⟩

theorem mkScalars_valued {a b : K} (hb : b ≠ 0) {dt : Option K} {F : TransferM K}
    (h : mkTransfer E (.scalar a) (.scalar b) dt = .ok F) (s : L) :
    Valued F 1 1 s (Matrix.of fun _ _ => algebraMap K L (a / b)) ∧ F.dt = dt := by
  obtain ⟨h1, h2, -⟩ := mkTransfer_inv h
  obtain ⟨n, d, g, dt'⟩ := F
  simp only [validateTransfer, regArg, combineArgs, bind, Except.bind, List.length_singleton, lt_irrefl,
    if_false, constArr] at h1
  simp only [one_ne_zero, or_self, if_false, Except.ok.injEq, Prod.mk.injEq] at h1
  obtain ⟨rfl, rfl, -⟩ := h1
  refine ⟨valued_of fun i j => ?_, h2⟩
  simp [EntryVal, polyAt_const, hb]

theorem mkScalar_valued {a : K} {dt : Option K} {F : TransferM K}
    (h : mkTransfer E (.scalar a) .none dt = .ok F) (s : L) :
    Valued F 1 1 s (Matrix.of fun _ _ => algebraMap K L a) ∧ F.dt = dt := by
  obtain ⟨h1, h2, -⟩ := mkTransfer_inv h
  obtain ⟨n, d, g, dt'⟩ := F
  simp only [validateTransfer, regArg, combineArgs, bind, Except.bind, List.length_singleton, lt_irrefl,
    if_false, constArr] at h1
  simp only [one_ne_zero, or_self, if_false, Except.ok.injEq, Prod.mk.injEq] at h1
  obtain ⟨rfl, rfl, -⟩ := h1
  refine ⟨valued_of fun i j => ?_, h2⟩
  simp [EntryVal, polyAt_const]

theorem flatten_length (X : Matrix (Fin p) (Fin m) K) : (Arr.of X).flatten.length = p * m := by
  simp [Arr.flatten]

/-- `Transfer(x)` for a 2-D array. -/
theorem mkArr_valued {X : Matrix (Fin p) (Fin m) K} (hp : 0 < p) (hm : 0 < m) {dt : Option K}
    {F : TransferM K} (h : mkTransfer E (.arr (Arr.of X)) .none dt = .ok F) (s : L) :
    Valued F p m s (X.map (algebraMap K L)) ∧ F.dt = dt := by
  obtain ⟨h1, h2, -⟩ := mkTransfer_inv h
  obtain ⟨n, d, g, dt'⟩ := F
  simp only at h1 h2
  by_cases hmin : 1 < min p m
  · simp only [validateTransfer, regArg, Arr.of_r, Arr.of_c, if_pos hmin, bind, Except.bind, combineArgs] at h1
    rw [if_neg (by rintro ⟨i, j, hh⟩; simp at hh)] at h1
    have h0 : ¬ (p = 0 ∨ m = 0) := by omega
    simp only [constArr, h0, if_false, Except.ok.injEq, Prod.mk.injEq] at h1
    obtain ⟨rfl, rfl, -⟩ := h1
    refine ⟨valued_of fun i j => ?_, h2⟩
    simp [EntryVal, polyAt_const]
  · simp only [validateTransfer, regArg, Arr.of_r, Arr.of_c, if_neg hmin, bind, Except.bind, combineArgs] at h1
    split_ifs at h1 with h3
    rw [flatten_length] at h3
    have hpm : p = 1 ∧ m = 1 := by
      rcases Nat.lt_or_ge 1 p with h4 | h4
      · exact absurd (lt_of_lt_of_le h4 (Nat.le_mul_of_pos_right p hm)) h3
      · rcases Nat.lt_or_ge 1 m with h5 | h5
        · exact absurd (lt_of_lt_of_le h5 (Nat.le_mul_of_pos_left m hp)) h3
        · omega
    obtain ⟨rfl, rfl⟩ := hpm
    have hf : (Arr.of X).flatten = [X 0 0] := by simp [Arr.flatten, List.finRange_succ]
    simp only [constArr, hf, one_ne_zero, or_self, if_false, Except.ok.injEq, Prod.mk.injEq] at h1
    obtain ⟨rfl, rfl, -⟩ := h1
    refine ⟨valued_of fun i j => ?_, h2⟩
    have hi : i = 0 := Subsingleton.elim _ _
    have hj : j = 0 := Subsingleton.elim _ _
    subst hi; subst hj
    simp [EntryVal, polyAt_const]

/-- The quotients of the coefficients of a static gain are its values. -/
theorem gainArr_valued {N D : Matrix (Fin p) (Fin m) (List K)} {x : Arr K} (h : gainArr (Arr.of N) (Arr.of D) = .ok x)
    {M : Matrix (Fin p) (Fin m) L} (hv : ∀ i j, EntryVal s (N i j, D i j) (M i j)) :
    ∃ X : Matrix (Fin p) (Fin m) K, x = Arr.of X ∧ X.map (algebraMap K L) = M ∧
      ∀ i j, N i j = [(N i j).getD 0 0] ∧ D i j = [(D i j).getD 0 0] ∧ X i j = (N i j).getD 0 0 / (D i j).getD 0 0 := by
  unfold gainArr at h
  obtain ⟨X, h1, h2⟩ := bind_ok' h
  simp only [Except.ok.injEq] at h2
  subst h2
  have h3 := matM_ok.mp h1
  have h4 : ∀ i j, N i j = [(N i j).getD 0 0] ∧ D i j = [(D i j).getD 0 0] ∧
      X i j = (N i j).getD 0 0 / (D i j).getD 0 0 := fun i j => by
    have h5 := h3 i j
    have e := entry_of D i j
    rw [e] at h5
    unfold gainEntry at h5
    split_ifs at h5 with h6
    simp only [Except.ok.injEq] at h5
    obtain ⟨a, ha⟩ := List.length_eq_one_iff.mp h6.1
    obtain ⟨b, hb⟩ := List.length_eq_one_iff.mp h6.2
    simp only at ha
    refine ⟨by rw [ha]; rfl, by rw [hb]; rfl, h5.symm⟩
  refine ⟨Matrix.of X, rfl, ?_, h4⟩
  ext i j
  obtain ⟨e1, e2, e3⟩ := h4 i j
  rw [map_apply, of_apply, e3, (hv i j).2.1]
  simp only
  rw [e1, e2, polyAt_const, polyAt_const, map_div₀]
  rfl

end basics

section add
variable {K L : Type} [Field K] [LinearOrder K] [IsStrictOrderedRing K] [Field L] [Algebra K L]
  {E : TNum K} {s : L} {p m : ℕ}

theorem neg_valued {G F : TransferM K} {M : Matrix (Fin p) (Fin m) L} (hG : Valued G p m s M)
    (h : neg E G = .ok F) : Valued F p m s (-M) ∧ F.dt = G.dt := by
  obtain ⟨N, D, g, dt, rfl, hv⟩ := hG.elim
  refine mkLists_valued (N := Matrix.of fun i j => (N i j).map fun x => -x) h fun i j => ?_
  obtain ⟨h1, h2, h3⟩ := hv i j
  refine ⟨h1, ?_, h3⟩
  simp only [of_apply, Matrix.neg_apply]
  rw [h2, polyAt, polyAt, polyAt, toPoly_map_neg]
  simp [neg_div]

theorem add_valued (hbal : ∀ polys i, E.bal polys i ≠ 0) {G H F : TransferM K} (hthr : SumClear E.lcmTol G H)
    {M M' : Matrix (Fin p) (Fin m) L} (hG : Valued G p m s M) (hH : Valued H p m s M')
    (h : add E G H = .ok F) : Valued F p m s (M + M') ∧ F.dt = G.dt ∧ G.dt = H.dt := by
  obtain ⟨N, D, g, dt, rfl, hv⟩ := hG.elim
  obtain ⟨N', D', g', dt', rfl, hv'⟩ := hH.elim
  unfold TransferM.add at h
  simp only at h
  by_cases hdt : dt = dt'
  swap
  · simp [hdt] at h
  subst hdt
  rw [if_neg (by simp)] at h
  suffices Valued F p m s (M + M') ∧ F.dt = dt from ⟨this.1, this.2, rfl⟩
  split_ifs at h with h1 h2
  · unfold addGains at h
    obtain ⟨x, hx, h⟩ := bind_ok' h
    obtain ⟨y, hy, h⟩ := bind_ok' h
    obtain ⟨z, hz, h⟩ := bind_ok' h
    unfold toArray at hx hy
    rw [if_pos h1.1] at hx
    rw [if_pos h1.2] at hy
    obtain ⟨X, rfl, hX, -⟩ := gainArr_valued hx hv
    obtain ⟨Y, rfl, hY, -⟩ := gainArr_valued hy hv'
    rw [Arr.add_of] at hz
    simp only [Except.ok.injEq] at hz
    subst hz
    simp only [Arr.of_r, Arr.of_c, ne_eq, not_true_eq_false, if_false, and_self, if_true] at h
    obtain ⟨h3, h4⟩ := mkList_valued h s
    refine ⟨?_, h4⟩
    rw [← hX, ← hY]
    convert h3 using 1
    ext i j
    simp
  · unfold addSame at h
    obtain ⟨e, he, h⟩ := bind_ok' h
    have he := matM_ok.mp he
    simp only [Arr.of_r, Arr.of_c, Fin.is_lt, and_self, if_true, entry_of] at he
    have hev : ∀ i j, EntryVal s (e i j) (M i j + M' i j) := fun i j =>
      addEntry_val hbal (by simpa only [entry_of] using hthr i j) (hv i j) (hv' i j) (he i j)
    split_ifs at h with h3
    · exact mkLists_valued h (fun i j => hev i j)
    · push Not at h3
      obtain ⟨h4, h5⟩ := mkList_valued (X := (0 : Matrix (Fin p) (Fin m) K)) h s
      refine ⟨?_, h5⟩
      convert h4 using 1
      ext i j
      rw [Matrix.add_apply, (hev i j).2.1, polyAt, (toPoly_eq_zero_iff _).mpr (h3 i j)]
      simp

theorem mulScalar_valued {G F : TransferM K} {M : Matrix (Fin p) (Fin m) L} (hG : Valued G p m s M)
    {k : K} (h : mulScalar E G k = .ok F) : Valued F p m s (algebraMap K L k • M) ∧ F.dt = G.dt := by
  obtain ⟨N, D, g, dt, rfl, hv⟩ := hG.elim
  refine mkEntries_valued (p := p) (m := m) h fun i j e he => ?_
  simp only [Except.ok.injEq] at he
  subst he
  have := entry_of D i j
  rw [this]
  exact scaleEntry_val k (hv i j)

/-- An array with one entry acts as a number. -/
theorem bget_one {x : Arr K} (h : x.r * x.c = 1) : ∃ k : K, x = Arr.of (Matrix.of fun (_ _ : Fin 1) => k) ∧ x.bget 0 0 = k := by
  obtain ⟨r, c, X⟩ := x
  simp only at h
  obtain ⟨rfl, rfl⟩ : r = 1 ∧ c = 1 := ⟨Nat.eq_one_of_mul_eq_one_right h, Nat.eq_one_of_mul_eq_one_left h⟩
  refine ⟨X 0 0, ?_, by simp [Arr.bget]⟩
  refine Arr.of_inj.mpr ?_
  ext i j
  have hi : i = 0 := Subsingleton.elim _ _
  have hj : j = 0 := Subsingleton.elim _ _
  subst hi; subst hj
  rfl

/-- Elementwise product with an array of the same shape. -/
theorem mulArr_valued {G F : TransferM K} {M : Matrix (Fin p) (Fin m) L} (hG : Valued G p m s M)
    {X : Matrix (Fin p) (Fin m) K} (h : mulArr E G (Arr.of X) = .ok F) :
    Valued F p m s (Matrix.of fun i j => algebraMap K L (X i j) * M i j) ∧ F.dt = G.dt := by
  unfold mulArr at h
  split_ifs at h with h1 h2 h3
  · obtain ⟨k, e1, e2⟩ := bget_one h1
    rw [e2] at h
    obtain ⟨h3, h4⟩ := mulScalar_valued hG h
    refine ⟨?_, h4⟩
    convert h3 using 1
    obtain ⟨rfl, rfl⟩ : p = 1 ∧ m = 1 := ⟨Nat.eq_one_of_mul_eq_one_right h1, Nat.eq_one_of_mul_eq_one_left h1⟩
    rw [Arr.of_inj] at e1
    ext i j
    simp [e1]
  · exfalso
    obtain ⟨N, D, g, dt, rfl, hv⟩ := hG.elim
    simp only [TransferM.isSISO, Arr.of_r, Arr.of_c, decide_eq_true_eq] at h2
    obtain ⟨rfl, rfl⟩ := h2
    exact h1 rfl
  · obtain ⟨N, D, g, dt, rfl, hv⟩ := hG.elim
    refine mkEntries_valued (p := p) (m := m) h fun i j e he => ?_
    simp only [Except.ok.injEq, Arr.of_m] at he
    subst he
    rw [show (Arr.of N).entry i j = N i j from entry_of N i j, show (Arr.of D).entry i j = D i j from entry_of D i j]
    exact scaleEntry_val (X i j) (hv i j)

/-- Product of a SISO model with an array: a copy of the model for every entry. -/
theorem mulArr_siso_valued {G F : TransferM K} {v : L} (hG : Valued G 1 1 s (Matrix.of fun _ _ => v))
    {X : Matrix (Fin p) (Fin m) K} (h : mulArr E G (Arr.of X) = .ok F) :
    Valued F p m s (Matrix.of fun i j => algebraMap K L (X i j) * v) ∧ F.dt = G.dt := by
  by_cases h1 : p * m = 1
  · obtain ⟨rfl, rfl⟩ : p = 1 ∧ m = 1 := ⟨Nat.eq_one_of_mul_eq_one_right h1, Nat.eq_one_of_mul_eq_one_left h1⟩
    exact mulArr_valued hG h
  · unfold mulArr at h
    obtain ⟨N, D, g, dt, rfl, hv⟩ := hG.elim
    rw [if_neg (show ¬ ((Arr.of X).r * (Arr.of X).c = 1) from h1), if_pos (by simp [TransferM.isSISO])] at h
    refine mkEntries_valued (p := p) (m := m) h fun i j e he => ?_
    simp only [Except.ok.injEq, Arr.of_m] at he
    subst he
    rw [show (Arr.of N).entry 0 0 = N 0 0 from entry_of N 0 0, show (Arr.of D).entry 0 0 = D 0 0 from entry_of D 0 0]
    exact scaleEntry_val (X i j) (hv 0 0)

theorem mul_gain_siso {G H F : TransferM K} {v : L} {M : Matrix (Fin p) (Fin m) L}
    (hG : Valued G 1 1 s (Matrix.of fun _ _ => v)) (hu : UnitDen G) (hH : Valued H p m s M)
    {k : K} (hd : (G.den.entry 0 0).length = 1) (hk : G.num.entry 0 0 = [k]) (h : mulScalar E H k = .ok F) :
    Valued F p m s (Matrix.of fun i j => v * M i j) ∧ F.dt = H.dt := by
  obtain ⟨N, D, g, dt, rfl, hv⟩ := hG.elim
  rw [show (Arr.of D).entry 0 0 = D 0 0 from entry_of D 0 0] at hd
  rw [show (Arr.of N).entry 0 0 = N 0 0 from entry_of N 0 0] at hk
  have h1 : D 0 0 = [1] := hu 0 0 hd
  have hvk : v = algebraMap K L k := by
    have := (hv 0 0).2.1
    simp only [of_apply] at this
    rw [this, hk, h1, polyAt_const, polyAt_const]
    simp
  obtain ⟨h3, h4⟩ := mulScalar_valued hH h
  refine ⟨?_, h4⟩
  convert h3 using 1
  ext i j
  simp [hvk]

/-- Elementwise product of two models of the same shape. -/
theorem mul_valued {G H F : TransferM K} {M M' : Matrix (Fin p) (Fin m) L} (hG : Valued G p m s M)
    (hu : UnitDen G) (hf : FlagOk G) (hH : Valued H p m s M') (h : mul E G H = .ok F) :
    Valued F p m s (Matrix.of fun i j => M i j * M' i j) ∧ F.dt = G.dt ∧ G.dt = H.dt := by
  unfold TransferM.mul at h
  by_cases hdt : G.dt = H.dt
  swap
  · rw [if_pos hdt] at h; cases h
  rw [if_neg (by simpa using hdt)] at h
  suffices Valued F p m s (Matrix.of fun i j => M i j * M' i j) ∧ F.dt = G.dt from ⟨this.1, this.2, hdt⟩
  by_cases hs : G.isSISO = true
  · have hp1 : p = 1 ∧ m = 1 := by
      obtain ⟨N, D, g, dt, rfl, hv⟩ := hG.elim
      simpa [TransferM.isSISO] using hs
    obtain ⟨rfl, rfl⟩ := hp1
    have hM : M = Matrix.of fun _ _ => M 0 0 := by
      ext i j
      rw [Subsingleton.elim i 0, Subsingleton.elim j 0]; rfl
    split_ifs at h with h1
    · revert h
      split
      · next k hk =>
        intro h
        have hd : (G.den.entry 0 0).length = 1 := by
          obtain ⟨N, D, g, dt, rfl, hv⟩ := hG.elim
          rw [show (Arr.of D).entry 0 0 = D 0 0 from entry_of D 0 0]
          exact hf h1 0 0
        rw [hM] at hG
        obtain ⟨h3, h4⟩ := mul_gain_siso hG hu hH hd hk h
        rw [hdt]
        refine ⟨?_, h4⟩
        have e : (Matrix.of fun i j => M i j * M' i j) = Matrix.of fun i j => M 0 0 * M' i j := by
          ext i j
          rw [Subsingleton.elim i 0, Subsingleton.elim j 0]
          rfl
        rw [e]
        exact h3
      · intro h; cases h
    · obtain ⟨N, D, g, dt, rfl, hv⟩ := hG.elim
      obtain ⟨N', D', g', dt', rfl, hv'⟩ := hH.elim
      refine mkEntries_valued (p := 1) (m := 1) h fun i j e he => ?_
      have hi : i = 0 := Subsingleton.elim _ _
      have hj : j = 0 := Subsingleton.elim _ _
      subst hi; subst hj
      exact mulEntry_val (hv 0 0) (hv' 0 0) he
  · split_ifs at h with h1 h2 h3
    · obtain ⟨x, hx, h⟩ := bind_ok' h
      obtain ⟨N, D, g, dt, rfl, hv⟩ := hG.elim
      obtain ⟨X, rfl, hX, -⟩ := gainArr_valued hx hv
      obtain ⟨h4, h5⟩ := mulArr_valued hH h
      rw [hdt]
      refine ⟨?_, h5⟩
      convert h4 using 4
      rw [← hX]; rfl
    · exfalso
      obtain ⟨N, D, g, dt, rfl, hv⟩ := hG.elim
      obtain ⟨N', D', g', dt', rfl, hv'⟩ := hH.elim
      exact hs h2
    · obtain ⟨N, D, g, dt, rfl, hv⟩ := hG.elim
      obtain ⟨N', D', g', dt', rfl, hv'⟩ := hH.elim
      refine mkEntries_valued (p := p) (m := m) h fun i j e he => ?_
      rw [show (Arr.of D).entry i j = D i j from entry_of D i j, show (Arr.of N').entry i j = N' i j from entry_of N' i j,
        show (Arr.of D').entry i j = D' i j from entry_of D' i j] at he
      exact mulEntry_val (hv i j) (hv' i j) he

/-- Product with a SISO model on the left. -/
theorem mul_siso_left_valued {G H F : TransferM K} {v : L} {M : Matrix (Fin p) (Fin m) L}
    (hG : Valued G 1 1 s (Matrix.of fun _ _ => v)) (hu : UnitDen G) (hf : FlagOk G) (hH : Valued H p m s M)
    (h : mul E G H = .ok F) :
    Valued F p m s (Matrix.of fun i j => v * M i j) ∧ F.dt = G.dt ∧ G.dt = H.dt := by
  unfold TransferM.mul at h
  by_cases hdt : G.dt = H.dt
  swap
  · rw [if_pos hdt] at h; cases h
  rw [if_neg (by simpa using hdt)] at h
  suffices Valued F p m s (Matrix.of fun i j => v * M i j) ∧ F.dt = G.dt from ⟨this.1, this.2, hdt⟩
  have hs : G.isSISO = true := by
    obtain ⟨N, D, g, dt, rfl, hv⟩ := hG.elim
    simp [TransferM.isSISO]
  simp only [hs, if_true] at h
  split_ifs at h with h1
  · revert h
    split
    · next k hk =>
      intro h
      have hd : (G.den.entry 0 0).length = 1 := by
        obtain ⟨N, D, g, dt, rfl, hv⟩ := hG.elim
        rw [show (Arr.of D).entry 0 0 = D 0 0 from entry_of D 0 0]
        exact hf h1 0 0
      obtain ⟨h3, h4⟩ := mul_gain_siso hG hu hH hd hk h
      rw [hdt]
      exact ⟨h3, h4⟩
    · intro h; cases h
  · obtain ⟨N, D, g, dt, rfl, hv⟩ := hG.elim
    obtain ⟨N', D', g', dt', rfl, hv'⟩ := hH.elim
    refine mkEntries_valued (p := p) (m := m) h fun i j e he => ?_
    rw [show (Arr.of D').entry i j = D' i j from entry_of D' i j] at he
    exact mulEntry_val (hv 0 0) (hv' i j) he

/-- Product with a SISO model on the right. -/
theorem mul_siso_right_valued {G H F : TransferM K} {v : L} {M : Matrix (Fin p) (Fin m) L}
    (hG : Valued G p m s M) (hu : UnitDen G) (hf : FlagOk G) (hH : Valued H 1 1 s (Matrix.of fun _ _ => v))
    (h : mul E G H = .ok F) :
    Valued F p m s (Matrix.of fun i j => v * M i j) ∧ F.dt = G.dt ∧ G.dt = H.dt := by
  by_cases hp1 : p = 1 ∧ m = 1
  · obtain ⟨rfl, rfl⟩ := hp1
    obtain ⟨h1, h2⟩ := mul_valued hG hu hf hH h
    refine ⟨?_, h2⟩
    convert h1 using 4
    exact mul_comm _ _
  unfold TransferM.mul at h
  by_cases hdt : G.dt = H.dt
  swap
  · rw [if_pos hdt] at h; cases h
  rw [if_neg (by simpa using hdt)] at h
  suffices Valued F p m s (Matrix.of fun i j => v * M i j) ∧ F.dt = G.dt from ⟨this.1, this.2, hdt⟩
  have hs : ¬ G.isSISO = true := by
    obtain ⟨N, D, g, dt, rfl, hv⟩ := hG.elim
    simpa [TransferM.isSISO] using hp1
  have hs' : H.isSISO = true := by
    obtain ⟨N, D, g, dt, rfl, hv⟩ := hH.elim
    simp [TransferM.isSISO]
  rw [if_neg hs, if_neg hs, if_pos hs'] at h
  split_ifs at h with h1
  · obtain ⟨x, hx, h⟩ := bind_ok' h
    obtain ⟨N, D, g, dt, rfl, hv⟩ := hG.elim
    obtain ⟨X, rfl, hX, -⟩ := gainArr_valued hx hv
    obtain ⟨h4, h5⟩ := mulArr_siso_valued hH h
    rw [hdt]
    refine ⟨?_, h5⟩
    convert h4 using 4
    rw [← hX]; exact mul_comm _ _
  · obtain ⟨N, D, g, dt, rfl, hv⟩ := hG.elim
    obtain ⟨N', D', g', dt', rfl, hv'⟩ := hH.elim
    refine mkEntries_valued (p := p) (m := m) h fun i j e he => ?_
    rw [show (Arr.of D).entry i j = D i j from entry_of D i j] at he
    exact mulEntry_val (hv' 0 0) (hv i j) he

/-! ### Denominators of the results -/

omit [IsStrictOrderedRing K] in
theorem sumClear_of {G H : TransferM K} {M : Matrix (Fin p) (Fin m) L} (hG : Valued G p m s M) {τ : K}
    (h : ∀ (i : Fin p) (j : Fin m), CoarseLcm τ [toPoly (G.den.entry i j), toPoly (H.den.entry i j)]) :
    SumClear τ G H := by
  intro a b
  by_cases hab : a < p ∧ b < m
  · exact h ⟨a, hab.1⟩ ⟨b, hab.2⟩
  · intro M hM
    exfalso
    obtain ⟨N, D, g, dt', rfl, hv⟩ := hG.elim
    have h0 := hM.2.1 (toPoly ((Arr.of D).entry a b)) (by simp)
    have e : (Arr.of D).entry a b = [] := by
      unfold Arr.entry
      rw [dif_neg hab]
    rw [e] at h0
    simp only [toPoly_nil, zero_dvd_iff] at h0
    exact hM.1.ne_zero h0

/-- Sums with models whose denominators are one. -/
theorem sumClear_one {G H : TransferM K} {M : Matrix (Fin p) (Fin m) L} (hG : Valued G p m s M) {τ : K}
    (hτ : τ ≤ 1) (hc : ∀ (i : Fin p) (j : Fin m), Coarse τ
      (C (toPoly (G.den.entry i j)).leadingCoeff⁻¹ * toPoly (G.den.entry i j)))
    (hH : ∀ (i : Fin p) (j : Fin m), H.den.entry i j = [1]) : SumClear τ G H :=
  sumClear_of hG fun i j => by
    rw [hH, show toPoly ([1] : List K) = 1 by simp [toPoly]]
    exact coarseLcm_one hτ (hc i j)

omit [IsStrictOrderedRing K] in
theorem scaleEntry_den (k : K) (n d : List K) : (scaleEntry k n d).2 = d ∨ (scaleEntry k n d).2 = [1] := by
  unfold scaleEntry
  split_ifs <;> simp

theorem mulScalar_den {G F : TransferM K} {M : Matrix (Fin p) (Fin m) L} (hG : Valued G p m s M)
    {k : K} (h : mulScalar E G k = .ok F) (i : Fin p) (j : Fin m) :
    F.den.entry i j = G.den.entry i j ∨ F.den.entry i j = [1] := by
  obtain ⟨N, D, g, dt, rfl, hv⟩ := hG.elim
  obtain ⟨e, h1, -, h2, -⟩ := mkEntries_inv (p := p) (m := m) h
  have h3 := h1 i j
  simp only [Except.ok.injEq] at h3
  have e1 : F.den.entry i j = (e i j).2 := by
    rw [h2]; exact entry_of (Matrix.of fun i j => (e i j).2) i j
  rw [e1, ← h3]
  exact scaleEntry_den _ _ _

/-- The entries of a product with an array have the denominators of the model, or `1`. -/
theorem mulArr_siso_den {G F : TransferM K} {v : L} (hG : Valued G 1 1 s (Matrix.of fun _ _ => v))
    {X : Matrix (Fin p) (Fin m) K} (h : mulArr E G (Arr.of X) = .ok F) (i : Fin p) (j : Fin m) :
    F.den.entry i j = G.den.entry 0 0 ∨ F.den.entry i j = [1] := by
  unfold mulArr at h
  by_cases h1 : p * m = 1
  · obtain ⟨rfl, rfl⟩ : p = 1 ∧ m = 1 := ⟨Nat.eq_one_of_mul_eq_one_right h1, Nat.eq_one_of_mul_eq_one_left h1⟩
    rw [if_pos (show (Arr.of X).r * (Arr.of X).c = 1 from h1)] at h
    have := mulScalar_den hG h 0 0
    rw [Subsingleton.elim i 0, Subsingleton.elim j 0]
    exact this
  · have hs : G.isSISO = true := by
      obtain ⟨N, D, g, dt, rfl, hv⟩ := hG.elim
      simp [TransferM.isSISO]
    rw [if_neg (show ¬ ((Arr.of X).r * (Arr.of X).c = 1) from h1), if_pos hs] at h
    obtain ⟨e, h3, -, h4, -⟩ := mkEntries_inv (p := p) (m := m) h
    have h5 := h3 i j
    simp only [Except.ok.injEq] at h5
    have e1 : F.den.entry i j = (e i j).2 := by
      rw [h4]; exact entry_of (Matrix.of fun i j => (e i j).2) i j
    rw [e1, ← h5]
    exact scaleEntry_den _ _ _

omit [IsStrictOrderedRing K] in
theorem mkList_den {X : Matrix (Fin p) (Fin m) K} {dt : Option K} {F : TransferM K}
    (h : mkList E (Arr.of X) dt = .ok F) (i : Fin p) (j : Fin m) : F.den.entry i j = [1] := by
  obtain ⟨h1, -⟩ := mkTransfer_inv (h : mkTransfer E (.lists (Arr.of (Matrix.of fun i j => [X i j]))) .none dt = .ok F)
  obtain ⟨-, e2, -⟩ := validate_gainList h1
  rw [e2]; exact entry_of (Matrix.of fun _ _ => [1]) i j

omit [IsStrictOrderedRing K] in
theorem mkScalar_den {a : K} {dt : Option K} {F : TransferM K}
    (h : mkTransfer E (.scalar a) .none dt = .ok F) (i j : Fin 1) : F.den.entry i j = [1] := by
  obtain ⟨h1, -⟩ := mkTransfer_inv h
  simp only [validateTransfer, regArg, combineArgs, bind, Except.bind, List.length_singleton, lt_irrefl,
    if_false, constArr] at h1
  simp only [one_ne_zero, or_self, if_false, Except.ok.injEq, Prod.mk.injEq] at h1
  rw [← h1.2.1]
  exact entry_of (Matrix.of fun (_ _ : Fin 1) => ([1] : List K)) i j

omit [IsStrictOrderedRing K] in
theorem mkArr_den {X : Matrix (Fin p) (Fin m) K} (hp : 0 < p) (hm : 0 < m) {dt : Option K}
    {F : TransferM K} (h : mkTransfer E (.arr (Arr.of X)) .none dt = .ok F) (i : Fin p) (j : Fin m) :
    F.den.entry i j = [1] := by
  obtain ⟨h1, -⟩ := mkTransfer_inv h
  by_cases hmin : 1 < min p m
  · simp only [validateTransfer, regArg, Arr.of_r, Arr.of_c, if_pos hmin, bind, Except.bind, combineArgs] at h1
    rw [if_neg (by rintro ⟨i, j, hh⟩; simp at hh)] at h1
    have h0 : ¬ (p = 0 ∨ m = 0) := by omega
    simp only [constArr, h0, if_false, Except.ok.injEq, Prod.mk.injEq] at h1
    rw [← h1.2.1]
    exact entry_of (Matrix.of fun _ _ => ([1] : List K)) i j
  · simp only [validateTransfer, regArg, Arr.of_r, Arr.of_c, if_neg hmin, bind, Except.bind, combineArgs] at h1
    split_ifs at h1 with h3
    rw [flatten_length] at h3
    have hpm : p = 1 ∧ m = 1 := by
      rcases Nat.lt_or_ge 1 p with h4 | h4
      · exact absurd (lt_of_lt_of_le h4 (Nat.le_mul_of_pos_right p hm)) h3
      · rcases Nat.lt_or_ge 1 m with h5 | h5
        · exact absurd (lt_of_lt_of_le h5 (Nat.le_mul_of_pos_left m hp)) h3
        · omega
    obtain ⟨rfl, rfl⟩ := hpm
    simp only [constArr, one_ne_zero, or_self, if_false, Except.ok.injEq, Prod.mk.injEq] at h1
    rw [← h1.2.1]
    exact entry_of (Matrix.of fun (_ _ : Fin 1) => ([1] : List K)) i j

/-- The denominators of a sum divide every common multiple of the denominators. -/
theorem add_den (hbal : ∀ polys i, E.bal polys i ≠ 0) {G H F : TransferM K} (hthr : SumClear E.lcmTol G H)
    {M M' : Matrix (Fin p) (Fin m) L} (hG : Valued G p m s M) (hH : Valued H p m s M')
    (h : add E G H = .ok F) (i : Fin p) (j : Fin m) {W : K[X]} (h1 : toPoly (G.den.entry i j) ∣ W)
    (h2 : toPoly (H.den.entry i j) ∣ W) : toPoly (F.den.entry i j) ∣ W := by
  have hone : toPoly ([1] : List K) ∣ W := by simp [toPoly]
  obtain ⟨N, D, g, dt, rfl, hv⟩ := hG.elim
  obtain ⟨N', D', g', dt', rfl, hv'⟩ := hH.elim
  unfold TransferM.add at h
  split_ifs at h with h3 h4 h5
  · unfold addGains at h
    obtain ⟨x, hx, h⟩ := bind_ok' h
    obtain ⟨y, hy, h⟩ := bind_ok' h
    obtain ⟨z, hz, h⟩ := bind_ok' h
    unfold toArray at hx hy
    rw [if_pos h4.1] at hx
    rw [if_pos h4.2] at hy
    obtain ⟨X, rfl, hX, -⟩ := gainArr_valued hx hv
    obtain ⟨Y, rfl, hY, -⟩ := gainArr_valued hy hv'
    rw [Arr.add_of] at hz
    simp only [Except.ok.injEq] at hz
    subst hz
    simp only [Arr.of_r, Arr.of_c, ne_eq, not_true_eq_false, if_false, and_self, if_true] at h
    rw [mkList_den h]
    exact hone
  · unfold addSame at h
    obtain ⟨e, he, h⟩ := bind_ok' h
    have he := matM_ok.mp he
    simp only [Arr.of_r, Arr.of_c, Fin.is_lt, and_self, if_true, entry_of] at he
    have he1 := he i j
    rw [show (Arr.of D).entry i j = D i j from entry_of D i j] at h1
    rw [show (Arr.of D').entry i j = D' i j from entry_of D' i j] at h2
    split_ifs at h with h6
    · obtain ⟨-, h7, -⟩ := mkTransfer_lists h
      have e1 : F.den.entry i j = (e i j).2 := by
        rw [h7]; exact entry_of (Matrix.of fun i j => (e i j).2) i j
      rw [e1]
      rcases addEntry_spec hbal (N i j) (D i j) (N' i j) (D' i j) (by simpa only [entry_of] using hthr i j)
        (hv i j).2.2 (hv' i j).2.2 with ⟨-, h8⟩ | ⟨n, d, -, -, h8, -, -, h9, -⟩
      · rw [h8] at he1
        cases he1
      · rw [h8] at he1
        simp only [Except.ok.injEq] at he1
        rw [← he1]
        exact h9 W h1 h2
    · rw [mkList_den (p := p) (m := m) (X := 0) h]
      exact hone

/-- The denominator of a product divides the product of the denominators. -/
theorem mul_den {G H F : TransferM K} {v w : L} (hG : Valued G 1 1 s (Matrix.of fun _ _ => v))
    (hH : Valued H 1 1 s (Matrix.of fun _ _ => w)) (h : mul E G H = .ok F) :
    toPoly (F.den.entry 0 0) ∣ toPoly (G.den.entry 0 0) * toPoly (H.den.entry 0 0) := by
  have hone : toPoly ([1] : List K) ∣ toPoly (G.den.entry 0 0) * toPoly (H.den.entry 0 0) := by simp [toPoly]
  have hs : G.isSISO = true := by
    obtain ⟨N, D, g, dt, rfl, hv⟩ := hG.elim
    simp [TransferM.isSISO]
  unfold TransferM.mul at h
  simp only [hs, if_true] at h
  split_ifs at h with h1 h2
  · revert h
    split
    · intro h
      rcases mulScalar_den hH h 0 0 with e | e
      · have e' : F.den.entry 0 0 = H.den.entry 0 0 := e
        rw [e']; exact dvd_mul_left _ _
      · have e' : F.den.entry 0 0 = [1] := e
        rw [e']; exact hone
    · intro h; cases h
  · obtain ⟨N', D', g', dt', rfl, hv'⟩ := hH.elim
    obtain ⟨e, h3, -, h4, -⟩ := mkEntries_inv (p := 1) (m := 1) h
    have h5 := h3 0 0
    have e1 : F.den.entry 0 0 = (e 0 0).2 := by
      rw [h4]; exact entry_of (Matrix.of fun i j => (e i j).2) 0 0
    rw [e1]
    have e2 : (Arr.of D').entry ((0 : Fin 1) : ℕ) ((0 : Fin 1) : ℕ) = D' 0 0 := entry_of D' 0 0
    have e3 : (Arr.of D').entry 0 0 = D' 0 0 := entry_of D' 0 0
    rw [e2] at h5
    simp only [e3] at hone ⊢
    unfold mulEntry at h5
    split_ifs at h5 with hz
    · simp only [Except.ok.injEq] at h5
      rw [← h5]; exact hone
    · obtain ⟨n, h6, h5⟩ := bind_ok' h5
      obtain ⟨d, h7, h5⟩ := bind_ok' h5
      simp only [Except.ok.injEq] at h5
      rw [← h5]
      have hd1 : toPoly (G.den.entry 0 0) ≠ 0 := by
        obtain ⟨N, D, g, dt, rfl, hv⟩ := hG.elim
        rw [show (Arr.of D).entry 0 0 = D 0 0 from entry_of D 0 0]
        exact fun e => (hv 0 0).1 (by simp [polyAt, e])
      obtain ⟨d', k1, k2, -⟩ := C01_polymul_partial (G.den.entry 0 0) [D' 0 0] (Or.inl hd1)
      rw [k1] at h7
      simp only [Except.ok.injEq] at h7
      rw [← h7, k2]
      simp

/-! ### Indexing and matrix products -/

omit [IsStrictOrderedRing K] in
theorem arangeIdx_nat {n k : ℕ} (h : k < n) : arangeIdx n (.int k) = .ok [k] :=
  arangeIdx_ok (.int ⟨h, Or.inl rfl⟩)

omit [IsStrictOrderedRing K] in
/-- `self[r, c]` of a MIMO model. -/
theorem item_valued {G F : TransferM K} {M : Matrix (Fin p) (Fin m) L} (hG : Valued G p m s M)
    (hs : ¬ (p = 1 ∧ m = 1)) (r : Fin p) (c : Fin m) (h : item E G r c = .ok F) :
    Valued F 1 1 s (Matrix.of fun _ _ => M r c) ∧ F.dt = G.dt ∧ (UnitDen G → UnitDen F) ∧ FlagOk F ∧
      F.den.entry 0 0 = G.den.entry r c := by
  obtain ⟨N, D, g, dt, rfl, hv⟩ := hG.elim
  unfold item getitem at h
  have hr : arangeIdx (TransferM.p (⟨Arr.of N, Arr.of D, g, dt⟩ : TransferM K)) (.int (r : ℕ)) = .ok [(r : ℕ)] :=
    arangeIdx_nat r.2
  have hc : arangeIdx (TransferM.m (⟨Arr.of N, Arr.of D, g, dt⟩ : TransferM K)) (.int (c : ℕ)) = .ok [(c : ℕ)] :=
    arangeIdx_nat c.2
  simp only [hr, hc, bind, Except.bind] at h
  rw [if_neg (by simpa [TransferM.isSISO] using hs)] at h
  have e1 : ∀ X : Matrix (Fin p) (Fin m) (List K),
      (Matrix.of fun (i : Fin [(r : ℕ)].length) (j : Fin [(c : ℕ)].length) =>
        (Arr.of X).entry ([(r : ℕ)].get i) ([(c : ℕ)].get j)) = Matrix.of fun (_ _ : Fin 1) => X r c := by
    intro X
    refine Matrix.ext fun i j => ?_
    have hi : i = 0 := Subsingleton.elim (α := Fin 1) _ _
    have hj : j = 0 := Subsingleton.elim (α := Fin 1) _ _
    subst hi; subst hj
    exact entry_of X r c
  have h' : mkTransfer E (.lists (Arr.of (Matrix.of fun (_ _ : Fin 1) => N r c)))
      (.lists (Arr.of (Matrix.of fun (_ _ : Fin 1) => D r c))) dt = .ok F := by
    rw [← e1 N, ← e1 D]; exact h
  obtain ⟨h1, h2⟩ := mkLists_valued (s := s) h' (M := Matrix.of fun _ _ => M r c) fun i j => hv r c
  obtain ⟨k1, -⟩ := mkTransfer_inv h'
  obtain ⟨k2, k3, k4, -⟩ := validate_lists k1
  refine ⟨h1, h2, ?_, ?_, ?_⟩
  · obtain ⟨fn, fd, fg, fdt⟩ := F
    simp only at k3
    subst k3
    intro hu i j
    exact hu r c
  · have hl := h1.2
    obtain ⟨fn, fd, fg, fdt⟩ := F
    simp only at k3 k4
    subst k3
    intro hg i j
    have : maxSize (Arr.of (Matrix.of fun (_ _ : Fin 1) => D r c)) = 1 := by
      simp only at hg
      rw [k4] at hg
      simpa using hg
    exact maxSize_one hl this i j
  · rw [k3]
    refine Eq.trans ?_ (entry_of D r c).symm
    exact entry_of (Matrix.of fun (_ _ : Fin 1) => D r c) 0 0

theorem sumLoop_valued (hbal : ∀ polys i, E.bal polys i ≠ 0) {dt : Option K}
    {f : ℕ → Res (TransferM K)} {v : ℕ → L} {W : ℕ → K[X]} (k : ℕ)
    (hthr : CoarseFactors E.lcmTol (∏ i ∈ Finset.range k, W i))
    (hf : ∀ i < k, ∀ g, f i = .ok g → Valued g 1 1 s (Matrix.of fun _ _ => v i) ∧ toPoly (g.den.entry 0 0) ∣ W i)
    {F : TransferM K} (h : sumLoop E dt f k = .ok F) :
    Valued F 1 1 s (Matrix.of fun _ _ => ∑ i ∈ Finset.range k, v i) ∧ F.dt = dt ∧
      toPoly (F.den.entry 0 0) ∣ ∏ i ∈ Finset.range k, W i := by
  induction k generalizing F with
  | zero =>
    obtain ⟨h1, h2⟩ := mkScalars_valued one_ne_zero h s
    refine ⟨?_, h2, ?_⟩
    · simpa using h1
    · obtain ⟨h3, -⟩ := mkTransfer_inv h
      simp only [validateTransfer, regArg, combineArgs, bind, Except.bind, List.length_singleton, lt_irrefl,
        if_false, constArr] at h3
      simp only [one_ne_zero, or_self, if_false, Except.ok.injEq, Prod.mk.injEq] at h3
      rw [← h3.2.1]
      rw [show ((Arr.of (Matrix.of fun (_ _ : Fin 1) => ([1] : List K))).entry 0 0) = [1] from
        entry_of (Matrix.of fun (_ _ : Fin 1) => ([1] : List K)) 0 0]
      simp [toPoly]
  | succ k ih =>
    obtain ⟨t, h1, h⟩ := bind_ok' h
    obtain ⟨g, h2, h⟩ := bind_ok' h
    have hdk : (∏ i ∈ Finset.range k, W i) ∣ ∏ i ∈ Finset.range (k + 1), W i := by
      rw [Finset.prod_range_succ]; exact dvd_mul_right _ _
    have hdW : W k ∣ ∏ i ∈ Finset.range (k + 1), W i := by
      rw [Finset.prod_range_succ]; exact dvd_mul_left _ _
    obtain ⟨h3, h4, h3'⟩ := ih (coarseFactors_dvd hthr hdk) (fun i hi => hf i (by omega)) h1
    obtain ⟨g1, g2⟩ := hf k (by omega) g h2
    have hs : SumClear E.lcmTol t g := by
      refine sumClear_of h3 fun a b => ?_
      rw [Subsingleton.elim a 0, Subsingleton.elim b 0]
      refine coarseLcm_of_factors hthr fun q hq => ?_
      simp only [List.mem_cons, List.not_mem_nil, or_false] at hq
      rcases hq with rfl | rfl
      · exact h3'.trans hdk
      · exact g2.trans hdW
    obtain ⟨h5, h6, -⟩ := add_valued hbal hs h3 g1 h
    refine ⟨?_, h6.trans h4, add_den hbal hs h3 g1 h 0 0 (h3'.trans hdk) (g2.trans hdW)⟩
    convert h5 using 1
    ext i j
    simp [Finset.sum_range_succ]

theorem prodLoop_valued (hbal : ∀ polys i, E.bal polys i ≠ 0) {k : ℕ} {dt : Option K}
    {f : ℕ → ℕ → ℕ → Res (TransferM K)} {A : Matrix (Fin p) (Fin k) L} {B : Matrix (Fin k) (Fin m) L}
    {W : Fin p → Fin m → ℕ → K[X]} (hthr : ∀ r c, CoarseFactors E.lcmTol (∏ i ∈ Finset.range k, W r c i))
    (hf : ∀ (r : Fin p) (c : Fin m) (i : Fin k) g, f r c i = .ok g →
      Valued g 1 1 s (Matrix.of fun _ _ => A r i * B i c) ∧ toPoly (g.den.entry 0 0) ∣ W r c i) {F : TransferM K}
    (h : prodLoop E p m k f dt = .ok F) : Valued F p m s (A * B) ∧ F.dt = dt := by
  refine mkEntries_valued h fun r c e he => ?_
  obtain ⟨t, h1, h2⟩ := bind_ok' he
  simp only [Except.ok.injEq] at h2
  subst h2
  obtain ⟨h3, -⟩ := sumLoop_valued hbal (s := s) (W := W r c)
    (v := fun i => if h : i < k then A r ⟨i, h⟩ * B ⟨i, h⟩ c else 0) k (hthr r c)
    (fun i hi g hg => by
      simp only [dif_pos hi]
      exact hf r c ⟨i, hi⟩ g hg) h1
  obtain ⟨N, D, g, dt', rfl, hv⟩ := h3.elim
  have := hv 0 0
  rw [show (Arr.of N).entry 0 0 = N 0 0 from entry_of N 0 0, show (Arr.of D).entry 0 0 = D 0 0 from entry_of D 0 0]
  convert this using 1
  rw [mul_apply, of_apply, Finset.sum_range]
  exact Finset.sum_congr rfl fun i _ => by simp

/-- `G @ x` for an array with compatible shape. -/
theorem matmulArr_valued (hbal : ∀ polys i, E.bal polys i ≠ 0) {k : ℕ} (hp : 0 < p) (hm : 0 < m)
    {G F : TransferM K} {A : Matrix (Fin p) (Fin k) L} {X : Matrix (Fin k) (Fin m) K}
    (hthr : RowsClear E.lcmTol p k G)
    (hG : Valued G p k s A) (h : matmulArr E G (Arr.of X) = .ok F) :
    Valued F p m s (A * X.map (algebraMap K L)) ∧ F.dt = G.dt := by
  have hGk : G.num.r = p ∧ G.num.c = k := by
    obtain ⟨N, D, g, dt, rfl, hv⟩ := hG.elim
    exact ⟨rfl, rfl⟩
  unfold matmulArr at h
  by_cases hs : G.isSISO = true
  · rw [if_pos hs] at h
    have hp1 : p = 1 ∧ k = 1 := by simpa [TransferM.isSISO, hGk] using hs
    obtain ⟨rfl, rfl⟩ := hp1
    have hA : A = Matrix.of fun _ _ => A 0 0 := by
      ext i j
      rw [Subsingleton.elim i 0, Subsingleton.elim j 0]; rfl
    rw [hA] at hG
    obtain ⟨h1, h2⟩ := mulArr_siso_valued hG h
    refine ⟨?_, h2⟩
    convert h1 using 1
    ext i j
    rw [Subsingleton.elim i 0]
    simp [mul_apply, mul_comm]
  · rw [if_neg hs] at h
    have hsG : ¬ (p = 1 ∧ k = 1) := by simpa [TransferM.isSISO, hGk] using hs
    rw [hGk.1, hGk.2] at h
    by_cases h1 : (Arr.of X).r * (Arr.of X).c = 1
    · rw [if_pos h1] at h
      obtain ⟨c, e1, e2⟩ := bget_one h1
      rw [e2] at h
      obtain ⟨rfl, rfl⟩ : k = 1 ∧ m = 1 := ⟨Nat.eq_one_of_mul_eq_one_right h1, Nat.eq_one_of_mul_eq_one_left h1⟩
      rw [Arr.of_inj] at e1
      obtain ⟨h2, h3⟩ := mulScalar_valued hG h
      refine ⟨?_, h3⟩
      convert h2 using 1
      ext i j
      rw [Subsingleton.elim j 0]
      simp [mul_apply, e1, mul_comm]
    · rw [if_neg h1, if_neg (by simp)] at h
      split_ifs at h with h2
      · obtain ⟨y, hy, h⟩ := bind_ok' h
        obtain ⟨z, hz, h⟩ := bind_ok' h
        unfold toArray at hy
        rw [if_pos h2] at hy
        obtain ⟨N, D, g, dt, rfl, hv⟩ := hG.elim
        obtain ⟨Y, rfl, hY, -⟩ := gainArr_valued hy hv
        rw [Arr.matmul_of] at hz
        simp only [Except.ok.injEq] at hz
        subst hz
        obtain ⟨h3, h4⟩ := mkArr_valued hp hm h s
        refine ⟨?_, h4⟩
        rw [← hY]
        convert h3 using 1
        rw [Matrix.map_mul]
      · refine prodLoop_valued hbal (A := A) (B := X.map (algebraMap K L))
          (W := fun r _ i => toPoly (G.den.entry r i))
          (fun r c => by rw [Finset.prod_range fun i => toPoly (G.den.entry r i)]; exact hthr r)
          (fun r c i g hg => ?_) h
        obtain ⟨a, h3, hg⟩ := bind_ok' hg
        obtain ⟨k1, -, -, -, k5⟩ := item_valued hG hsG r i h3
        simp only [Arr.of_r, Arr.of_c, Fin.is_lt, and_self, dif_pos] at hg
        obtain ⟨l1, -⟩ := mulScalar_valued k1 hg
        constructor
        · convert l1 using 1
          ext a b
          simp [mul_comm]
        · rcases mulScalar_den k1 hg 0 0 with e | e
          · have e' : g.den.entry 0 0 = a.den.entry 0 0 := e
            rw [e', k5]
          · have e' : g.den.entry 0 0 = [1] := e
            rw [e']; simp [toPoly]

/-- `G @ H` for models with compatible shapes. -/
theorem matmul_valued (hbal : ∀ polys i, E.bal polys i ≠ 0) {k : ℕ}
    {G H F : TransferM K} {A : Matrix (Fin p) (Fin k) L} {B : Matrix (Fin k) (Fin m) L}
    (hthr : MatmulClear E.lcmTol p k m G H)
    (hG : Valued G p k s A) (hu : UnitDen G) (hf : FlagOk G) (hH : Valued H k m s B)
    (h : matmul E G H = .ok F) : Valued F p m s (A * B) ∧ F.dt = G.dt ∧ G.dt = H.dt := by
  have hAB : ∀ (hk : k = 1), A * B = Matrix.of fun i j => A i ⟨0, by omega⟩ * B ⟨0, by omega⟩ j := by
    intro hk
    subst hk
    ext i j
    simp [mul_apply]
  unfold matmul at h
  by_cases hs : G.isSISO = true
  · rw [if_pos hs] at h
    have hp1 : p = 1 ∧ k = 1 := by
      obtain ⟨N, D, g, dt, rfl, hv⟩ := hG.elim
      simpa [TransferM.isSISO] using hs
    obtain ⟨rfl, rfl⟩ := hp1
    have hA : A = Matrix.of fun _ _ => A 0 0 := by
      ext i j
      rw [Subsingleton.elim i 0, Subsingleton.elim j 0]; rfl
    rw [hA] at hG
    obtain ⟨h1, h2⟩ := mul_siso_left_valued hG hu hf hH h
    refine ⟨?_, h2⟩
    rw [hAB rfl]
    convert h1 using 4 with i j
    rw [Subsingleton.elim i 0]
    rfl
  · rw [if_neg hs] at h
    by_cases hdt : G.dt = H.dt
    swap
    · rw [if_pos hdt] at h; cases h
    rw [if_neg (by simpa using hdt)] at h
    by_cases hs' : H.isSISO = true
    · rw [if_pos hs'] at h
      have hp1 : k = 1 ∧ m = 1 := by
        obtain ⟨N, D, g, dt, rfl, hv⟩ := hH.elim
        simpa [TransferM.isSISO] using hs'
      obtain ⟨rfl, rfl⟩ := hp1
      have hB : B = Matrix.of fun _ _ => B 0 0 := by
        ext i j
        rw [Subsingleton.elim i 0, Subsingleton.elim j 0]; rfl
      rw [hB] at hH
      obtain ⟨h1, h2⟩ := mul_siso_right_valued hG hu hf hH h
      refine ⟨?_, h2⟩
      rw [hAB rfl]
      convert h1 using 4 with i j
      rw [Subsingleton.elim j 0, mul_comm]
      rfl
    · rw [if_neg hs'] at h
      have hGk : G.num.r = p ∧ G.num.c = k := by
        obtain ⟨N, D, g, dt, rfl, hv⟩ := hG.elim
        exact ⟨rfl, rfl⟩
      have hHk : H.num.r = k ∧ H.num.c = m := by
        obtain ⟨N, D, g, dt, rfl, hv⟩ := hH.elim
        exact ⟨rfl, rfl⟩
      have hsG : ¬ (p = 1 ∧ k = 1) := by
        simpa [TransferM.isSISO, hGk] using hs
      have hsH : ¬ (k = 1 ∧ m = 1) := by
        simpa [TransferM.isSISO, hHk] using hs'
      rw [hGk.1, hGk.2, hHk.1, hHk.2, if_neg (by simp)] at h
      have key : ∀ (r : Fin p) (c : Fin m) (i : Fin k) g,
          (do let g ← item E G r i; let h ← item E H i c; TransferM.mul E g h) = .ok g →
          Valued g 1 1 s (Matrix.of fun _ _ => A r i * B i c) ∧
            toPoly (g.den.entry 0 0) ∣ toPoly (G.den.entry r i) * toPoly (H.den.entry i c) := by
        intro r c i g hg
        obtain ⟨a, h1, hg⟩ := bind_ok' hg
        obtain ⟨b, h2, hg⟩ := bind_ok' hg
        obtain ⟨k1, -, k3, k4, k5⟩ := item_valued hG hsG r i h1
        obtain ⟨l1, -, -, -, l5⟩ := item_valued hH hsH i c h2
        refine ⟨(mul_valued k1 (k3 hu) k4 l1 hg).1, ?_⟩
        rw [← k5, ← l5]
        exact mul_den k1 l1 hg
      have hW : ∀ r c, CoarseFactors E.lcmTol
          (∏ i ∈ Finset.range k, toPoly (G.den.entry (r : Fin p) i) * toPoly (H.den.entry i (c : Fin m))) := fun r c => by
        rw [Finset.prod_range fun i => toPoly (G.den.entry r i) * toPoly (H.den.entry i c)]
        exact hthr r c
      split_ifs at h with h1
      · obtain ⟨rfl, rfl⟩ := h1
        obtain ⟨h2, h3, -⟩ := sumLoop_valued hbal (s := s)
          (W := fun i => toPoly (G.den.entry 0 i) * toPoly (H.den.entry i 0))
          (v := fun i => if h : i < k then A 0 ⟨i, h⟩ * B ⟨i, h⟩ 0 else 0) k (hW 0 0)
          (fun i hi g hg => by
            simp only [dif_pos hi]
            exact key 0 0 ⟨i, hi⟩ g hg) h
        refine ⟨?_, h3, hdt⟩
        convert h2 using 1
        ext i j
        rw [Subsingleton.elim i 0, Subsingleton.elim j 0, mul_apply, of_apply, Finset.sum_range]
        exact Finset.sum_congr rfl fun i _ => by simp
      · obtain ⟨h2, h3⟩ := prodLoop_valued hbal (A := A) (B := B)
          (W := fun r c i => toPoly (G.den.entry r i) * toPoly (H.den.entry i c)) hW (fun r c i g hg => key r c i g hg) h
        exact ⟨h2, h3, hdt⟩

end add

end Harold
