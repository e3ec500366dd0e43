import Verif.Model.Transfer
import Verif.Lemmas.Coarse
import Verif.Props.StateObj

/-!
# The `Transfer` constructor
-/

namespace Harold

open Matrix Spec Polynomial

section basics
variable {K L : Type} [Field K] [LinearOrder K] [Field L] [Algebra K L]

theorem bind_ok' {α β : Type} {x : Res α} {f : α → Res β} {b : β} (h : (x >>= f) = .ok b) :
    ∃ a, x = .ok a ∧ f a = .ok b := by
  cases x with
  | error e => cases h
  | ok a => exact ⟨a, rfl, h⟩

omit [Field K] [LinearOrder K] in
theorem entry_of {p m : ℕ} (N : Matrix (Fin p) (Fin m) (List K)) (i : Fin p) (j : Fin m) :
    (Arr.of N).entry i j = N i j := by
  simp [Arr.entry]

omit [Field K] [LinearOrder K] in
theorem constArr_entry {p m : ℕ} (hp : p = 1) (hm : m = 1) (N : Matrix (Fin p) (Fin m) (List K)) :
    constArr 1 1 ((Arr.of N).entry 0 0) = Arr.of N := by
  subst hp; subst hm
  unfold constArr
  congr 1
  refine Matrix.ext fun i j => ?_
  have hi : i = 0 := Subsingleton.elim _ _
  have hj : j = 0 := Subsingleton.elim _ _
  subst hi; subst hj
  exact entry_of N 0 0

theorem regArg_mimo {a : TArg K} {x : Arr (List K)} (h : regArg a = .ok (.mimo x)) :
    ¬ (x.r = 1 ∧ x.c = 1) := by
  cases a with
  | lists y =>
    simp only [regArg] at h
    split_ifs at h with h1 h2
    · simp at h
    · simp only [Except.ok.injEq, RegArg.mimo.injEq] at h
      subst h
      exact h1
  | arr y =>
    simp only [regArg] at h
    split_ifs at h with h1
    · simp only [Except.ok.injEq, RegArg.mimo.injEq] at h
      subst h
      simp only [Arr.of_r, Arr.of_c]
      omega
    · simp at h
  | flat l =>
    simp only [regArg] at h
    split_ifs at h <;> simp at h
  | none => simp [regArg] at h
  | scalar k => simp [regArg] at h
  | ragged => simp [regArg] at h
  | vec v => simp [regArg] at h
  | other => simp [regArg] at h

/-- Shapes, gain flag, and lengths in the SISO case of what `validate_arguments` returns. -/
theorem validate_shape {num den : TArg K} {n d : Arr (List K)} {g : Bool}
    (h : validateTransfer num den = .ok (n, d, g)) :
    (n.r = d.r ∧ n.c = d.c) ∧ (0 < n.r ∧ 0 < n.c) ∧ g = decide (maxSize d = 1) ∧
      (n.r = 1 → n.c = 1 → ∃ a b, n = constArr 1 1 a ∧ d = constArr 1 1 b ∧ a.length ≤ b.length) := by
  unfold validateTransfer at h
  obtain ⟨rn, hn, h⟩ := bind_ok' h
  obtain ⟨rd, hd, h⟩ := bind_ok' h
  obtain ⟨⟨n', d'⟩, hc, h⟩ := bind_ok' h
  simp only at h
  split_ifs at h with h0
  simp only [Except.ok.injEq, Prod.mk.injEq] at h
  obtain ⟨rfl, rfl, rfl⟩ := h
  push Not at h0
  cases rn with
  | none =>
    cases rd with
    | none => simp [combineArgs] at hc
    | siso b =>
      simp only [combineArgs] at hc
      split_ifs at hc with hl
      simp only [Except.ok.injEq, Prod.mk.injEq] at hc
      obtain ⟨rfl, rfl⟩ := hc
      exact ⟨⟨rfl, rfl⟩, by simp [constArr], rfl, fun _ _ => ⟨_, _, rfl, rfl, by simp only [List.length_singleton]; omega⟩⟩
    | mimo b =>
      simp only [combineArgs, Except.ok.injEq, Prod.mk.injEq] at hc
      obtain ⟨rfl, rfl⟩ := hc
      exact ⟨⟨rfl, rfl⟩, ⟨by simp only [constArr, Arr.of_r]; omega, by simp only [constArr, Arr.of_c]; omega⟩, rfl,
        fun h1 h2 => absurd ⟨h1, h2⟩ (regArg_mimo hd)⟩
  | siso a =>
    cases rd with
    | none =>
      simp only [combineArgs] at hc
      split_ifs at hc with hl
      simp only [Except.ok.injEq, Prod.mk.injEq] at hc
      obtain ⟨rfl, rfl⟩ := hc
      exact ⟨⟨rfl, rfl⟩, by simp [constArr], rfl, fun _ _ => ⟨_, _, rfl, rfl, by simp only [List.length_singleton]; omega⟩⟩
    | siso b =>
      simp only [combineArgs] at hc
      split_ifs at hc with hl
      simp only [Except.ok.injEq, Prod.mk.injEq] at hc
      obtain ⟨rfl, rfl⟩ := hc
      exact ⟨⟨rfl, rfl⟩, by simp [constArr], rfl, fun _ _ => ⟨_, _, rfl, rfl, by omega⟩⟩
    | mimo b =>
      simp only [combineArgs] at hc
      split_ifs at hc with hl
      simp only [Except.ok.injEq, Prod.mk.injEq] at hc
      obtain ⟨rfl, rfl⟩ := hc
      exact ⟨⟨rfl, rfl⟩, ⟨by simp only [constArr, Arr.of_r]; omega, by simp only [constArr, Arr.of_c]; omega⟩, rfl,
        fun h1 h2 => absurd ⟨h1, h2⟩ (regArg_mimo hd)⟩
  | mimo a =>
    cases rd with
    | none =>
      simp only [combineArgs] at hc
      split_ifs at hc with hl
      simp only [Except.ok.injEq, Prod.mk.injEq] at hc
      obtain ⟨rfl, rfl⟩ := hc
      simp only [constArr, Arr.of_r, Arr.of_c] at h0
      exact ⟨⟨rfl, rfl⟩, ⟨by omega, by omega⟩, rfl, fun h1 h2 => absurd ⟨h1, h2⟩ (regArg_mimo hn)⟩
    | siso b =>
      simp only [combineArgs] at hc
      split_ifs at hc with hl
      simp only [Except.ok.injEq, Prod.mk.injEq] at hc
      obtain ⟨rfl, rfl⟩ := hc
      simp only [constArr, Arr.of_r, Arr.of_c] at h0
      exact ⟨⟨rfl, rfl⟩, ⟨by omega, by omega⟩, rfl, fun h1 h2 => absurd ⟨h1, h2⟩ (regArg_mimo hn)⟩
    | mimo b =>
      simp only [combineArgs] at hc
      split_ifs at hc with hs hl
      simp only [Except.ok.injEq, Prod.mk.injEq] at hc
      obtain ⟨rfl, rfl⟩ := hc
      exact ⟨hs, ⟨by omega, by omega⟩, rfl, fun h1 h2 => absurd ⟨h1, h2⟩ (regArg_mimo hn)⟩

/-- What `validate_arguments` makes of two lists of lists. -/
theorem validate_lists {p m : ℕ} {N D : Matrix (Fin p) (Fin m) (List K)}
    {n d : Arr (List K)} {g : Bool}
    (h : validateTransfer (.lists (Arr.of N)) (.lists (Arr.of D)) = .ok (n, d, g)) :
    n = Arr.of N ∧ d = Arr.of D ∧ g = decide (maxSize d = 1) ∧ 0 < p ∧ 0 < m := by
  unfold validateTransfer at h
  simp only [regArg, Arr.of_r, Arr.of_c] at h
  by_cases h1 : p = 1 ∧ m = 1
  · simp only [h1.1, h1.2, and_self, if_true, bind, Except.bind, combineArgs] at h
    split_ifs at h with h2
    simp only [constArr_entry h1.1 h1.2] at h
    split_ifs at h with h3
    simp only [Except.ok.injEq, Prod.mk.injEq] at h
    obtain ⟨rfl, rfl, rfl⟩ := h
    exact ⟨rfl, rfl, rfl, by omega, by omega⟩
  · simp only [if_neg h1] at h
    by_cases h2 : p = 0
    · simp [h2, bind, Except.bind] at h
    · simp only [if_neg h2, bind, Except.bind, combineArgs, Arr.of_r, Arr.of_c, and_self, not_true_eq_false, if_false] at h
      split_ifs at h with h3
      by_cases h4 : p = 0 ∨ m = 0
      · simp [h4] at h
      · simp only [if_neg h4, Except.ok.injEq, Prod.mk.injEq] at h
        obtain ⟨rfl, rfl, rfl⟩ := h
        exact ⟨rfl, rfl, rfl, by omega, by omega⟩

theorem trim_length_le (l : List K) : (trimZeros l).length ≤ l.length := (List.dropWhile_sublist _).length_le

theorem validate_lists_ok {p m : ℕ} {N D : Matrix (Fin p) (Fin m) (List K)} (hp : 0 < p) (hm : 0 < m)
    (hND : ∀ i j, (N i j).length ≤ (D i j).length) (hD : ∀ i j, (D i j).getD 0 0 ≠ 0) :
    validateTransfer (.lists (Arr.of N)) (.lists (Arr.of D))
      = .ok (Arr.of N, Arr.of D, decide (maxSize (Arr.of D) = 1)) := by
  have hr : ∀ X : Matrix (Fin p) (Fin m) (List K), regArg (.lists (Arr.of X)) =
      .ok (if p = 1 ∧ m = 1 then .siso ((Arr.of X).entry 0 0) else .mimo (Arr.of X)) := fun X => by
    simp only [regArg, Arr.of_r, Arr.of_c]
    split_ifs with h1 h2
    · rfl
    · omega
    · rfl
  unfold validateTransfer
  simp only [hr, bind, Except.bind]
  by_cases h1 : p = 1 ∧ m = 1
  · simp only [if_pos h1, combineArgs]
    have hl : ¬ ((Arr.of D).entry 0 0).length < ((Arr.of N).entry 0 0).length := by
      have := hND ⟨0, hp⟩ ⟨0, hm⟩
      rw [← entry_of N, ← entry_of D] at this
      exact not_lt.mpr this
    simp only [if_neg hl, constArr_entry h1.1 h1.2]
    rw [if_neg (show ¬ ((Arr.of D).r = 0 ∨ (Arr.of D).c = 0) from by show ¬ (p = 0 ∨ m = 0); omega)]
  · simp only [if_neg h1, combineArgs]
    have hc : ¬ ∃ (i j : ℕ), (trimZeros ((Arr.of D).entry i j)).length < (trimZeros ((Arr.of N).entry i j)).length := by
      rintro ⟨i, j, h⟩
      by_cases hij : i < p ∧ j < m
      · have eN := entry_of N ⟨i, hij.1⟩ ⟨j, hij.2⟩
        have eD := entry_of D ⟨i, hij.1⟩ ⟨j, hij.2⟩
        simp only at eN eD
        rw [eN, eD] at h
        have h2 := trim_length_le (N ⟨i, hij.1⟩ ⟨j, hij.2⟩)
        have h3 := hND ⟨i, hij.1⟩ ⟨j, hij.2⟩
        have h4 : trimZeros (D ⟨i, hij.1⟩ ⟨j, hij.2⟩) = D ⟨i, hij.1⟩ ⟨j, hij.2⟩ := by
          have := hD ⟨i, hij.1⟩ ⟨j, hij.2⟩
          cases e : D ⟨i, hij.1⟩ ⟨j, hij.2⟩ with
          | nil => rfl
          | cons a t => rw [e] at this; exact trimZeros_of_cons (by simpa using this) t
        rw [h4] at h
        omega
      · have e : ∀ X : Matrix (Fin p) (Fin m) (List K), (Arr.of X).entry i j = [] := fun X => by
          simp only [Arr.entry, Arr.of_r, Arr.of_c, dif_neg hij]
        rw [e, e] at h
        exact lt_irrefl _ h
    simp only [Arr.of_r, Arr.of_c, and_self, not_true_eq_false, if_false, if_neg hc]
    rw [if_neg (by omega)]

theorem validate_gainList {p m : ℕ} {N : Matrix (Fin p) (Fin m) (List K)}
    {n d : Arr (List K)} {g : Bool}
    (h : validateTransfer (.lists (Arr.of N)) .none = .ok (n, d, g)) :
    n = Arr.of N ∧ d = constArr p m [1] ∧ g = decide (maxSize d = 1) ∧ 0 < p ∧ 0 < m := by
  obtain ⟨hs, hpos, hg, -⟩ := validate_shape h
  unfold validateTransfer at h
  simp only [regArg, Arr.of_r, Arr.of_c] at h
  by_cases h1 : p = 1 ∧ m = 1
  · simp only [h1.1, h1.2, and_self, if_true, bind, Except.bind, combineArgs] at h
    split_ifs at h with h2
    simp only [constArr_entry h1.1 h1.2] at h
    split_ifs at h with h3
    simp only [Except.ok.injEq, Prod.mk.injEq] at h
    obtain ⟨rfl, rfl, rfl⟩ := h
    refine ⟨rfl, ?_, rfl, by omega, by omega⟩
    obtain ⟨rfl, rfl⟩ := h1
    rfl
  · simp only [if_neg h1] at h
    by_cases h2 : p = 0
    · simp [h2, bind, Except.bind] at h
    · simp only [if_neg h2, bind, Except.bind, combineArgs, Arr.of_r, Arr.of_c] at h
      split_ifs at h with h3
      simp only at h
      split_ifs at h with h4
      simp only [Except.ok.injEq, Prod.mk.injEq] at h
      obtain ⟨rfl, rfl, rfl⟩ := h
      exact ⟨rfl, rfl, rfl, hpos.1, hpos.2⟩

theorem mkTransfer_inv {E : TNum K} {num den : TArg K} {dt : Option K} {F : TransferM K}
    (h : mkTransfer E num den dt = .ok F) :
    validateTransfer num den = .ok (F.num, F.den, F.isgain) ∧ F.dt = dt ∧ DtOk dt ∧
      ∃ A, F.poleMatrix E = .ok A := by
  unfold mkTransfer at h
  obtain ⟨⟨n, d, g⟩, h1, h⟩ := bind_ok' h
  obtain ⟨dt', h2, h⟩ := bind_ok' h
  obtain ⟨A, h3, h⟩ := bind_ok' h
  simp only [Except.ok.injEq] at h
  subst h
  obtain ⟨h4, rfl⟩ := checkDt_ok_iff.mp h2
  exact ⟨h1, rfl, h4, A, h3⟩

theorem mkTransfer_lists {E : TNum K} {p m : ℕ} {N D : Matrix (Fin p) (Fin m) (List K)}
    {dt : Option K} {F : TransferM K}
    (h : mkTransfer E (.lists (Arr.of N)) (.lists (Arr.of D)) dt = .ok F) :
    F.num = Arr.of N ∧ F.den = Arr.of D ∧ F.dt = dt := by
  obtain ⟨h1, h2, -⟩ := mkTransfer_inv h
  obtain ⟨e1, e2, -⟩ := validate_lists h1
  exact ⟨e1, e2, h2⟩

/-- The constructor of a dynamic MIMO model has already run `transfer_to_state`. -/
theorem mkTransfer_mimo {E : TNum K} {num den : TArg K} {dt : Option K} {G : TransferM K}
    (h : mkTransfer E num den dt = .ok G) (hg : G.isgain = false) (hs : G.isSISO = false) :
    ∃ r, t2sData E G.num G.den G.isgain = .ok r := by
  obtain ⟨h1, -, -, A, h2⟩ := mkTransfer_inv h
  unfold TransferM.poleMatrix at h2
  rw [if_neg (by simp [hg]), if_neg (by simp [hs])] at h2
  obtain ⟨r, h3, -⟩ := bind_ok' h2
  unfold t2sTuple at h3
  obtain ⟨⟨n, d, g⟩, h4, h5⟩ := bind_ok' h3
  obtain ⟨⟨hr, hc⟩, -, hgg, -⟩ := validate_shape h1
  obtain ⟨N, hN⟩ := Arr.exists_of (x := G.num) rfl rfl
  obtain ⟨D, hD⟩ := Arr.exists_of (x := G.den) hr.symm hc.symm
  rw [hN, hD] at h4
  obtain ⟨rfl, rfl, rfl, -⟩ := validate_lists h4
  refine ⟨r, ?_⟩
  rw [hgg, hD]
  rw [← hN] at h5
  exact h5

/-- A dynamic SISO model has a denominator of positive degree. -/
theorem mkTransfer_siso {E : TNum K} {num den : TArg K} {dt : Option K} {G : TransferM K}
    (h : mkTransfer E num den dt = .ok G) (hg : G.isgain = false) (hs : G.isSISO = true) :
    0 < (toPoly (G.den.entry 0 0)).degree := by
  obtain ⟨-, -, -, A, h2⟩ := mkTransfer_inv h
  unfold TransferM.poleMatrix at h2
  rw [if_neg (by simp [hg]), if_pos hs] at h2
  obtain ⟨c, h3, h4⟩ := bind_ok' h2
  cases c with
  | none => simp at h4
  | some A =>
    clear h4 h2
    unfold companion at h3
    split_ifs at h3 with h5
    · simp at h3
    split at h3
    · simp at h3
    · next a t htr =>
      have ha : a ≠ 0 := by
        have e := trimZeros_head (G.den.entry 0 0)
        rw [htr] at e; simpa using e
      rw [← toPoly_trimZeros, htr, degree_toPoly_cons ha]
      cases t with
      | nil => simp at h3
      | cons b u => norm_cast; simp

theorem hasVal_of {F : TransferM K} {p m : ℕ} {N D : Matrix (Fin p) (Fin m) (List K)} {s : L}
    {M : Matrix (Fin p) (Fin m) L} (hN : F.num = Arr.of N) (hD : F.den = Arr.of D)
    (h : ∀ i j, polyAt s (D i j) ≠ 0 ∧ M i j = polyAt s (N i j) / polyAt s (D i j)) :
    HasVal F p m s M := ⟨N, D, hN, hD, h⟩

omit [LinearOrder K] in
theorem denLead_of {F : TransferM K} {p m : ℕ} {D : Matrix (Fin p) (Fin m) (List K)}
    (hD : F.den = Arr.of D) : DenLead F ↔ ∀ i j, (D i j).getD 0 0 ≠ 0 := by
  obtain ⟨n, d, g, dt⟩ := F
  simp only at hD
  subst hD
  rfl

omit [Field K] [LinearOrder K] in
theorem length_le_maxSize {p m : ℕ} (D : Matrix (Fin p) (Fin m) (List K)) (i : Fin p) (j : Fin m) :
    (D i j).length ≤ maxSize (Arr.of D) :=
  le_trans (Finset.le_sup (f := fun j => (D i j).length) (Finset.mem_univ _))
    (Finset.le_sup (f := fun i => Finset.univ.sup fun j => (D i j).length) (Finset.mem_univ _))

omit [Field K] [LinearOrder K] in
theorem maxSize_le {p m : ℕ} {D : Matrix (Fin p) (Fin m) (List K)} {k : ℕ} (h : ∀ i j, (D i j).length ≤ k) :
    maxSize (Arr.of D) ≤ k :=
  Finset.sup_le fun i _ => Finset.sup_le fun j _ => h i j

omit [LinearOrder K] in
theorem maxSize_one {p m : ℕ} {D : Matrix (Fin p) (Fin m) (List K)} (h0 : ∀ i j, (D i j).getD 0 0 ≠ 0)
    (h : maxSize (Arr.of D) = 1) (i : Fin p) (j : Fin m) : (D i j).length = 1 := by
  have h1 := length_le_maxSize D i j
  have h2 : (D i j) ≠ [] := fun e => h0 i j (by simp [e])
  have := List.length_pos_iff.mpr h2
  omega

theorem gainArr_of {p m : ℕ} {N D : Matrix (Fin p) (Fin m) (List K)} (hN : ∀ i j, (N i j).length = 1)
    (hD : ∀ i j, (D i j).length = 1) :
    gainArr (Arr.of N) (Arr.of D) = .ok (Arr.of (Matrix.of fun i j => (N i j).getD 0 0 / (D i j).getD 0 0)) := by
  unfold gainArr
  have : matM (fun (i : Fin (Arr.of N).r) (j : Fin (Arr.of N).c) =>
      gainEntry ((Arr.of N).m i j) ((Arr.of D).entry i j))
      = .ok fun i j => (N i j).getD 0 0 / (D i j).getD 0 0 := matM_ok.mpr fun i j => by
    have e := entry_of D i j
    rw [e]
    unfold gainEntry
    rw [if_pos ⟨hN i j, hD i j⟩]
  simp only [this, bind, Except.bind]

/-- Success of the constructor for a dynamic SISO model in normal form. -/
theorem mkTransfer_siso_ok (E : TNum K) {a b : List K} {dt : Option K} (hdt : DtOk dt)
    (hb : b.getD 0 0 ≠ 0) (hbl : 1 < b.length) (ha : Trimmed a) (hab : a.length ≤ b.length) :
    mkTransfer E (.vec a) (.vec b) dt = .ok ⟨constArr 1 1 a, constArr 1 1 b, false, dt⟩ := by
  have hmax : ¬ maxSize (constArr 1 1 b) = 1 := by
    have := length_le_maxSize (Matrix.of fun (_ _ : Fin 1) => b) 0 0
    simp only [of_apply] at this
    unfold constArr
    omega
  have hv : validateTransfer (.vec a) (.vec b) = .ok (constArr 1 1 a, constArr 1 1 b, false) := by
    unfold validateTransfer
    simp only [regArg, bind, Except.bind, combineArgs, if_neg (not_lt.mpr hab), if_neg, hmax, decide_false]
    simp [constArr]
  have hcomp : ∀ l : List K, l.getD 0 0 ≠ 0 → 1 < l.length → ∃ M, companion l = .ok (some M) := by
    intro l h1 h2
    cases l with
    | nil => simp at h2
    | cons x t =>
      simp only [List.getD_cons_zero] at h1
      exact ⟨_, companion_eq (x :: t) (trimZeros_of_cons h1 t) h1 (by rintro rfl; simp at h2)⟩
  unfold mkTransfer
  simp only [hv, checkDt_ok hdt, bind, Except.bind]
  have hpole : ∃ A, (⟨constArr 1 1 a, constArr 1 1 b, false, dt⟩ : TransferM K).poleMatrix E = .ok A := by
    unfold TransferM.poleMatrix
    rw [if_neg (by simp), if_pos (by simp [TransferM.isSISO, constArr])]
    obtain ⟨M, hM⟩ := hcomp b hb hbl
    have e1 : (constArr 1 1 b).entry 0 0 = b := rfl
    have e2 : (constArr 1 1 a).entry 0 0 = a := rfl
    simp only [e1, e2, hM, bind, Except.bind]
    by_cases hal : a.length = 1
    · rw [if_pos hal]; exact ⟨_, rfl⟩
    · rw [if_neg hal]
      rcases ha with rfl | ⟨x, t, rfl, hx⟩
      · simp at hal
      · obtain ⟨M', hM'⟩ := hcomp (x :: t) (by simpa using hx) (by simp at hal ⊢; exact List.length_pos_iff.mpr hal)
        rw [hM']
        exact ⟨_, rfl⟩
  obtain ⟨A, hA⟩ := hpole
  rw [hA]

omit [Field L] [Algebra K L] in
/-- Success of the constructor for static gains given by lists. -/
theorem mkTransfer_gain_ok (E : TNum K) {p m : ℕ} (hp : 0 < p) (hm : 0 < m)
    {N D : Matrix (Fin p) (Fin m) (List K)} {dt : Option K} (hdt : DtOk dt)
    (hN : ∀ i j, (N i j).length ≤ 1) (hD : ∀ i j, (D i j).getD 0 0 ≠ 0 ∧ (D i j).length = 1) :
    mkTransfer E (.lists (Arr.of N)) (.lists (Arr.of D)) dt = .ok ⟨Arr.of N, Arr.of D, true, dt⟩ := by
  have hmax : maxSize (Arr.of D) = 1 := by
    apply le_antisymm (maxSize_le fun i j => (hD i j).2.le)
    have h1 := length_le_maxSize D ⟨0, hp⟩ ⟨0, hm⟩
    rw [(hD _ _).2] at h1
    exact h1
  have hv := validate_lists_ok (N := N) (D := D) hp hm (fun i j => (hN i j).trans (hD i j).2.ge) (fun i j => (hD i j).1)
  unfold mkTransfer
  simp only [hv, checkDt_ok hdt, bind, Except.bind, hmax, decide_true, TransferM.poleMatrix, if_true]

end basics

section mimo
variable {K : Type} [Field K] [LinearOrder K] [IsStrictOrderedRing K]

/-- Success of the constructor for MIMO models in normal form. -/
theorem mkTransfer_mimo_ok (E : TNum K) (hbal : ∀ polys i, E.bal polys i ≠ 0) (hthr : E.lcmTol ≤ 1)
    {p m : ℕ} (hp : 0 < p) (hm : 0 < m) (hpm : ¬ (p = 1 ∧ m = 1))
    {N D : Matrix (Fin p) (Fin m) (List K)} {dt : Option K} (hdt : DtOk dt)
    (hD : ∀ i j, (D i j).getD 0 0 ≠ 0) (hN : ∀ i j, Trimmed (N i j))
    (hND : ∀ i j, (N i j).length ≤ (D i j).length) :
    mkTransfer E (.lists (Arr.of N)) (.lists (Arr.of D)) dt
      = .ok ⟨Arr.of N, Arr.of D, decide (maxSize (Arr.of D) = 1), dt⟩ := by
  have hne : ∀ i j, N i j ≠ [] := fun i j e => by
    rcases hN i j with h | ⟨a, t, h, -⟩ <;> rw [e] at h <;> simp at h
  have hdeg : ∀ {N' : Matrix (Fin p) (Fin m) (List K)}, (∀ i j, (N' i j).length ≤ (D i j).length) →
      ∀ i j, (toPoly (N' i j)).degree ≤ (toPoly (D i j)).degree := fun {N'} h i j => by
    obtain ⟨a, t, e, ha⟩ : ∃ a t, D i j = a :: t ∧ a ≠ 0 := by
      have := hD i j
      cases e : D i j with
      | nil => rw [e] at this; simp at this
      | cons a t => rw [e] at this; exact ⟨a, t, rfl, by simpa using this⟩
    have h1 := degree_toPoly_lt (N' i j)
    have h2 := h i j
    rw [e] at h2
    rw [e, degree_toPoly_cons ha]
    have h3 : (toPoly (N' i j)).degree < ((t.length + 1 : ℕ) : WithBot ℕ) :=
      h1.trans_le (by exact_mod_cast h2)
    by_cases h0 : toPoly (N' i j) = 0
    · simp [h0]
    · rw [degree_eq_natDegree h0] at h3 ⊢
      norm_cast at h3 ⊢
      omega
  have hv := validate_lists_ok (N := N) (D := D) hp hm hND hD
  unfold mkTransfer
  simp only [hv, checkDt_ok hdt, bind, Except.bind]
  have hpole : ∃ A, (⟨Arr.of N, Arr.of D, decide (maxSize (Arr.of D) = 1), dt⟩ : TransferM K).poleMatrix E = .ok A := by
    unfold TransferM.poleMatrix
    by_cases hg : maxSize (Arr.of D) = 1
    · rw [if_pos (by simp [hg])]; exact ⟨_, rfl⟩
    · rw [if_neg (by simp [hg]), if_neg (by simpa [TransferM.isSISO] using hpm)]
      have key : ∀ {N' : Matrix (Fin p) (Fin m) (List K)}, (∀ i j, (N' i j).length ≤ (D i j).length) →
          (∀ i j, Trimmed (N' i j)) → ∃ r, t2sTuple E (.lists (Arr.of N')) (.lists (Arr.of D)) = .ok r := by
        intro N' h1 h2
        unfold t2sTuple
        simp only [validate_lists_ok (N := N') (D := D) hp hm h1 hD, bind, Except.bind, t2sData, hg, decide_false]
        rw [if_neg (by simp), if_neg hpm]
        have hne' : ∀ i j, N' i j ≠ [] := fun i j e => by
          rcases h2 i j with h | ⟨a, t, h, -⟩ <;> rw [e] at h <;> simp at h
        have e : (fun i j => (Arr.of D).entry ((i : Fin p) : ℕ) ((j : Fin m) : ℕ)) = D := by
          funext i j; exact entry_of D i j
        obtain ⟨r, hr⟩ := t2sMimo_succ E hbal hthr hp hm N' D hD h2 (hdeg h1)
        exact ⟨r, by rw [← hr]; exact congrArg _ e⟩
      obtain ⟨⟨r1, r2⟩, hr⟩ := key hND hN
      simp only [hr, bind, Except.bind]
      cases r1 with
      | some abc => exact ⟨_, rfl⟩
      | none =>
        obtain ⟨r', hr'⟩ := key (N' := Matrix.of fun _ _ => [1]) (fun i j => by
            have : D i j ≠ [] := fun e => hD i j (by simp [e])
            have := List.length_pos_iff.mpr this
            exact this) (fun i j => Or.inr ⟨1, [], rfl, one_ne_zero⟩)
        have e : constArr (TransferM.p (⟨Arr.of N, Arr.of D, decide (maxSize (Arr.of D) = 1), dt⟩ : TransferM K))
            (TransferM.m (⟨Arr.of N, Arr.of D, decide (maxSize (Arr.of D) = 1), dt⟩ : TransferM K)) [(1 : K)]
            = Arr.of (Matrix.of fun (_ : Fin p) (_ : Fin m) => [(1 : K)]) := rfl
        simp only [e, hr']
        exact ⟨_, rfl⟩
  obtain ⟨A, hA⟩ := hpole
  rw [hA]

end mimo
end Harold
