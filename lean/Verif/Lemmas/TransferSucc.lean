import Verif.Lemmas.TransferVal

/-!
# The `Transfer` operations return for models in normal form
-/

namespace Harold

open Matrix Spec Polynomial TransferM

variable {K : Type} [Field K] [LinearOrder K] [IsStrictOrderedRing K]
  {E : TNum K} {p m : ℕ}

omit [LinearOrder K] [IsStrictOrderedRing K] in
theorem Spec.Trimmed.ne_nil {l : List K} (h : Trimmed l) : l ≠ [] := by
  rcases h with rfl | ⟨a, t, rfl, -⟩ <;> simp

omit [Field K] [LinearOrder K] [IsStrictOrderedRing K] in
theorem maxSize_eq_one {D : Matrix (Fin p) (Fin m) (List K)} (hp : 0 < p) (hm : 0 < m)
    (hne : ∀ i j, D i j ≠ []) : maxSize (Arr.of D) = 1 ↔ ∀ i j, (D i j).length = 1 := by
  constructor
  · intro h i j
    have h1 := length_le_maxSize D i j
    have := List.length_pos_iff.mpr (hne i j)
    omega
  · intro h
    apply le_antisymm (maxSize_le fun i j => (h i j).le)
    have h1 := length_le_maxSize D ⟨0, hp⟩ ⟨0, hm⟩
    rwa [h] at h1

/-- The constructor accepts coefficient lists in normal form. -/
theorem mkTransfer_normal (hbal : ∀ polys i, E.bal polys i ≠ 0) (hthr : E.lcmTol ≤ 1)
    (hp : 0 < p) (hm : 0 < m) {N D : Matrix (Fin p) (Fin m) (List K)} {dt : Option K} (hdt : DtOk dt)
    (hD : ∀ i j, (D i j).getD 0 0 ≠ 0) (hN : ∀ i j, Trimmed (N i j))
    (hND : ∀ i j, (N i j).length ≤ (D i j).length) :
    ∃ F, mkTransfer E (.lists (Arr.of N)) (.lists (Arr.of D)) dt = .ok F ∧ Normal F p m N D ∧ F.dt = dt := by
  have hne : ∀ i j, D i j ≠ [] := fun i j e => hD i j (by simp [e])
  suffices h : mkTransfer E (.lists (Arr.of N)) (.lists (Arr.of D)) dt
      = .ok ⟨Arr.of N, Arr.of D, decide (maxSize (Arr.of D) = 1), dt⟩ from
    ⟨_, h, ⟨⟨hp, hm⟩, rfl, rfl, hN, hD, hND, by simp [maxSize_eq_one hp hm hne], hdt⟩, rfl⟩
  by_cases hpm : p = 1 ∧ m = 1
  · by_cases hg : maxSize (Arr.of D) = 1
    · have hDl := (maxSize_eq_one hp hm hne).mp hg
      rw [mkTransfer_gain_ok E hp hm hdt (fun i j => (hND i j).trans (hDl i j).le) fun i j => ⟨hD i j, hDl i j⟩]
      simp [hg]
    · obtain ⟨rfl, rfl⟩ := hpm
      have hl : ¬ (D 0 0).length = 1 := fun e => hg ((maxSize_eq_one hp hm hne).mpr fun i j => by
        rw [Subsingleton.elim i 0, Subsingleton.elim j 0]; exact e)
      have hl' : 1 < (D 0 0).length := by
        have := List.length_pos_iff.mpr (hne 0 0)
        omega
      have h1 := mkTransfer_siso_ok E hdt (hD 0 0) hl' (hN 0 0) (hND 0 0)
      have hreg : ∀ X : Matrix (Fin 1) (Fin 1) (List K), regArg (.lists (Arr.of X)) = regArg (.vec (X 0 0)) := by
        intro X
        simp only [regArg, Arr.of_r, Arr.of_c, and_self, if_true]
        rfl
      have hX : ∀ X : Matrix (Fin 1) (Fin 1) (List K), constArr 1 1 (X 0 0) = Arr.of X := fun X =>
        constArr_entry rfl rfl X
      rw [hX, hX] at h1
      have h2 : mkTransfer E (.lists (Arr.of N)) (.lists (Arr.of D)) dt
          = mkTransfer E (.vec (N 0 0)) (.vec (D 0 0)) dt := by
        unfold mkTransfer validateTransfer
        rw [hreg N, hreg D]
      rw [h2, h1]
      simp [hg]
  · exact mkTransfer_mimo_ok E hbal hthr hp hm hpm hdt hD hN hND

/-- Entries in normal form. -/
def EntryNormal (e : List K × List K) : Prop :=
  e.2.getD 0 0 ≠ 0 ∧ Trimmed e.1 ∧ e.1.length ≤ e.2.length

omit [IsStrictOrderedRing K] in
theorem Spec.Normal.entry {G : TransferM K} {N D : Matrix (Fin p) (Fin m) (List K)} (h : Normal G p m N D) (i : Fin p)
    (j : Fin m) : EntryNormal (N i j, D i j) := ⟨h.lead i j, h.trimmed i j, h.causal i j⟩

theorem mkEntries_normal (hbal : ∀ polys i, E.bal polys i ≠ 0) (hthr : E.lcmTol ≤ 1)
    (hp : 0 < p) (hm : 0 < m) {f : Fin p → Fin m → Res (List K × List K)} {dt : Option K} (hdt : DtOk dt)
    (h : ∀ i j, ∃ e, f i j = .ok e ∧ EntryNormal e) :
    ∃ F N D, mkEntries E p m f dt = .ok F ∧ Normal F p m N D ∧ F.dt = dt := by
  choose e h1 h2 using h
  obtain ⟨F, h3, h4, h5⟩ := mkTransfer_normal hbal hthr hp hm (N := Matrix.of fun i j => (e i j).1)
    (D := Matrix.of fun i j => (e i j).2) hdt (fun i j => (h2 i j).1) (fun i j => (h2 i j).2.1)
    (fun i j => (h2 i j).2.2)
  refine ⟨F, _, _, ?_, h4, h5⟩
  unfold mkEntries
  simp only [matM_ok.mpr h1, bind, Except.bind]
  exact h3

omit [IsStrictOrderedRing K] in
theorem scaleEntry_normal (k : K) {n d : List K} (h : EntryNormal (n, d)) : EntryNormal (scaleEntry k n d) := by
  unfold scaleEntry
  split_ifs with hk
  · exact ⟨by simp, Or.inl rfl, by simp⟩
  · refine ⟨h.1, ?_, by simpa using h.2.2⟩
    rcases h.2.1 with h1 | ⟨a, t, h1, ha⟩
    · simp only at h1; subst h1; left; simp
    · simp only at h1; subst h1; right; exact ⟨k * a, _, rfl, mul_ne_zero hk ha⟩

omit [IsStrictOrderedRing K] in
theorem trimmed_length {l : List K} (h : Trimmed l) (h0 : toPoly l ≠ 0) : (toPoly l).natDegree + 1 = l.length := by
  rcases h with rfl | ⟨a, t, rfl, ha⟩
  · simp [toPoly] at h0
  · rw [natDegree_eq_of_degree_eq_some (degree_toPoly_cons ha t)]
    simp

omit [IsStrictOrderedRing K] in
theorem mulEntry_normal {n₁ d₁ n₂ d₂ : List K} (h₁ : EntryNormal (n₁, d₁)) (h₂ : EntryNormal (n₂, d₂)) :
    ∃ e, mulEntry n₁ d₁ n₂ d₂ = .ok e ∧ EntryNormal e := by
  obtain ⟨a1, a2, a3⟩ := h₁
  obtain ⟨b1, b2, b3⟩ := h₂
  simp only at a1 a2 a3 b1 b2 b3
  unfold mulEntry
  by_cases hz : (∀ a ∈ n₁, a = 0) ∨ ∀ a ∈ n₂, a = 0
  · rw [if_pos hz]
    exact ⟨_, rfl, by simp, Or.inl rfl, by simp⟩
  · rw [if_neg hz]
    push Not at hz
    have hnz : ∀ {l : List K}, (∃ a ∈ l, a ≠ 0) → toPoly l ≠ 0 := fun {l} h e => by
      rw [toPoly_eq_zero_iff] at e; obtain ⟨x, hx, hx'⟩ := h; exact hx' (e x hx)
    have hn1 := hnz hz.1
    have hn2 := hnz hz.2
    have hlead : ∀ {l : List K}, l.getD 0 0 ≠ 0 → Trimmed l ∧ toPoly l ≠ 0 := fun {l} h => by
      cases l with
      | nil => simp at h
      | cons a t =>
        refine ⟨Or.inr ⟨a, t, rfl, by simpa using h⟩, fun e => ?_⟩
        have := degree_toPoly_cons (a := a) (by simpa using h) t
        rw [e] at this
        simp at this
    obtain ⟨hd1t, hd1⟩ := hlead a1
    obtain ⟨hd2t, hd2⟩ := hlead b1
    obtain ⟨n, e1, e2, e3⟩ := C01_polymul_partial n₁ [n₂] (Or.inl hn1)
    obtain ⟨d, e4, e5, e6⟩ := C01_polymul_partial d₁ [d₂] (Or.inl hd1)
    simp only [List.map_cons, List.map_nil, List.prod_cons, List.prod_nil, mul_one] at e2 e5
    simp only [e1, e4, bind, Except.bind]
    have hn0 : toPoly n ≠ 0 := by rw [e2]; exact mul_ne_zero hn1 hn2
    have hd0 : toPoly d ≠ 0 := by rw [e5]; exact mul_ne_zero hd1 hd2
    refine ⟨_, rfl, ?_, e3, ?_⟩
    · rcases e6 with rfl | ⟨a, t, rfl, ha⟩
      · simp [toPoly] at hd0
      · simpa using ha
    · have l1 := trimmed_length e3 hn0
      have l2 := trimmed_length e6 hd0
      rw [e2, natDegree_mul hn1 hn2] at l1
      rw [e5, natDegree_mul hd1 hd2] at l2
      have := trimmed_length a2 hn1
      have := trimmed_length b2 hn2
      have := trimmed_length hd1t hd1
      have := trimmed_length hd2t hd2
      simp only
      omega

/-- The sum of two entries is in normal form if the leading terms do not cancel. -/
theorem addEntry_normal (hbal : ∀ polys i, E.bal polys i ≠ 0) {n₁ d₁ n₂ d₂ : List K}
    (hthr : CoarseLcm E.lcmTol [toPoly d₁, toPoly d₂])
    (h₁ : EntryNormal (n₁, d₁)) (h₂ : EntryNormal (n₂, d₂))
    (hdeg : (toPoly n₁ * toPoly d₂ + toPoly n₂ * toPoly d₁).degree
      = max (toPoly n₁ * toPoly d₂).degree (toPoly n₂ * toPoly d₁).degree)
    (hne : toPoly n₁ * toPoly d₂ + toPoly n₂ * toPoly d₁ ≠ 0) :
    ∃ e, addEntry E n₁ d₁ n₂ d₂ = .ok e ∧ EntryNormal e ∧ toPoly e.1 ≠ 0 := by
  obtain ⟨a1, a2, a3⟩ := h₁
  obtain ⟨b1, b2, b3⟩ := h₂
  simp only at a1 a2 a3 b1 b2 b3
  rcases addEntry_spec hbal n₁ d₁ n₂ d₂ hthr a1 b1 with ⟨h, -⟩ | ⟨n, d, -, -, h, h3, h4, h5, x, y, g1, g2, g3, g4, g5, g6⟩
  · rcases h with h | h
    · exact absurd h a2.ne_nil
    · exact absurd h b2.ne_nil
  have hlead : ∀ {l : List K}, l.getD 0 0 ≠ 0 → (toPoly l).degree = ((l.length - 1 : ℕ) : WithBot ℕ) ∧
      toPoly l ≠ 0 ∧ 0 < l.length := fun {l} h => by
    cases l with
    | nil => simp at h
    | cons a t =>
      have := degree_toPoly_cons (a := a) (by simpa using h) t
      refine ⟨by rw [this]; simp, fun e => ?_, by simp⟩
      rw [e] at this
      simp at this
  obtain ⟨l1, l1', -⟩ := hlead a1
  obtain ⟨l2, l2', -⟩ := hlead b1
  obtain ⟨l3, l3', l3''⟩ := hlead h3
  have hprop : ∀ {a b : List K}, b.getD 0 0 ≠ 0 → a.length ≤ b.length → (toPoly a).degree ≤ (toPoly b).degree := by
    intro a b hb hab
    obtain ⟨l, -, l'⟩ := hlead hb
    rw [l]
    by_cases h0 : toPoly a = 0
    · simp [h0]
    · have := degree_toPoly_lt a
      rw [degree_eq_natDegree h0] at this ⊢
      norm_cast at this ⊢
      omega
  have p1 := hprop a1 a3
  have p2 := hprop b1 b3
  have hnn : toPoly n ≠ 0 := by
    intro e
    rw [e, zero_mul] at h4
    rcases mul_eq_zero.mp h4.symm with h6 | h6
    · exact l3' h6
    · exact hne h6
  -- degrees of x and y
  have xd : x.degree + (toPoly d₁).degree = (toPoly n₁).degree + (toPoly d).degree := by
    rw [← degree_mul, g2, degree_mul]
  have yd : y.degree + (toPoly d₂).degree = (toPoly n₂).degree + (toPoly d).degree := by
    rw [← degree_mul, g3, degree_mul]
  have hle : ∀ {u v w q : WithBot ℕ} {k : ℕ}, v = (k : WithBot ℕ) → w ≤ v → u + v = w + q → u ≤ q := by
    intro u v w q k hv hw h
    subst hv
    cases u with
    | bot => exact bot_le
    | coe u =>
      cases q with
      | bot => simp at h
      | coe q =>
        cases w with
        | bot => simp at h
        | coe w =>
          rw [Nat.cast_withBot] at h hw
          norm_cast at h hw ⊢
          omega
  have xle : x.degree ≤ (toPoly d).degree := hle l1 p1 xd
  have yle : y.degree ≤ (toPoly d).degree := hle l2 p2 yd
  -- no cancellation: deg n = max (deg x, deg y)
  have hmax : (toPoly n).degree = max x.degree y.degree := by
    have e1 : (toPoly n).degree + (toPoly d₁ * toPoly d₂).degree
        = (toPoly d).degree + (toPoly n₁ * toPoly d₂ + toPoly n₂ * toPoly d₁).degree := by
      rw [← degree_mul, h4, degree_mul]
    rw [hdeg] at e1
    have e2 : x.degree + (toPoly d₁ * toPoly d₂).degree = (toPoly d).degree + (toPoly n₁ * toPoly d₂).degree := by
      rw [← degree_mul, ← degree_mul]; congr 1; linear_combination toPoly d₂ * g2
    have e3 : y.degree + (toPoly d₁ * toPoly d₂).degree = (toPoly d).degree + (toPoly n₂ * toPoly d₁).degree := by
      rw [← degree_mul, ← degree_mul]; congr 1; linear_combination toPoly d₁ * g3
    have hdd : (toPoly d₁ * toPoly d₂).degree = ((toPoly d₁ * toPoly d₂).natDegree : WithBot ℕ) :=
      degree_eq_natDegree (mul_ne_zero l1' l2')
    rw [hdd] at e1 e2 e3
    have hadd : ∀ a b : WithBot ℕ, ∀ k : ℕ, a + (k : WithBot ℕ) = b + (k : WithBot ℕ) → a = b := by
      intro a b k h
      cases a with
      | bot =>
        cases b with
        | bot => rfl
        | coe b => rw [Nat.cast_withBot] at h; norm_cast at h
      | coe a =>
        cases b with
        | bot => simp at h
        | coe b =>
          rw [Nat.cast_withBot] at h
          norm_cast at h
          have : a = b := by omega
          rw [this]
    apply hadd _ _ (toPoly d₁ * toPoly d₂).natDegree
    rw [e1]
    rcases le_total (toPoly n₁ * toPoly d₂).degree (toPoly n₂ * toPoly d₁).degree with h6 | h6
    · have : x.degree + ((toPoly d₁ * toPoly d₂).natDegree : WithBot ℕ) ≤ y.degree + ((toPoly d₁ * toPoly d₂).natDegree : WithBot ℕ) := by
        rw [e2, e3]; gcongr
      have h7 : x.degree ≤ y.degree := by
        by_contra h7
        push Not at h7
        have h8 : y.degree + ((toPoly d₁ * toPoly d₂).natDegree : WithBot ℕ) ≤ x.degree + ((toPoly d₁ * toPoly d₂).natDegree : WithBot ℕ) := by
          gcongr
        exact absurd (hadd _ _ _ (le_antisymm this h8)) h7.ne'
      rw [max_eq_right h6, max_eq_right h7, e3]
    · have : y.degree + ((toPoly d₁ * toPoly d₂).natDegree : WithBot ℕ) ≤ x.degree + ((toPoly d₁ * toPoly d₂).natDegree : WithBot ℕ) := by
        rw [e2, e3]; gcongr
      have h7 : y.degree ≤ x.degree := by
        by_contra h7
        push Not at h7
        have h8 : x.degree + ((toPoly d₁ * toPoly d₂).natDegree : WithBot ℕ) ≤ y.degree + ((toPoly d₁ * toPoly d₂).natDegree : WithBot ℕ) := by
          gcongr
        exact absurd (hadd _ _ _ (le_antisymm this h8)) h7.ne'
      rw [max_eq_left h6, max_eq_left h7, e2]
  have hnlen : n.length ≤ (toPoly n).natDegree + 1 := by
    apply g4
    · refine lt_of_le_of_lt (le_max_left x.degree y.degree) ?_
      rw [← hmax, degree_eq_natDegree hnn]; norm_cast; omega
    · refine lt_of_le_of_lt (le_max_right x.degree y.degree) ?_
      rw [← hmax, degree_eq_natDegree hnn]; norm_cast; omega
  have htr : Trimmed n := by
    cases n with
    | nil => simp at hnn
    | cons a t =>
      right
      refine ⟨a, t, rfl, fun ha => ?_⟩
      subst ha
      have h6 : toPoly (0 :: t) = toPoly t := by rw [← toPoly_trimZeros, ← toPoly_trimZeros t]; simp [trimZeros]
      have h7 := degree_toPoly_lt t
      rw [← h6, degree_eq_natDegree hnn] at h7
      norm_cast at h7
      simp only [List.length_cons] at hnlen
      omega
  refine ⟨_, h, ⟨h3, htr, ?_⟩, hnn⟩
  simp only
  refine hnlen.trans ?_
  have h6 : (toPoly n).degree ≤ (toPoly d).degree := by rw [hmax]; exact max_le xle yle
  rw [l3, degree_eq_natDegree hnn] at h6
  norm_cast at h6
  omega

end Harold
