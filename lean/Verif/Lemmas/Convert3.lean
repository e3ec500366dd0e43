import Verif.Lemmas.Convert2

/-!
# `transfer_to_state`, the MIMO case
-/

namespace Harold

open Matrix Spec Polynomial

variable {K L : Type} [Field K] [LinearOrder K] [IsStrictOrderedRing K] [Field L] [Algebra K L]

/-- What one entry becomes: feedthrough `d` plus the strictly proper `n / e` with `e` monic. -/
structure EntryOk (L : Type) [Field L] [Algebra K L] (num den : List K) (d : K) (n e : List K) : Prop where
  head : e.getD 0 0 = 1
  deg : (toPoly n).degree < ((e.length - 1 : ℕ) : WithBot ℕ)
  ne : num ≠ [] → n ≠ []
  val : ∀ s : L, polyAt s den ≠ 0 → polyAt s e ≠ 0 ∧
    polyAt s num / polyAt s den = algebraMap K L d + polyAt s n / polyAt s e
  len : Trimmed num → n.length ≤ e.length - 1 ∨ n.length = 1

omit [IsStrictOrderedRing K] in
theorem entryOk_scale {num den n : List K} {d a : K} {t : List K} (ha : a ≠ 0)
    (hdeg : (toPoly n).degree < t.length) (ne : num ≠ [] → n ≠ [])
    (val : ∀ s : L, polyAt s den ≠ 0 → polyAt s (a :: t) ≠ 0 ∧
      polyAt s num / polyAt s den = algebraMap K L d + polyAt s n / polyAt s (a :: t))
    (len : Trimmed num → n.length ≤ t.length ∨ n.length = 1) :
    EntryOk L num den d (n.map fun x => 1 / a * x) ((a :: t).map fun x => 1 / a * x) := by
  have hc : (1 / a : K) ≠ 0 := one_div_ne_zero ha
  have hc' : algebraMap K L (1 / a) ≠ 0 := by simpa using ha
  refine ⟨by simp [ha], ?_, by simpa using ne, ?_, by simpa using len⟩
  · rw [toPoly_map_mul, degree_C_mul hc]; simpa using hdeg
  · intro s hs
    obtain ⟨h1, h2⟩ := val s hs
    rw [polyAt_map_mul, polyAt_map_mul]
    exact ⟨mul_ne_zero hc' h1, by rw [h2, mul_div_mul_left _ _ hc']⟩

theorem t2sEntry_ok {tol : K} (htol : tol ≤ 0) (num den : List K) (h0 : den.getD 0 0 ≠ 0)
    (hp : (toPoly num).degree ≤ (toPoly den).degree) :
    ∃ d n e, t2sEntry tol num den = .ok (d, n, e) ∧ EntryOk L num den d n e := by
  obtain ⟨a, t, rfl, ha⟩ : ∃ a t, den = a :: t ∧ a ≠ 0 := by
    cases den with
    | nil => simp at h0
    | cons b t => exact ⟨b, t, rfl, by simpa using h0⟩
  have hdd := degree_toPoly_cons ha t
  have hnl : (trimZeros num).length ≤ t.length + 1 := by
    rcases trimZeros_cases num with ⟨e, -⟩ | ⟨b, u, e, hb⟩
    · rw [e]; simp
    · rw [← toPoly_trimZeros, e, degree_toPoly_cons hb, hdd] at hp
      rw [e]; simpa using hp
  have hat : ∀ s : L, polyAt s (trimZeros num) = polyAt s num := fun s => by
    rw [polyAt, polyAt, toPoly_trimZeros]
  unfold t2sEntry t2sSplit
  simp only [trimZeros_of_cons ha, bind, Except.bind, List.length_cons]
  by_cases h1 : t.length + 1 = 1
  · have ht : t = [] := List.length_eq_zero_iff.mp (by omega)
    subst ht
    rw [if_pos h1, if_neg (by simpa using hnl)]
    refine ⟨_, _, _, rfl, entryOk_scale ha (by simp) (by simp) ?_ (by simp)⟩
    intro s hs
    refine ⟨hs, ?_⟩
    rw [polyAt_const, polyAt_const]
    have hn : polyAt s num = algebraMap K L ((trimZeros num).getD 0 0) := by
      rw [← hat]
      rcases h : trimZeros num with _ | ⟨b, u⟩
      · simp
      · rw [h] at hnl
        have : u = [] := List.length_eq_zero_iff.mp (by simpa using hnl)
        subst this
        simp [polyAt_const]
    rw [hn]; simp
  · rw [if_neg h1]
    by_cases h2 : (trimZeros num).length < t.length + 1
    · rw [if_pos h2]
      refine ⟨_, _, _, rfl, entryOk_scale ha ?_ id (fun s hs => ⟨hs, by simp⟩) ?_⟩
      · rw [← toPoly_trimZeros]
        refine (degree_toPoly_lt _).trans_le ?_
        have : (trimZeros num).length ≤ t.length := by omega
        exact_mod_cast this
      · rintro (rfl | ⟨b, u, rfl, hb⟩)
        · right; rfl
        · left; rw [trimZeros_of_cons hb] at h2; exact Nat.lt_succ_iff.mp h2
    · rw [if_neg h2]
      obtain ⟨c, r, e1, e2, e3, e4⟩ := polydiv_proper (num := trimZeros num) (den := a :: t)
        (by simpa using ha) (trimZeros_idem _) (by simpa using hnl) (by simp; omega)
      simp only [e1, cleanup_nonpos htol, List.length_singleton, ne_eq, not_true_eq_false, if_false,
        List.getD_cons_zero]
      have hev : ∀ s : L, polyAt s num = algebraMap K L c * polyAt s (a :: t) + polyAt s r := fun s => by
        rw [← hat]; simp only [polyAt, e2]; simp
      by_cases h3 : ∀ x ∈ r, x = 0
      · simp only [if_pos h3]
        refine ⟨_, _, _, rfl, ?_⟩
        have hr : toPoly r = 0 := (toPoly_eq_zero_iff r).mpr h3
        have := entryOk_scale (L := L) (num := num) (den := a :: t) (n := [0]) (d := c) (a := 1) (t := [])
          one_ne_zero (by simp) (by simp) (fun s hs => ⟨by simp [polyAt], by
            rw [hev, show polyAt s r = 0 by rw [polyAt, hr, map_zero], add_zero,
              mul_div_cancel_right₀ _ hs]
            simp [polyAt]⟩) (by simp)
        simpa using this
      · simp only [if_neg h3]
        refine ⟨_, _, _, rfl, entryOk_scale ha (by rwa [hdd] at e3) ?_ ?_ ?_⟩
        · rintro _ rfl; exact h3 (by simp)
        · intro s hs
          refine ⟨hs, ?_⟩
          rw [hev, add_div, mul_div_cancel_right₀ _ hs]
        · intro _
          left
          have hr : toPoly r ≠ 0 := fun e => h3 ((toPoly_eq_zero_iff r).mp e)
          obtain ⟨e5, e6⟩ := length_of_trimmed e4 hr
          rw [e5, hdd] at e3
          norm_cast at e3
          omega

/-! ### The LCM column -/

theorem lcm_head {bal : ∀ polys : List (List K), BIdx polys → K} {thr : K} (hthr : thr ≤ 0)
    {args : List (List K)} {l : List K} {mults : List (List K)}
    (h : lcm bal thr args = .ok (l, mults)) : l.getD 0 0 = 1 := by
  unfold lcm at h
  split_ifs at h with h1 h2
  · simp only [Except.ok.injEq, Prod.mk.injEq] at h
    rw [← h.1]; rfl
  all_goals
    simp only [bind, Except.bind] at h
    cases hp : lcmPopped bal (args.filter fun x => decide (1 < x.length)) with
    | error e => rw [hp] at h; cases h
    | ok lm =>
      rw [hp] at h
      simp only [Except.ok.injEq, Prod.mk.injEq, cleanup_nonpos hthr] at h
      rw [← h.1]
      unfold lcmPopped at hp
      split_ifs at hp with h3
      · unfold lcmMany at hp
        split_ifs at hp with h4
        simp only [bind, Except.bind] at hp
        revert hp
        split
        · intro hp; cases hp
        · split
          · intro hp; cases hp
          · intro hp
            simp only [Except.ok.injEq] at hp
            rw [← hp]; simp
      · revert hp
        split
        · intro hp; cases hp
        · rename_i a t htr
          split_ifs
          · intro hp; cases hp
          · intro hp
            simp only [Except.ok.injEq] at hp
            rw [← hp]
            have : a ≠ 0 := by
              have e := trimZeros_head ((args.filter fun x : List K => decide (1 < x.length)).getD 0 [])
              rw [htr] at e; simpa using e
            simp [this]

theorem t2sColumn_ok (E : TNum K) (hbal : ∀ polys i, E.bal polys i ≠ 0) (hthr : E.lcmTol ≤ 0) {p : ℕ}
    (hp : 0 < p) (num den : Fin p → List K) (h0 : ∀ x, (den x).getD 0 0 = 1)
    (hne : ∀ x, num x ≠ []) (hdeg : ∀ x, (toPoly (num x)).degree < (((den x).length - 1 : ℕ) : WithBot ℕ)) :
    ∃ l nums, t2sColumn E num den = .ok (l, nums) ∧ l.getD 0 0 = 1 ∧
      (∀ x, (toPoly (nums x)).degree < ((l.length - 1 : ℕ) : WithBot ℕ)) ∧
      ∀ s : L, (∀ x, polyAt s (den x) ≠ 0) → polyAt s l ≠ 0 ∧
        ∀ x, polyAt s (nums x) / polyAt s l = polyAt s (num x) / polyAt s (den x) := by
  have hmem : ∀ q ∈ List.ofFn den, q.getD 0 0 ≠ 0 := by
    intro q hq
    obtain ⟨x, rfl⟩ := List.mem_ofFn.mp hq
    rw [h0]; exact one_ne_zero
  have hnil : List.ofFn den ≠ [] := by
    intro e; have := congrArg List.length e; simp at this; omega
  obtain ⟨l, mults, h1, h2, h3, h4⟩ := lcm_core E.bal hbal hthr (List.ofFn den) hnil hmem
  have hl0 := lcm_head hthr h1
  have hlen : mults.length = p := by rw [← h3.length_eq]; simp
  have hmul : ∀ x : Fin p, toPoly (mults.getD x []) * toPoly (den x) = toPoly l := by
    intro x
    have := (List.forall₂_iff_get.mp h3).2 x (by simp) (by rw [hlen]; exact x.2)
    simp only [List.get_ofFn, List.get_eq_getElem] at this
    rw [List.getD_eq_getElem _ _ (by rw [hlen]; exact x.2)]
    rw [List.getElem_ofFn, Fin.eta, h0 x] at this
    simpa using this
  have hlne : toPoly l ≠ 0 := h2.ne_zero
  have hmne : ∀ x : Fin p, mults.getD x [] ≠ [] := by
    intro x e
    have := hmul x; rw [e] at this; simp at this; exact hlne this.symm
  have hcol : ∀ x : Fin p, ∃ r, (do
      let r ← polymul [num x, mults.getD x []] false
      let t := trimZeros r
      (.ok (if t.length = 0 then [0] else t) : Res (List K))) = .ok r ∧
      toPoly r = toPoly (num x) * toPoly (mults.getD x []) := by
    intro x
    obtain ⟨r, e1, e2⟩ := C01_polymul_untrimmed (num x) [mults.getD x []] (hne x) (by simpa using hmne x)
    refine ⟨if (trimZeros r).length = 0 then [0] else trimZeros r, by simp only [e1, bind, Except.bind], ?_⟩
    split_ifs with h5
    · rw [List.length_eq_zero_iff, trimZeros_eq_nil_iff] at h5
      rw [h5] at e2
      simpa using e2
    · rw [toPoly_trimZeros, e2]; simp
  choose nums hn1 hn2 using hcol
  refine ⟨l, nums, ?_, hl0, ?_, ?_⟩
  · unfold t2sColumn
    have := finM_ok.mpr hn1
    simp only [h1, bind, Except.bind] at this ⊢
    rw [this]
  · intro x
    have hl : (toPoly l).degree = ((l.length - 1 : ℕ) : WithBot ℕ) := by
      cases l with
      | nil => simp at hl0
      | cons a t =>
        have : a ≠ 0 := by simp at hl0; rw [hl0]; exact one_ne_zero
        rw [degree_toPoly_cons this]; simp
    have hmx : toPoly (mults.getD x []) ≠ 0 := by
      intro e; have := hmul x; rw [e, zero_mul] at this; exact hlne this.symm
    have hdx : (toPoly (den x)).degree = (((den x).length - 1 : ℕ) : WithBot ℕ) := by
      have h00 := h0 x
      cases hd : den x with
      | nil => rw [hd] at h00; simp at h00
      | cons a t =>
        rw [hd] at h00
        have : a ≠ 0 := by simp at h00; rw [h00]; exact one_ne_zero
        rw [degree_toPoly_cons this]; simp
    by_cases hz : toPoly (num x) = 0
    · rw [hn2, hz, zero_mul, degree_zero]
      exact WithBot.bot_lt_coe _
    rw [hn2, ← hl, ← hmul x, mul_comm]
    have h6 := hdeg x
    rw [← hdx] at h6
    have hdne : toPoly (den x) ≠ 0 := by
      intro e; have := hmul x; rw [e, mul_zero] at this; exact hlne this.symm
    rw [degree_mul, degree_mul, degree_eq_natDegree hz, degree_eq_natDegree hmx, degree_eq_natDegree hdne]
    rw [degree_eq_natDegree hz, degree_eq_natDegree hdne] at h6
    norm_cast at h6 ⊢
    omega
  · intro s hs
    have hls : polyAt s l ≠ 0 := by
      have hdvd := h4 (∏ x, toPoly (den x)) (by
        intro q hq
        obtain ⟨x, rfl⟩ := List.mem_ofFn.mp hq
        exact Finset.dvd_prod_of_mem _ (Finset.mem_univ x))
      obtain ⟨w, hw⟩ := hdvd
      intro e
      have := congrArg (aeval s) hw
      rw [map_mul, show aeval s (toPoly l) = 0 from e, zero_mul, map_prod] at this
      exact Finset.prod_ne_zero_iff.mpr (fun x _ => hs x) this
    refine ⟨hls, fun x => ?_⟩
    have e1 : polyAt s (nums x) = polyAt s (num x) * polyAt s (mults.getD x []) := by
      simp only [polyAt, hn2, map_mul]
    have e2 : polyAt s l = polyAt s (mults.getD x []) * polyAt s (den x) := by
      simp only [polyAt, ← hmul x, map_mul]
    rw [e1, e2, mul_comm (polyAt s (num x))]
    exact mul_div_mul_left _ _ fun e => hls (by rw [e2, e, zero_mul])

/-! ### The whole matrix -/

theorem isTF_transpose {n m p : Type} [Fintype n] [DecidableEq n] [Fintype m] [Fintype p]
    {A : Matrix n n L} {B : Matrix n m L} {C : Matrix p n L} {D : Matrix p m L} {s : L}
    {M : Matrix p m L} (h : IsTF A B C D s M) : IsTF Aᵀ Cᵀ Bᵀ Dᵀ s Mᵀ := by
  have e : s • (1 : Matrix n n L) - Aᵀ = (s • (1 : Matrix n n L) - A)ᵀ := by
    rw [transpose_sub, transpose_smul, transpose_one]
  refine ⟨by rw [e, det_transpose]; exact h.1, ?_⟩
  rw [e, ← transpose_nonsing_inv, h.2, transpose_add, transpose_mul, transpose_mul, Matrix.mul_assoc]

/-- `A, B, C` realize the strictly proper quotients `num / den`. -/
def RealizesSP (L : Type) [Field L] [Algebra K L] (abc : Arr K × Arr K × Arr K) {p m : ℕ}
    (num den : Fin p → Fin m → List K) : Prop :=
  ∃ (n : ℕ) (A : Matrix (Fin n) (Fin n) K) (B : Matrix (Fin n) (Fin m) K) (C : Matrix (Fin p) (Fin n) K),
    abc = (Arr.of A, Arr.of B, Arr.of C) ∧ ∀ s : L, (∀ i j, polyAt s (den i j) ≠ 0) →
      IsTF (A.map (algebraMap K L)) (B.map (algebraMap K L)) (C.map (algebraMap K L)) 0 s
        (Matrix.of fun i j => polyAt s (num i j) / polyAt s (den i j))

theorem t2sTall_ok (E : TNum K) (hbal : ∀ polys i, E.bal polys i ≠ 0) (hthr : E.lcmTol ≤ 0) {p m : ℕ}
    (hp : 0 < p) (hm : 0 < m) (num den : Fin p → Fin m → List K) (h0 : ∀ x y, (den x y).getD 0 0 = 1)
    (hne : ∀ x y, num x y ≠ [])
    (hdeg : ∀ x y, (toPoly (num x y)).degree < (((den x y).length - 1 : ℕ) : WithBot ℕ)) :
    (t2sTall E num den = .error .value ∧
      ∃ x y, (den x y).length - 1 < (num x y).length ∧ (num x y).length ≠ 1) ∨
    ∃ abc, t2sTall E num den = .ok abc ∧ RealizesSP L abc num den := by
  unfold t2sTall
  by_cases h : ∃ d, ∀ x y, den x y = d
  · rw [dif_pos h]
    have hd := h.choose_spec
    set d := h.choose with hdd
    have hd0 : d.getD 0 0 = 1 := by rw [← hd ⟨0, hp⟩ ⟨0, hm⟩]; exact h0 _ _
    unfold t2sCommon
    split_ifs with hlast
    · left
      obtain ⟨x, y, -, h1, h2⟩ := hlast
      exact ⟨rfl, x, y, by rw [hd]; exact h1, h2⟩
    · right
      obtain ⟨n, A, B, C, h1, -, h2⟩ := realize_ok (L := L) num (fun _ => d)
        (fun _ => by rw [hd0]; exact one_ne_zero) (fun x y => by rw [← hd x y]; exact hdeg x y)
      refine ⟨_, h1, n, A, B, C, rfl, ?_⟩
      intro s hs
      have := h2 s fun y => by rw [← hd ⟨0, hp⟩ y]; exact hs _ _
      simpa only [hd0, map_one, one_mul, hd] using this
  · rw [dif_neg h]
    right
    have hc := fun y => t2sColumn_ok (L := L) E hbal hthr hp (fun x => num x y) (fun x => den x y)
      (fun x => h0 x y) (fun x => hne x y) (fun x => hdeg x y)
    choose l nums h1 h2 h3 h4 using hc
    unfold t2sLcm
    have hf : finM (fun y : Fin m => t2sColumn E (fun x => num x y) (fun x => den x y))
        = .ok fun y => (l y, nums y) := finM_ok.mpr h1
    simp only [hf, bind, Except.bind]
    obtain ⟨n, A, B, C, e1, -, e2⟩ := realize_ok (L := L) (fun x y => nums y x) l
      (fun y => by rw [h2]; exact one_ne_zero) (fun x y => h3 y x)
    refine ⟨_, e1, n, A, B, C, rfl, ?_⟩
    intro s hs
    have := e2 s fun y => (h4 y s fun x => hs x y).1
    simp only [h2, map_one, one_mul] at this
    convert this using 1
    ext x y
    simp only [of_apply]
    exact ((h4 y s fun x => hs x y).2 x).symm

theorem realizes_add {p m : ℕ} {num den n e : Fin p → Fin m → List K} {d : Fin p → Fin m → K}
    (hE : ∀ x y, EntryOk L (num x y) (den x y) (d x y) (n x y) (e x y)) {abc : Arr K × Arr K × Arr K}
    (h : RealizesSP L abc n e) : Realizes L (some abc, Arr.of (Matrix.of d)) num den := by
  obtain ⟨k, A, B, C, rfl, h⟩ := h
  refine ⟨_, rfl, Or.inr ⟨k, A, B, C, rfl, ?_⟩⟩
  intro s hs
  have := isTF_add_D (h s fun i j => ((hE i j).val s (hs i j)).1) ((Matrix.of d).map (algebraMap K L))
  convert this using 1
  ext i j
  simp only [of_apply, Matrix.add_apply, map_apply]
  rw [((hE i j).val s (hs i j)).2, add_comm]

theorem t2sMimo_ok (E : TNum K) (hbal : ∀ polys i, E.bal polys i ≠ 0) (hthr : E.lcmTol ≤ 0)
    (htol : E.remTol ≤ 0) {p m : ℕ}
    (hp : 0 < p) (hm : 0 < m) (num den : Fin p → Fin m → List K) (h0 : ∀ x y, (den x y).getD 0 0 ≠ 0)
    (hne : ∀ x y, num x y ≠ []) (hdeg : ∀ x y, (toPoly (num x y)).degree ≤ (toPoly (den x y)).degree) :
    (t2sMimo E num den = .error .value ∧ ∃ x y, ¬ Trimmed (num x y)) ∨
    ∃ r, t2sMimo E num den = .ok r ∧ Realizes L r num den := by
  have hE := fun x y => t2sEntry_ok (L := L) htol (num x y) (den x y) (h0 x y) (hdeg x y)
  choose d n e h1 hE using hE
  have hmat : matM (fun x y => t2sEntry E.remTol (num x y) (den x y))
      = .ok fun x y => (d x y, n x y, e x y) := matM_ok.mpr h1
  have hbad : ∀ x y, (e x y).length - 1 < (n x y).length → (n x y).length ≠ 1 → ¬ Trimmed (num x y) := by
    intro x y h2 h3 h4
    rcases (hE x y).len h4 with h5 | h5
    · omega
    · exact h3 h5
  unfold t2sMimo
  simp only [hmat, bind, Except.bind]
  by_cases hz : ∀ x y, n x y = [0]
  · rw [if_pos hz]
    right
    refine ⟨_, rfl, _, rfl, Or.inl ⟨rfl, ?_⟩⟩
    intro s hs
    ext i j
    rw [map_apply, of_apply, of_apply, ((hE i j).val s (hs i j)).2, hz]
    simp [polyAt]
  · rw [if_neg hz]
    by_cases hmp : m ≤ p
    · rw [if_pos hmp]
      rcases t2sTall_ok (L := L) E hbal hthr hp hm n e (fun x y => (hE x y).head)
        (fun x y => (hE x y).ne (hne x y)) (fun x y => (hE x y).deg) with ⟨h2, x, y, h3, h4⟩ | ⟨abc, h2, h3⟩
      · left
        rw [h2]
        exact ⟨rfl, x, y, hbad x y h3 h4⟩
      · right
        rw [h2]
        exact ⟨_, rfl, realizes_add hE h3⟩
    · rw [if_neg hmp]
      rcases t2sTall_ok (L := L) E hbal hthr hm hp (fun y x => n x y) (fun y x => e x y)
        (fun y x => (hE x y).head) (fun y x => (hE x y).ne (hne x y)) (fun y x => (hE x y).deg) with
        ⟨h2, y, x, h3, h4⟩ | ⟨abc, h2, h3⟩
      · left
        rw [h2]
        exact ⟨rfl, x, y, hbad x y h3 h4⟩
      · right
        rw [h2]
        obtain ⟨k, A, B, C, rfl, h5⟩ := h3
        refine ⟨_, rfl, realizes_add hE ⟨k, Aᵀ, Cᵀ, Bᵀ, rfl, ?_⟩⟩
        intro s hs
        have := isTF_transpose (h5 s fun y x => hs x y)
        rw [transpose_zero] at this
        exact this

end Harold
