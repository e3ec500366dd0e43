import Verif.Spec.Coarse
import Verif.Lemmas.Convert3

/-!
# The rounding thresholds of `haroldlcm` and `transfer_to_state`
-/

namespace Harold

open Matrix Spec Polynomial

variable {K : Type} [Field K] [LinearOrder K] [IsStrictOrderedRing K]

/-! ### `cleanup` -/

omit [IsStrictOrderedRing K] in
theorem cleanup_length (thr : K) (l : List K) : (cleanup thr l).length = l.length := by
  simp [cleanup]

theorem cleanup_id {thr : K} {l : List K} (h : ∀ a ∈ l, a = 0 ∨ thr ≤ |a|) : cleanup thr l = l := by
  rw [cleanup]
  conv_rhs => rw [← List.map_id l]
  apply List.map_congr_left
  intro a ha
  rcases h a ha with rfl | h
  · simp
  · rw [if_neg (not_lt.mpr h), id]

theorem cleanup_coarse {thr : K} {l : List K} (h : Coarse thr (toPoly l)) : cleanup thr l = l := by
  apply cleanup_id
  intro a ha
  obtain ⟨i, hi, rfl⟩ := List.mem_iff_getElem.mp ha
  have := h (l.length - 1 - i)
  rw [coeff_toPoly_lt (by omega), show l.length - 1 - (l.length - 1 - i) = i by omega,
    List.getD_eq_getElem _ _ hi] at this
  exact this

theorem coarse_nonpos {τ : K} (h : τ ≤ 0) (P : K[X]) : Coarse τ P := fun k => Or.inr (h.trans (abs_nonneg _))

theorem trim_cleanup_trim (thr : K) (l : List K) :
    trimZeros (cleanup thr (trimZeros l)) = trimZeros (cleanup thr l) := by
  induction l with
  | nil => rfl
  | cons a l ih =>
    by_cases ha : a = 0
    · subst ha
      have h1 : trimZeros ((0 : K) :: l) = trimZeros l := by simp [trimZeros]
      have h2 : trimZeros (cleanup thr ((0 : K) :: l)) = trimZeros (cleanup thr l) := by
        simp [cleanup, trimZeros]
      rw [h1, h2, ih]
    · rw [trimZeros_of_cons ha]

theorem cleanup_one {thr : K} (h : thr ≤ 1) (t : List K) : cleanup thr (1 :: t) = 1 :: cleanup thr t := by
  simp [cleanup, not_lt.mpr h]

/-! ### `haroldlcm` -/

/-- The thresholded result is the exact result with small coefficients removed. -/
theorem lcm_thr (bal : ∀ polys : List (List K), BIdx polys → K) {thr : K} (hthr : thr ≤ 1) {args : List (List K)}
    {l : List K} {mults : List (List K)} (h : lcm bal 0 args = .ok (l, mults)) :
    lcm bal thr args = .ok (cleanup thr l, mults.map fun z => trimZeros (cleanup thr z)) := by
  unfold lcm at h ⊢
  split_ifs at h ⊢ with h1 h2 h3
  · simp only [Except.ok.injEq, Prod.mk.injEq] at h
    obtain ⟨rfl, rfl⟩ := h
    simp only [List.map_map, cleanup_one hthr]
    congr 2
    apply List.map_congr_left
    intro x _
    simp [cleanup_one hthr, trimZeros, cleanup, not_lt.mpr hthr]
  all_goals
    simp only [bind, Except.bind] at h ⊢
    cases hp : lcmPopped bal (args.filter fun x => decide (1 < x.length)) with
    | error e => rw [hp] at h; cases h
    | ok lm =>
      rw [hp] at h
      simp only [Except.ok.injEq, Prod.mk.injEq, cleanup_nonpos le_rfl] at h
      obtain ⟨rfl, rfl⟩ := h
      simp only [List.map_map]
      congr 2
      apply List.map_congr_left
      intro z _
      simp only [Function.comp, trim_cleanup_trim]

theorem lcm_trim {bal : ∀ polys : List (List K), BIdx polys → K} {thr : K} {args : List (List K)} {l : List K}
    {mults : List (List K)} (h1 : lcm bal thr args = .ok (l, mults)) : ∀ z ∈ mults, trimZeros z = z := by
  unfold lcm at h1
  split_ifs at h1
  · simp only [Except.ok.injEq, Prod.mk.injEq] at h1
    rw [← h1.2]
    intro z hz
    simp only [List.mem_map] at hz
    obtain ⟨_, _, rfl⟩ := hz
    simp [trimZeros]
  all_goals
    simp only [bind, Except.bind] at h1
    revert h1
    split
    · intro h1; cases h1
    · intro h1
      simp only [Except.ok.injEq, Prod.mk.injEq] at h1
      rw [← h1.2]
      intro z hz
      obtain ⟨y, _, rfl⟩ := List.mem_map.mp hz
      exact trimZeros_idem _

/-- `haroldlcm` with a threshold up to one returns; the multipliers and the multiple start with one. -/
theorem lcm_succ (bal : ∀ polys : List (List K), BIdx polys → K) (hbal : ∀ polys i, bal polys i ≠ 0)
    {thr : K} (hthr : thr ≤ 1) (args : List (List K)) (hne : args ≠ []) (hargs : ∀ p ∈ args, p.getD 0 0 ≠ 0) :
    ∃ l mults, lcm bal thr args = .ok (l, mults) ∧ l.getD 0 0 = 1 ∧ mults.length = args.length ∧
      ∀ z ∈ mults, z.getD 0 0 = 1 := by
  obtain ⟨l, mults, h1, h2, h3, -⟩ := lcm_core bal hbal (le_refl (0 : K)) args hne hargs
  have hl := lcm_head le_rfl h1
  obtain ⟨t, rfl⟩ : ∃ t, l = 1 :: t := by
    cases l with
    | nil => simp at hl
    | cons a t => simp at hl; subst hl; exact ⟨t, rfl⟩
  refine ⟨_, _, lcm_thr bal hthr h1, by rw [cleanup_one hthr]; rfl, by simp [← h3.length_eq], ?_⟩
  have htrim := lcm_trim h1
  have hmon : ∀ {a b : List (List K)}, (∀ p ∈ a, p.getD 0 0 ≠ 0) → List.Forall₂
      (fun p m => toPoly m * (C (p.getD 0 0)⁻¹ * toPoly p) = toPoly (1 :: t)) a b →
      ∀ z ∈ b, (toPoly z).Monic := by
    intro a b ha hF
    induction hF with
    | nil => simp
    | @cons p z a b h _ ih =>
      intro w hw
      rcases List.mem_cons.mp hw with rfl | hw
      · have hp0 := ha p (by simp)
        have hpm : (C (p.getD 0 0)⁻¹ * toPoly p).Monic := by
          cases p with
          | nil => simp at hp0
          | cons c u =>
            have hc : c ≠ 0 := by simpa using hp0
            rw [Monic, leadingCoeff_mul, leadingCoeff_C, leadingCoeff_toPoly_cons hc]
            simp [hc]
        exact Monic.of_mul_monic_right hpm (by rw [h]; exact h2)
      · exact ih (fun q hq => ha q (by simp [hq])) w hw
  intro w hw
  obtain ⟨z, hz, rfl⟩ := List.mem_map.mp hw
  have hz1 := hmon hargs h3 z hz
  have hz2 := htrim z hz
  rcases trimZeros_cases z with ⟨-, e⟩ | ⟨a, u, e, ha⟩
  · rw [e] at hz1; simp at hz1
  · rw [hz2] at e; subst e
    rw [Monic, leadingCoeff_toPoly_cons ha] at hz1
    subst hz1
    rw [cleanup_one hthr, trimZeros_of_cons one_ne_zero]; rfl

omit [LinearOrder K] [IsStrictOrderedRing K] in
theorem isMonicLcm_unique {args : List K[X]} {M M' : K[X]} (h : IsMonicLcm args M) (h' : IsMonicLcm args M') :
    M = M' :=
  eq_of_monic_of_associated h.1 h'.1 (associated_of_dvd_dvd (h.2.2 _ h'.2.1) (h'.2.2 _ h.2.1))

theorem coarseLcm_nonpos {τ : K} (h : τ ≤ 0) (args : List K[X]) : CoarseLcm τ args := fun _ _ =>
  ⟨coarse_nonpos h _, fun _ _ _ _ _ => coarse_nonpos h _⟩

omit [IsStrictOrderedRing K] in
theorem coarseLcm_congr {τ : K} {args args' : List K[X]} (h : List.Forall₂ Associated args args')
    (hc : CoarseLcm τ args) : CoarseLcm τ args' := by
  have key : ∀ {a b : List K[X]}, List.Forall₂ Associated a b →
      (∀ p ∈ b, ∃ q ∈ a, Associated q p) ∧ (∀ p ∈ a, ∃ q ∈ b, Associated p q) := by
    intro a b h
    induction h with
    | nil => simp
    | @cons x y a b hxy _ ih =>
      refine ⟨?_, ?_⟩
      · intro p hp
        rcases List.mem_cons.mp hp with rfl | hp
        · exact ⟨x, by simp, hxy⟩
        · obtain ⟨q, hq, hqp⟩ := ih.1 p hp
          exact ⟨q, by simp [hq], hqp⟩
      · intro p hp
        rcases List.mem_cons.mp hp with rfl | hp
        · exact ⟨y, by simp, hxy⟩
        · obtain ⟨q, hq, hqp⟩ := ih.2 p hp
          exact ⟨q, by simp [hq], hqp⟩
  obtain ⟨k1, k2⟩ := key h
  intro M hM
  have hM' : IsMonicLcm args M := by
    refine ⟨hM.1, ?_, ?_⟩
    · intro p hp
      obtain ⟨q, hq, e⟩ := k2 p hp
      exact e.dvd.trans (hM.2.1 q hq)
    · intro M' h'
      refine hM.2.2 M' fun p hp => ?_
      obtain ⟨q, hq, e⟩ := k1 p hp
      exact e.symm.dvd.trans (h' q hq)
  obtain ⟨c1, c2⟩ := hc M hM'
  refine ⟨c1, fun p hp Q hQ hA => ?_⟩
  obtain ⟨q, hq, e⟩ := k1 p hp
  exact c2 q hq Q hQ ((Associated.mul_left Q e).trans hA)

/-- If the multiple and the multipliers have no small coefficients the threshold does nothing. -/
theorem lcm_coarse (bal : ∀ polys : List (List K), BIdx polys → K) (hbal : ∀ polys i, bal polys i ≠ 0)
    {thr : K} (args : List (List K)) (hne : args ≠ []) (hargs : ∀ p ∈ args, p.getD 0 0 ≠ 0)
    (hc : CoarseLcm thr (args.map toPoly)) : lcm bal thr args = lcm bal 0 args := by
  obtain ⟨l, mults, h1, h2, h3, h4⟩ := lcm_core bal hbal (le_refl (0 : K)) args hne hargs
  have hpm : ∀ p ∈ args, (C (p.getD 0 0)⁻¹ * toPoly p).Monic := by
    intro p hp
    have hp0 := hargs p hp
    cases p with
    | nil => simp at hp0
    | cons c u =>
      have hc : c ≠ 0 := by simpa using hp0
      rw [Monic, leadingCoeff_mul, leadingCoeff_C, leadingCoeff_toPoly_cons hc]
      simp [hc]
  have hdvd : ∀ {a : List (List K)} {b}, List.Forall₂
      (fun p m => toPoly m * (C (p.getD 0 0)⁻¹ * toPoly p) = toPoly l) a b → ∀ p ∈ a, toPoly p ∣ toPoly l := by
    intro a b h
    induction h with
    | nil => simp
    | cons h _ ih =>
      intro p hp
      rcases List.mem_cons.mp hp with rfl | hp
      · exact ⟨_, by rw [← h, ← mul_assoc]; exact mul_comm _ _⟩
      · exact ih p hp
  have hlcm : IsMonicLcm (args.map toPoly) (toPoly l) := by
    refine ⟨h2, ?_, fun M hM => h4 M fun p hp => hM _ (List.mem_map_of_mem hp)⟩
    intro q hq
    obtain ⟨p, hp, rfl⟩ := List.mem_map.mp hq
    exact hdvd h3 p hp
  obtain ⟨c1, c2⟩ := hc _ hlcm
  have hthr : thr ≤ 1 := by
    have := c1 (toPoly l).natDegree
    rw [coeff_natDegree, h2.leadingCoeff] at this
    simpa using this
  have hm : ∀ {a : List (List K)} {b}, (∀ p ∈ a, p ∈ args) → List.Forall₂
      (fun p m => toPoly m * (C (p.getD 0 0)⁻¹ * toPoly p) = toPoly l) a b → ∀ z ∈ b, Coarse thr (toPoly z) := by
    intro a b ha h
    induction h with
    | nil => simp
    | @cons p z a b h _ ih =>
      intro w hw
      rcases List.mem_cons.mp hw with rfl | hw
      · have hp := ha p (by simp)
        refine c2 _ (List.mem_map_of_mem hp) _ ?_ ?_
        · exact Monic.of_mul_monic_right (hpm p hp) (by rw [h]; exact h2)
        · rw [← h]
          refine Associated.mul_left _ ?_
          have hu : IsUnit (C (p.getD 0 0)⁻¹ : K[X]) := isUnit_C.mpr (isUnit_iff_ne_zero.mpr (inv_ne_zero (hargs p hp)))
          exact (associated_unit_mul_left _ _ hu).symm
      · exact ih (fun q hq => ha q (by simp [hq])) w hw
  rw [lcm_thr bal hthr h1, h1, cleanup_coarse c1]
  congr 2
  conv_rhs => rw [← List.map_id mults]
  apply List.map_congr_left
  intro z hz
  rw [cleanup_coarse (hm (fun p hp => hp) h3 z hz), lcm_trim h1 z hz, id]

/-! ### `transfer_to_state` returns for every threshold up to one -/

theorem t2sEntry_succ (tol : K) (num den : List K) (h0 : den.getD 0 0 ≠ 0) (hN : Trimmed num)
    (hp : (toPoly num).degree ≤ (toPoly den).degree) :
    ∃ d n e, t2sEntry tol num den = .ok (d, n, e) ∧ e.getD 0 0 = 1 ∧ n ≠ [] ∧
      (n.length ≤ e.length - 1 ∨ n.length = 1) := by
  obtain ⟨d, n, e, h1, h2⟩ := t2sEntry_ok (L := K) (le_refl (0 : K)) num den h0 hp
  have hnn : num ≠ [] := by rcases hN with rfl | ⟨a, t, rfl, -⟩ <;> simp
  have base : ∃ d n e, t2sEntry 0 num den = .ok (d, n, e) ∧ e.getD 0 0 = 1 ∧ n ≠ [] ∧
      (n.length ≤ e.length - 1 ∨ n.length = 1) := ⟨d, n, e, h1, h2.head, h2.ne hnn, h2.len hN⟩
  obtain ⟨a, t, rfl, ha⟩ : ∃ a t, den = a :: t ∧ a ≠ 0 := by
    cases den with
    | nil => simp at h0
    | cons b t => exact ⟨b, t, rfl, by simpa using h0⟩
  unfold t2sEntry t2sSplit at base ⊢
  simp only [trimZeros_of_cons ha, bind, Except.bind, List.length_cons] at base ⊢
  by_cases h1 : t.length + 1 = 1
  · rw [if_pos h1] at base ⊢
    exact base
  · rw [if_neg h1] at base ⊢
    by_cases h2 : (trimZeros num).length < t.length + 1
    · rw [if_pos h2] at base ⊢
      exact base
    · rw [if_neg h2] at base ⊢
      cases hq : polydiv (trimZeros num) (a :: t) with
      | error e => rw [hq] at base; obtain ⟨_, _, _, h, -⟩ := base; simp at h
      | ok qr =>
        obtain ⟨q, r⟩ := qr
        rw [hq] at base
        simp only [cleanup_nonpos (le_refl (0 : K))] at base ⊢
        by_cases h3 : q.length ≠ 1
        · simp only [if_pos h3] at base
          obtain ⟨_, _, _, h, -⟩ := base; simp at h
        · simp only [if_neg h3] at base ⊢
          by_cases h4 : ∀ x ∈ r, x = 0
          · have h5 : ∀ x ∈ cleanup tol r, x = 0 := by
              intro x hx
              obtain ⟨y, hy, rfl⟩ := List.mem_map.mp hx
              simp [h4 y hy]
            simp only [if_pos h4, if_pos h5] at base ⊢
            exact base
          · simp only [if_neg h4] at base
            obtain ⟨_, _, _, h, g1, g2, g3⟩ := base
            simp only [Except.ok.injEq, Prod.mk.injEq] at h
            obtain ⟨rfl, rfl, rfl⟩ := h
            by_cases h5 : ∀ x ∈ cleanup tol r, x = 0
            · simp only [if_pos h5]
              exact ⟨_, _, _, rfl, by simp, by simp, by simp⟩
            · simp only [if_neg h5]
              refine ⟨_, _, _, rfl, g1, ?_, ?_⟩
              · intro e
                apply g2
                have := congrArg List.length e
                simp only [List.length_map, cleanup_length, List.length_nil] at this
                exact List.length_eq_zero_iff.mp (by simpa using this)
              · simpa only [List.length_map, cleanup_length] using g3

theorem realize_succ {p m : ℕ} (num : Fin p → Fin m → List K) (den : Fin m → List K)
    (h0 : ∀ y, (den y).getD 0 0 ≠ 0) : ∃ abc, realize num den = .ok abc := by
  have h : ∀ y, (compBlock (den y)).toOption.isSome := by
    intro y; rw [compBlock_eq _ (h0 y)]; rfl
  unfold realize
  rw [dif_pos h]
  exact ⟨_, rfl⟩

theorem t2sColumn_succ (E : TNum K) (hbal : ∀ polys i, E.bal polys i ≠ 0) (hthr : E.lcmTol ≤ 1) {p : ℕ}
    (hp : 0 < p) (num den : Fin p → List K) (h0 : ∀ x, (den x).getD 0 0 = 1) (hne : ∀ x, num x ≠ []) :
    ∃ l nums, t2sColumn E num den = .ok (l, nums) ∧ l.getD 0 0 = 1 := by
  have hmem : ∀ q ∈ List.ofFn den, q.getD 0 0 ≠ 0 := by
    intro q hq
    obtain ⟨x, rfl⟩ := List.mem_ofFn.mp hq
    rw [h0]; exact one_ne_zero
  have hnil : List.ofFn den ≠ [] := by
    intro e; have := congrArg List.length e; simp at this; omega
  obtain ⟨l, mults, h1, h2, h3, h4⟩ := lcm_succ E.bal hbal hthr (List.ofFn den) hnil hmem
  have hlen : mults.length = p := by rw [h3]; simp
  have hcol : ∀ x : Fin p, ∃ r, (do
      let r ← polymul [num x, mults.getD x []] false
      let t := trimZeros r
      (.ok (if t.length = 0 then [0] else t) : Res (List K))) = .ok r := by
    intro x
    have hx : (x : ℕ) < mults.length := by rw [hlen]; exact x.2
    have hm : mults.getD x [] ≠ [] := by
      rw [List.getD_eq_getElem _ _ hx]
      intro e
      have := h4 _ (List.getElem_mem hx)
      rw [e] at this
      simp at this
    obtain ⟨r, e1, -⟩ := C01_polymul_untrimmed (num x) [mults.getD x []] (hne x) (by simpa using hm)
    exact ⟨_, by simp only [e1, bind, Except.bind]; rfl⟩
  choose nums hn1 using hcol
  refine ⟨l, nums, ?_, h2⟩
  unfold t2sColumn
  have := finM_ok.mpr hn1
  simp only [h1, bind, Except.bind] at this ⊢
  rw [this]

theorem t2sTall_succ (E : TNum K) (hbal : ∀ polys i, E.bal polys i ≠ 0) (hthr : E.lcmTol ≤ 1) {p m : ℕ}
    (hp : 0 < p) (hm : 0 < m) (num den : Fin p → Fin m → List K) (h0 : ∀ x y, (den x y).getD 0 0 = 1)
    (hne : ∀ x y, num x y ≠ [])
    (hlen : ∀ x y, (num x y).length ≤ (den x y).length - 1 ∨ (num x y).length = 1) :
    ∃ abc, t2sTall E num den = .ok abc := by
  unfold t2sTall
  by_cases h : ∃ d, ∀ x y, den x y = d
  · rw [dif_pos h]
    have hd := h.choose_spec
    set d := h.choose with hdd
    have hd0 : d.getD 0 0 = 1 := by rw [← hd ⟨0, hp⟩ ⟨0, hm⟩]; exact h0 _ _
    unfold t2sCommon
    rw [if_neg]
    · exact realize_succ num (fun _ => d) fun _ => by rw [hd0]; exact one_ne_zero
    · rintro ⟨x, y, -, h1, h2⟩
      rcases hlen x y with h3 | h3
      · rw [hd] at h3; omega
      · exact h2 h3
  · rw [dif_neg h]
    have hc := fun y => t2sColumn_succ E hbal hthr hp (fun x => num x y) (fun x => den x y)
      (fun x => h0 x y) (fun x => hne x y)
    choose l nums h1 h2 using hc
    unfold t2sLcm
    have hf : finM (fun y : Fin m => t2sColumn E (fun x => num x y) (fun x => den x y))
        = .ok fun y => (l y, nums y) := finM_ok.mpr h1
    simp only [hf, bind, Except.bind]
    exact realize_succ _ _ fun y => by rw [h2]; exact one_ne_zero

/-- `transfer_to_state` returns for MIMO data in normal form, whatever the rounding of the remainders and
with any rounding of the least common multiples up to one. -/
theorem t2sMimo_succ (E : TNum K) (hbal : ∀ polys i, E.bal polys i ≠ 0) (hthr : E.lcmTol ≤ 1) {p m : ℕ}
    (hp : 0 < p) (hm : 0 < m) (num den : Fin p → Fin m → List K) (h0 : ∀ x y, (den x y).getD 0 0 ≠ 0)
    (hN : ∀ x y, Trimmed (num x y)) (hdeg : ∀ x y, (toPoly (num x y)).degree ≤ (toPoly (den x y)).degree) :
    ∃ r, t2sMimo E num den = .ok r := by
  have hE := fun x y => t2sEntry_succ E.remTol (num x y) (den x y) (h0 x y) (hN x y) (hdeg x y)
  choose d n e h1 h2 h3 h4 using hE
  have hmat : matM (fun x y => t2sEntry E.remTol (num x y) (den x y))
      = .ok fun x y => (d x y, n x y, e x y) := matM_ok.mpr h1
  unfold t2sMimo
  simp only [hmat, bind, Except.bind]
  by_cases hz : ∀ x y, n x y = [0]
  · rw [if_pos hz]
    exact ⟨_, rfl⟩
  · rw [if_neg hz]
    by_cases hmp : m ≤ p
    · rw [if_pos hmp]
      obtain ⟨abc, h⟩ := t2sTall_succ E hbal hthr hp hm n e h2 h3 h4
      rw [h]
      exact ⟨_, rfl⟩
    · rw [if_neg hmp]
      obtain ⟨abc, h⟩ := t2sTall_succ E hbal hthr hm hp (fun y x => n x y) (fun y x => e x y)
        (fun y x => h2 x y) (fun y x => h3 x y) (fun y x => h4 x y)
      rw [h]
      exact ⟨_, rfl⟩

/-! ### `transfer_to_state` without effective rounding -/

/-- The same balancing, no rounding. -/
def TNum.exact (E : TNum K) : TNum K := { E with lcmTol := 0, remTol := 0 }

omit [LinearOrder K] [IsStrictOrderedRing K] in
theorem mod_of_eq {N D R : K[X]} {c : K} (h : N = C c * D + R) (hd : R.degree < D.degree) : N % D = R := by
  rw [h, add_mod, EuclideanDomain.mod_eq_zero.mpr (dvd_mul_left D (C c)), zero_add,
    (mod_eq_self_iff (by rintro rfl; simp at hd)).mpr hd]

/-- What an entry becomes; its denominator is the one that matters for the dynamics. -/
theorem t2sEntry_clear {tol : K} (num den : List K) (h0 : den.getD 0 0 ≠ 0)
    (hp : (toPoly num).degree ≤ (toPoly den).degree) (hc : Coarse tol (toPoly num % toPoly den)) :
    ∃ d n e, t2sEntry tol num den = .ok (d, n, e) ∧ t2sEntry 0 num den = .ok (d, n, e) ∧
      Associated (dynDen (toPoly num) (toPoly den)) (toPoly e) := by
  obtain ⟨a, t, rfl, ha⟩ : ∃ a t, den = a :: t ∧ a ≠ 0 := by
    cases den with
    | nil => simp at h0
    | cons b t => exact ⟨b, t, rfl, by simpa using h0⟩
  have hdd := degree_toPoly_cons ha t
  have hnl : (trimZeros num).length ≤ t.length + 1 := by
    rcases trimZeros_cases num with ⟨e, -⟩ | ⟨b, u, e, hb⟩
    · rw [e]; simp
    · rw [← toPoly_trimZeros, e, degree_toPoly_cons hb, hdd] at hp
      rw [e]; simpa using hp
  have hu : IsUnit (C (1 / a) : K[X]) := isUnit_C.mpr (isUnit_iff_ne_zero.mpr (one_div_ne_zero ha))
  have hkeep : dynDen (toPoly num) (toPoly (a :: t)) = toPoly (a :: t) →
      Associated (dynDen (toPoly num) (toPoly (a :: t))) (toPoly ((a :: t).map fun x => 1 / a * x)) := by
    intro e
    rw [e, toPoly_map_mul]
    exact (associated_unit_mul_left _ _ hu).symm
  unfold t2sEntry t2sSplit
  simp only [trimZeros_of_cons ha, bind, Except.bind, List.length_cons]
  by_cases h1 : t.length + 1 = 1
  · have ht : t = [] := List.length_eq_zero_iff.mp (by omega)
    subst ht
    rw [if_pos h1, if_neg (by simpa using hnl)]
    refine ⟨_, _, _, rfl, rfl, ?_⟩
    have e1 : IsUnit (toPoly [a]) := by
      simp only [toPoly_cons, toPoly_nil, List.length_nil, pow_zero, mul_one, add_zero]
      exact isUnit_C.mpr (isUnit_iff_ne_zero.mpr ha)
    have e2 : IsUnit (dynDen (toPoly num) (toPoly [a])) := by
      unfold dynDen; split_ifs
      · exact isUnit_one
      · exact e1
    have e3 : toPoly ([a].map fun x => 1 / a * x) = 1 := by simp [ha]
    rw [e3]
    exact associated_one_iff_isUnit.mpr e2
  · simp only [if_neg h1]
    by_cases h2 : (trimZeros num).length < t.length + 1
    · simp only [if_pos h2]
      refine ⟨_, _, _, rfl, rfl, hkeep ?_⟩
      unfold dynDen
      rw [if_neg]
      rintro ⟨hn, hdv⟩
      have h3 := degree_le_of_dvd hdv hn
      rw [hdd] at h3
      have h4 := degree_toPoly_lt (trimZeros num)
      rw [toPoly_trimZeros] at h4
      have h5 : ((trimZeros num).length : WithBot ℕ) ≤ (t.length : WithBot ℕ) := by
        have : (trimZeros num).length ≤ t.length := by omega
        exact_mod_cast this
      exact absurd (h3.trans_lt h4) (not_lt.mpr h5)
    · simp only [if_neg h2]
      obtain ⟨c, r, e1, e2, e3, e4⟩ := polydiv_proper (num := trimZeros num) (den := a :: t)
        (by simpa using ha) (trimZeros_idem _) (by simpa using hnl) (by simp; omega)
      rw [toPoly_trimZeros] at e2
      have hmod := mod_of_eq e2 e3
      rw [hmod] at hc
      simp only [e1, cleanup_coarse hc, cleanup_nonpos (le_refl (0 : K)), List.length_singleton, ne_eq,
        not_true_eq_false, if_false, List.getD_cons_zero]
      have hn : toPoly num ≠ 0 := by
        intro e
        rcases trimZeros_cases num with ⟨e', -⟩ | ⟨b, u, e', hb⟩
        · rw [e'] at h2; simp at h2
        · have := degree_toPoly_cons hb u
          rw [← e', toPoly_trimZeros, e] at this
          simp at this
      by_cases h3 : ∀ x ∈ r, x = 0
      · simp only [if_pos h3]
        refine ⟨_, _, _, rfl, rfl, ?_⟩
        have hr : toPoly r = 0 := (toPoly_eq_zero_iff r).mpr h3
        unfold dynDen
        rw [if_pos ⟨hn, by rw [e2, hr, add_zero]; exact dvd_mul_left _ _⟩]
        simp
      · simp only [if_neg h3]
        refine ⟨_, _, _, rfl, rfl, hkeep ?_⟩
        unfold dynDen
        rw [if_neg]
        rintro ⟨-, hdv⟩
        apply h3
        rw [← toPoly_eq_zero_iff, ← hmod]
        exact EuclideanDomain.mod_eq_zero.mpr hdv

theorem t2sTall_exact (E : TNum K) (hbal : ∀ polys i, E.bal polys i ≠ 0) {p m : ℕ} (hp : 0 < p)
    (num den : Fin p → Fin m → List K) (h0 : ∀ x y, (den x y).getD 0 0 ≠ 0)
    (hc : ∀ y, CoarseLcm E.lcmTol (List.ofFn fun x => toPoly (den x y))) :
    t2sTall E num den = t2sTall E.exact num den := by
  have hcol : ∀ y, t2sColumn E (fun x => num x y) (fun x => den x y)
      = t2sColumn E.exact (fun x => num x y) (fun x => den x y) := by
    intro y
    have : lcm E.bal E.lcmTol (List.ofFn fun x => den x y) = lcm E.bal 0 (List.ofFn fun x => den x y) := by
      apply lcm_coarse E.bal hbal
      · intro e; have := congrArg List.length e; simp at this; omega
      · intro q hq
        obtain ⟨x, rfl⟩ := List.mem_ofFn.mp hq
        exact h0 x y
      · rw [List.map_ofFn]
        exact hc y
    unfold t2sColumn TNum.exact
    rw [this]
  unfold t2sTall t2sLcm
  simp only [hcol]

/-- If no small coefficient occurs the rounding does nothing. -/
theorem t2sMimo_exact (E : TNum K) (hbal : ∀ polys i, E.bal polys i ≠ 0) {p m : ℕ} (hp : 0 < p) (hm : 0 < m)
    (num den : Fin p → Fin m → List K) (h0 : ∀ x y, (den x y).getD 0 0 ≠ 0)
    (hdeg : ∀ x y, (toPoly (num x y)).degree ≤ (toPoly (den x y)).degree)
    (hc : ClearMatrix E.lcmTol E.remTol (fun i j => toPoly (num i j)) (fun i j => toPoly (den i j))) :
    t2sMimo E num den = t2sMimo E.exact num den := by
  have hE := fun x y => t2sEntry_clear (num x y) (den x y) (h0 x y) (hdeg x y) (hc.1 x y)
  choose d n e h1 h1' h2 using hE
  have hhead : ∀ x y, (e x y).getD 0 0 ≠ 0 := by
    intro x y
    obtain ⟨d', n', e', g1, g2⟩ := t2sEntry_ok (L := K) (le_refl (0 : K)) (num x y) (den x y) (h0 x y) (hdeg x y)
    rw [h1' x y] at g1
    simp only [Except.ok.injEq, Prod.mk.injEq] at g1
    rw [g1.2.2, g2.head]
    exact one_ne_zero
  have hmat : matM (fun x y => t2sEntry E.remTol (num x y) (den x y))
      = .ok fun x y => (d x y, n x y, e x y) := matM_ok.mpr h1
  have hmat' : matM (fun x y => t2sEntry E.exact.remTol (num x y) (den x y))
      = .ok fun x y => (d x y, n x y, e x y) := matM_ok.mpr h1'
  unfold t2sMimo
  simp only [hmat, hmat', bind, Except.bind]
  have key : ∀ {k : ℕ} (f g : Fin k → K[X]), (∀ i, Associated (f i) (g i)) →
      List.Forall₂ Associated (List.ofFn f) (List.ofFn g) := by
    intro k f g h
    rw [List.forall₂_iff_get]
    exact ⟨by simp, fun i hi hi' => by simpa using h ⟨i, by simpa using hi⟩⟩
  by_cases hz : ∀ x y, n x y = [0]
  · rw [if_pos hz, if_pos hz]
  · rw [if_neg hz, if_neg hz]
    by_cases hmp : m ≤ p
    · rw [if_pos hmp, if_pos hmp, t2sTall_exact E hbal hp n e hhead fun y =>
        coarseLcm_congr (key _ _ fun x => h2 x y) (hc.2.1 hmp y)]
    · rw [if_neg hmp, if_neg hmp, t2sTall_exact E hbal hm (fun y x => n x y) (fun y x => e x y)
        (fun y x => hhead x y) fun x => coarseLcm_congr (key _ _ fun y => h2 x y) (hc.2.2 (by omega) x)]

theorem t2sSiso_exact {tol : K} (num den : List K) (hp : ProperPair num den) (hd : 0 < (toPoly den).degree)
    (hc : Coarse tol (C (toPoly den).leadingCoeff⁻¹ * (toPoly num % toPoly den))) :
    t2sSiso tol num den = t2sSiso 0 num den := by
  obtain ⟨a, t, htr, ha⟩ : ∃ a t, trimZeros den = a :: t ∧ a ≠ 0 := by
    rcases trimZeros_cases den with ⟨-, h⟩ | h
    · exact absurd h hp.1
    · exact h
  have hden : toPoly (a :: t) = toPoly den := by rw [← htr, toPoly_trimZeros]
  have hdd := degree_toPoly_cons ha t
  have ht : t ≠ [] := by
    rintro rfl
    rw [← hden, hdd] at hd
    simp at hd
  have htl : 0 < t.length := List.length_pos_iff.mpr ht
  rw [← hden, leadingCoeff_toPoly_cons ha, hden] at hc
  unfold t2sSiso
  simp only [companion_eq den htr ha ht, bind, Except.bind, Arr.of_r, vstack_last _ htl, htr,
    List.getD_cons_zero]
  set n' := (trimZeros num).map (fun x => x / a) with hn'
  set d' := (a :: t).map (fun x => x / a) with hd'
  have hnp : toPoly n' = C a⁻¹ * toPoly num := by rw [hn', toPoly_map_div, toPoly_trimZeros]
  have hdp : toPoly d' = C a⁻¹ * toPoly den := by rw [hd', toPoly_map_div, hden]
  have hd'l : d'.length = t.length + 1 := by simp [hd']
  have hd0 : d'.getD 0 0 ≠ 0 := by simp [hd', ha]
  have hnt : trimZeros n' = n' := by
    rcases trimZeros_cases num with ⟨e, -⟩ | ⟨b, u, e, hb⟩
    · rw [hn', e]; rfl
    · rw [hn', e, List.map_cons, trimZeros_of_cons (div_ne_zero hb ha)]
  by_cases hlt : n'.length < d'.length
  · rw [if_pos hlt, if_pos hlt]
  · rw [if_neg hlt, if_neg hlt]
    have hle : n'.length ≤ d'.length := by
      by_cases hn0 : toPoly n' = 0
      · rw [← trimZeros_eq_nil_iff, hnt] at hn0; rw [hn0]; simp
      · obtain ⟨e, -⟩ := length_of_trimmed hnt hn0
        have h1 : (toPoly n').degree ≤ (toPoly den).degree := by
          rw [hnp, degree_C_mul (inv_ne_zero ha)]; exact hp.2
        rw [e, ← hden, hdd] at h1
        norm_cast at h1
        omega
    obtain ⟨c, r, h1, h2, h3, -⟩ := polydiv_proper hd0 hnt hle (by omega)
    have hr : C a⁻¹ * (toPoly num % toPoly den) = toPoly r := by
      have hC : C a * C a⁻¹ = (1 : K[X]) := by rw [← C_mul, mul_inv_cancel₀ ha, C_1]
      have e1 : toPoly num = C c * toPoly den + C a * toPoly r := by
        rw [hnp, hdp] at h2
        linear_combination C a * h2 + (C c * toPoly den - toPoly num) * hC
      rw [mod_of_eq e1 (by
        rw [degree_C_mul ha]
        rwa [hdp, degree_C_mul (inv_ne_zero ha)] at h3), ← mul_assoc, mul_comm (C a⁻¹), hC, one_mul]
    rw [hr] at hc
    simp only [h1, cleanup_coarse hc, cleanup_nonpos (le_refl (0 : K))]

theorem noRounding_nonpos {τl τr : K} (hl : τl ≤ 0) (hr : τr ≤ 0) {p m : ℕ} (N D : Fin p → Fin m → List K) :
    NoRounding τl τr N D :=
  ⟨fun _ _ _ => coarse_nonpos hr _, fun _ => ⟨fun _ _ => coarse_nonpos hr _, fun _ _ => coarseLcm_nonpos hl _,
    fun _ _ => coarseLcm_nonpos hl _⟩⟩

theorem coarse_one {τ : K} (h : τ ≤ 1) : Coarse τ (1 : K[X]) := by
  intro k
  rw [coeff_one]
  split_ifs
  · right; simpa using h
  · left; rfl

theorem coarseLcm_one {τ : K} (hτ : τ ≤ 1) {P : K[X]} (hP : Coarse τ (C P.leadingCoeff⁻¹ * P)) :
    CoarseLcm τ [P, 1] := by
  intro M hM
  have hP0 : P ≠ 0 := by
    rintro rfl
    have := hM.2.1 0 (by simp)
    rw [zero_dvd_iff] at this
    exact hM.1.ne_zero this
  have hl : P.leadingCoeff⁻¹ ≠ 0 := inv_ne_zero (leadingCoeff_ne_zero.mpr hP0)
  have hm : (C P.leadingCoeff⁻¹ * P).Monic := by
    rw [mul_comm]; exact monic_mul_leadingCoeff_inv hP0
  have ha : Associated (C P.leadingCoeff⁻¹ * P) P :=
    associated_unit_mul_left P _ (isUnit_C.mpr hl.isUnit)
  have hMP : Associated M P := associated_of_dvd_dvd (hM.2.2 P (by simp)) (hM.2.1 P (by simp))
  have hM' : M = C P.leadingCoeff⁻¹ * P := eq_of_monic_of_associated hM.1 hm (hMP.trans ha.symm)
  refine ⟨hM' ▸ hP, ?_⟩
  intro q hq Q hQ hQq
  simp only [List.mem_cons, List.not_mem_nil, or_false] at hq
  rcases hq with rfl | rfl
  · have h1 : Associated (Q * q) (1 * q) := by rw [one_mul]; exact hQq.trans hMP
    have h2 : Associated Q 1 := h1.of_mul_right (Associated.refl q) hP0
    rw [eq_of_monic_of_associated hQ monic_one h2]
    exact coarse_one hτ
  · rw [mul_one] at hQq
    rw [eq_of_monic_of_associated hQ hM.1 hQq]
    exact hM' ▸ hP

theorem denClear_nonpos {τ : K} (h : τ ≤ 0) (G : TransferM K) : DenClear τ G := fun _ _ => coarse_nonpos h _

theorem matmulClear_nonpos {τ : K} (h : τ ≤ 0) (p k m : ℕ) (G H : TransferM K) : MatmulClear τ p k m G H :=
  fun _ _ _ _ _ => coarse_nonpos h _

omit [IsStrictOrderedRing K] in
/-- All monic divisors of a common multiple are coarse: so is the least common multiple and its cofactors. -/
theorem coarseLcm_of_factors {τ : K} {W : K[X]} (hW : CoarseFactors τ W) {args : List K[X]}
    (h : ∀ q ∈ args, q ∣ W) : CoarseLcm τ args := by
  intro M hM
  have h1 : M ∣ W := hM.2.2 W h
  exact ⟨hW M hM.1 h1, fun q _ Q hQ ha => hW Q hQ (((dvd_mul_right Q q).trans ha.dvd).trans h1)⟩

omit [IsStrictOrderedRing K] in
theorem coarseFactors_dvd {τ : K} {W W' : K[X]} (hW : CoarseFactors τ W) (h : W' ∣ W) : CoarseFactors τ W' :=
  fun P hP hd => hW P hP (hd.trans h)

theorem clearModel_nonpos {τl τr : K} (hl : τl ≤ 0) (hr : τr ≤ 0) (G : TransferM K) : ClearModel τl τr G :=
  noRounding_nonpos hl hr _ _

omit [IsStrictOrderedRing K] in
theorem clearModel_iff {τl τr : K} {G : TransferM K} {p m : ℕ} {N D : Matrix (Fin p) (Fin m) (List K)}
    (hN : G.num = Arr.of N) (hD : G.den = Arr.of D) : ClearModel τl τr G ↔ NoRounding τl τr N D := by
  obtain ⟨a, b, c, d⟩ := G
  simp only at hN hD
  subst hN hD
  have e : ∀ W : Matrix (Fin p) (Fin m) (List K),
      (fun (i : Fin p) (j : Fin m) => (Arr.of W).entry i j) = W := fun W => by
    funext i j
    simp [Arr.entry]
  show NoRounding τl τr (fun (i : Fin p) (j : Fin m) => (Arr.of N).entry i j) (fun (i : Fin p) (j : Fin m) => (Arr.of D).entry i j) ↔ _
  rw [e, e]

theorem coarse_zero (τ : K) : Coarse τ (0 : K[X]) := fun k => Or.inl (coeff_zero k)

theorem coarseLcm_units {τ : K} (hτ : τ ≤ 1) {args : List K[X]} (h : ∀ q ∈ args, IsUnit q) : CoarseLcm τ args := by
  intro M hM
  have hM1 : M = 1 := eq_of_monic_of_associated hM.1 monic_one
    (associated_one_iff_isUnit.mpr (isUnit_of_dvd_one (hM.2.2 1 fun q hq => (h q hq).dvd)))
  refine ⟨hM1 ▸ coarse_one hτ, fun q hq Q hQ ha => ?_⟩
  have h1 : Associated Q 1 := by
    have := (associated_mul_unit_left Q q (h q hq)).symm.trans ha
    rwa [hM1] at this
  rw [eq_of_monic_of_associated hQ monic_one h1]
  exact coarse_one hτ

/-- The conversion of a static model never rounds. -/
theorem clearModel_gain {τl τr : K} (hl : τl ≤ 1) {G : TransferM K} {p m : ℕ} {N D : Matrix (Fin p) (Fin m) (List K)}
    (hG : Normal G p m N D) (hg : G.isgain = true) : ClearModel τl τr G := by
  rw [clearModel_iff hG.num hG.den]
  have hu : ∀ i j, IsUnit (toPoly (D i j)) := fun i j => by
    obtain ⟨d, hd⟩ := List.length_eq_one_iff.mp (hG.flag.mp hg i j)
    have h0 := hG.lead i j
    rw [hd] at h0 ⊢
    simp only [List.getD_cons_zero] at h0
    simpa [toPoly] using h0
  have hr : ∀ i j, toPoly (N i j) % toPoly (D i j) = 0 := fun i j => EuclideanDomain.mod_eq_zero.mpr (hu i j).dvd
  have hd : ∀ i j, IsUnit (dynDen (toPoly (N i j)) (toPoly (D i j))) := fun i j => by
    unfold dynDen
    split_ifs
    · exact isUnit_one
    · exact hu i j
  refine ⟨fun _ i j => ?_, fun _ => ⟨fun i j => ?_, fun _ j => ?_, fun _ i => ?_⟩⟩
  · rw [hr, mul_zero]; exact coarse_zero _
  · rw [hr]; exact coarse_zero _
  · refine coarseLcm_units hl fun q hq => ?_
    obtain ⟨i, rfl⟩ := List.mem_ofFn.mp hq
    exact hd i j
  · refine coarseLcm_units hl fun q hq => ?_
    obtain ⟨j, rfl⟩ := List.mem_ofFn.mp hq
    exact hd i j

end Harold
