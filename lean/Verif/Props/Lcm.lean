import Verif.Lemmas.Lcm

/-!
# C06: `haroldlcm`
-/

namespace Harold

open Matrix Polynomial Harold.Spec

variable {K : Type} [Field K] [LinearOrder K]

/-- A list of lists with the given entries at the constants (size one) and the rows, shifted by a
leading zero, elsewhere. -/
theorem lcmAssemble_forall₂ (l : List K) (R : List K → List K → Prop) (args : List (List K)) :
    ∀ rows, List.Forall₂ R (args.filter fun x => decide (1 < x.length)) rows → (∀ x ∈ args, x ≠ []) →
      List.Forall₂ (fun p m => if p.length = 1 then m = l else ∃ r, m = 0 :: r ∧ R p r) args
        (lcmAssemble l args rows) := by
  induction args with
  | nil => intro rows _ _; simp [lcmAssemble]
  | cons p ps ih =>
    intro rows h hne
    have hp : p ≠ [] := hne p (by simp)
    have hlen : 0 < p.length := List.length_pos_iff.mpr hp
    have hne' : ∀ x ∈ ps, x ≠ [] := fun x hx => hne x (by simp [hx])
    rw [lcmAssemble.eq_def]
    simp only []
    by_cases h1 : p.length = 1
    · rw [if_pos h1]
      refine List.Forall₂.cons (by rw [if_pos h1]) (ih rows ?_ hne')
      rw [List.filter_cons_of_neg (by simp; omega)] at h
      exact h
    · rw [if_neg h1]
      rw [List.filter_cons_of_pos (by simp; omega)] at h
      cases h with
      | cons hR hrest =>
        refine List.Forall₂.cons ?_ (ih _ hrest hne')
        rw [if_neg h1]
        exact ⟨_, rfl, hR⟩

variable [IsStrictOrderedRing K]

theorem cleanup_nonpos {thr : K} (h : thr ≤ 0) (l : List K) : cleanup thr l = l := by
  rw [cleanup]
  conv_rhs => rw [← List.map_id l]
  apply List.map_congr_left
  intro a _
  rw [if_neg (not_lt.mpr (le_trans h (abs_nonneg a))), id]

omit [IsStrictOrderedRing K] in
theorem toPoly_const {p : List K} (h : p.length = 1) : toPoly p = C (p.getD 0 0) := by
  obtain ⟨a, rfl⟩ := List.length_eq_one_iff.mp h
  simp

theorem lcm_core_lead (bal : ∀ polys : List (List K), BIdx polys → K)
    (hbal : ∀ polys i, bal polys i ≠ 0) {thr : K} (hthr : thr ≤ 0) (args : List (List K))
    (hne : args ≠ []) (hargs : ∀ p ∈ args, p.getD 0 0 ≠ 0) :
    ∃ l mults, lcm bal thr args = .ok (l, mults) ∧ (∃ t, l = 1 :: t) ∧ (toPoly l).Monic ∧
      List.Forall₂ (fun p m => toPoly m * (C (p.getD 0 0)⁻¹ * toPoly p) = toPoly l) args mults ∧
      ∀ M : K[X], (∀ p ∈ args, toPoly p ∣ M) → toPoly l ∣ M := by
  have hnil : ∀ x ∈ args, x ≠ [] := by
    rintro x hx rfl; exact hargs _ hx (by simp)
  unfold lcm
  rw [if_neg (by push Not; exact hnil)]
  by_cases hall : ∀ x ∈ args, x.length = 1
  · rw [if_pos hall]
    refine ⟨_, _, rfl, ⟨[], rfl⟩, by simp, ?_, by simp⟩
    rw [List.forall₂_map_right_iff, List.forall₂_same]
    intro p hp
    rw [toPoly_const (hall p hp)]
    simp only [toPoly_cons, List.length_nil, pow_zero, mul_one, toPoly_nil, add_zero]
    rw [← C_mul, ← C_mul, inv_mul_cancel₀ (hargs p hp), one_mul]
  rw [if_neg hall]
  set popped := args.filter fun x => decide (1 < x.length) with hpop
  have hmem : ∀ p ∈ popped, p ∈ args ∧ 1 < p.length := by
    intro p hp; simpa [hpop] using hp
  have hpne : popped ≠ [] := by
    intro e
    push Not at hall
    obtain ⟨x, hx, hx1⟩ := hall
    have : x ∈ popped := by
      have := List.length_pos_iff.mpr (hnil x hx)
      simp [hpop, hx]; omega
    rw [e] at this; simp at this
  -- the two branches
  have hcore : ∃ (t : List K) (rows : List (List K)),
      lcmPopped bal popped = .ok (1 :: t, rows) ∧
      List.Forall₂ (fun p m => toPoly m * (C (p.getD 0 0)⁻¹ * toPoly p) = toPoly (1 :: t)
        ∧ m.length = t.length) popped rows ∧
      ∀ M : K[X], (∀ p ∈ popped, toPoly p ∣ M) → toPoly (1 :: t) ∣ M := by
    unfold lcmPopped
    by_cases h2 : 1 < popped.length
    · rw [if_pos h2]
      exact lcmMany_ok popped (bal popped) (hbal popped) hpne
        (fun p hp => ⟨hargs p (hmem p hp).1, (hmem p hp).2⟩)
    · rw [if_neg h2]
      have h1 : popped.length = 1 := by
        have := List.length_pos_iff.mpr hpne; omega
      obtain ⟨p, hp⟩ := List.length_eq_one_iff.mp h1
      have hpm := hmem p (by rw [hp]; simp)
      have hp0 := hargs p hpm.1
      cases p with
      | nil => simp at hp0
      | cons a s =>
        have ha : a ≠ 0 := by simpa using hp0
        have hs : s.length ≠ 0 := by have := hpm.2; simp at this; omega
        have htr : trimZeros (a :: s) = a :: s := by simp [trimZeros, ha]
        rw [hp, List.getD_cons_zero, htr]
        have hdiv : ((a :: s).map fun x => x / a) = 1 :: s.map fun x => x / a := by
          simp [ha]
        simp only [if_neg hs, hdiv]
        have hpoly : toPoly (1 :: s.map fun x => x / a) = C a⁻¹ * toPoly (a :: s) := by
          rw [← toPoly_map_mul, ← hdiv]
          congr 1
          apply List.map_congr_left
          intro x _; rw [div_eq_mul_inv, mul_comm]
        refine ⟨_, _, rfl, ?_, ?_⟩
        · refine List.Forall₂.cons ⟨?_, ?_⟩ List.Forall₂.nil
          · rw [hpoly, toPoly_append, toPoly_replicate_zero]
            simp
          · simp; omega
        · intro M hM
          rw [hpoly]
          obtain ⟨q, hq⟩ := hM (a :: s) (by simp)
          refine ⟨C a * q, ?_⟩
          rw [hq]
          have : C a⁻¹ * C a = (1 : K[X]) := by rw [← C_mul, inv_mul_cancel₀ ha, C_1]
          linear_combination (-(toPoly (a :: s) * q)) * this
  obtain ⟨t, rows, heq, hF, hM⟩ := hcore
  simp only [heq, bind, Except.bind, cleanup_nonpos hthr]
  have hmon : (toPoly (1 :: t)).Monic := by
    have := leadingCoeff_toPoly_cons (one_ne_zero (α := K)) t
    exact this
  refine ⟨_, _, rfl, ⟨_, rfl⟩, hmon, ?_, ?_⟩
  · rw [List.forall₂_map_right_iff]
    simp only [toPoly_trimZeros]
    by_cases hc : ∃ x ∈ args, x.length = 1
    · rw [if_pos hc]
      have h3 := lcmAssemble_forall₂ (1 :: t) _ args rows hF hnil
      refine List.Forall₂.imp ?_ ((List.forall₂_and_left _ _).mpr ⟨hargs, h3⟩)
      intro p m ⟨hp0, h⟩
      by_cases h1 : p.length = 1
      · rw [if_pos h1] at h
        rw [h, toPoly_const h1, ← C_mul, inv_mul_cancel₀ hp0, C_1, mul_one]
      · rw [if_neg h1] at h
        obtain ⟨r, rfl, hr, -⟩ := h
        rw [← hr]; simp
    · rw [if_neg hc]
      push Not at hc
      have : popped = args := by
        rw [hpop, List.filter_eq_self]
        intro x hx
        have := List.length_pos_iff.mpr (hnil x hx)
        have := hc x hx
        simp; omega
      rw [this] at hF
      exact List.Forall₂.imp (fun p m h => h.1) hF
  · intro M h
    exact hM M fun p hp => h p (hmem p hp).1

theorem lcm_core (bal : ∀ polys : List (List K), BIdx polys → K)
    (hbal : ∀ polys i, bal polys i ≠ 0) {thr : K} (hthr : thr ≤ 0) (args : List (List K))
    (hne : args ≠ []) (hargs : ∀ p ∈ args, p.getD 0 0 ≠ 0) :
    ∃ l mults, lcm bal thr args = .ok (l, mults) ∧ (toPoly l).Monic ∧
      List.Forall₂ (fun p m => toPoly m * (C (p.getD 0 0)⁻¹ * toPoly p) = toPoly l) args mults ∧
      ∀ M : K[X], (∀ p ∈ args, toPoly p ∣ M) → toPoly l ∣ M :=
  let ⟨l, mults, h1, _, h2⟩ := lcm_core_lead bal hbal hthr args hne hargs
  ⟨l, mults, h1, h2⟩

/-- C06. For any number of polynomials without leading zeros, with the clean-up of tiny coefficients
switched off, `haroldlcm` returns a monic common multiple that divides every other common multiple,
and multipliers with `multiplier * (monic form of the argument) = lcm`, in the order of the
arguments. Any nonzero balancing scalings give the same answer. Partial: the default clean-up
threshold is `1e-9`, see `C06_cleanup_violated`. -/
theorem C06_lcm_partial (bal : ∀ polys : List (List K), BIdx polys → K)
    (hbal : ∀ polys i, bal polys i ≠ 0) {thr : K} (hthr : thr ≤ 0) (args : List (List K))
    (hne : args ≠ []) (hargs : ∀ p ∈ args, p.getD 0 0 ≠ 0) :
    ∃ l mults, lcm bal thr args = .ok (l, mults) ∧ (toPoly l).Monic ∧
      (∀ p ∈ args, toPoly p ∣ toPoly l) ∧
      (∀ M : K[X], (∀ p ∈ args, toPoly p ∣ M) → toPoly l ∣ M) ∧
      List.Forall₂ (fun p m => toPoly m * (C (p.getD 0 0)⁻¹ * toPoly p) = toPoly l) args mults := by
  obtain ⟨l, mults, h1, h2, h3, h4⟩ := lcm_core bal hbal hthr args hne hargs
  refine ⟨l, mults, h1, h2, ?_, h4, h3⟩
  have : ∀ {a : List (List K)} {b}, List.Forall₂
      (fun p m => toPoly m * (C (p.getD 0 0)⁻¹ * toPoly p) = toPoly l) a b →
      ∀ p ∈ a, toPoly p ∣ toPoly l := by
    intro a b h
    induction h with
    | nil => simp
    | cons h _ ih =>
      intro p hp
      rcases List.mem_cons.mp hp with rfl | hp
      · exact ⟨_, by rw [← h, ← mul_assoc]; exact mul_comm _ _⟩
      · exact ih p hp
  exact this h3

example : ∀ p ∈ [[1, 3, 2], [4], [1, 0, -1]], List.getD p 0 (0 : ℚ) ≠ 0 := by
  intro p hp; simp at hp; rcases hp with rfl | rfl | rfl <;> simp

/-- The order of the arguments does not matter (clean-up off). Missing: the default clean-up, see `C06_cleanup_violated`. -/
theorem C06_lcm_perm_partial (bal : ∀ polys : List (List K), BIdx polys → K)
    (hbal : ∀ polys i, bal polys i ≠ 0) {thr : K} (hthr : thr ≤ 0) (args args' : List (List K))
    (hne : args ≠ []) (hargs : ∀ p ∈ args, p.getD 0 0 ≠ 0) (hperm : args.Perm args') :
    ∃ l mults l' mults', lcm bal thr args = .ok (l, mults) ∧ lcm bal thr args' = .ok (l', mults') ∧
      toPoly l = toPoly l' := by
  obtain ⟨l, mults, h1, h2, h3, h4, -⟩ := C06_lcm_partial bal hbal hthr args hne hargs
  obtain ⟨l', mults', h1', h2', h3', h4', -⟩ := C06_lcm_partial bal hbal hthr args'
    (by rintro rfl; exact hne (List.perm_nil.mp hperm))
    (fun p hp => hargs p (hperm.mem_iff.mpr hp))
  refine ⟨l, mults, l', mults', h1, h1', eq_of_monic_of_associated h2 h2' ?_⟩
  exact associated_of_dvd_dvd (h4 _ fun p hp => h3' p (hperm.mem_iff.mp hp))
    (h4' _ fun p hp => h3 p (hperm.mem_iff.mpr hp))

/-- The default clean-up breaks the claim: `haroldlcm([1, 1e-10])` is `[1, 0]`, which is not a
multiple of `s + 1e-10`. -/
theorem C06_cleanup_violated (bal : ∀ polys : List (List ℚ), BIdx polys → ℚ) :
    ∃ l mults, lcm bal (1 / 10 ^ 9) [[1, 1 / 10 ^ 10]] = .ok (l, mults) ∧
      ¬ toPoly [1, 1 / 10 ^ 10] ∣ toPoly l := by
  refine ⟨[1, 0], [[1]], ?_, ?_⟩
  · have h : |(10 ^ 10 : ℚ)|⁻¹ < (10 ^ 9)⁻¹ := by
      rw [abs_of_pos (by norm_num)]; norm_num
    have h1 : ¬ (1 < ((10 : ℚ) ^ 9)⁻¹) := by norm_num
    simp [lcm, lcmPopped, trimZeros, cleanup, bind, Except.bind, h, h1]
    norm_num
  · rintro ⟨q, hq⟩
    have := congrArg (Polynomial.eval (-(1 / 10 ^ 10) : ℚ)) hq
    simp at this

end Harold
