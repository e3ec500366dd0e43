import Verif.Model.MinrealTransfer
import Verif.Spec.Minreal
import Verif.Lemmas.Ackermann
import Verif.Lemmas.TransferSucc
import Mathlib.RingTheory.Coprime.Lemmas
import Mathlib.Algebra.Polynomial.FieldDivision

/-!
# The cancellation loop
-/

namespace Harold

open Polynomial Spec

theorem argminIdx_spec {d : List ℝ} (h : d ≠ []) : ∃ i, argminIdx d = some i ∧ ∃ hi : i < d.length, ∀ x ∈ d, d[i] ≤ x := by
  unfold argminIdx
  obtain ⟨a, ha⟩ := Option.isSome_iff_exists.mp (List.isSome_min?_of_ne_nil h)
  obtain ⟨h1, h2⟩ := List.min?_eq_some_iff.mp ha
  refine ⟨d.idxOf a, by rw [ha]; rfl, List.idxOf_lt_length_of_mem h1, fun x hx => ?_⟩
  rw [List.getElem_idxOf]
  exact h2 x hx

theorem whereFirst_spec {c : ℂ} {l : List ℂ} (h : c ∈ l) : ∃ k, whereFirst c l = .ok k ∧ c ::ₘ ((l.eraseIdx k : List ℂ) : Multiset ℂ) = (l : Multiset ℂ) := by
  refine ⟨l.idxOf c, if_pos h, ?_⟩
  have := List.getElem_cons_eraseIdx_perm (List.idxOf_lt_length_of_mem h)
  rw [List.getElem_idxOf] at this
  exact Multiset.coe_eq_coe.mpr this

/-- Invariant under complex conjugation, with multiplicities. -/
def ConjClosed (M : Multiset ℂ) : Prop := M.map star = M

theorem ConjClosed.mem {M : Multiset ℂ} (h : ConjClosed M) {z : ℂ} (hz : z ∈ M) : star z ∈ M := by
  rw [← h]
  exact Multiset.mem_map_of_mem _ hz

theorem ConjClosed.real {M : Multiset ℂ} {z : ℂ} (hz : z.im = 0) (h : ConjClosed (z ::ₘ M)) : ConjClosed M := by
  unfold ConjClosed at h
  rw [Multiset.map_cons, show star z = z from Complex.conj_eq_iff_im.mpr hz] at h
  exact (Multiset.cons_inj_right _).mp h

theorem ConjClosed.pair {M : Multiset ℂ} {z : ℂ} (h : ConjClosed (z ::ₘ star z ::ₘ M)) : ConjClosed M := by
  unfold ConjClosed at h
  rw [Multiset.map_cons, Multiset.map_cons, star_star, Multiset.cons_swap] at h
  exact (Multiset.cons_inj_right _).mp ((Multiset.cons_inj_right _).mp h)

theorem ConjClosed.add {M N : Multiset ℂ} (h : ConjClosed M) (h' : ConjClosed N) : ConjClosed (M + N) := by
  unfold ConjClosed at *
  rw [Multiset.map_add, h, h']

/-- The zeros represented by a real zero or one of a complex pair. -/
noncomputable def expand (z : ℂ) : List ℂ := if 0 < z.im then [z, star z] else [z]

/-- The zeros represented by the list over which the loop runs. -/
noncomputable def expandAll (zs : List ℂ) : Multiset ℂ := ((zs.flatMap expand : List ℂ) : Multiset ℂ)

theorem expand_closed {z : ℂ} (h : 0 ≤ z.im) : ConjClosed (expand z : Multiset ℂ) := by
  unfold ConjClosed expand
  split_ifs with h1
  · simp [← Multiset.cons_coe]
    exact Multiset.pair_comm _ _
  · have : star z = z := Complex.conj_eq_iff_im.mpr (le_antisymm (not_lt.mp h1) h)
    simp [← Multiset.cons_coe]
    exact this

theorem expandAll_cons (z : ℂ) (zs : List ℂ) : expandAll (z :: zs) = (expand z : Multiset ℂ) + expandAll zs := by
  unfold expandAll
  rw [List.flatMap_cons, Multiset.coe_add]

theorem expand_pos (z : ℂ) : 0 < (expand z).length := by
  unfold expand
  split_ifs <;> simp

/-- If zeros match poles only when they coincide, the loop removes the same numbers from the zeros and from the poles and leaves no common ones. -/
theorem simplifyLoop_spec {tol : ℝ} (ht : 0 < tol) : ∀ (zs safe plz : List ℂ), (∀ z ∈ zs, 0 ≤ z.im) →
    (∀ z ∈ zs, ∀ p ∈ plz, ‖p - z‖ < tol + tol * ‖z‖ → p = z) → ConjClosed (safe : Multiset ℂ) → ConjClosed (plz : Multiset ℂ) →
    Multiset.card (expandAll zs) ≤ plz.length → (∀ x ∈ safe, x ∉ plz) →
    ∃ (safe' plz' : List ℂ) (R : Multiset ℂ), simplifyLoop tol zs safe plz = .ok (safe', plz') ∧
      (safe' : Multiset ℂ) + R = (safe : Multiset ℂ) + expandAll zs ∧ (plz' : Multiset ℂ) + R = (plz : Multiset ℂ) ∧
      ConjClosed (safe' : Multiset ℂ) ∧ ConjClosed (plz' : Multiset ℂ) ∧ ∀ x ∈ safe', x ∉ plz'
  | [], safe, plz, _, _, h3, h4, _, h6 => ⟨safe, plz, 0, rfl, by simp [expandAll], by simp, h3, h4, h6⟩
  | z :: zs, safe, plz, h1, h2, h3, h4, h5, h6 => by
    have hz := h1 z (by simp)
    rw [expandAll_cons, Multiset.card_add, Multiset.coe_card] at h5
    have hpos := expand_pos z
    have hne : (plz.map fun p => ‖p - z‖) ≠ [] := by
      intro h
      rw [List.map_eq_nil_iff] at h
      rw [h, List.length_nil] at h5
      omega
    obtain ⟨i, hi, hil, hmin⟩ := argminIdx_spec hne
    rw [List.length_map] at hil
    have hget : plz.getD i 0 = plz[i] := List.getD_eq_getElem _ _ hil
    have htz : 0 < tol + tol * ‖z‖ := by positivity
    have hrec : ∀ (safe₁ plz₁ : List ℂ) (R₁ : Multiset ℂ), simplifyStep tol safe plz z = .ok (safe₁, plz₁) →
        (safe₁ : Multiset ℂ) + R₁ = (safe : Multiset ℂ) + (expand z : Multiset ℂ) → (plz₁ : Multiset ℂ) + R₁ = (plz : Multiset ℂ) →
        ConjClosed (safe₁ : Multiset ℂ) → ConjClosed (plz₁ : Multiset ℂ) → Multiset.card (expandAll zs) ≤ plz₁.length → (∀ x ∈ safe₁, x ∉ plz₁) →
        ∃ (safe' plz' : List ℂ) (R : Multiset ℂ), simplifyLoop tol (z :: zs) safe plz = .ok (safe', plz') ∧
          (safe' : Multiset ℂ) + R = (safe : Multiset ℂ) + expandAll (z :: zs) ∧ (plz' : Multiset ℂ) + R = (plz : Multiset ℂ) ∧
          ConjClosed (safe' : Multiset ℂ) ∧ ConjClosed (plz' : Multiset ℂ) ∧ ∀ x ∈ safe', x ∉ plz' := by
      intro safe₁ plz₁ R₁ g1 g2 g3 g4 g5 g6 g7
      have hsub : ∀ p ∈ plz₁, p ∈ plz := by
        intro p hp
        have : p ∈ (plz₁ : Multiset ℂ) + R₁ := Multiset.mem_add.mpr (Or.inl (Multiset.mem_coe.mpr hp))
        rw [g3] at this
        exact Multiset.mem_coe.mp this
      obtain ⟨safe', plz', R, k1, k2, k3, k4, k5, k6⟩ := simplifyLoop_spec ht zs safe₁ plz₁ (fun x hx => h1 x (by simp [hx]))
        (fun x hx p hp => h2 x (by simp [hx]) p (hsub p hp)) g4 g5 g6 g7
      refine ⟨safe', plz', R + R₁, ?_, ?_, ?_, k4, k5, k6⟩
      · rw [simplifyLoop, g1]
        exact k1
      · rw [← add_assoc, k2, add_right_comm, g2, expandAll_cons, add_assoc]
      · rw [← add_assoc, k3, g3]
    by_cases hc : ‖plz[i] - z‖ < tol + tol * ‖z‖
    · have hpz := h2 z (by simp) _ (List.getElem_mem hil) hc
      have hperm : z ::ₘ ((plz.eraseIdx i : List ℂ) : Multiset ℂ) = (plz : Multiset ℂ) := by
        have := List.getElem_cons_eraseIdx_perm hil
        rw [hpz] at this
        exact Multiset.coe_eq_coe.mpr this
      by_cases hzi : 0 < z.im
      · have hmem : star z ∈ plz.eraseIdx i := by
          have h7 : star z ∈ (plz : Multiset ℂ) := h4.mem (by rw [← hperm]; simp)
          rw [← hperm] at h7
          rcases Multiset.mem_cons.mp h7 with h7 | h7
          · have := Complex.conj_eq_iff_im.mp h7
            exact absurd this hzi.ne'
          · exact h7
        obtain ⟨k, hk1, hk2⟩ := whereFirst_spec hmem
        rw [← hk2] at hperm
        refine hrec safe ((plz.eraseIdx i).eraseIdx k) (expand z : Multiset ℂ) ?_ rfl ?_ h3 ?_ ?_ ?_
        · unfold simplifyStep
          rw [hi]
          dsimp only
          rw [hget, if_pos hc, hpz]
          unfold simplifyMatch
          dsimp only
          rw [if_pos ⟨hzi, hzi⟩, hk1]
          rfl
        · rw [← hperm, expand, if_pos hzi, add_comm]
          rfl
        · rw [← hperm] at h4
          exact h4.pair
        · have := congrArg Multiset.card hperm
          simp only [Multiset.card_cons, Multiset.coe_card] at this
          rw [expand, if_pos hzi] at h5
          simp at h5
          omega
        · intro x hx hx'
          refine h6 x hx ?_
          rw [← Multiset.mem_coe, ← hperm]
          simp [hx']
      · have hz0 : z.im = 0 := le_antisymm (not_lt.mp hzi) hz
        refine hrec safe (plz.eraseIdx i) (expand z : Multiset ℂ) ?_ rfl ?_ h3 ?_ ?_ ?_
        · unfold simplifyStep
          rw [hi]
          dsimp only
          rw [hget, if_pos hc, hpz]
          unfold simplifyMatch
          dsimp only
          rw [if_neg (fun h => hzi h.1), if_neg hzi, if_neg hzi]
        · rw [← hperm, expand, if_neg hzi, add_comm]
          rfl
        · rw [← hperm] at h4
          exact h4.real hz0
        · have := congrArg Multiset.card hperm
          simp only [Multiset.card_cons, Multiset.coe_card] at this
          rw [expand, if_neg hzi] at h5
          simp at h5
          omega
        · intro x hx hx'
          refine h6 x hx ?_
          rw [← Multiset.mem_coe, ← hperm]
          simp [hx']
    · have hzn : z ∉ plz := by
        intro hmem
        have := hmin ‖z - z‖ (List.mem_map_of_mem hmem)
        rw [List.getElem_map, sub_self, norm_zero] at this
        exact hc (lt_of_le_of_lt this htz)
      refine hrec (safe ++ expand z) plz 0 ?_ (by rw [add_zero, Multiset.coe_add]) (by simp) ?_ h4 (by omega) ?_
      · unfold simplifyStep
        rw [hi]
        dsimp only
        rw [hget, if_neg hc]
        rfl
      · rw [← Multiset.coe_add]
        exact h3.add (expand_closed hz)
      · intro x hx
        rcases List.mem_append.mp hx with hx | hx
        · exact h6 x hx
        · unfold expand at hx
          split_ifs at hx
          · simp only [List.mem_cons, List.not_mem_nil, or_false] at hx
            rcases hx with rfl | rfl
            · exact hzn
            · intro h
              have := h4.mem (Multiset.mem_coe.mpr h)
              rw [star_star] at this
              exact hzn this
          · simp only [List.mem_cons, List.not_mem_nil, or_false] at hx
            rw [hx]; exact hzn

theorem conj_ofReal (P : ℝ[X]) : (P.map (algebraMap ℝ ℂ)).map (starRingEnd ℂ) = P.map (algebraMap ℝ ℂ) := by
  rw [Polynomial.map_map]
  congr 1
  ext x
  simp

theorem map_prod_X_sub_C (r : List ℂ) : ((r.map fun x => X - C x).prod).map (starRingEnd ℂ) = ((r.map star).map fun x => X - C x).prod := by
  induction r with
  | nil => simp
  | cons x r ih =>
    simp only [List.map_cons, List.prod_cons, Polynomial.map_mul, ih]
    simp

theorem prod_eq_multiset (r : List ℂ) : (r.map fun x => X - C x).prod = (((r : Multiset ℂ).map fun x => X - C x).prod : ℂ[X]) := by
  rw [Multiset.map_coe, Multiset.prod_coe]

/-- The roots of a real polynomial come in conjugate pairs. -/
theorem _root_.Harold.Spec.RootsOf.closed {l : List ℝ} {r : List ℂ} (h : RootsOf l r) (hl : l.getD 0 0 ≠ 0) : ConjClosed (r : Multiset ℂ) := by
  unfold RootsOf at h
  have h1 := conj_ofReal (toPoly l)
  rw [h, Polynomial.map_mul, map_prod_X_sub_C, map_C, Complex.conj_ofReal] at h1
  have h2 := mul_left_cancel₀ (by rw [Ne, C_eq_zero]; exact_mod_cast hl) h1
  rw [prod_eq_multiset, prod_eq_multiset] at h2
  have h3 := congrArg Polynomial.roots h2
  rw [Polynomial.roots_multiset_prod_X_sub_C, Polynomial.roots_multiset_prod_X_sub_C] at h3
  exact h3

/-- The polynomial with conjugate pairs of roots has real coefficients. -/
theorem npPolyReal_spec {l : List ℂ} (h : ConjClosed (l : Multiset ℂ)) :
    ∃ q, npPolyReal l = .ok q ∧ q.length = l.length + 1 ∧ q.getD 0 0 = 1 ∧ (toPoly q).map (algebraMap ℝ ℂ) = (l.map fun x => X - C x).prod := by
  have hreal : ∀ x ∈ npPoly l, x.im = 0 := by
    intro x hx
    obtain ⟨i, hi, rfl⟩ := List.getElem_of_mem hx
    have h1 : (toPoly (npPoly l)).map (starRingEnd ℂ) = toPoly (npPoly l) := by
      rw [toPoly_npPoly, map_prod_X_sub_C, prod_eq_multiset, prod_eq_multiset, ← Multiset.map_coe, h]
    have h2 := congrArg (fun P => P.coeff ((npPoly l).length - 1 - i)) h1
    simp only [coeff_map] at h2
    rw [coeff_toPoly_lt (by omega)] at h2
    have h3 : (npPoly l).getD ((npPoly l).length - 1 - ((npPoly l).length - 1 - i)) 0 = (npPoly l)[i] := by
      rw [show (npPoly l).length - 1 - ((npPoly l).length - 1 - i) = i by omega, List.getD_eq_getElem _ _ hi]
    rw [h3] at h2
    exact Complex.conj_eq_iff_im.mp h2
  have hmap : ((npPoly l).map Complex.re).map (algebraMap ℝ ℂ) = npPoly l := by
    rw [List.map_map]
    conv_rhs => rw [← List.map_id (npPoly l)]
    refine List.map_congr_left fun x hx => ?_
    exact Complex.ext rfl (by simpa using (hreal x hx).symm)
  refine ⟨(npPoly l).map Complex.re, ?_, by rw [List.length_map, npPoly_length], ?_, ?_⟩
  · unfold npPolyReal
    rw [if_pos]
    exact Multiset.coe_eq_coe.mp (by rw [← Multiset.map_coe]; exact h.symm)
  · have key : ∀ (l a : List ℂ), a.getD 0 0 = 1 → (l.foldl polyStep a).getD 0 0 = 1 := by
      intro l
      induction l with
      | nil => intro a h; exact h
      | cons r l ih =>
        intro a ha
        rw [List.foldl_cons]
        refine ih _ ?_
        cases a with
        | nil => simp at ha
        | cons b a => simp at ha; simp [polyStep, ha]
    have h0 : (npPoly l).getD 0 0 = 1 := key l [1] rfl
    rw [List.getD_eq_getElem?_getD, List.getElem?_map]
    rw [List.getD_eq_getElem?_getD] at h0
    cases hn : (npPoly l)[0]? with
    | none => rw [hn] at h0; simp at h0
    | some b => rw [hn] at h0; simp at h0; simp [h0]
  · rw [← toPoly_npPoly]
    conv_rhs => rw [← hmap]
    generalize (npPoly l).map Complex.re = q
    induction q with
    | nil => simp
    | cons a q ih => simp [ih]

/-- All roots are represented by the real ones and those in the upper half plane. -/
theorem expandAll_filter {r : List ℂ} (h : ConjClosed (r : Multiset ℂ)) :
    expandAll (r.filter (fun z => z.im = 0) ++ r.filter (fun z => 0 < z.im)) = (r : Multiset ℂ) := by
  have h1 : ∀ l : List ℂ, (∀ z ∈ l, z.im = 0) → expandAll l = (l : Multiset ℂ) := by
    intro l hl
    induction l with
    | nil => rfl
    | cons z l ih =>
      rw [expandAll_cons, ih (fun x hx => hl x (by simp [hx])), expand, if_neg (by rw [hl z (by simp)]; exact lt_irrefl _)]
      rfl
  have h2 : ∀ l : List ℂ, (∀ z ∈ l, 0 < z.im) → expandAll l = (l : Multiset ℂ) + (l : Multiset ℂ).map star := by
    intro l hl
    induction l with
    | nil => rfl
    | cons z l ih =>
      rw [expandAll_cons, ih (fun x hx => hl x (by simp [hx])), expand, if_pos (hl z (by simp))]
      simp only [← Multiset.cons_coe, Multiset.map_cons, Multiset.coe_nil, Multiset.cons_add, Multiset.add_cons, zero_add]
      exact Multiset.cons_swap _ _ _
  have h3 : expandAll (r.filter (fun z => z.im = 0) ++ r.filter (fun z => 0 < z.im)) =
      expandAll (r.filter (fun z => z.im = 0)) + expandAll (r.filter (fun z => 0 < z.im)) := by
    unfold expandAll
    rw [List.flatMap_append, Multiset.coe_add]
  rw [h3, h1 _ (by simp), h2 _ (by simp), ← Multiset.filter_coe, ← Multiset.filter_coe]
  set M : Multiset ℂ := (r : Multiset ℂ) with hM
  have h4 : (M.filter fun z => 0 < z.im).map star = M.filter fun z => z.im < 0 := by
    conv_rhs => rw [← h, Multiset.filter_map]
    congr 1
    refine Multiset.filter_congr fun z _ => ?_
    simp
  rw [h4]
  conv_rhs => rw [← Multiset.filter_add_not (fun z : ℂ => z.im = 0) M]
  congr 1
  rw [← Multiset.filter_add_not (fun z : ℂ => 0 < z.im) (M.filter fun z => ¬ z.im = 0), Multiset.filter_filter, Multiset.filter_filter]
  congr 1
  · exact Multiset.filter_congr fun z _ => ⟨fun h => ⟨h, h.ne'⟩, fun h => h.1⟩
  · exact Multiset.filter_congr fun z _ => ⟨fun h => ⟨not_lt.mpr h.le, h.ne⟩, fun h => lt_of_le_of_ne (not_lt.mp h.1) h.2⟩

theorem polyAt_ofReal (z : ℂ) (l : List ℝ) : polyAt z l = ((toPoly l).map (algebraMap ℝ ℂ)).eval z := by
  rw [polyAt, aeval_def, eval₂_eq_eval_map]

theorem _root_.Harold.Spec.RootsOf.zero {l : List ℝ} {r : List ℂ} (h : RootsOf l r) {z : ℂ} (hz : z ∈ r) : polyAt z l = 0 := by
  rw [polyAt_ofReal, h, eval_mul, eval_list_prod, List.map_map, List.prod_eq_zero (List.mem_map.mpr ⟨z, hz, by simp⟩), mul_zero]

theorem _root_.Harold.Spec.RootsOf.length {l : List ℝ} {r : List ℂ} (h : RootsOf l r) (hl : l.getD 0 0 ≠ 0) : r.length + 1 = l.length := by
  cases l with
  | nil => simp at hl
  | cons a l =>
    have ha : a ≠ 0 := by simpa using hl
    have h1 := congrArg natDegree h
    rw [natDegree_map, natDegree_C_mul (by simpa using ha), natDegree_locs, natDegree_eq_of_degree_eq_some (degree_toPoly_cons ha l)] at h1
    rw [← h1]
    simp

/-- Reduced fractions. -/
theorem minrealSimplify_spec {roots : List ℝ → List ℂ} (hr : RootFinder roots) {tol : ℝ} (ht : 0 < tol) {num den : List ℝ} (h : EntryNormal (num, den))
    (hc : Coincide tol num den) : ∃ n d, minrealSimplify roots tol num den = .ok (n, d) ∧ EntryNormal (n, d) ∧
      toPoly n * toPoly den = toPoly num * toPoly d ∧ (toPoly num ≠ 0 → IsCoprime (toPoly n) (toPoly d)) ∧ (toPoly d).Monic ∧
      toPoly d ∣ toPoly den := by
  obtain ⟨hd, hn, hl⟩ := h
  simp only at hd hn hl
  obtain ⟨d0, dt, rfl⟩ : ∃ a t, den = a :: t := by
    cases den with
    | nil => simp at hd
    | cons a t => exact ⟨a, t, rfl⟩
  simp only [List.getD_cons_zero] at hd
  have hdiv : ∀ (l : List ℝ), (l.map fun x => x / d0) = l.map fun x => d0⁻¹ * x := fun l => List.map_congr_left fun x _ => by rw [div_eq_inv_mul]
  unfold minrealSimplify
  by_cases h1 : num.length = 1
  · rw [if_pos h1]
    simp only [List.getD_cons_zero, hdiv]
    refine ⟨_, _, rfl, ⟨by simp [hd], ?_, by simpa using hl⟩, ?_, ?_, ?_, ?_⟩
    · rcases hn with rfl | ⟨a, t, rfl, ha⟩
      · left; simp
      · right; exact ⟨_, _, rfl, mul_ne_zero (inv_ne_zero hd) ha⟩
    · rw [toPoly_map_mul, toPoly_map_mul]
      ring
    · intro h0
      obtain ⟨a, rfl⟩ := List.length_eq_one_iff.mp h1
      have ha : a ≠ 0 := by rintro rfl; simp [toPoly] at h0
      rw [show toPoly ([a].map fun x => d0⁻¹ * x) = C (d0⁻¹ * a) by simp [toPoly]]
      rw [← mul_one (C (d0⁻¹ * a))]
      exact (isCoprime_mul_unit_left_left (isUnit_C.mpr (mul_ne_zero (inv_ne_zero hd) ha).isUnit) _ _).mpr isCoprime_one_left
    · rw [toPoly_map_mul, Monic, leadingCoeff_mul, leadingCoeff_C, leadingCoeff_toPoly_cons hd, inv_mul_cancel₀ hd]
    · rw [toPoly_map_mul]
      exact (isUnit_C.mpr (inv_ne_zero hd).isUnit).mul_left_dvd.mpr dvd_rfl
  · rw [if_neg h1]
    obtain ⟨a, t, rfl, ha⟩ : ∃ a t, num = a :: t ∧ a ≠ 0 := by
      rcases hn with rfl | h
      · simp at h1
      · exact h
    have hzN : RootsOf (a :: t) _ := hr (a :: t) (by simpa using ha)
    have hzD : RootsOf (d0 :: dt) _ := hr (d0 :: dt) (by simpa using hd)
    have cN := hzN.closed (by simpa using ha)
    have cD := hzD.closed (by simpa using hd)
    have lN := hzN.length (by simpa using ha)
    have lD := hzD.length (by simpa using hd)
    have hex := expandAll_filter cN
    set zs := (roots (a :: t)).filter (fun z => z.im = 0) ++ (roots (a :: t)).filter (fun z => 0 < z.im) with hzs
    have hzmem : ∀ z ∈ zs, z ∈ roots (a :: t) ∧ 0 ≤ z.im := by
      intro z hz
      rw [hzs] at hz
      rcases List.mem_append.mp hz with hz | hz
      · have := List.mem_filter.mp hz
        exact ⟨this.1, (of_decide_eq_true this.2).ge⟩
      · have := List.mem_filter.mp hz
        exact ⟨this.1, (of_decide_eq_true this.2).le⟩
    obtain ⟨safe, plz, R, g1, g2, g3, g4, g5, g6⟩ := simplifyLoop_spec ht zs [] (roots (d0 :: dt)) (fun z hz => (hzmem z hz).2)
      (fun z hz p hp => hc z p (hzN.zero (hzmem z hz).1) (hzD.zero hp)) rfl cD (by rw [hex, Multiset.coe_card]; omega) (by simp)
    obtain ⟨n, n1, n2, n3, n4⟩ := npPolyReal_spec g4
    obtain ⟨d, e1, e2, e3, e4⟩ := npPolyReal_spec g5
    rw [hex, Multiset.coe_nil, zero_add] at g2
    have hk : a / d0 ≠ 0 := div_ne_zero ha hd
    have hlen : safe.length ≤ plz.length := by
      have c1 := congrArg Multiset.card g2
      have c2 := congrArg Multiset.card g3
      simp only [Multiset.card_add, Multiset.coe_card] at c1 c2
      omega
    refine ⟨n.map fun x => a / d0 * x, d, ?_, ⟨by rw [e3]; exact one_ne_zero, ?_, ?_⟩, ?_, fun _ => ?_, ?_, ?_⟩
    · rw [hzs] at g1
      simp only [g1, n1, e1, bind, Except.bind, List.getD_cons_zero]
    · right
      cases n with
      | nil => simp at n2
      | cons b n =>
        refine ⟨_, _, rfl, mul_ne_zero hk ?_⟩
        simp only [List.getD_cons_zero] at n3
        rw [n3]
        exact one_ne_zero
    · simp only [List.length_map]
      omega
    · refine Polynomial.map_injective (algebraMap ℝ ℂ) (algebraMap ℝ ℂ).injective ?_
      unfold RootsOf at hzN hzD
      rw [Polynomial.map_mul, Polynomial.map_mul, hzN, hzD, toPoly_map_mul, Polynomial.map_mul, n4, e4, prod_eq_multiset, prod_eq_multiset,
        prod_eq_multiset, prod_eq_multiset, ← g2, ← g3]
      simp only [Multiset.map_add, Multiset.prod_add, List.getD_cons_zero, map_C]
      have : (C ((algebraMap ℝ ℂ) (a / d0)) * C ((d0 : ℝ) : ℂ) : ℂ[X]) = C ((a : ℝ) : ℂ) := by
        rw [← C_mul]
        congr 1
        push_cast
        simp only [Complex.coe_algebraMap, Complex.ofReal_div]
        rw [div_mul_cancel₀]
        exact_mod_cast hd
      rw [← this]
      ring
    · rw [← Polynomial.isCoprime_map (algebraMap ℝ ℂ), toPoly_map_mul, Polynomial.map_mul, n4, e4, map_C]
      refine (isCoprime_mul_unit_left_left (isUnit_C.mpr (Ne.isUnit (by simpa using ⟨ha, hd⟩))) _ _).mpr ?_
      have key : ∀ l : List ℂ, (∀ x ∈ l, x ∉ plz) → IsCoprime ((l.map fun x => X - C x).prod : ℂ[X]) ((plz.map fun x => X - C x).prod) := by
        intro l hl
        induction l with
        | nil => simpa using isCoprime_one_left
        | cons x l ih =>
          rw [List.map_cons, List.prod_cons]
          refine IsCoprime.mul_left ?_ (ih fun y hy => hl y (by simp [hy]))
          have hx := hl x (by simp)
          clear * - hx
          induction plz with
          | nil => simpa using isCoprime_one_right
          | cons y q ih =>
            rw [List.map_cons, List.prod_cons]
            refine IsCoprime.mul_right ?_ (ih fun h => hx (by simp [h]))
            exact Polynomial.isCoprime_X_sub_C_of_isUnit_sub (sub_ne_zero.mpr (fun h => hx (by simp [h]))).isUnit
      exact key safe g6
    · refine Polynomial.monic_of_injective (algebraMap ℝ ℂ).injective ?_
      rw [e4]
      exact monic_locs plz
    · refine (Polynomial.map_dvd_map (algebraMap ℝ ℂ) (algebraMap ℝ ℂ).injective ?_).mp ?_
      · refine Polynomial.monic_of_injective (algebraMap ℝ ℂ).injective ?_
        rw [e4]
        exact monic_locs plz
      · unfold RootsOf at hzD
        rw [hzD, e4, prod_eq_multiset, prod_eq_multiset, ← g3, Multiset.map_add, Multiset.prod_add, mul_left_comm]
        exact dvd_mul_right _ _

end Harold
