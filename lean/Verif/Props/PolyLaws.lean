import Verif.Props.Coarse
import Verif.Props.Gcd
import Verif.Props.Poly

/-!
# C124: laws of the polynomial functions
-/

namespace Harold

open Spec Polynomial

variable {K : Type} [Field K] [LinearOrder K]

theorem trimmed_ext {l l' : List K} (h : Trimmed l) (h' : Trimmed l') (he : toPoly l = toPoly l') : l = l' := by
  have hz : ∀ {a : K} {t : List K}, a ≠ 0 → toPoly (a :: t) ≠ 0 := fun ha => toPoly_ne_zero_of_cons ha _
  have h0 : toPoly ([0] : List K) = 0 := by simp
  rcases h with rfl | ⟨a, t, rfl, ha⟩ <;> rcases h' with rfl | ⟨b, u, rfl, hb⟩
  · rfl
  · exact absurd (he.symm.trans h0) (hz hb)
  · exact absurd (he.trans h0) (hz ha)
  · have hd : t.length = u.length := by
      have := congrArg degree he
      rw [degree_toPoly_cons ha, degree_toPoly_cons hb] at this
      exact_mod_cast this
    refine List.ext_getElem (by simp [hd]) fun i h1 h2 => ?_
    have h3 := congrArg (fun q : K[X] => q.coeff ((a :: t).length - 1 - i)) he
    simp only [coeff_toPoly] at h3
    have e1 : ∀ (l : List K) (hi : i < l.length), l.reverse.getD (l.length - 1 - i) 0 = l[i] := fun l hi => by
      rw [List.getD_eq_getElem _ _ (by simp; omega), List.getElem_reverse]
      congr 1
      omega
    have e2 : (a :: t).length - 1 - i = (b :: u).length - 1 - i := by simp [hd]
    rw [e1 _ h1, e2, e1 _ h2] at h3
    exact h3

/-- **C124**: the order of the factors does not matter. -/
theorem C124_mul_perm {args args' : List (List K)} (hne : args ≠ []) (h0 : ∀ a ∈ args, toPoly a ≠ 0) (hp : args.Perm args') : ∃ r, polymul args = .ok r ∧ polymul args' = .ok r := by
  have hne' : args' ≠ [] := by rintro rfl; exact hne (List.perm_nil.mp hp)
  obtain ⟨a, l, rfl⟩ := List.exists_cons_of_ne_nil hne
  obtain ⟨b, l', rfl⟩ := List.exists_cons_of_ne_nil hne'
  obtain ⟨r, e1, e2, e3⟩ := C01_polymul_partial a l (.inl (h0 a (by simp)))
  obtain ⟨r', e1', e2', e3'⟩ := C01_polymul_partial b l' (.inl (h0 b (hp.mem_iff.mpr (by simp))))
  obtain rfl := trimmed_ext e3 e3' (by rw [e2, e2']; exact (hp.map toPoly).prod_eq)
  exact ⟨r, e1, e1'⟩

/-- **C124**: products of products. -/
theorem C124_mul_assoc {args args' : List (List K)} (hne : args ≠ []) (h0 : ∀ a ∈ args, toPoly a ≠ 0) : ∃ r s, polymul args = .ok r ∧ polymul (args ++ args') = .ok s ∧ polymul (r :: args') = .ok s := by
  obtain ⟨a, l, rfl⟩ := List.exists_cons_of_ne_nil hne
  obtain ⟨r, e1, e2, e3⟩ := C01_polymul_partial a l (.inl (h0 a (by simp)))
  obtain ⟨s, f1, f2, f3⟩ := C01_polymul_partial a (l ++ args') (.inl (h0 a (by simp)))
  have hr : toPoly r ≠ 0 := by
    rw [e2]
    refine List.prod_ne_zero fun h => ?_
    obtain ⟨x, hx, h⟩ := List.mem_map.mp h
    exact h0 x hx h
  obtain ⟨s', g1, g2, g3⟩ := C01_polymul_partial r args' (.inl hr)
  obtain rfl := trimmed_ext f3 g3 (by rw [f2, g2, List.map_cons (l := args'), List.prod_cons, e2, ← List.cons_append, List.map_append, List.prod_append])
  exact ⟨r, s, e1, f1, g1⟩

/-- **C124**: the product with a sum is the sum of the products. -/
theorem C124_mul_add {a b c : List K} (ha : toPoly a ≠ 0) : ∃ s p q r t, polyadd [b, c] = .ok s ∧ polymul [a, s] = .ok r ∧ polymul [a, b] = .ok p ∧ polymul [a, c] = .ok q ∧ polyadd [p, q] = .ok t ∧ toPoly r = toPoly t := by
  obtain ⟨s, e1, e2, -⟩ := C02_polyadd [b, c] true (by simp)
  obtain ⟨r, f1, f2, -⟩ := C01_polymul_partial a [s] (.inl ha)
  obtain ⟨p, g1, g2, -⟩ := C01_polymul_partial a [b] (.inl ha)
  obtain ⟨q, k1, k2, -⟩ := C01_polymul_partial a [c] (.inl ha)
  obtain ⟨t, l1, l2, -⟩ := C02_polyadd [p, q] true (by simp)
  refine ⟨s, p, q, r, t, e1, f1, g1, k1, l1, ?_⟩
  rw [f2, l2]
  simp only [List.map_cons, List.map_nil, List.prod_cons, List.prod_nil, List.sum_cons, List.sum_nil, mul_one, add_zero] at e2 g2 k2 ⊢
  rw [g2, k2, e2, mul_add]

/-- **C124**: dividing a product by a factor gives the other factor and no remainder. -/
theorem C124_div_mul {a b : List K} (ha : toPoly a ≠ 0) (hb : b.getD 0 0 ≠ 0) : ∃ p q r, polymul [a, b] = .ok p ∧ polydiv p b = .ok (q, r) ∧ toPoly q = toPoly a ∧ toPoly r = 0 := by
  obtain ⟨p, e1, e2, -⟩ := C01_polymul_partial a [b] (.inl ha)
  obtain ⟨q, r, f1, -, f3, f4⟩ := C03_polydiv p b hb
  have hb0 : toPoly b ≠ 0 := by
    cases b with
    | nil => simp at hb
    | cons x t => exact toPoly_ne_zero_of_cons (by simpa using hb) t
  obtain ⟨h1, h2⟩ := f4 (toPoly a) 0 (by rw [e2]; simp) (by rw [degree_zero]; exact bot_lt_iff_ne_bot.mpr (by rwa [ne_eq, degree_eq_bot]))
  exact ⟨p, q, r, e1, f1, h1.symm, h2.symm⟩

/-- **C124**: the remainder is zero exactly for multiples of the divisor. -/
theorem C124_divides {num den : List K} (hd : den.getD 0 0 ≠ 0) : ∃ q r, polydiv num den = .ok (q, r) ∧ (toPoly r = 0 ↔ toPoly den ∣ toPoly num) := by
  obtain ⟨q, r, f1, f2, f3, f4⟩ := C03_polydiv num den hd
  refine ⟨q, r, f1, fun h => ⟨toPoly q, by rw [f2, h, add_zero, mul_comm]⟩, ?_⟩
  rintro ⟨x, hx⟩
  exact (f4 x 0 (by rw [hx, add_zero, mul_comm]) (by rw [degree_zero]; exact lt_of_le_of_lt bot_le f3)).2.symm

/-- **C124**: the polynomial with the roots of two lists is the product of the two polynomials. -/
theorem C124_roots (l l' : List K) : polymul [poly l, poly l'] = .ok (poly (l ++ l')) := by
  have hT : ∀ l : List K, Trimmed (poly l) := fun l => by
    obtain ⟨-, h2, h3⟩ := C04_poly l
    cases hp : poly l with
    | nil => rw [hp] at h2; simp at h2
    | cons a t => rw [hp] at h3; exact .inr ⟨a, t, rfl, by simp at h3; rw [h3]; exact one_ne_zero⟩
  have h0 : toPoly (poly l) ≠ 0 := by
    rw [(C04_poly l).1]
    refine List.prod_ne_zero fun h => ?_
    obtain ⟨z, -, h⟩ := List.mem_map.mp h
    exact X_sub_C_ne_zero z h
  obtain ⟨r, e1, e2, e3⟩ := C01_polymul_partial (poly l) [poly l'] (.inl h0)
  rw [e1]
  congr 1
  refine trimmed_ext e3 (hT _) ?_
  rw [e2, (C04_poly (l ++ l')).1, List.map_append, List.prod_append]
  simp [(C04_poly l).1, (C04_poly l').1]

/-- **C124**: the order of the roots does not matter. -/
theorem C124_roots_perm {l l' : List K} (h : l.Perm l') : poly l = poly l' := by
  have hT : ∀ l : List K, Trimmed (poly l) := fun l => by
    obtain ⟨-, h2, h3⟩ := C04_poly l
    cases hp : poly l with
    | nil => rw [hp] at h2; simp at h2
    | cons a t => rw [hp] at h3; exact .inr ⟨a, t, rfl, by simp at h3; rw [h3]; exact one_ne_zero⟩
  refine trimmed_ext (hT _) (hT _) ?_
  rw [(C04_poly l).1, (C04_poly l').1]
  exact (h.map _).prod_eq

/-- **C124**: the companion matrix of the polynomial with given roots has those roots. -/
theorem C124_companion {l : List K} (h : l ≠ []) : ∃ M : Matrix (Fin l.length) (Fin l.length) K, companion (poly l) = .ok (some (Arr.of M)) ∧ M.charpoly = (l.map fun z => X - C z).prod := by
  obtain ⟨h1, -, -⟩ := C04_poly l
  have hm : (toPoly (poly l)).Monic := by
    rw [h1]
    simpa using monic_multiset_prod_of_monic (l : Multiset K) (fun z => X - C z) fun z _ => monic_X_sub_C z
  have hd : (toPoly (poly l)).natDegree = l.length := by
    rw [h1]
    simpa using natDegree_multiset_prod_X_sub_C_eq_card (l : Multiset K)
  obtain ⟨n, M, e1, e2, e3⟩ := C05_companion (poly l) (by
    rw [degree_eq_natDegree hm.ne_zero, hd]
    exact_mod_cast List.length_pos_of_ne_nil h)
  obtain rfl := e2.trans hd
  exact ⟨M, e1, by rw [e3, hm.leadingCoeff, inv_one, C_1, one_mul, h1]⟩


variable [IsStrictOrderedRing K]

omit [LinearOrder K] [IsStrictOrderedRing K] in
theorem monic_lcm_unique {P : List K[X]} {l l' : K[X]} (h : l.Monic) (h' : l'.Monic) (hl : ∀ p ∈ P, p ∣ l) (hl' : ∀ p ∈ P, p ∣ l') (hu : ∀ M : K[X], (∀ p ∈ P, p ∣ M) → l ∣ M) (hu' : ∀ M : K[X], (∀ p ∈ P, p ∣ M) → l' ∣ M) : l = l' :=
  eq_of_monic_of_associated h h' (associated_of_dvd_dvd (hu _ hl') (hu' _ hl))

/-- **C124**: the array returned by `haroldlcm` starts with a one and is the monic least common multiple. Missing: polynomials
with nonzero coefficients below the clean-up threshold, see `C06_cleanup_violated`. -/
theorem C124_lcm_lead_partial (bal : ∀ polys : List (List K), BIdx polys → K) (hbal : ∀ polys i, bal polys i ≠ 0) {thr : K} {args : List (List K)} (hne : args ≠ []) (h0 : ∀ p ∈ args, p.getD 0 0 ≠ 0) (h1 : CoarseLcm thr (args.map toPoly)) :
    ∃ t m, lcm bal thr args = .ok (1 :: t, m) ∧ IsMonicLcm (args.map toPoly) (toPoly (1 :: t)) := by
  obtain ⟨l, m, a1, a2, a3, a4, -⟩ := C06_coarse_partial bal hbal args h1 hne h0
  obtain ⟨l', m', b1, ⟨t, rfl⟩, -⟩ := lcm_core_lead bal hbal le_rfl args hne h0
  rw [lcm_coarse bal hbal args hne h0 h1, b1] at a1
  obtain ⟨rfl, rfl⟩ : 1 :: t = l ∧ m' = m := by simpa using a1
  refine ⟨t, m', by rw [lcm_coarse bal hbal args hne h0 h1, b1], a2, ?_, fun M hM => a4 M fun p hp => hM _ (List.mem_map_of_mem hp)⟩
  intro p hp
  obtain ⟨q, hq, rfl⟩ := List.mem_map.mp hp
  exact a3 q hq

/-- **C124**: the least common multiple can be taken in two steps, with the same array as result. Missing: as in
`C124_lcm_lead_partial`. -/
theorem C124_lcm_nested_partial (bal : ∀ polys : List (List K), BIdx polys → K) (hbal : ∀ polys i, bal polys i ≠ 0) {thr : K} {args args' : List (List K)} (hne : args ≠ []) (h0 : ∀ p ∈ args ++ args', p.getD 0 0 ≠ 0) (h1 : CoarseLcm thr (args.map toPoly)) (h2 : CoarseLcm thr ((args ++ args').map toPoly)) (h3 : ∀ L, IsMonicLcm (args.map toPoly) L → CoarseLcm thr (L :: args'.map toPoly)) :
    ∃ l m k n t, lcm bal thr args = .ok (l, m) ∧ lcm bal thr (args ++ args') = .ok (k, n) ∧ lcm bal thr (l :: args') = .ok (k, t) := by
  obtain ⟨l, m, a1, a2, a3, a4⟩ := C124_lcm_lead_partial bal hbal hne (fun p hp => h0 p (by simp [hp])) h1
  obtain ⟨k, n, b1, b2, b3, b4⟩ := C124_lcm_lead_partial bal hbal (args := args ++ args') (by simp [hne]) h0 h2
  obtain ⟨s, t, c1, c2, c3, c4⟩ := C124_lcm_lead_partial bal hbal (args := (1 :: l) :: args') (thr := thr) (by simp) (by
    intro p hp
    rcases List.mem_cons.mp hp with rfl | hp
    · simp
    · exact h0 p (by simp [hp])) (h3 _ ⟨a2, a3, a4⟩)
  have he : toPoly (1 :: s) = toPoly (1 :: k) := by
    simp only [List.map_append, List.map_cons, List.mem_append, List.mem_cons, forall_eq_or_imp] at b3 b4 c3 c4
    exact eq_of_monic_of_associated c2 b2 (associated_of_dvd_dvd
      (c4 _ ⟨a4 _ fun q hq => b3 q (.inl hq), fun q hq => b3 q (.inr hq)⟩)
      (b4 _ fun q hq => hq.elim (fun hq => (a3 q hq).trans c3.1) fun hq => c3.2 q hq))
  rw [trimmed_ext (.inr ⟨1, s, rfl, one_ne_zero⟩) (.inr ⟨1, k, rfl, one_ne_zero⟩) he] at c1
  exact ⟨_, m, _, n, t, a1, b1, c1⟩

/-- **C124**: the product of the greatest common divisor and the least common multiple of two monic polynomials is their
product, as arrays. Missing: constant polynomials and small coefficients, see `C07_constant_violated`, `C07_small_violated`. -/
theorem C124_gcd_lcm_partial {E : GcdNum K} (hE : GcdNumOk E) (bal : ∀ polys : List (List K), BIdx polys → K) (hbal : ∀ polys i, bal polys i ≠ 0) {thr : K} {a b : List K} (ha : a.getD 0 0 = 1) (hb : b.getD 0 0 = 1) (hda : (toPoly a).natDegree ≠ 0) (hdb : (toPoly b).natDegree ≠ 0) (hs : NoTiny E [a, b]) (hc : CoarseLcm thr [toPoly a, toPoly b]) :
    ∃ g l m p, haroldgcd E [a, b] = .ok g ∧ lcm bal thr [a, b] = .ok (l, m) ∧ polymul [g, l] = .ok p ∧ polymul [a, b] = .ok p := by
  have h0 : ∀ {a : List K}, a.getD 0 0 = 1 → (toPoly a).Monic := by
    intro a ha
    cases a with
    | nil => simp at ha
    | cons x t => obtain rfl : x = 1 := by simpa using ha
                  rw [Monic, leadingCoeff_toPoly_cons one_ne_zero]
  obtain ⟨g, e1, e2, e3, e4⟩ := C07_gcd_partial hE [a, b] (by simp [(h0 ha).ne_zero, (h0 hb).ne_zero]) (by simp) (.inr (.inl (by simp [hda, hdb]))) hs
  obtain ⟨l, m, f1, f2, f3, f4, -⟩ := C06_coarse_partial bal hbal [a, b] hc (by simp) (by simp [-List.getD_eq_getElem?_getD, ha, hb])
  obtain ⟨p, g1, g2, g3⟩ := C01_polymul_partial g [l] (.inl e3.ne_zero)
  obtain ⟨q, k1, k2, k3⟩ := C01_polymul_partial a [b] (.inl (h0 ha).ne_zero)
  have hgl : toPoly g * toPoly l = toPoly a * toPoly b := by
    refine eq_of_monic_of_associated (e3.mul f2) ((h0 ha).mul (h0 hb)) ?_
    obtain ⟨u, hu⟩ := (e4 (toPoly g)).mp dvd_rfl (toPoly a) (by simp)
    obtain ⟨v, hv⟩ := (e4 (toPoly g)).mp dvd_rfl (toPoly b) (by simp)
    refine associated_of_dvd_dvd ?_ ?_
    · have h1 : toPoly l ∣ toPoly g * u * v := f4 _ (by
        intro p hp
        simp only [List.mem_cons, List.not_mem_nil, or_false] at hp
        rcases hp with rfl | rfl
        · exact ⟨v, by rw [hu]⟩
        · exact ⟨u, by rw [hv]; ring⟩)
      calc toPoly g * toPoly l ∣ toPoly g * (toPoly g * u * v) := mul_dvd_mul_left _ h1
        _ = toPoly a * toPoly b := by rw [hu, hv]; ring
    · obtain ⟨x, hx⟩ := f3 a (by simp)
      obtain ⟨y, hy⟩ := f3 b (by simp)
      obtain ⟨z, hz⟩ : toPoly l ∣ toPoly a * toPoly b := f4 _ (by
        intro p hp
        simp only [List.mem_cons, List.not_mem_nil, or_false] at hp
        rcases hp with rfl | rfl
        · exact dvd_mul_right _ _
        · exact dvd_mul_left _ _)
      have hza : z ∣ toPoly a := by
        refine ⟨y, mul_right_cancel₀ (h0 hb).ne_zero ?_⟩
        rw [hz, hy]; ring
      have hzb : z ∣ toPoly b := by
        refine ⟨x, mul_left_cancel₀ (h0 ha).ne_zero ?_⟩
        rw [hz, hx]; ring
      rw [hz, mul_comm]
      exact mul_dvd_mul_right ((e4 z).mpr (by simp [hza, hzb])) _
  obtain rfl := trimmed_ext g3 k3 (by rw [g2, k2]; simpa using hgl)
  exact ⟨g, l, m, p, e1, f1, g1, k1⟩

/-- Factors, roots and a divisor. -/
example : ∃ r, polymul ([[1, 2], [3], [1, 0, 1]] : List (List ℚ)) = .ok r ∧ polymul [[1, 0, 1], [1, 2], [3]] = .ok r :=
  C124_mul_perm (by simp) (by
    intro a ha
    simp only [List.mem_cons, List.not_mem_nil, or_false] at ha
    rcases ha with rfl | rfl | rfl <;> exact toPoly_ne_zero_of_cons (by norm_num) _) (by decide)

example : ∃ p q r, polymul ([[1, 2], [3, 1]] : List (List ℚ)) = .ok p ∧ polydiv p [3, 1] = .ok (q, r) ∧ toPoly q = toPoly [1, 2] ∧ toPoly r = 0 :=
  C124_div_mul (toPoly_ne_zero_of_cons one_ne_zero _) (by norm_num)

/-- Two monic polynomials with integer coefficients and the threshold of the code. -/
example (bal : ∀ polys : List (List ℚ), BIdx polys → ℚ) (hbal : ∀ polys i, bal polys i ≠ 0) :
    ∃ g l m p, haroldgcd (exactGcdNum ℚ) [[1, 3, 2], [1, 1]] = .ok g ∧ lcm bal (1 / 10 ^ 9) [[1, 3, 2], [1, 1]] = .ok (l, m) ∧ polymul [g, l] = .ok p ∧ polymul [[1, 3, 2], [1, 1]] = .ok p := by
  refine C124_gcd_lcm_partial exactGcdNum_ok bal hbal (by simp) (by simp) ?_ ?_ gcdExample_tiny ?_
  · rw [natDegree_noLead (.inr ⟨1, [3, 2], rfl, one_ne_zero⟩)]; decide
  · rw [natDegree_noLead (.inr ⟨1, [1], rfl, one_ne_zero⟩)]; decide
  · simpa only [List.map_cons, List.map_nil, Int.cast_one, Int.cast_ofNat] using coarseLcm_int2 (K := ℚ) (τ := 1 / 10 ^ 9) (by norm_num) [3, 2] [1]

/-- Two steps. -/
example (bal : ∀ polys : List (List ℚ), BIdx polys → ℚ) (hbal : ∀ polys i, bal polys i ≠ 0) :
    ∃ l m k n t, lcm bal (1 / 10 ^ 9) [[1, 3, 2]] = .ok (l, m) ∧ lcm bal (1 / 10 ^ 9) [[1, 3, 2], [1, 1]] = .ok (k, n) ∧ lcm bal (1 / 10 ^ 9) [l, [1, 1]] = .ok (k, t) := by
  have h2 : CoarseLcm (1 / 10 ^ 9 : ℚ) [toPoly [1, 3, 2], toPoly [1, 1]] := by
    simpa only [List.map_cons, List.map_nil, Int.cast_one, Int.cast_ofNat] using coarseLcm_int2 (K := ℚ) (τ := 1 / 10 ^ 9) (by norm_num) [3, 2] [1]
  have h1 : CoarseLcm (1 / 10 ^ 9 : ℚ) [toPoly [1, 3, 2]] := by
    have h := coarseLcm_int (K := ℚ) (τ := 1 / 10 ^ 9) (by norm_num) [toPoly ([1, 3, 2] : List ℤ)] (by
      intro p hp
      rw [List.mem_singleton.mp hp]
      exact toPoly_int_monic)
    simpa only [← toPoly_cast, List.map_cons, List.map_nil, Int.cast_one, Int.cast_ofNat] using h
  refine C124_lcm_nested_partial bal hbal (args := [[1, 3, 2]]) (args' := [[1, 1]]) (by simp) (by simp) h1 h2 fun L hL => ?_
  have hm : (toPoly ([1, 3, 2] : List ℚ)).Monic := by
    rw [Monic, leadingCoeff_toPoly_cons one_ne_zero]
  obtain rfl : toPoly [1, 3, 2] = L := eq_of_monic_of_associated hm hL.1 (associated_of_dvd_dvd (hL.2.1 _ (by simp)) (hL.2.2 _ (by simp)))
  exact h2

/-- Products of products, sums and roots. -/
example : ∃ r s, polymul ([[1, 2], [3]] : List (List ℚ)) = .ok r ∧ polymul ([[1, 2], [3]] ++ [[1, 0, 1]]) = .ok s ∧ polymul (r :: [[1, 0, 1]]) = .ok s :=
  C124_mul_assoc (by simp) (by
    intro a ha
    simp only [List.mem_cons, List.not_mem_nil, or_false] at ha
    rcases ha with rfl | rfl <;> exact toPoly_ne_zero_of_cons (by norm_num) _)

example : poly ([1, 2, 3] : List ℚ) = poly [3, 1, 2] := C124_roots_perm (by decide)

end Harold
