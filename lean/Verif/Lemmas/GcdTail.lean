import Verif.Lemmas.GcdRows

/-!
# Reading the greatest common divisor off the triangular factor
-/

namespace Harold

open Polynomial Spec

variable {K : Type} [Field K] [LinearOrder K]

theorem any_ne_zero_iff (x : List K) :
    (x.any fun a => decide (a ≠ 0)) = true ↔ toPoly x ≠ 0 := by
  rw [Ne, toPoly_eq_zero_iff]
  simp

theorem lastRow_append (Z : List (List K)) (x : List K) (A : List (List K))
    (hZ : ∀ z ∈ Z, toPoly z = 0) (hx : toPoly x ≠ 0) : lastRow (Z ++ x :: A) = x := by
  induction Z with
  | nil =>
    cases A with
    | nil => rfl
    | cons y t => rw [List.nil_append, lastRow, if_pos ((any_ne_zero_iff x).2 hx)]
  | cons z Z ih =>
    have hz : ¬ (z.any fun a => decide (a ≠ 0)) = true := by
      rw [any_ne_zero_iff]; exact not_not.2 (hZ z (by simp))
    have ih := ih fun y hy => hZ y (List.mem_cons_of_mem _ hy)
    rw [List.cons_append]
    rcases hq : Z ++ x :: A with _ | ⟨y, t⟩
    · simp at hq
    · rw [lastRow, if_neg hz, ← hq, ih]

theorem lastRow_ofFn {M : ℕ} (f : Fin M → List K) (i : Fin M) (hi : toPoly (f i) ≠ 0)
    (h : ∀ j : Fin M, i.val < j.val → toPoly (f j) = 0) :
    lastRow (List.ofFn f).reverse = f i := by
  have hlt : i.val < (List.ofFn f).length := by simp
  have hsplit : List.ofFn f = (List.ofFn f).take i.val ++ f i :: (List.ofFn f).drop (i.val + 1) := by
    have h2 : (List.ofFn f)[i.val] = f i := by simp
    rw [← h2, List.getElem_cons_drop, List.take_append_drop]
  rw [hsplit, List.reverse_append, List.reverse_cons, List.append_assoc, List.singleton_append]
  apply lastRow_append _ _ _ _ hi
  intro z hz
  rw [List.mem_reverse, List.mem_drop_iff_getElem] at hz
  obtain ⟨j, hj, rfl⟩ := hz
  simp only [List.length_ofFn] at hj
  rw [List.getElem_ofFn]
  exact h _ (by simp only; omega)

theorem monicRow_spec {x : List K} (hx : toPoly x ≠ 0) :
    ∃ out, monicRow x = .ok out ∧ (toPoly out).Monic ∧
      toPoly x = C (toPoly x).leadingCoeff * toPoly out ∧ Trimmed out := by
  have h0 : trimZeros x ≠ [] := fun h => hx ((trimZeros_eq_nil_iff x).1 h)
  rcases noLead_trimZeros x with h | ⟨a, t, h, ha⟩
  · exact absurd h h0
  refine ⟨(a :: t).map fun b => b / a, ?_, ?_, ?_, ?_⟩
  · rw [monicRow, h]
  all_goals
    have hmap : ((a :: t).map fun b => b / a) = (a :: t).map fun b => a⁻¹ * b :=
      List.map_congr_left fun b _ => by rw [div_eq_inv_mul]
  · rw [hmap, toPoly_map_mul, Monic, leadingCoeff_mul, leadingCoeff_C,
      leadingCoeff_toPoly_cons ha, inv_mul_cancel₀ ha]
  · rw [hmap, toPoly_map_mul, ← toPoly_trimZeros x, h, leadingCoeff_toPoly_cons ha, ← mul_assoc,
      ← C_mul, mul_inv_cancel₀ ha, C_1, one_mul]
  · right
    exact ⟨a / a, t.map fun b => b / a, by simp, by rw [div_self ha]; exact one_ne_zero⟩

/-- The rows of a triangular factor whose rows span the multiples of `G` of degree less than `N`. -/
theorem lu_row {M N : ℕ} {U : Matrix (Fin M) (Fin N) K} {G : K[X]} (hG : G ≠ 0)
    (hd : G.natDegree < N) (hup : ∀ i j, j.val < i.val → U i j = 0)
    (hsp : polySpace U = multSpace N G) :
    ∃ i : Fin M, toPoly (List.ofFn (U i)) ≠ 0 ∧
      (∃ c, toPoly (List.ofFn (U i)) = C c * G) ∧
      ∀ j : Fin M, i.val < j.val → toPoly (List.ofFn (U j)) = 0 := by
  have hmem : ∀ i, rowMap N (U i) ∈ multSpace N G := fun i => by
    rw [← hsp]; exact Submodule.subset_span ⟨i, rfl⟩
  have hdvd : ∀ i, G ∣ rowMap N (U i) := fun i => (mem_multSpace.1 (hmem i)).1
  have hdeg : ∀ i, (rowMap N (U i)).degree < ((N - i.val : ℕ) : WithBot ℕ) := fun i =>
    degree_rowMap_lt (U i) fun j hj => hup i j hj
  have hzero : ∀ i : Fin M, N - G.natDegree ≤ i.val → rowMap N (U i) = 0 := by
    intro i hi
    apply eq_zero_of_dvd_of_degree_lt (hdvd i)
    refine lt_of_lt_of_le (hdeg i) ?_
    rw [degree_eq_natDegree hG]
    exact Nat.cast_le.2 (by omega)
  have hfin : Module.finrank K (polySpace U) = N - G.natDegree := by
    rw [hsp, finrank_multSpace G hG]
  -- the rows after the first `N - deg G - 1` cannot all vanish
  have hex : ∃ i : Fin M, i.val = N - G.natDegree - 1 ∧ rowMap N (U i) ≠ 0 := by
    by_contra hcon
    push Not at hcon
    have hz : ∀ i : Fin M, N - G.natDegree - 1 ≤ i.val → rowMap N (U i) = 0 := by
      intro i hi
      rcases Nat.eq_or_lt_of_le hi with h | h
      · exact hcon i h.symm
      · exact hzero i (by omega)
    let f : Fin (N - G.natDegree - 1) → K[X] := fun k =>
      if h : k.val < M then rowMap N (U ⟨k.val, h⟩) else 0
    have hle : polySpace U ≤ Submodule.span K (Set.range f) := by
      rw [polySpace, Submodule.span_le]
      rintro _ ⟨i, rfl⟩
      rcases Nat.lt_or_ge i.val (N - G.natDegree - 1) with h | h
      · refine Submodule.subset_span ⟨⟨i.val, h⟩, ?_⟩
        simp only [f]
        rw [dif_pos i.2]
      · show rowMap N (U i) ∈ _
        rw [hz i h]; exact Submodule.zero_mem _
    have h1 : Module.finrank K (polySpace U) ≤ Module.finrank K (Submodule.span K (Set.range f)) := by
      haveI : Module.Finite K (Submodule.span K (Set.range f)) :=
        FiniteDimensional.span_of_finite K (Set.finite_range f)
      exact Submodule.finrank_mono hle
    have h2 := finrank_range_le_card (R := K) f
    rw [Set.finrank, Fintype.card_fin] at h2
    omega
  obtain ⟨i, hi, hne⟩ := hex
  refine ⟨i, hne, ?_, fun j hj => hzero j (by omega)⟩
  obtain ⟨w, hw⟩ := hdvd i
  refine ⟨w.coeff 0, ?_⟩
  have hw0 : w ≠ 0 := by rintro rfl; rw [mul_zero] at hw; exact hne hw
  have hwd : w.natDegree = 0 := by
    have := hdeg i
    rw [hw, degree_mul, degree_eq_natDegree hG, degree_eq_natDegree hw0, ← Nat.cast_add,
      Nat.cast_lt] at this
    omega
  rw [← rowMap_apply, hw, ← eq_C_of_natDegree_eq_zero hwd, mul_comm]

/-- Rows of length `N`, at least `N` of them, spanning the multiples of `G`. -/
theorem gcdTail_spec {E : GcdNum K} (hE : GcdNumOk E) {rows : List (List K)} {N : ℕ} {G : K[X]}
    (hlen : ∀ r ∈ rows, r.length = N) (hM : N ≤ rows.length) (hG : G ≠ 0) (hd : G.natDegree < N)
    (hsp : rowSpan rows = multSpace N G)
    (hsmall : ∀ i j, |E.lu (rowsMat rows N) i j| < 1 / 10 ^ 8 → E.lu (rowsMat rows N) i j = 0) :
    ∃ out, gcdTail E rows N = .ok out ∧ (toPoly out).Monic ∧ Trimmed out ∧
      ∀ q : K[X], q ∣ toPoly out ↔ q ∣ G := by
  have hS : polySpace (rowsMat rows N) = multSpace N G := by rw [polySpace_rowsMat hlen, hsp]
  rw [gcdTail]
  by_cases hr : E.rank (rowsMat rows N) = min rows.length N
  · rw [if_pos hr]
    rw [hE.rank, rank_eq_finrank_polySpace, hS, finrank_multSpace G hG, min_eq_right hM] at hr
    have hG0 : G.natDegree = 0 := by omega
    have hone : toPoly ([1] : List K) = 1 := by simp
    refine ⟨[1], rfl, by rw [hone]; exact monic_one, .inr ⟨1, [], rfl, one_ne_zero⟩, fun q => ?_⟩
    rw [hone]
    have hu : IsUnit G := by
      rw [eq_C_of_natDegree_eq_zero hG0, isUnit_C]
      refine IsUnit.mk0 _ fun h => hG ?_
      rw [eq_C_of_natDegree_eq_zero hG0, h, C_0]
    exact ⟨fun h => h.trans (one_dvd _), fun h => isUnit_iff_dvd_one.1 (isUnit_of_dvd_unit h hu)⟩
  · rw [if_neg hr]
    have hdrop : dropSmall (E.lu (rowsMat rows N)) = E.lu (rowsMat rows N) := by
      funext i j
      rw [dropSmall]
      split_ifs with h
      · exact (hsmall i j h).symm
      · rfl
    have hlu := hE.lu (rowsMat rows N)
    obtain ⟨i, hne, ⟨c, hc⟩, hz⟩ := lu_row hG hd hlu.1 (by rw [polySpace_lu hlu, hS])
    simp only [hdrop]
    rw [lastRow_ofFn _ i hne hz]
    obtain ⟨out, hout, hmon, hass, htr⟩ := monicRow_spec hne
    refine ⟨out, hout, hmon, htr, fun q => ?_⟩
    have hl0 : (toPoly (List.ofFn (E.lu (rowsMat rows N) i))).leadingCoeff ≠ 0 :=
      leadingCoeff_ne_zero.2 hne
    have hc0 : c ≠ 0 := by rintro rfl; rw [C_0, zero_mul] at hc; exact hne hc
    have key : C (toPoly (List.ofFn (E.lu (rowsMat rows N) i))).leadingCoeff * toPoly out =
        C c * G := by rw [← hass, hc]
    have hu1 := isUnit_C.2 (IsUnit.mk0 _ hl0)
    have hu2 := isUnit_C.2 (IsUnit.mk0 _ hc0)
    rw [← hu1.dvd_mul_left, key, hu2.dvd_mul_left]

end Harold
