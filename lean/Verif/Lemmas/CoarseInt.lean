import Verif.Lemmas.Coarse
import Mathlib.RingTheory.Polynomial.GaussLemma
import Mathlib.RingTheory.Polynomial.RationalRoot
import Mathlib.Data.Rat.Cast.CharZero

/-!
# Polynomials with integer coefficients and the rounding of small coefficients

Denominators with integer coefficients and leading coefficient one, and numerators with integer
coefficients, are not touched by thresholds up to one: all polynomials computed from them have integer
coefficients again.
-/

namespace Harold

open Spec Polynomial

section ratinteger

/-- Monic divisors of monic integer polynomials over the rationals have integer coefficients. -/
theorem monic_dvd_int {W : ℤ[X]} (hW : W.Monic) {P : ℚ[X]} (hP : P.Monic) (h : P ∣ W.map (Int.castRingHom ℚ)) :
    ∃ Q : ℤ[X], Q.Monic ∧ P = Q.map (Int.castRingHom ℚ) := by
  obtain ⟨Q, hQ⟩ := IsIntegrallyClosed.eq_map_mul_C_of_dvd ℚ hW (g := P) h
  rw [hP.leadingCoeff, C_1, mul_one] at hQ
  refine ⟨Q, ?_, hQ.symm⟩
  rw [← hQ] at hP
  exact monic_of_injective (f := algebraMap ℤ ℚ) (RingHom.injective_int _) hP

end ratinteger

section field
variable {K : Type} [Field K] [LinearOrder K] [IsStrictOrderedRing K]

theorem coarse_int {τ : K} (hτ : τ ≤ 1) (Q : ℤ[X]) : Coarse τ (Q.map (Int.castRingHom K)) := by
  intro k
  rw [coeff_map]
  by_cases h : Q.coeff k = 0
  · left; simp [h]
  · right
    refine hτ.trans ?_
    have : (1 : ℤ) ≤ |Q.coeff k| := Int.one_le_abs h
    simp only [eq_intCast]
    rw [← Int.cast_abs]
    exact_mod_cast this

/-- Over the rationals. -/
theorem coarseFactors_int {τ : ℚ} (hτ : τ ≤ 1) {W : ℤ[X]} (hW : W.Monic) :
    CoarseFactors τ (W.map (Int.castRingHom ℚ)) := by
  intro P hP hd
  obtain ⟨Q, -, rfl⟩ := monic_dvd_int hW hP hd
  exact coarse_int hτ Q

/-- Least common multiples do not depend on the field. -/
theorem lcm_map {F L : Type} [Field F] [Field L] (φ : F →+* L) (args : List F[X]) (h : ∀ p ∈ args, p ≠ 0) :
    ∃ M : F[X], IsMonicLcm args M ∧ IsMonicLcm (args.map fun p => p.map φ) (M.map φ) := by
  classical
  induction args with
  | nil =>
    refine ⟨1, ⟨monic_one, by simp, by simp⟩, ?_, by simp, by simp⟩
    simp [monic_one]
  | cons a l ih =>
    obtain ⟨M, h1, h2⟩ := ih fun p hp => h p (by simp [hp])
    have ha : a ≠ 0 := h a (by simp)
    have hg : EuclideanDomain.gcd a M ≠ 0 := fun e => ha (EuclideanDomain.gcd_eq_zero_iff.mp e).1
    set g := EuclideanDomain.gcd a M with hgdef
    obtain ⟨a', ea⟩ : g ∣ a := EuclideanDomain.gcd_dvd_left a M
    obtain ⟨b', eb⟩ : g ∣ M := EuclideanDomain.gcd_dvd_right a M
    obtain ⟨u, v, huv⟩ : ∃ u v : F[X], u * a' + v * b' = 1 := by
      refine ⟨EuclideanDomain.gcdA a M, EuclideanDomain.gcdB a M, ?_⟩
      have e := EuclideanDomain.gcd_eq_gcd_ab a M
      rw [← hgdef] at e
      apply mul_left_cancel₀ hg
      linear_combination (- EuclideanDomain.gcdA a M) * ea - EuclideanDomain.gcdB a M * eb - e
    have hM0 : g * a' * b' ≠ 0 := by
      refine mul_ne_zero (mul_ne_zero hg ?_) ?_
      · rintro rfl; simp at ea; exact ha ea
      · rintro rfl; simp at eb; exact h1.1.ne_zero eb
    have key : ∀ {R : Type} [CommRing R] {g a b u v X : R}, u * a + v * b = 1 → g * a ∣ X → g * b ∣ X →
        g * a * b ∣ X := by
      rintro R _ g a b u v X h ⟨x, hx⟩ ⟨y, hy⟩
      refine ⟨u * y + v * x, ?_⟩
      linear_combination (-X) * h + u * a * hy + v * b * hx
    set c := (g * a' * b').leadingCoeff with hc
    have hc0 : c ≠ 0 := leadingCoeff_ne_zero.mpr hM0
    have hmon : (g * a' * b' * C c⁻¹).Monic := monic_mul_leadingCoeff_inv hM0
    have hunit : ∀ {R : Type} [Field R] (X : R[X]) {d : R}, d ≠ 0 → Associated (X * C d) X := fun X d hd =>
      associated_mul_unit_left X _ (isUnit_C.mpr hd.isUnit)
    have hA := hunit (g * a' * b') (inv_ne_zero hc0)
    refine ⟨g * a' * b' * C c⁻¹, ⟨hmon, ?_, ?_⟩, hmon.map φ, ?_, ?_⟩
    · intro p hp
      rw [hA.dvd_iff_dvd_right]
      rcases List.mem_cons.mp hp with rfl | hp
      · rw [ea]; exact dvd_mul_right _ _
      · refine (h1.2.1 p hp).trans ?_
        rw [eb]; exact ⟨a', by ring⟩
    · intro M' hM'
      rw [hA.dvd_iff_dvd_left]
      refine key huv ?_ ?_
      · rw [← ea]; exact hM' a (by simp)
      · rw [← eb]; exact h1.2.2 M' fun p hp => hM' p (by simp [hp])
    · intro q hq
      rw [List.map_cons, List.mem_cons] at hq
      rw [Polynomial.map_mul, map_C]
      have hA' := hunit ((g * a' * b').map φ) (d := φ c⁻¹) (by simpa using hc0)
      rw [hA'.dvd_iff_dvd_right]
      rcases hq with rfl | hq
      · apply Polynomial.map_dvd
        rw [ea]; exact dvd_mul_right _ _
      · refine (h2.2.1 q hq).trans (Polynomial.map_dvd _ ?_)
        rw [eb]; exact ⟨a', by ring⟩
    · intro M' hM'
      rw [Polynomial.map_mul, map_C]
      have hA' := hunit ((g * a' * b').map φ) (d := φ c⁻¹) (by simpa using hc0)
      rw [hA'.dvd_iff_dvd_left, Polynomial.map_mul, Polynomial.map_mul]
      have huv' : u.map φ * a'.map φ + v.map φ * b'.map φ = 1 := by
        rw [← Polynomial.map_mul, ← Polynomial.map_mul, ← Polynomial.map_add, huv, Polynomial.map_one]
      refine key huv' ?_ ?_
      · rw [← Polynomial.map_mul, ← ea]; exact hM' _ (by simp)
      · rw [← Polynomial.map_mul, ← eb]
        refine h2.2.2 M' fun p hp => hM' p ?_
        rw [List.map_cons]; exact List.mem_cons_of_mem _ hp

/-- Least common multiples of monic integer polynomials and their cofactors have integer coefficients. -/
theorem coarseLcm_int {τ : K} (hτ : τ ≤ 1) (args : List ℤ[X]) (h : ∀ p ∈ args, p.Monic) :
    CoarseLcm τ (args.map fun p => p.map (Int.castRingHom K)) := by
  have hcomp : ∀ p : ℤ[X], (p.map (Int.castRingHom ℚ)).map (Rat.castHom K) = p.map (Int.castRingHom K) := by
    intro p
    rw [Polynomial.map_map]
    congr 1
    exact RingHom.ext_int _ _
  obtain ⟨M, h1, h2⟩ := lcm_map (Rat.castHom K) (args.map fun p => p.map (Int.castRingHom ℚ)) (by
    intro p hp
    obtain ⟨q, hq, rfl⟩ := List.mem_map.mp hp
    exact ((h q hq).map _).ne_zero)
  have e : ((args.map fun p => p.map (Int.castRingHom ℚ)).map fun p => p.map (Rat.castHom K))
      = args.map fun p => p.map (Int.castRingHom K) := by
    rw [List.map_map]
    exact List.map_congr_left fun p _ => hcomp p
  rw [e] at h2
  have hprod : args.prod.Monic := by
    clear h1 h2 e
    induction args with
    | nil => exact monic_one
    | cons a l ih =>
      rw [List.prod_cons]
      exact (h a (by simp)).mul (ih fun p hp => h p (by simp [hp]))
  have hMd : M ∣ args.prod.map (Int.castRingHom ℚ) := by
    refine h1.2.2 _ fun p hp => ?_
    obtain ⟨q, hq, rfl⟩ := List.mem_map.mp hp
    exact Polynomial.map_dvd _ (List.dvd_prod hq)
  have hint : ∀ P : ℚ[X], P.Monic → P ∣ M → Coarse τ (P.map (Rat.castHom K)) := by
    intro P hP hd
    obtain ⟨Q, -, rfl⟩ := monic_dvd_int hprod hP (hd.trans hMd)
    rw [hcomp]
    exact coarse_int hτ Q
  intro M' hM'
  rw [isMonicLcm_unique hM' h2]
  refine ⟨hint M h1.1 dvd_rfl, ?_⟩
  intro q hq Q hQ ha
  obtain ⟨z, hz, rfl⟩ := List.mem_map.mp hq
  obtain ⟨w, hw⟩ := h1.2.1 (z.map (Int.castRingHom ℚ)) (List.mem_map.mpr ⟨z, hz, rfl⟩)
  have hzm : (z.map (Int.castRingHom ℚ)).Monic := (h z hz).map _
  have hwm : w.Monic := by
    have := h1.1
    rw [hw] at this
    exact Monic.of_mul_monic_left hzm this
  have e2 : M.map (Rat.castHom K) = w.map (Rat.castHom K) * z.map (Int.castRingHom K) := by
    rw [hw, Polynomial.map_mul, hcomp, mul_comm]
  rw [e2] at ha
  have hz0 : z.map (Int.castRingHom K) ≠ 0 := ((h z hz).map _).ne_zero
  have h3 : Q = w.map (Rat.castHom K) :=
    eq_of_monic_of_associated hQ (hwm.map _) (ha.of_mul_right (Associated.refl _) hz0)
  rw [h3]
  exact hint w hwm ⟨z.map (Int.castRingHom ℚ), by rw [hw, mul_comm]⟩

/-- The list of the images of integer coefficients. -/
theorem toPoly_cast (l : List ℤ) : toPoly (l.map fun x : ℤ => (x : K)) = (toPoly l).map (Int.castRingHom K) := by
  induction l with
  | nil => simp [toPoly]
  | cons a l ih => simp [toPoly, ih]

theorem toPoly_int_monic {t : List ℤ} : (toPoly (1 :: t)).Monic := by
  have hdeg : ∀ l : List ℤ, (toPoly l).degree < l.length := by
    intro l
    induction l with
    | nil => simp [toPoly]
    | cons a l ih =>
      rw [toPoly]
      refine (degree_add_le _ _).trans_lt (max_lt ?_ (ih.trans (by simp only [List.length_cons]; exact_mod_cast Nat.lt_succ_self _)))
      exact (degree_C_mul_X_pow_le _ _).trans_lt (by simp only [List.length_cons]; exact_mod_cast Nat.lt_succ_self _)
  rw [toPoly, C_1, one_mul]
  exact monic_X_pow_add (hdeg t)

theorem coarseLcm_int2 {τ : K} (hτ : τ ≤ 1) (t u : List ℤ) : CoarseLcm τ
    [toPoly ((1 :: t).map fun x : ℤ => (x : K)), toPoly ((1 :: u).map fun x : ℤ => (x : K))] := by
  have := coarseLcm_int hτ [toPoly (1 :: t), toPoly (1 :: u)] (by
    intro p hp
    simp only [List.mem_cons, List.not_mem_nil, or_false] at hp
    rcases hp with rfl | rfl <;> exact toPoly_int_monic)
  rw [toPoly_cast, toPoly_cast]
  exact this

/-- Models with integer numerators and monic integer denominators are converted without rounding. -/
theorem noRounding_int {τl τr : K} (hl : τl ≤ 1) (hr : τr ≤ 1) {p m : ℕ} (N D : Fin p → Fin m → List ℤ)
    (hD : ∀ i j, ∃ t, D i j = 1 :: t) :
    NoRounding τl τr (fun i j => (N i j).map fun x : ℤ => (x : K)) (fun i j => (D i j).map fun x : ℤ => (x : K)) := by
  have hm : ∀ i j, (toPoly (D i j)).Monic := fun i j => by
    obtain ⟨t, e⟩ := hD i j
    rw [e]; exact toPoly_int_monic
  have hmod : ∀ i j, toPoly ((N i j).map fun x : ℤ => (x : K)) % toPoly ((D i j).map fun x : ℤ => (x : K))
      = (toPoly (N i j) %ₘ toPoly (D i j)).map (Int.castRingHom K) := fun i j => by
    rw [toPoly_cast, toPoly_cast, map_modByMonic _ (hm i j), modByMonic_eq_mod _ ((hm i j).map _)]
  have hdyn : ∀ i j, ∃ q : ℤ[X], q.Monic ∧ dynDen (toPoly ((N i j).map fun x : ℤ => (x : K)))
      (toPoly ((D i j).map fun x : ℤ => (x : K))) = q.map (Int.castRingHom K) := fun i j => by
    unfold dynDen
    split_ifs
    · exact ⟨1, monic_one, by simp⟩
    · exact ⟨_, hm i j, toPoly_cast _⟩
  choose q hq1 hq2 using hdyn
  have hlcm : ∀ {n : ℕ} (f : Fin n → ℤ[X]), (∀ i, (f i).Monic) →
      CoarseLcm τl (List.ofFn fun i => (f i).map (Int.castRingHom K)) := by
    intro n f hf
    have := coarseLcm_int hl (List.ofFn f) (by
      intro x hx
      obtain ⟨i, rfl⟩ := List.mem_ofFn.mp hx
      exact hf i)
    rw [List.map_ofFn] at this
    exact this
  refine ⟨fun _ i j => ?_, fun _ => ⟨fun i j => ?_, fun _ j => ?_, fun _ i => ?_⟩⟩
  · rw [hmod, toPoly_cast, ((hm i j).map _).leadingCoeff, inv_one, C_1, one_mul]
    exact coarse_int hr _
  · rw [hmod]; exact coarse_int hr _
  · simp only [hq2]
    exact hlcm (fun i => q i j) fun i => hq1 i j
  · simp only [hq2]
    exact hlcm (fun j => q i j) fun j => hq1 i j

theorem noRounding_int' {τl τr : K} (hl : τl ≤ 1) (hr : τr ≤ 1) {p m : ℕ} {N D : Fin p → Fin m → List K}
    (N' D' : Fin p → Fin m → List ℤ) (hN : ∀ i j, N i j = (N' i j).map fun x : ℤ => (x : K))
    (hD : ∀ i j, D i j = (D' i j).map fun x : ℤ => (x : K)) (hm : ∀ i j, ∃ t, D' i j = 1 :: t) :
    NoRounding τl τr N D := by
  obtain rfl : N = _ := funext fun i => funext fun j => hN i j
  obtain rfl : D = _ := funext fun i => funext fun j => hD i j
  exact noRounding_int hl hr N' D' hm

theorem clearModel_int {τl τr : K} (hl : τl ≤ 1) (hr : τr ≤ 1) {p m : ℕ} {G : TransferM K}
    {N D : Matrix (Fin p) (Fin m) (List K)} (hGN : G.num = Arr.of N) (hGD : G.den = Arr.of D)
    (N' D' : Fin p → Fin m → List ℤ) (hN : ∀ i j, N i j = (N' i j).map fun x : ℤ => (x : K))
    (hD : ∀ i j, D i j = (D' i j).map fun x : ℤ => (x : K)) (hm : ∀ i j, ∃ t, D' i j = 1 :: t) :
    ClearModel τl τr G :=
  (clearModel_iff hGN hGD).mpr (noRounding_int' hl hr N' D' hN hD hm)

end field

/-- Over the rationals, matrix products of models with monic integer denominators are not rounded. -/
theorem matmulClear_int {τ : ℚ} (hτ : τ ≤ 1) {p k m : ℕ} {G H : TransferM ℚ} (D : Fin p → Fin k → List ℤ)
    (D' : Fin k → Fin m → List ℤ) (hG : ∀ r i, G.den.entry (r : Fin p) (i : Fin k) = (D r i).map fun x : ℤ => (x : ℚ))
    (hH : ∀ i c, H.den.entry (i : Fin k) (c : Fin m) = (D' i c).map fun x : ℤ => (x : ℚ))
    (hD : ∀ r i, ∃ t, D r i = 1 :: t) (hD' : ∀ i c, ∃ t, D' i c = 1 :: t) : MatmulClear τ p k m G H := by
  intro r c
  have e : ∏ i : Fin k, toPoly (G.den.entry r i) * toPoly (H.den.entry i c)
      = (∏ i : Fin k, toPoly (D r i) * toPoly (D' i c)).map (Int.castRingHom ℚ) := by
    rw [Polynomial.map_prod]
    refine Finset.prod_congr rfl fun i _ => ?_
    rw [hG, hH, toPoly_cast, toPoly_cast, Polynomial.map_mul]
  rw [e]
  refine coarseFactors_int hτ (monic_prod_of_monic _ _ fun i _ => Monic.mul ?_ ?_)
  · obtain ⟨t, e⟩ := hD r i; rw [e]; exact toPoly_int_monic
  · obtain ⟨t, e⟩ := hD' i c; rw [e]; exact toPoly_int_monic

theorem rowsClear_int {τ : ℚ} (hτ : τ ≤ 1) {p k : ℕ} {G : TransferM ℚ} (D : Fin p → Fin k → List ℤ)
    (hG : ∀ r i, G.den.entry (r : Fin p) (i : Fin k) = (D r i).map fun x : ℤ => (x : ℚ))
    (hD : ∀ r i, ∃ t, D r i = 1 :: t) : RowsClear τ p k G := by
  intro r
  have e : ∏ i : Fin k, toPoly (G.den.entry r i) = (∏ i : Fin k, toPoly (D r i)).map (Int.castRingHom ℚ) := by
    rw [Polynomial.map_prod]
    exact Finset.prod_congr rfl fun i _ => by rw [hG, toPoly_cast]
  rw [e]
  refine coarseFactors_int hτ (monic_prod_of_monic _ _ fun i _ => ?_)
  obtain ⟨t, e⟩ := hD r i; rw [e]; exact toPoly_int_monic

end Harold
