import Verif.Model.ToTransfer
import Verif.Spec.ToTransfer
import Verif.Lemmas.TransferSucc
import Verif.Props.Poly
import Mathlib.Analysis.Complex.Polynomial.Basic
import Mathlib.LinearAlgebra.Matrix.Charpoly.Coeff

/-!
# One entry of `state_to_transfer`
-/

namespace Harold

open Matrix Spec Polynomial

section
variable {K L : Type} [Field K] [Field L] [Algebra K L] {n : ℕ}

theorem map_charmatrix_eval (A : Matrix (Fin n) (Fin n) K) (s : L) :
    (charmatrix A).map (aeval s) = s • (1 : Matrix (Fin n) (Fin n) L) - A.map (algebraMap K L) := by
  ext i j
  by_cases h : i = j
  · subst h; simp [charmatrix_apply]
  · simp [charmatrix_apply, h]

theorem aeval_charpoly (A : Matrix (Fin n) (Fin n) K) (s : L) :
    aeval s A.charpoly = (s • (1 : Matrix (Fin n) (Fin n) L) - A.map (algebraMap K L)).det := by
  rw [← map_charmatrix_eval, Matrix.charpoly]
  exact AlgHom.map_det (aeval s) _

theorem aeval_numPoly (A : Matrix (Fin n) (Fin n) K) (b c : Fin n → K) (s : L) :
    aeval s (numPoly A b c) = (fun i => algebraMap K L (c i)) ⬝ᵥ
      ((s • (1 : Matrix (Fin n) (Fin n) L) - A.map (algebraMap K L)).adjugate *ᵥ fun i => algebraMap K L (b i)) := by
  rw [← map_charmatrix_eval]
  have h : ((charmatrix A).map (aeval s)).adjugate = (charmatrix A).adjugate.map (aeval s) :=
    (RingHom.map_adjugate (aeval s : K[X] →ₐ[K] L).toRingHom _).symm
  rw [h]
  simp only [numPoly, dotProduct, mulVec, map_sum, map_mul, aeval_C, map_apply]

/-- `c (sI - A)⁻¹ b` is the quotient of the numerator polynomial and the characteristic polynomial. -/
theorem resolvent_entry (A : Matrix (Fin n) (Fin n) K) (b c : Fin n → K) (s : L)
    (h : (s • (1 : Matrix (Fin n) (Fin n) L) - A.map (algebraMap K L)).det ≠ 0) :
    (fun i => algebraMap K L (c i)) ⬝ᵥ
      ((s • (1 : Matrix (Fin n) (Fin n) L) - A.map (algebraMap K L))⁻¹ *ᵥ fun i => algebraMap K L (b i))
      = aeval s (numPoly A b c) / aeval s A.charpoly := by
  rw [aeval_numPoly, aeval_charpoly, Matrix.inv_def, Ring.inverse_eq_inv', smul_mulVec, dotProduct_smul, smul_eq_mul]
  field_simp

theorem det_rank_one {R : Type} [CommRing R] [IsDomain R] (M : Matrix (Fin n) (Fin n) R) (hM : M.det ≠ 0) (u v : Fin n → R) :
    (M + Matrix.of fun i j => u i * v j).det = M.det + v ⬝ᵥ (M.adjugate *ᵥ u) := by
  apply IsFractionRing.injective R (FractionRing R)
  set f := algebraMap R (FractionRing R) with hf
  have hM' : (M.map f).det ≠ 0 := by
    have : (M.map f).det = f M.det := (RingHom.map_det f M).symm
    rw [this]
    exact fun h => hM (IsFractionRing.injective R (FractionRing R) (by rw [h, map_zero]))
  have h1 : f (M + Matrix.of fun i j => u i * v j).det
      = (M.map f + replicateCol Unit (f ∘ u) * replicateRow Unit (f ∘ v)).det := by
    rw [RingHom.map_det]
    congr 1
    ext i j
    simp [Matrix.mul_apply]
  have h2 : f (M.det + v ⬝ᵥ (M.adjugate *ᵥ u)) = (M.map f).det + (f ∘ v) ⬝ᵥ ((M.map f).adjugate *ᵥ (f ∘ u)) := by
    have e1 : (M.map f).det = f M.det := (RingHom.map_det f M).symm
    have e2 : (M.map f).adjugate = M.adjugate.map f := (RingHom.map_adjugate f M).symm
    rw [map_add, e1, e2]
    simp only [dotProduct, mulVec, map_sum, map_mul, map_apply, Function.comp_apply]
  rw [h1, h2, det_add_replicateCol_mul_replicateRow (isUnit_iff_ne_zero.mpr hM')]
  have h3 : (1 + replicateRow Unit (f ∘ v) * (M.map f)⁻¹ * replicateCol Unit (f ∘ u)).det
      = 1 + (f ∘ v) ⬝ᵥ ((M.map f)⁻¹ *ᵥ (f ∘ u)) := by
    rw [det_unique, Matrix.add_apply, one_apply_eq, Matrix.mul_assoc]
    simp [Matrix.mul_apply, dotProduct, mulVec]
  rw [h3, Matrix.inv_def, Ring.inverse_eq_inv', smul_mulVec, dotProduct_smul, smul_eq_mul]
  field_simp

theorem charpoly_sub_rank_one (A : Matrix (Fin n) (Fin n) K) (b c : Fin n → K) :
    (A - Matrix.of fun i j => b i * c j).charpoly = A.charpoly + numPoly A b c := by
  have h := det_rank_one (charmatrix A) A.charpoly_monic.ne_zero (fun i => C (b i)) (fun i => C (c i))
  rw [Matrix.charpoly, Matrix.charpoly, numPoly, ← h]
  congr 1
  ext i j : 2
  simp [charmatrix_apply, sub_eq_add_neg, add_assoc, add_comm]

theorem degree_numPoly_lt (A : Matrix (Fin n) (Fin n) K) (b c : Fin n → K) : (numPoly A b c).degree < n := by
  have h : numPoly A b c = (A - Matrix.of fun i j => b i * c j).charpoly - A.charpoly := by
    rw [charpoly_sub_rank_one]; ring
  have e : ∀ M : Matrix (Fin n) (Fin n) K, M.charpoly.degree = n := fun M => by
    simpa using M.charpoly_degree_eq_dim
  rw [h, ← e (A - Matrix.of fun i j => b i * c j)]
  refine degree_sub_lt ?_ (Matrix.charpoly_monic _).ne_zero ?_
  · rw [e, e]
  · rw [Matrix.charpoly_monic, Matrix.charpoly_monic]

end

theorem toPoly_map_re {l : List ℂ} {P : ℝ[X]} (h : toPoly l = P.map (algebraMap ℝ ℂ)) : toPoly (l.map Complex.re) = P := by
  ext i
  have := congrArg (fun q => (coeff q i).re) h
  simp only [coeff_map, coeff_toPoly, Complex.coe_algebraMap, Complex.ofReal_re] at this
  rw [coeff_toPoly, ← this, ← List.map_reverse, List.getD_eq_getElem?_getD, List.getD_eq_getElem?_getD, List.getElem?_map]
  cases l.reverse[i]? <;> simp

theorem foldr_max_ge {l : List ℝ} {x : ℝ} (h : x ∈ l) : x ≤ l.foldr max 0 := by
  induction l with
  | nil => simp at h
  | cons a t ih =>
    simp only [List.foldr_cons, List.mem_cons] at h ⊢
    rcases h with rfl | h
    · exact le_max_left _ _
    · exact (ih h).trans (le_max_right _ _)

/-- `s0` is larger than the modulus of all poles and zeros. -/
theorem norm_lt_point {pp zz : List ℂ} {z : ℂ} (h : z ∈ pp ++ zz) : ‖z‖ < s2tPoint pp zz := by
  have h1 : ‖z‖ ≤ ((pp ++ zz).map fun z => ‖z‖).foldr max 0 := foldr_max_ge (List.mem_map_of_mem h)
  have h2 : ((pp ++ zz).map fun z => ‖z‖).foldr max 0 ≤ max (((pp ++ zz).map fun z => ‖z‖).foldr max 0) (1 / 2) :=
    le_max_left _ _
  have h3 : (1 : ℝ) / 2 ≤ max (((pp ++ zz).map fun z => ‖z‖).foldr max 0) (1 / 2) := le_max_right _ _
  unfold s2tPoint
  linarith

theorem point_pos (pp zz : List ℂ) : 0 < s2tPoint pp zz := by
  have h3 : (1 : ℝ) / 2 ≤ max (((pp ++ zz).map fun z => ‖z‖).foldr max 0) (1 / 2) := le_max_right _ _
  unfold s2tPoint
  linarith

theorem prod_point_ne {pp zz l : List ℂ} (h : ∀ z ∈ l, z ∈ pp ++ zz) :
    (l.map fun z => (s2tPoint pp zz : ℂ) - z).prod ≠ 0 := by
  intro h0
  rw [List.prod_eq_zero_iff] at h0
  obtain ⟨z, hz, h1⟩ := List.mem_map.mp h0
  have h2 := norm_lt_point (h z hz)
  rw [← sub_eq_zero.mp h1, Complex.norm_real, Real.norm_of_nonneg (point_pos pp zz).le] at h2
  exact lt_irrefl _ h2

theorem eval_prod_sub (l : List ℂ) (s : ℂ) : (l.map fun z => X - C z).prod.eval s = (l.map fun z => s - z).prod := by
  induction l with
  | nil => simp
  | cons a t ih => simp [ih]

theorem eval_map_real (P : ℝ[X]) (s : ℝ) : (P.map (algebraMap ℝ ℂ)).eval (s : ℂ) = ((P.eval s : ℝ) : ℂ) := by
  rw [eval_map]
  exact eval₂_at_apply (algebraMap ℝ ℂ) s

theorem prod_sub_monic (l : List ℂ) : ((l.map fun z => X - C z).prod : ℂ[X]).Monic ∧
    ((l.map fun z => X - C z).prod : ℂ[X]).natDegree = l.length := by
  induction l with
  | nil => simp
  | cons a t ih =>
    simp only [List.map_cons, List.prod_cons, List.length_cons]
    refine ⟨(monic_X_sub_C a).mul ih.1, ?_⟩
    rw [(monic_X_sub_C a).natDegree_mul ih.1, ih.2, natDegree_X_sub_C]
    ring

theorem trim_length_natDegree {l : List ℝ} (h : toPoly l ≠ 0) : (trimZeros l).length = (toPoly l).natDegree + 1 := by
  rcases trimZeros_cases l with ⟨-, h0⟩ | ⟨a, t, e, ha⟩
  · exact absurd h0 h
  · rw [← toPoly_trimZeros l, e, natDegree_eq_of_degree_eq_some (degree_toPoly_cons ha t)]
    simp

/-- A coefficient list that is not longer than needed starts with a nonzero coefficient. -/
theorem lead_of_length {r : List ℝ} (h : r.length ≤ (toPoly r).natDegree + 1) (h0 : toPoly r ≠ 0) :
    ∃ a t, r = a :: t ∧ a ≠ 0 := by
  cases r with
  | nil => simp at h0
  | cons a t =>
    refine ⟨a, t, rfl, fun ha => ?_⟩
    subst ha
    have h1 := degree_toPoly_lt t
    have h2 : toPoly ((0 : ℝ) :: t) = toPoly t := by simp
    rw [h2] at h h0
    rw [degree_eq_natDegree h0] at h1
    simp only [List.length_cons] at h
    norm_cast at h1
    omega

variable {n : ℕ} {A : Matrix (Fin n) (Fin n) ℝ} {b : Matrix (Fin n) (Fin 1) ℝ} {c : Matrix (Fin 1) (Fin n) ℝ}
  {pp zz : List ℂ}

/-- The computed gain: the value of the numerator polynomial divided by the product of the zeros. -/
theorem s2tGain_ok (hpp : A.charpoly.map (algebraMap ℝ ℂ) = (pp.map fun z => X - C z).prod) :
    s2tGain pp zz (Arr.of A) (Arr.of b) (Arr.of c) = .ok ((numPoly A (fun i => b i 0) (c 0)).eval (s2tPoint pp zz)
      / (zz.map fun z => (s2tPoint pp zz : ℂ) - z).prod.re) := by
  set s0 := s2tPoint pp zz with hs0
  have hchar : ((A.charpoly.eval s0 : ℝ) : ℂ) = (pp.map fun z => (s0 : ℂ) - z).prod := by
    rw [← eval_map_real, hpp, eval_prod_sub]
  have hdet : (s0 • (1 : Matrix (Fin n) (Fin n) ℝ) - A).det = A.charpoly.eval s0 := by
    have := aeval_charpoly (L := ℝ) A s0
    rw [coe_aeval_eq_eval] at this
    rw [this]
    congr 2
  have hne : (s0 • (1 : Matrix (Fin n) (Fin n) ℝ) - A).det ≠ 0 := by
    rw [hdet]
    intro h0
    rw [h0, Complex.ofReal_zero] at hchar
    exact prod_point_ne (pp := pp) (zz := zz) (l := pp) (fun z hz => List.mem_append_left _ hz) hchar.symm
  have hz : (if zz = [] then (1 : ℝ) else (zz.map fun z => (s0 : ℂ) - z).prod.re) = (zz.map fun z => (s0 : ℂ) - z).prod.re := by
    split_ifs with h
    · subst h; simp
    · rfl
  unfold s2tGain
  have h1 : ((Arr.eye (Arr.of A).r : Arr ℝ).smul s0).sub (Arr.of A)
      = .ok (Arr.of (s0 • (1 : Matrix (Fin n) (Fin n) ℝ) - A)) := Arr.sub_of _ _
  simp only [← hs0, h1, bind, Except.bind, Arr.solve_of, if_neg hne, Arr.matmul_of, hz, bget_scalar]
  congr 2
  have hr : (pp.map fun z => (s0 : ℂ) - z).prod.re = A.charpoly.eval s0 := by rw [← hchar, Complex.ofReal_re]
  rw [hr]
  have h2 := resolvent_entry (L := ℝ) A (fun i => b i 0) (c 0) s0 (by simpa using hne)
  have h3 : (c * ((s0 • (1 : Matrix (Fin n) (Fin n) ℝ) - A)⁻¹ * b)) 0 0
      = (numPoly A (fun i => b i 0) (c 0)).eval s0 / A.charpoly.eval s0 := by
    rw [coe_aeval_eq_eval] at h2
    rw [← h2]
    simp [Matrix.mul_apply, dotProduct, mulVec]
  rw [h3]
  rw [hdet] at hne
  field_simp

/-- The numerator before the feedthrough is added. -/
theorem s2t_num (hpp : A.charpoly.map (algebraMap ℝ ℂ) = (pp.map fun z => X - C z).prod)
    (hzz : numPoly A (fun i => b i 0) (c 0) ≠ 0 → ∃ k : ℂ,
      (numPoly A (fun i => b i 0) (c 0)).map (algebraMap ℝ ℂ) = C k * (zz.map fun z => X - C z).prod) :
    ∃ k, s2tGain pp zz (Arr.of A) (Arr.of b) (Arr.of c) = .ok k ∧
      toPoly (if zz = [] then [k] else ((poly zz).map Complex.re).map fun x => k * x)
        = numPoly A (fun i => b i 0) (c 0) := by
  refine ⟨_, s2tGain_ok hpp, ?_⟩
  set q := numPoly A (fun i => b i 0) (c 0) with hq
  set s0 := s2tPoint pp zz
  set k := q.eval s0 / (zz.map fun z => (s0 : ℂ) - z).prod.re with hk
  have hif : (if zz = [] then [k] else ((poly zz).map Complex.re).map fun x => k * x)
      = ((poly zz).map Complex.re).map fun x => k * x := by
    split_ifs with h
    · subst h; simp [poly]
    · rfl
  rw [hif, toPoly_map_mul]
  by_cases h0 : q = 0
  · have : k = 0 := by rw [hk, h0]; simp
    rw [this, h0]; simp
  obtain ⟨k', h1⟩ := hzz h0
  have hmon := (prod_sub_monic zz).1
  have hk' : k' = (q.leadingCoeff : ℂ) := by
    have := congrArg leadingCoeff h1
    rw [leadingCoeff_mul, hmon.leadingCoeff, leadingCoeff_C, mul_one, leadingCoeff_map] at this
    exact this.symm
  have hl : q.leadingCoeff ≠ 0 := leadingCoeff_ne_zero.mpr h0
  have h2 : (zz.map fun z => X - C z).prod = (C q.leadingCoeff⁻¹ * q).map (algebraMap ℝ ℂ) := by
    rw [Polynomial.map_mul, h1, hk', map_C, ← mul_assoc, ← C_mul]
    have : (algebraMap ℝ ℂ) q.leadingCoeff⁻¹ * (q.leadingCoeff : ℂ) = 1 := by
      rw [Complex.coe_algebraMap, ← Complex.ofReal_mul, inv_mul_cancel₀ hl, Complex.ofReal_one]
    rw [this]; simp
  have h3 : toPoly ((poly zz).map Complex.re) = C q.leadingCoeff⁻¹ * q :=
    toPoly_map_re (by rw [(C04_poly zz).1, h2])
  have h4 : (zz.map fun z => (s0 : ℂ) - z).prod = ((q.leadingCoeff⁻¹ * q.eval s0 : ℝ) : ℂ) := by
    rw [← eval_prod_sub, h2, eval_map_real]; simp
  have h5 : q.eval s0 ≠ 0 := by
    intro h
    rw [h, mul_zero, Complex.ofReal_zero] at h4
    exact prod_point_ne (pp := pp) (zz := zz) (l := zz) (fun z hz => List.mem_append_right _ hz) h4
  have h6 : k = q.leadingCoeff := by
    rw [hk, h4, Complex.ofReal_re]
    field_simp
  rw [h3, h6, ← mul_assoc, ← C_mul, mul_inv_cancel₀ hl]
  simp

/-- One entry of the result. -/
theorem s2tEntry_spec (hpp : A.charpoly.map (algebraMap ℝ ℂ) = (pp.map fun z => X - C z).prod)
    (hzz : numPoly A (fun i => b i 0) (c 0) ≠ 0 → ∃ k : ℂ,
      (numPoly A (fun i => b i 0) (c 0)).map (algebraMap ℝ ℂ) = C k * (zz.map fun z => X - C z).prod) (d : ℝ) :
    ∃ e, s2tEntry pp zz (Arr.of A) (Arr.of b) (Arr.of c) d = .ok e ∧ EntryNormal e ∧
      ∀ {L : Type} [Field L] [Algebra ℝ L] (s : L),
        (s • (1 : Matrix (Fin n) (Fin n) L) - A.map (algebraMap ℝ L)).det ≠ 0 →
        EntryVal s e ((c.map (algebraMap ℝ L) * (s • (1 : Matrix (Fin n) (Fin n) L) - A.map (algebraMap ℝ L))⁻¹
          * b.map (algebraMap ℝ L)) 0 0 + algebraMap ℝ L d) := by
  obtain ⟨k, hk, hnum⟩ := s2t_num (c := c) (b := b) hpp hzz
  set q := numPoly A (fun i => b i 0) (c 0) with hq
  set num := if zz = [] then [k] else ((poly zz).map Complex.re).map fun x => k * x with hnumdef
  set den := (poly pp).map Complex.re with hden
  have hdenP : toPoly den = A.charpoly := toPoly_map_re (by rw [(C04_poly pp).1, hpp])
  have hlen : den.length = n + 1 := by
    rw [hden, List.length_map, (C04_poly pp).2.1]
    have h1 := congrArg natDegree hpp
    rw [natDegree_map, A.charpoly_natDegree_eq_dim, Fintype.card_fin, (prod_sub_monic pp).2] at h1
    rw [h1]
  have hlead : den.getD 0 0 = 1 := by
    have h1 := (C04_poly pp).2.2
    rw [hden]
    cases h : poly pp with
    | nil => rw [h] at h1; simp at h1
    | cons a t => rw [h] at h1; simp only [List.getD_cons_zero] at h1; simp [h1]
  obtain ⟨r, hr, hrP, -, x, hx, hrl⟩ := C02_polyadd [num, den.map fun x => d * x] true (by simp)
  have hdP : toPoly (den.map fun x => d * x) = C d * A.charpoly := by rw [toPoly_map_mul, hdenP]
  simp only [List.map_cons, List.map_nil, List.sum_cons, List.sum_nil, add_zero, hnum, hdP] at hrP
  simp only [if_true, List.mem_cons, List.not_mem_nil, or_false] at hx hrl
  have hcd : A.charpoly.degree = n := by simpa using A.charpoly_degree_eq_dim
  have hcn : A.charpoly.natDegree = n := by simpa using A.charpoly_natDegree_eq_dim
  have hqd := degree_numPoly_lt A (fun i => b i 0) (c 0)
  rw [← hq] at hqd
  -- the sum has no leading zeros
  have hrcase : (toPoly r = 0 ∧ r = []) ∨ (toPoly r ≠ 0 ∧ (∃ a t, r = a :: t ∧ a ≠ 0) ∧ r.length ≤ n + 1) := by
    by_cases hd0 : d = 0
    · rw [hd0, C_0, zero_mul, add_zero] at hrP
      have hz : trimZeros (den.map fun x => d * x) = [] := by
        rw [trimZeros_eq_nil_iff, hdP, hd0]; simp
      by_cases hq0 : q = 0
      · have hz' : trimZeros num = [] := by rw [trimZeros_eq_nil_iff, hnum, hq0]
        left
        refine ⟨by rw [hrP, hq0], ?_⟩
        rcases hx with rfl | rfl
        · rw [hz'] at hrl; exact List.length_eq_zero_iff.mp hrl.symm
        · rw [hz] at hrl; exact List.length_eq_zero_iff.mp hrl.symm
      · right
        have hqn : q.natDegree < n := by
          rw [degree_eq_natDegree hq0] at hqd; exact_mod_cast hqd
        have h1 : r.length ≤ q.natDegree + 1 := by
          rcases hx with rfl | rfl
          · rw [trim_length_natDegree (by rw [hnum]; exact hq0), hnum] at hrl; omega
          · rw [hz] at hrl; simp only [List.length_nil] at hrl; omega
        have h2 : toPoly r ≠ 0 := by rw [hrP]; exact hq0
        exact ⟨h2, lead_of_length (by rw [hrP]; exact h1) h2, by omega⟩
    · right
      have hdd : (C d * A.charpoly).degree = n := by rw [degree_C_mul hd0, hcd]
      have h3 : (toPoly r).degree = n := by
        rw [hrP, degree_add_eq_right_of_degree_lt (by rw [hdd]; exact hqd), hdd]
      have h2 : toPoly r ≠ 0 := by
        intro h; rw [h] at h3; simp at h3
      have h4 : (toPoly r).natDegree = n := natDegree_eq_of_degree_eq_some h3
      have h5 : r.length ≤ n + 1 := by
        rcases hx with rfl | rfl
        · by_cases hq0 : q = 0
          · have hz' : trimZeros num = [] := by rw [trimZeros_eq_nil_iff, hnum, hq0]
            rw [hz'] at hrl; simp only [List.length_nil] at hrl; omega
          · have hqn : q.natDegree < n := by
              rw [degree_eq_natDegree hq0] at hqd; exact_mod_cast hqd
            rw [trim_length_natDegree (by rw [hnum]; exact hq0), hnum] at hrl; omega
        · have : (trimZeros (den.map fun x => d * x)).length ≤ den.length := by
            have := trim_length_le (den.map fun x => d * x)
            rwa [List.length_map] at this
          omega
      exact ⟨h2, lead_of_length (by rw [h4]; exact h5) h2, h5⟩
  have hval : ∀ {L : Type} [Field L] [Algebra ℝ L] (s : L),
      (s • (1 : Matrix (Fin n) (Fin n) L) - A.map (algebraMap ℝ L)).det ≠ 0 →
      aeval s A.charpoly ≠ 0 ∧
      (c.map (algebraMap ℝ L) * (s • (1 : Matrix (Fin n) (Fin n) L) - A.map (algebraMap ℝ L))⁻¹
          * b.map (algebraMap ℝ L)) 0 0 + algebraMap ℝ L d = aeval s (toPoly r) / aeval s A.charpoly := by
    intro L _ _ s hs
    have h1 := resolvent_entry A (fun i => b i 0) (c 0) s hs
    have h2 : aeval s A.charpoly ≠ 0 := by rw [aeval_charpoly]; exact hs
    refine ⟨h2, ?_⟩
    have h3 : (c.map (algebraMap ℝ L) * (s • (1 : Matrix (Fin n) (Fin n) L) - A.map (algebraMap ℝ L))⁻¹
          * b.map (algebraMap ℝ L)) 0 0 = aeval s q / aeval s A.charpoly := by
      rw [← h1, Matrix.mul_assoc]
      simp [Matrix.mul_apply, dotProduct, mulVec]
    rw [h3, hrP, map_add, map_mul, aeval_C]
    field_simp
  refine ⟨if r = [] then ([0], [1]) else (r, den), ?_, ?_, ?_⟩
  · unfold s2tEntry
    simp only [hk, bind, Except.bind, ← hden, ← hnumdef, hr]
  · rcases hrcase with ⟨-, rfl⟩ | ⟨-, ⟨a, t, rfl, ha⟩, h2⟩
    · rw [if_pos rfl]; exact ⟨by simp, Or.inl rfl, by simp⟩
    · rw [if_neg (by simp)]; exact ⟨by rw [hlead]; exact one_ne_zero, Or.inr ⟨a, t, rfl, ha⟩, by rw [hlen]; exact h2⟩
  · intro L _ _ s hs
    obtain ⟨h1, h2⟩ := hval s hs
    rcases hrcase with ⟨h3, rfl⟩ | ⟨-, ⟨a, t, rfl, ha⟩, -⟩
    · rw [if_pos rfl, h2, h3]
      simp [EntryVal, polyAt]
    · rw [if_neg (by simp), h2]
      refine ⟨by simp only [polyAt, hdenP]; exact h1, by simp only [polyAt, hdenP], ?_⟩
      rw [hlead]; exact one_ne_zero

end Harold
