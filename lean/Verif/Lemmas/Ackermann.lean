import Verif.Model.Ackermann
import Verif.Lemmas.Kalman
import Verif.Lemmas.Poly
import Mathlib.LinearAlgebra.Matrix.Charpoly.Coeff
import Mathlib.LinearAlgebra.Matrix.Charpoly.LinearMap
import Mathlib.Algebra.Polynomial.AlgebraMap

/-!
# Ackermann's formula
-/

namespace Harold

open Matrix Polynomial Spec

variable {K : Type} [Field K] {n m : ℕ}

/-- If `q A^j b` is zero for `j < n - 1` and one for `j = n - 1`, then `K = q p(A)` makes `p` the characteristic polynomial of `A - b K`. -/
theorem ackermann_formula (hn : 0 < n) {A : Matrix (Fin n) (Fin n) K} {b : Matrix (Fin n) (Fin 1) K} {q : Matrix (Fin 1) (Fin n) K}
    (h0 : ∀ j, j + 1 < n → q * A ^ j * b = 0) (h1 : q * A ^ (n - 1) * b = 1) {P : K[X]} (hP : P.Monic) (hd : P.natDegree = n) :
    (A - b * (q * aeval A P)).charpoly = P := by
  set F := A - b * (q * aeval A P) with hF
  have e1 : ∀ j, j < n → q * F ^ j = q * A ^ j := by
    intro j
    induction j with
    | zero => intro _; simp
    | succ j ih =>
      intro hj
      rw [pow_succ, ← Matrix.mul_assoc, ih (by omega), hF, Matrix.mul_sub, ← Matrix.mul_assoc, h0 j hj, Matrix.zero_mul, sub_zero, Matrix.mul_assoc,
        ← pow_succ]
  have e2 : q * F ^ n = q * A ^ n - q * aeval A P := by
    obtain ⟨k, rfl⟩ := Nat.exists_eq_succ_of_ne_zero (by omega : n ≠ 0)
    rw [Nat.succ_sub_one] at h1
    rw [pow_succ, ← Matrix.mul_assoc, e1 k (by omega), hF, Matrix.mul_sub, ← Matrix.mul_assoc (q * A ^ k) b, h1, Matrix.one_mul,
      Matrix.mul_assoc, ← pow_succ]
  have e3 : ∀ r : K[X], r.natDegree < n → q * aeval F r = q * aeval A r := by
    intro r hr
    rw [aeval_eq_sum_range' hr, aeval_eq_sum_range' hr, Matrix.mul_sum, Matrix.mul_sum]
    refine Finset.sum_congr rfl fun j hj => ?_
    rw [Matrix.mul_smul, Matrix.mul_smul, e1 j (Finset.mem_range.mp hj)]
  have lt : ∀ R : K[X], R.Monic → R.natDegree = n → (R - X ^ n).natDegree < n := by
    intro R hR hRd
    by_cases h : R - X ^ n = 0
    · rw [h, natDegree_zero]; exact hn
    · refine (natDegree_lt_iff_degree_lt h).mpr ?_
      have := degree_sub_lt (p := R) (q := X ^ n) (by rw [degree_X_pow, degree_eq_natDegree hR.ne_zero, hRd]) hR.ne_zero
        (by rw [hR.leadingCoeff, (monic_X_pow n).leadingCoeff])
      rwa [degree_eq_natDegree hR.ne_zero, hRd] at this
  have e4 : q * aeval F P = 0 := by
    have := e3 _ (lt P hP hd)
    rw [map_sub, map_sub, map_pow, map_pow, aeval_X, aeval_X, Matrix.mul_sub, Matrix.mul_sub, e2] at this
    have h2 : q * aeval F P = (q * aeval F P - (q * A ^ n - q * aeval A P)) + (q * A ^ n - q * aeval A P) := by abel
    rw [h2, this]
    abel
  have hcm := F.charpoly_monic
  have hcd : F.charpoly.natDegree = n := by rw [charpoly_natDegree_eq_dim, Fintype.card_fin]
  by_contra hne
  set r := F.charpoly - P with hr
  have hr0 : r ≠ 0 := sub_ne_zero.mpr hne
  have hrd : r.natDegree < n := by
    refine (natDegree_lt_iff_degree_lt hr0).mpr ?_
    have := degree_sub_lt (p := F.charpoly) (q := P) (by rw [degree_eq_natDegree hcm.ne_zero, degree_eq_natDegree hP.ne_zero, hcd, hd]) hcm.ne_zero
      (by rw [hcm.leadingCoeff, hP.leadingCoeff])
    rwa [degree_eq_natDegree hcm.ne_zero, hcd] at this
  have h3 : q * aeval A r = 0 := by
    rw [← e3 r hrd, hr, map_sub, Matrix.mul_sub, e4, aeval_self_charpoly]
    simp
  have h4 : q * aeval A r * (A ^ (n - 1 - r.natDegree) * b) = 0 := by rw [h3, Matrix.zero_mul]
  rw [aeval_eq_sum_range, Matrix.mul_sum, Matrix.sum_mul, Finset.sum_eq_single r.natDegree] at h4
  · rw [Matrix.mul_smul, Matrix.smul_mul, ← Matrix.mul_assoc, Matrix.mul_assoc q, ← pow_add, show r.natDegree + (n - 1 - r.natDegree) = n - 1 by omega, h1] at h4
    have h5 := congrFun (congrFun h4 0) 0
    simp only [Matrix.smul_apply, Matrix.one_apply_eq, smul_eq_mul, mul_one, Matrix.zero_apply] at h5
    exact hr0 (leadingCoeff_eq_zero.mp h5)
  · intro j hj hj'
    have := Finset.mem_range.mp hj
    rw [Matrix.mul_smul, Matrix.smul_mul, ← Matrix.mul_assoc, Matrix.mul_assoc q, ← pow_add, h0 _ (by omega), smul_zero]
  · intro h
    exact absurd (Finset.mem_range.mpr (Nat.lt_succ_self _)) h

/-- There is no other gain with this characteristic polynomial. -/
theorem ackermann_unique (hn : 0 < n) {A : Matrix (Fin n) (Fin n) K} {b : Matrix (Fin n) (Fin 1) K} {q : Matrix (Fin 1) (Fin n) K}
    (h0 : ∀ j, j + 1 < n → q * A ^ j * b = 0) (h1 : q * A ^ (n - 1) * b = 1) {P : K[X]} (hP : P.Monic) (hd : P.natDegree = n)
    {f : Matrix (Fin 1) (Fin n) K} (hf : (A - b * f).charpoly = P) : f = q * aeval A P := by
  set F := A - b * f with hF
  have e1 : ∀ j, j < n → q * F ^ j = q * A ^ j := by
    intro j
    induction j with
    | zero => intro _; simp
    | succ j ih =>
      intro hj
      rw [pow_succ, ← Matrix.mul_assoc, ih (by omega), hF, Matrix.mul_sub, ← Matrix.mul_assoc, h0 j hj, Matrix.zero_mul, sub_zero, Matrix.mul_assoc,
        ← pow_succ]
  have e2 : q * F ^ n = q * A ^ n - f := by
    obtain ⟨k, rfl⟩ := Nat.exists_eq_succ_of_ne_zero (by omega : n ≠ 0)
    rw [Nat.succ_sub_one] at h1
    rw [pow_succ, ← Matrix.mul_assoc, e1 k (by omega), hF, Matrix.mul_sub, ← Matrix.mul_assoc (q * A ^ k) b, h1, Matrix.one_mul,
      Matrix.mul_assoc, ← pow_succ]
  have lt : (P - X ^ n).natDegree < n := by
    by_cases h : P - X ^ n = 0
    · rw [h, natDegree_zero]; exact hn
    · refine (natDegree_lt_iff_degree_lt h).mpr ?_
      have := degree_sub_lt (p := P) (q := X ^ n) (by rw [degree_X_pow, degree_eq_natDegree hP.ne_zero, hd]) hP.ne_zero
        (by rw [hP.leadingCoeff, (monic_X_pow n).leadingCoeff])
      rwa [degree_eq_natDegree hP.ne_zero, hd] at this
  have e3 : q * aeval F (P - X ^ n) = q * aeval A (P - X ^ n) := by
    rw [aeval_eq_sum_range' lt, aeval_eq_sum_range' lt, Matrix.mul_sum, Matrix.mul_sum]
    refine Finset.sum_congr rfl fun j hj => ?_
    rw [Matrix.mul_smul, Matrix.mul_smul, e1 j (Finset.mem_range.mp hj)]
  have e4 : aeval F P = 0 := by rw [← hf]; exact aeval_self_charpoly F
  rw [map_sub, map_sub, map_pow, map_pow, aeval_X, aeval_X, Matrix.mul_sub, Matrix.mul_sub, e2, e4, Matrix.mul_zero] at e3
  have e5 : f = (0 - (q * A ^ n - f)) + q * A ^ n := by abel
  rw [e5, e3]
  abel

/-- The columns of the controllability matrix for one input. -/
theorem ctrbM_one (A : Matrix (Fin n) (Fin n) K) (b : Matrix (Fin n) (Fin 1) K) (k : ℕ) (i : Fin n) (j : Fin (krylovW 1 k)) :
    ctrbM A b k i j = (A ^ (j : ℕ) * b) i 0 := by
  induction k with
  | zero =>
    have hj : (j : ℕ) = 0 := Nat.lt_one_iff.mp j.isLt
    rw [hj, pow_zero, Matrix.one_mul]
    exact congrArg (b i) (Fin.ext hj)
  | succ k ih =>
    show hcat (ctrbM A b k) (A ^ (k + 1) * b) i j = _
    have hw : krylovW 1 k = k + 1 := by rw [krylovW_eq]; ring
    refine Fin.addCases (fun t => ?_) (fun t => ?_) (j : Fin (krylovW 1 k + 1))
    · have := ih t
      simp only [hcat, Matrix.submatrix_apply, id, finSumFinEquiv_symm_apply_castAdd, Matrix.fromCols_apply_inl, Fin.val_castAdd]
      exact this
    · obtain rfl : t = 0 := Subsingleton.elim _ _
      simp only [hcat, Matrix.submatrix_apply, id, finSumFinEquiv_symm_apply_natAdd, Matrix.fromCols_apply_inr, Fin.val_natAdd]
      rw [hw]
      rfl

/-- The square controllability matrix of a single-input pair. -/
def ctrbSq (A : Matrix (Fin n) (Fin n) K) (b : Matrix (Fin n) (Fin 1) K) : Matrix (Fin n) (Fin n) K :=
  Matrix.of fun i j => (A ^ (j : ℕ) * b) i 0

theorem ctrbM_sq (hn : 0 < n) (A : Matrix (Fin n) (Fin n) K) (b : Matrix (Fin n) (Fin 1) K) : Arr.of (ctrbM A b (n - 1)) = Arr.of (ctrbSq A b) := by
  have hw : krylovW 1 (n - 1) = n := by rw [krylovW_eq]; omega
  refine Arr.ext_cast rfl hw fun i j => ?_
  simp only [Arr.of_m]
  rw [ctrbM_one]
  rfl

theorem ctrbSq_det (hn : 0 < n) {A : Matrix (Fin n) (Fin n) K} {b : Matrix (Fin n) (Fin 1) K} (h : (ctrbM A b (n - 1)).rank = n) :
    (ctrbSq A b).det ≠ 0 := by
  have hw : krylovW 1 (n - 1) = n := by rw [krylovW_eq]; omega
  have e : ctrbSq A b = (ctrbM A b (n - 1)).submatrix id (finCongr hw.symm) := by
    ext i j
    rw [Matrix.submatrix_apply, ctrbM_one]
    rfl
  have hr : (ctrbSq A b).rank = n := by
    rw [e]
    have := Matrix.rank_submatrix (ctrbM A b (n - 1)) (Equiv.refl (Fin n)) (finCongr hw.symm)
    simpa [h] using this
  intro h0
  have h1 := (rank_eq_iff_range (ctrbSq A b)).mp hr
  rw [LinearMap.range_eq_top] at h1
  have h2 : IsUnit (ctrbSq A b) := Matrix.mulVec_surjective_iff_isUnit.mp h1
  rw [Matrix.isUnit_iff_isUnit_det, h0] at h2
  simp at h2

/-- The last row of the inverse of the controllability matrix. -/
theorem lastRow_spec (hn : 0 < n) {A : Matrix (Fin n) (Fin n) K} {b : Matrix (Fin n) (Fin 1) K} (h : (ctrbSq A b).det ≠ 0) :
    let q : Matrix (Fin 1) (Fin n) K := Matrix.of fun _ j => (ctrbSq A b)⁻¹ ⟨n - 1, by omega⟩ j
    (∀ j, j + 1 < n → q * A ^ j * b = 0) ∧ q * A ^ (n - 1) * b = 1 := by
  intro q
  have key : ∀ j : Fin n, q * A ^ (j : ℕ) * b = Matrix.of fun _ _ => (1 : Matrix (Fin n) (Fin n) K) ⟨n - 1, by omega⟩ j := by
    intro j
    have h1 : (ctrbSq A b)⁻¹ * ctrbSq A b = 1 := nonsing_inv_mul _ (isUnit_iff_ne_zero.mpr h)
    ext s t
    obtain rfl : s = 0 := Subsingleton.elim _ _
    obtain rfl : t = 0 := Subsingleton.elim _ _
    rw [Matrix.of_apply, ← h1, Matrix.mul_assoc, Matrix.mul_apply, Matrix.mul_apply]
    rfl
  constructor
  · intro j hj
    rw [key ⟨j, by omega⟩]
    ext s t
    rw [Matrix.of_apply, Matrix.one_apply_ne (fun e => by have := congrArg Fin.val e; simp at this; omega)]
    rfl
  · rw [key ⟨n - 1, by omega⟩]
    ext s t
    rw [Matrix.of_apply, Matrix.one_apply_eq, Subsingleton.elim s t, Matrix.one_apply_eq]

section poly
variable [LinearOrder K]

omit [LinearOrder K] in
theorem toPoly_polyStep (a : List K) (r : K) : toPoly (polyStep a r) = toPoly a * (X - C r) := by
  unfold polyStep
  rw [toPoly_zipWith_sub (by simp), toPoly_map_mul, toPoly_append]
  simp [toPoly]
  ring

omit [LinearOrder K] in
theorem toPoly_npPoly (loc : List K) : toPoly (npPoly loc) = (loc.map fun r => X - C r).prod := by
  have : ∀ a : List K, toPoly (loc.foldl polyStep a) = toPoly a * (loc.map fun r => X - C r).prod := by
    induction loc with
    | nil => intro a; simp
    | cons r loc ih => intro a; rw [List.foldl_cons, ih, toPoly_polyStep, List.map_cons, List.prod_cons, mul_assoc]
  unfold npPoly
  rw [this]
  simp [toPoly]

omit [LinearOrder K] in
theorem monic_locs (loc : List K) : ((loc.map fun r => X - C r).prod : K[X]).Monic := by
  induction loc with
  | nil => exact monic_one
  | cons r loc ih => rw [List.map_cons, List.prod_cons]; exact (monic_X_sub_C r).mul ih

omit [LinearOrder K] in
theorem natDegree_locs (loc : List K) : ((loc.map fun r => X - C r).prod : K[X]).natDegree = loc.length := by
  induction loc with
  | nil => simp
  | cons r loc ih =>
    rw [List.map_cons, List.prod_cons, (monic_X_sub_C r).natDegree_mul (monic_locs loc), natDegree_X_sub_C, ih, List.length_cons, add_comm]

omit [LinearOrder K] in
theorem npPoly_length (loc : List K) : (npPoly loc).length = loc.length + 1 := by
  have : ∀ a : List K, (loc.foldl polyStep a).length = loc.length + a.length := by
    induction loc with
    | nil => intro a; simp
    | cons r loc ih => intro a; rw [List.foldl_cons, ih]; simp [polyStep]; omega
  unfold npPoly
  rw [this]
  rfl

theorem ackSum_of (p : List K) (A : Matrix (Fin n) (Fin n) K) (k : ℕ) (hk : k ≤ p.length) :
    ackSum p (Arr.of A) k = .ok (Arr.of (∑ i ∈ Finset.range k, p.getD i 0 • A ^ i)) := by
  induction k with
  | zero => simp [ackSum, Arr.zeros]
  | succ k ih =>
    unfold ackSum
    rw [ih (by omega), List.getElem?_eq_getElem (by omega)]
    simp only [bind, Except.bind, pow_of]
    rw [Arr.smul_of, Arr.add_of, Finset.sum_range_succ, List.getD_eq_getElem _ _ (by omega)]

theorem ackSum_few (p : List K) (A : Matrix (Fin n) (Fin n) K) (k : ℕ) (hk : p.length < k) : ackSum p (Arr.of A) k = .error .index := by
  induction k with
  | zero => omega
  | succ k ih =>
    unfold ackSum
    by_cases h : p.length < k
    · rw [ih h]; rfl
    · rw [ackSum_of _ _ _ (by omega), List.getElem?_eq_none (by omega)]
      rfl

theorem ackSum_aeval {loc : List K} (h : loc.length = n) (A : Matrix (Fin n) (Fin n) K) :
    ackSum (npPoly loc).reverse (Arr.of A) (n + 1) = .ok (Arr.of (aeval A (loc.map fun r => X - C r).prod)) := by
  have hl := npPoly_length loc
  rw [ackSum_of _ _ _ (by simp [hl, h]), ← toPoly_npPoly, aeval_eq_sum_range' (n := n + 1)]
  · simp only [coeff_toPoly]
  · have : (toPoly (npPoly loc)).degree < (npPoly loc).length := degree_toPoly_lt _
    rw [hl, h] at this
    exact (natDegree_lt_iff_degree_lt (by rw [toPoly_npPoly]; exact (monic_locs loc).ne_zero)).mpr this

end poly

end Harold
