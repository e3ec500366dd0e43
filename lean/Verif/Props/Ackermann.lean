import Verif.Spec.Ackermann
import Verif.Lemmas.Ackermann
import Verif.Props.Kalman

/-!
# C56: `ackermann`
-/

namespace Harold

open Matrix Polynomial Spec

section
variable {K : Type} [Field K] [LinearOrder K] [IsStrictOrderedRing K] {n m : ℕ}

/-- The controllability matrix and its computed rank. -/
theorem ctrb_exact {S : SvdNum K} (he : 0 ≤ S.eps) {A : Matrix (Fin n) (Fin n) K} {B : Matrix (Fin n) (Fin m) K}
    (h : SvdExact S (ctrbM A B (n - 1))) (hn : 0 < n) (hm : 0 < m) :
    ∃ U, controllabilityMatrix S (Arr.of A) (Arr.of B) = .ok (Arr.of (ctrbM A B (n - 1)), U, (ctrbM A B (n - 1)).rank) := by
  obtain ⟨U, s, V, h1, h2, h3⟩ := h
  refine ⟨Arr.of U, ?_⟩
  rw [(isKalmanControllable_eq h1 h2 hn hm).1, countAbove_eq_rank he h2 h3]

/-- **C56** for real locations: for a controllable single-input pair of any order and any list of `n` locations the result is a gain that gives
`A - b F` exactly these eigenvalues. -/
theorem ackermannReal_places {S : SvdNum K} (he : 0 ≤ S.eps) {A : Matrix (Fin n) (Fin n) K} {b : Matrix (Fin n) (Fin 1) K}
    (h : SvdExact S (ctrbM A b (n - 1))) (hn : 0 < n) (hr : Reachable A b) {loc : List K} (hl : loc.length = n) :
    ∃ F : Matrix (Fin 1) (Fin n) K, ackermannReal S (Arr.of A) (Arr.of b) loc = .ok (Arr.of F) ∧ PlacesPoles A b F loc := by
  obtain ⟨U, h1⟩ := ctrb_exact he h hn one_pos
  have hrk := (reachable_iff_rank A b).mp hr
  have hdet := ctrbSq_det hn hrk
  set q : Matrix (Fin 1) (Fin n) K := Matrix.of fun _ j => (ctrbSq A b)⁻¹ ⟨n - 1, by omega⟩ j with hq
  refine ⟨q * aeval A (loc.map fun r => X - C r).prod, ?_, ?_⟩
  · unfold ackermannReal checkAB
    rw [if_neg (by simp), if_neg (by simp)]
    simp only [bind, Except.bind]
    rw [if_neg (by simp), h1]
    simp only
    rw [hrk, if_neg (by simp), if_neg (by rintro rfl; simp at hl; omega)]
    have := ackSum_aeval hl A
    simp only [Arr.of_r, this]
    rw [ctrbM_sq hn, Arr.solve_of, if_neg hdet]
    simp only
    unfold Arr.lastRow
    rw [dif_pos (by simpa using hn)]
    congr 1
  · obtain ⟨h2, h3⟩ := lastRow_spec hn hdet
    exact ackermann_formula hn h2 h3 (monic_locs loc) ((natDegree_locs loc).trans hl)

end

variable {n m : ℕ}

/-- `ackermann` with real locations. -/
theorem ackermann_real {S : SvdNum ℝ} {a b : Arr ℝ} (hc : checkAB a b = .ok ()) (hm : b.c = 1) (loc : List ℝ) :
    ackermann S a b (.real loc) = ackermannReal S a b loc := by
  unfold ackermann
  rw [hc]
  simp only [bind, Except.bind]
  rw [if_neg (by simp [hm])]
  rfl

theorem checkAB_of (A : Matrix (Fin n) (Fin n) ℝ) (B : Matrix (Fin n) (Fin m) ℝ) : checkAB (Arr.of A) (Arr.of B) = .ok () := by
  unfold checkAB
  rw [if_neg (by simp), if_neg (by simp)]

/-- **C56** for real locations. Missing: complex locations, which the code does not accept (`C56_complex_violated`). -/
theorem C56_places_partial {S : SvdNum ℝ} (he : 0 ≤ S.eps) {A : Matrix (Fin n) (Fin n) ℝ} {b : Matrix (Fin n) (Fin 1) ℝ}
    (h : SvdExact S (ctrbM A b (n - 1))) (hn : 0 < n) (hr : Reachable A b) {loc : List ℝ} (hl : loc.length = n) :
    ∃ F : Matrix (Fin 1) (Fin n) ℝ, ackermann S (Arr.of A) (Arr.of b) (.real loc) = .ok (Arr.of F) ∧ PlacesPoles A b F loc := by
  rw [ackermann_real (checkAB_of A b) rfl]
  exact ackermannReal_places he h hn hr hl

/-- **C56**: the gain that places the poles is unique, so the result is the only correct one. -/
theorem C56_unique {A : Matrix (Fin n) (Fin n) ℝ} {b : Matrix (Fin n) (Fin 1) ℝ} (hr : Reachable A b) {F F' : Matrix (Fin 1) (Fin n) ℝ}
    {loc : List ℝ} (h : PlacesPoles A b F loc) (h' : PlacesPoles A b F' loc) : F = F' := by
  rcases Nat.eq_zero_or_pos n with rfl | hn
  · exact Subsingleton.elim _ _
  obtain ⟨h2, h3⟩ := lastRow_spec hn (ctrbSq_det hn ((reachable_iff_rank A b).mp hr))
  have hd : (loc.map fun r => X - C r).prod.natDegree = n := by
    rw [← show _ = _ from h, charpoly_natDegree_eq_dim, Fintype.card_fin]
  rw [ackermann_unique hn h2 h3 (monic_locs loc) hd h, ackermann_unique hn h2 h3 (monic_locs loc) hd h']

/-- **C56**: a pair that is not controllable is a `ValueError`. -/
theorem C56_uncontrollable {S : SvdNum ℝ} (he : 0 ≤ S.eps) {A : Matrix (Fin n) (Fin n) ℝ} {b : Matrix (Fin n) (Fin 1) ℝ}
    (h : SvdExact S (ctrbM A b (n - 1))) (hn : 0 < n) (hr : ¬ Reachable A b) (loc : List ℝ) :
    ackermann S (Arr.of A) (Arr.of b) (.real loc) = .error .value := by
  rw [ackermann_real (checkAB_of A b) rfl]
  obtain ⟨U, h1⟩ := ctrb_exact he h hn one_pos
  have h2 := mt (reachable_iff_rank A b).mpr hr
  have h3 := (ctrbM A b (n - 1)).rank_le_height
  unfold ackermannReal checkAB
  rw [if_neg (by simp), if_neg (by simp)]
  simp only [bind, Except.bind]
  rw [if_neg (by simp), h1]
  simp only
  rw [if_pos (by show _ < n; omega)]

/-- **C56**: a model with a number of inputs other than one is a `ValueError`. -/
theorem C56_multi_input (S : SvdNum ℝ) (A : Matrix (Fin n) (Fin n) ℝ) (B : Matrix (Fin n) (Fin m) ℝ) (hm : m ≠ 1) (loc : LocArg) :
    ackermann S (Arr.of A) (Arr.of B) loc = .error .value := by
  unfold ackermann
  rw [checkAB_of]
  simp only [bind, Except.bind]
  rw [if_pos (by simpa using hm)]

/-- The integrator `x⁺ = u`. -/
theorem reachable_int : Reachable (0 : Matrix (Fin 1) (Fin 1) ℝ) (1 : Matrix (Fin 1) (Fin 1) ℝ) := by
  intro x
  refine ⟨[x], ?_⟩
  show _ *ᵥ _ + _ *ᵥ x = x
  rw [mulVec_zero, zero_add, one_mulVec]

/-- **C56**: a Python sequence with complex entries is a `TypeError`, even if closed under conjugation. -/
theorem C56_complex_raises (S : SvdNum ℝ) (A : Matrix (Fin n) (Fin n) ℝ) (b : Matrix (Fin n) (Fin 1) ℝ) (loc : List ℂ) :
    ackermann S (Arr.of A) (Arr.of b) (.complexSeq loc) = .error .type := by
  unfold ackermann
  rw [checkAB_of]
  simp only [bind, Except.bind]
  rw [if_neg (by simp)]
  rfl

/-- The double integrator. -/
def dblA : Matrix (Fin 2) (Fin 2) ℝ := !![0, 1; 0, 0]
/-- Its input. -/
def dblB : Matrix (Fin 2) (Fin 1) ℝ := !![0; 1]

theorem reachable_dbl : Reachable dblA dblB := by
  intro x
  refine ⟨[fun _ => x 0, fun _ => x 1], ?_⟩
  ext i
  fin_cases i <;> simp [finalState, dblA, dblB, Matrix.mulVec, dotProduct, Fin.sum_univ_two]

/-- **C56** fails for complex locations given as an array: the imaginary parts are dropped, and for the double integrator and the locations `±i` both
eigenvalues are put at the origin. -/
theorem C56_complex_violated {S : SvdNum ℝ} (he : 0 ≤ S.eps) (h : SvdExact S (ctrbM dblA dblB 1)) :
    ∃ F : Matrix (Fin 1) (Fin 2) ℝ, ackermann S (Arr.of dblA) (Arr.of dblB) (.complexArr [Complex.I, -Complex.I]) = .ok (Arr.of F) ∧
      PlacesPolesC dblA dblB F [0, 0] ∧ ¬ PlacesPolesC dblA dblB F [Complex.I, -Complex.I] := by
  obtain ⟨F, h1, h2⟩ := C56_places_partial he h (by norm_num) reachable_dbl (loc := [0, 0]) rfl
  refine ⟨F, ?_, ?_, ?_⟩
  · rw [ackermann_real (checkAB_of _ _) rfl] at h1
    unfold ackermann
    rw [checkAB_of]
    simp only [bind, Except.bind]
    rw [if_neg (by simp)]
    simpa [LocArg.floats] using h1
  · unfold PlacesPolesC
    rw [h2]
    simp
  · unfold PlacesPolesC
    rw [h2]
    intro h3
    have := congrArg (Polynomial.eval 0) h3
    simp at this

/-- **C56**: too many locations are accepted and the wrong poles are placed: for `x' = u` and the locations `1, 2` the eigenvalue is `-2`. -/
theorem C56_extra_violated {S : SvdNum ℝ} (he : 0 ≤ S.eps) (h : SvdExact S (ctrbM (0 : Matrix (Fin 1) (Fin 1) ℝ) (1 : Matrix (Fin 1) (Fin 1) ℝ) 0)) :
    ∃ F : Matrix (Fin 1) (Fin 1) ℝ, ackermann S (Arr.of (0 : Matrix (Fin 1) (Fin 1) ℝ)) (Arr.of (1 : Matrix (Fin 1) (Fin 1) ℝ)) (.real [1, 2]) =
      .ok (Arr.of F) ∧ PlacesPoles 0 1 F [-2] := by
  obtain ⟨U, h1⟩ := ctrb_exact he h one_pos one_pos
  have hrk := (reachable_iff_rank _ _).mp reachable_int
  have hdet := ctrbSq_det one_pos hrk
  have hsq : ctrbSq (0 : Matrix (Fin 1) (Fin 1) ℝ) 1 = 1 := by
    ext i j
    rw [Subsingleton.elim i j]
    simp [ctrbSq, Subsingleton.elim j 0]
  refine ⟨2, ?_, ?_⟩
  · rw [ackermann_real (checkAB_of _ _) rfl]
    unfold ackermannReal
    rw [checkAB_of]
    simp only [bind, Except.bind]
    rw [if_neg (by simp), h1]
    simp only
    rw [hrk, if_neg (by simp), if_neg (by simp), ackSum_of _ _ _ (by simp [npPoly_length])]
    simp only
    rw [ctrbM_sq one_pos, Arr.solve_of, if_neg hdet, hsq]
    simp only
    unfold Arr.lastRow
    rw [dif_pos (by simp)]
    congr 1
    refine Arr.of_inj.mpr ?_
    ext i j
    change Fin 1 at j
    obtain rfl : i = 0 := Subsingleton.elim _ _
    obtain rfl : j = 0 := Subsingleton.elim _ _
    simp [npPoly, polyStep, Finset.sum_range_succ]
    first | done | exact mul_one 2 | norm_num [Matrix.ofNat_apply]
  · unfold PlacesPoles
    rw [Matrix.charpoly, Matrix.det_fin_one]
    simp [Matrix.charmatrix_apply, Matrix.ofNat_apply]

/-- **C56**: too few locations are an `IndexError`. -/
theorem C56_few {S : SvdNum ℝ} (he : 0 ≤ S.eps) {A : Matrix (Fin n) (Fin n) ℝ} {b : Matrix (Fin n) (Fin 1) ℝ}
    (h : SvdExact S (ctrbM A b (n - 1))) (hn : 0 < n) (hr : Reachable A b) {loc : List ℝ} (hl : loc.length < n) (hl0 : loc ≠ []) :
    ackermann S (Arr.of A) (Arr.of b) (.real loc) = .error .index := by
  rw [ackermann_real (checkAB_of _ _) rfl]
  obtain ⟨U, h1⟩ := ctrb_exact he h hn one_pos
  have hrk := (reachable_iff_rank A b).mp hr
  unfold ackermannReal
  rw [checkAB_of]
  simp only [bind, Except.bind]
  rw [if_neg (by simp), h1]
  simp only
  rw [hrk, if_neg (by simp), if_neg hl0, ackSum_few _ _ _ (by simp [npPoly_length]; omega)]

/-- The hypotheses are met for the double integrator with exact numerics. -/
example : ∃ S : SvdNum ℝ, 0 ≤ S.eps ∧ SvdExact S (ctrbM dblA dblB 1) ∧ Reachable dblA dblB := by
  obtain ⟨S, h1, h2⟩ := exists_svdNum
  exact ⟨S, h1.ge, h2 _, reachable_dbl⟩

end Harold
