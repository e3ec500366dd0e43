import Verif.Lemmas.FreqMin
import Verif.Props.Freq
import Verif.Props.MinrealState

/-!
# C86: `frequency_response(..., use_minreal=True)`
-/

namespace Harold

open Matrix Spec

section
variable {n m p : ℕ} {N : HessNum ℝ} {S : SvdNum ℝ} {Q : MinNum ℝ} {tol : ℝ} {auto : List ℝ} {A : Matrix (Fin n) (Fin n) ℝ} {B : Matrix (Fin n) (Fin m) ℝ}
  {C : Matrix (Fin p) (Fin n) ℝ} {D : Matrix (Fin p) (Fin m) ℝ} {dt : Option ℝ} {w : Option GridArg} {samples : Option ℕ} {iu ou : String}

/-- A row before and after `_minimal_realization_state`. -/
theorem freqRow_red (red : Reduce ℝ) {G : StateM ℝ} {i : Fin G.c.r} {r : Arr ℝ × Arr ℝ × Arr ℝ} (h : freqRow N none G i = .ok r) :
    freqRow N (some red) G i = (red r.1 r.2.1 r.2.2).bind fun q => if q.1.r = 0 then .error .index else .ok q := by
  unfold freqRow at h ⊢
  obtain ⟨x, h1, h2⟩ := bind_ok' h
  rw [h1]
  simp only [freqReduce, bind, Except.bind] at h2 ⊢
  split_ifs at h2 with h3
  cases h2
  rfl

theorem balances_of_scales (h : Scales Q) : Balances Q := fun A => by
  obtain ⟨d, h1, h2⟩ := h A
  exact ⟨diagonal d, by rw [det_diagonal]; exact Finset.prod_ne_zero_iff.mpr fun i _ => h1 i, h2⟩

/-- **C86**, the part that holds: for a model that every single output observes and that is reachable, `use_minreal=True` returns exactly what `use_minreal=False` returns (whose samples
are those of C45), if the balancing does not reorder the states. With one state the model must have one input. Missing: models with states to remove, orderings
(`C86_permuted_violated`, `C86_first_order_violated`, `C86_zero_input_violated`). -/
theorem C86_partial (hn : 0 < n) (hq : ∀ b : Matrix (Fin n) (Fin 1) ℝ, QrOk N b) (hh : ∀ M : Matrix (Fin n) (Fin n) ℝ, HessOk N M)
    (hS : ∀ {a b : ℕ} (M : Matrix (Fin a) (Fin b) ℝ), SvdExact S M) (he : S.eps = 0) (hN : Decides Q tol) (hb : Scales Q) (hr : Reachable A B) (ho : EachObservable A C)
    (hm : 1 < n ∨ m = 1) :
    freqStateMin N S Q tol true auto ⟨Arr.of A, Arr.of B, Arr.of C, Arr.of D, dt, false⟩ w samples iu ou =
      freqStateMin N S Q tol false auto ⟨Arr.of A, Arr.of B, Arr.of C, Arr.of D, dt, false⟩ w samples iu ou := by
  unfold freqStateMin
  simp only [Bool.false_eq_true, if_false, if_true]
  have hS' : ∀ (a b : ℕ) (M : Matrix (Fin a) (Fin b) ℝ), SvdOk S M := fun a b M => let ⟨U, s, V, h1, h2, _⟩ := hS M; ⟨U, s, V, h1, h2⟩
  refine freqState_congr fun _ i => ?_
  change Fin p at i
  obtain ⟨T, t1, t2, t3, t4⟩ := freqRow_of hn A B C (Arr.of D) dt false hq hh i
  have e1 : (Matrix.of fun (_ : Fin 1) j => (C * T) i j) = (Matrix.of fun (_ : Fin 1) (j : Fin n) => C i j) * T := by
    ext a b
    simp [Matrix.mul_apply]
  have hr1 : Reachable (Tᵀ * A * T) (Tᵀ * B) := (reachable_coords t1).mpr hr
  have ho1 : Observable (Tᵀ * A * T) (Matrix.of fun (_ : Fin 1) j => (C * T) i j) := by
    rw [e1]
    exact (observable_coords t1).mpr (ho i)
  obtain ⟨d, hd, hbal⟩ : ∃ d : Fin n → ℝ, (∀ i, d i ≠ 0) ∧ minrealMatrices S Q tol (Arr.of (Tᵀ * A * T)) (Arr.of (Tᵀ * B)) (Arr.of (Matrix.of fun (_ : Fin 1) j => (C * T) i j)) =
      .ok (Arr.of ((diagonal d)⁻¹ * (Tᵀ * A * T) * diagonal d), Arr.of ((diagonal d)⁻¹ * (Tᵀ * B)), Arr.of ((Matrix.of fun (_ : Fin 1) j => (C * T) i j) * diagonal d)) := by
    by_cases h1 : 1 < n
    · obtain ⟨d, hd, hbal⟩ := hb (Tᵀ * A * T)
      refine ⟨d, hd, minrealMatrices_keep hS' he hN (by rw [det_diagonal]; exact Finset.prod_ne_zero_iff.mpr fun i _ => hd i) hbal hn ?_ hr1 ho1⟩
      exact lt_of_le_of_lt (rank_le_height _) h1
    · obtain rfl : n = 1 := by omega
      obtain rfl : m = 1 := hm.resolve_left (by omega)
      obtain ⟨X, hX, h2⟩ := minrealMatrices_first_order (S := S) hS he hN (balances_of_scales hb) (Tᵀ * A * T) (Tᵀ * B) (Matrix.of fun (_ : Fin 1) j => (C * T) i j)
        (reachable_ne_zero hn hr1) fun h0 => by
          rw [h0] at ho1
          exact not_observable_zero _ one_pos ho1
      have hX' : X = diagonal fun _ => X 0 0 := by
        ext a b
        obtain rfl := Subsingleton.elim a 0
        obtain rfl := Subsingleton.elim b 0
        simp
      rw [hX'] at h2
      exact ⟨_, fun _ => by rwa [det_fin_one] at hX, h2⟩
  refine ⟨_, _, ?_, t4, fun s k => rowResp_scale hd hn _ _ _ s k⟩
  rw [freqRow_red _ t4]
  rw [hbal]
  exact if_neg (by simp; omega)

/-- The code violates **C86**: a model with one state, one output reading it and a number of inputs other than one, e.g. `State(-1, [[1, 1]], 1)`: `use_minreal=True` raises `ValueError`
for every grid, `use_minreal=False` does not. -/
theorem C86_first_order_violated {A : Matrix (Fin 1) (Fin 1) ℝ} {B : Matrix (Fin 1) (Fin m) ℝ} {C : Matrix (Fin 1) (Fin 1) ℝ} {D : Matrix (Fin 1) (Fin m) ℝ}
    (hq : ∀ b : Matrix (Fin 1) (Fin 1) ℝ, QrOk N b) (hh : ∀ M : Matrix (Fin 1) (Fin 1) ℝ, HessOk N M)
    (hS : ∀ {a b : ℕ} (M : Matrix (Fin a) (Fin b) ℝ), SvdExact S M) (he : 0 ≤ S.eps) (hb : Balances Q) (hC : C ≠ 0) (hm : m ≠ 1)
    (hiu : unitOk iu = true) (hou : unitOk ou = true) {ws : List ℝ} (hw : freqGrid auto false dt w samples iu = .ok ws) :
    freqStateMin N S Q tol true auto ⟨Arr.of A, Arr.of B, Arr.of C, Arr.of D, dt, false⟩ w samples iu ou = .error .value ∧
      ∃ R, freqStateMin N S Q tol false auto ⟨Arr.of A, Arr.of B, Arr.of C, Arr.of D, dt, false⟩ w samples iu ou = .ok R := by
  refine ⟨?_, freqState_succeeds one_pos hq hh hiu hou hw⟩
  obtain ⟨T, t1, t2, t3, t4⟩ := freqRow_of one_pos A B C (Arr.of D) dt false hq hh (0 : Fin 1)
  have hrank : (Matrix.of fun (_ : Fin 1) j => (C * T) 0 j).rank = 1 := by
    have e1 : (Matrix.of fun (_ : Fin 1) j => (C * T) 0 j) = C * T := by
      ext a b
      obtain rfl := Subsingleton.elim a 0
      rfl
    have hT : IsUnit T.det := by
      rw [isUnit_iff_ne_zero]
      intro h0
      have := congrArg Matrix.det t1
      rw [det_mul, h0, mul_zero, det_one] at this
      exact zero_ne_one this
    have hC' : IsUnit C.det := by
      rw [det_fin_one, isUnit_iff_ne_zero]
      exact fun h0 => hC (by ext i j; rw [Subsingleton.elim i 0, Subsingleton.elim j 0, h0]; rfl)
    rw [e1, rank_mul_eq_left_of_isUnit_det _ _ hT, rank_of_isUnit C ((isUnit_iff_isUnit_det C).mpr hC'), Fintype.card_fin]
  have h1 : freqRow N (some (minrealMatrices S Q tol)) ⟨Arr.of A, Arr.of B, Arr.of C, Arr.of D, dt, false⟩ (0 : Fin 1) = .error .value := by
    rw [freqRow_red _ t4]
    dsimp only
    rw [minrealMatrices_rank (S := S) hS he hb _ _ one_pos hrank hm]
    rfl
  unfold freqStateMin freqState
  rw [if_neg (by simp [hiu, hou])]
  simp only
  rw [hw]
  simp only [bind, Except.bind, Bool.false_eq_true, if_false, if_true, Arr.of_r]
  rw [show (finM fun i : Fin 1 => freqRow N (some (minrealMatrices S Q tol)) ⟨Arr.of A, Arr.of B, Arr.of C, Arr.of D, dt, false⟩ i) = .error .value by
    simp only [finM, bind, Except.bind]
    rw [h1]]

/-- The code violates **C86**: a model of order at least two with `B = 0` and one output. `use_minreal=True` raises `IndexError` for every grid, `use_minreal=False` does not. -/
theorem C86_zero_input_violated {C : Matrix (Fin 1) (Fin n) ℝ} {D : Matrix (Fin 1) (Fin m) ℝ} (hn : 1 < n)
    (hq : ∀ b : Matrix (Fin n) (Fin 1) ℝ, QrOk N b) (hh : ∀ M : Matrix (Fin n) (Fin n) ℝ, HessOk N M)
    (hS : ∀ (a b : ℕ) (M : Matrix (Fin a) (Fin b) ℝ), SvdOk S M) (he : S.eps = 0) (hN : Decides Q tol) (hb : Balances Q)
    (hiu : unitOk iu = true) (hou : unitOk ou = true) {ws : List ℝ} (hw : freqGrid auto false dt w samples iu = .ok ws) :
    freqStateMin N S Q tol true auto ⟨Arr.of A, Arr.of (0 : Matrix (Fin n) (Fin m) ℝ), Arr.of C, Arr.of D, dt, false⟩ w samples iu ou = .error .index ∧
      ∃ R, freqStateMin N S Q tol false auto ⟨Arr.of A, Arr.of (0 : Matrix (Fin n) (Fin m) ℝ), Arr.of C, Arr.of D, dt, false⟩ w samples iu ou = .ok R := by
  refine ⟨?_, freqState_succeeds (by omega) hq hh hiu hou hw⟩
  obtain ⟨T, t1, t2, t3, t4⟩ := freqRow_of (by omega) A (0 : Matrix (Fin n) (Fin m) ℝ) C (Arr.of D) dt false hq hh (0 : Fin 1)
  have h1 : freqRow N (some (minrealMatrices S Q tol)) ⟨Arr.of A, Arr.of (0 : Matrix (Fin n) (Fin m) ℝ), Arr.of C, Arr.of D, dt, false⟩ (0 : Fin 1) = .error .index := by
    rw [freqRow_red _ t4]
    dsimp only
    rw [Matrix.mul_zero, minrealMatrices_zero_input hS he hN hb _ (by omega) (lt_of_le_of_lt (rank_le_height _) hn)]
    rfl
  unfold freqStateMin freqState
  rw [if_neg (by simp [hiu, hou])]
  simp only
  rw [hw]
  simp only [bind, Except.bind, Bool.false_eq_true, if_false, if_true, Arr.of_r]
  rw [show (finM fun i : Fin 1 => freqRow N (some (minrealMatrices S Q tol)) ⟨Arr.of A, Arr.of (0 : Matrix (Fin n) (Fin m) ℝ), Arr.of C, Arr.of D, dt, false⟩ i) = .error .index by
    simp only [finM, bind, Except.bind]
    rw [h1]]

end

/-! ### The series connection of two lags -/

/-- `1 / (s + 1)` followed by `1 / (s + 2)`. -/
def lagsA : Matrix (Fin 2) (Fin 2) ℝ := !![-1, 0; 1, -2]
def lagsB : Matrix (Fin 2) (Fin 1) ℝ := !![1; 0]
def lagsC : Matrix (Fin 1) (Fin 2) ℝ := !![0, 1]
def lagsObj : StateM ℝ := ⟨Arr.of lagsA, Arr.of lagsB, Arr.of lagsC, Arr.of (0 : Matrix (Fin 1) (Fin 1) ℝ), none, false⟩

theorem lags_reachable : Reachable lagsA lagsB := fun x => by
  refine ⟨[fun _ => x 1, fun _ => x 0 + x 1], ?_⟩
  funext i
  fin_cases i <;> simp [finalState, lagsA, lagsB, Matrix.mulVec, dotProduct, Fin.sum_univ_two]

theorem lags_observable : Observable lagsA lagsC := fun x h => by
  have h0 := congrFun (h 0) 0
  have h1 := congrFun (h 1) 0
  simp [lagsA, lagsC, Matrix.mulVec, dotProduct, Fin.sum_univ_two] at h0 h1
  funext i
  fin_cases i
  · simp; linarith
  · simp; linarith

theorem lags_tf {s : ℂ} (h1 : s + 1 ≠ 0) (h2 : s + 2 ≠ 0) : HasTF lagsObj 1 1 s (Matrix.of fun _ _ => 1 / ((s + 1) * (s + 2))) := by
  refine HasTF.of_dyn (isTF_iff_sol.mpr ⟨?_, !![1 / (s + 1); 1 / ((s + 1) * (s + 2))], ?_, ?_⟩)
  · rw [det_fin_two]
    simp [lagsA]
    exact ⟨h1, h2⟩
  · ext i j
    obtain rfl := Subsingleton.elim j 0
    fin_cases i <;> simp [lagsA, lagsB, Matrix.mul_apply, Fin.sum_univ_two] <;> field_simp <;> ring
  · ext i j
    obtain rfl := Subsingleton.elim i 0
    obtain rfl := Subsingleton.elim j 0
    simp [lagsC, Matrix.mul_apply, Fin.sum_univ_two]

/-- The code violates **C86**: the response of the series connection `1/((s+1)(s+2))` of two lags is computed as zero at every frequency when the states are reordered by the balancing, as LAPACK does for
triangular matrices. -/
theorem C86_permuted_violated {N : HessNum ℝ} {S : SvdNum ℝ} {Q : MinNum ℝ} {tol : ℝ} (hq : ∀ b : Matrix (Fin 2) (Fin 1) ℝ, QrOk N b)
    (hh : ∀ M : Matrix (Fin 2) (Fin 2) ℝ, HessOk N M) (hS : ∀ (a b : ℕ) (M : Matrix (Fin a) (Fin b) ℝ), SvdOk S M) (he : S.eps = 0) (hN : Decides Q tol) (hp : Permutes Q)
    (auto w : List ℝ) :
    freqStateMin N S Q tol true auto lagsObj (some ⟨[w.length], w⟩) none "rad/s" "rad/s" = .ok ⟨w.map fun _ => Arr.of (Matrix.of fun (_ _ : Fin 1) => some 0), w⟩ ∧
      ∀ x ∈ w, HasTF lagsObj 1 1 (evalPoint none x) (Matrix.of fun _ _ => 1 / ((evalPoint none x + 1) * (evalPoint none x + 2))) ∧
        1 / ((evalPoint none x + 1) * (evalPoint none x + 2)) ≠ 0 := by
  have hne : ∀ (x : ℝ) (a : ℝ), a ≠ 0 → Complex.I * x + a ≠ 0 := fun x a ha h0 => by
    have := congrArg Complex.re h0
    simp at this
    exact ha this
  refine ⟨?_, fun x _ => ?_⟩
  swap
  · have h1 : evalPoint none x + 1 ≠ 0 := by simpa [evalPoint] using hne x 1 one_ne_zero
    have h2 : evalPoint none x + 2 ≠ 0 := by simpa [evalPoint] using hne x 2 two_ne_zero
    exact ⟨lags_tf h1 h2, one_div_ne_zero (mul_ne_zero h1 h2)⟩
  obtain ⟨T, t1, t2, t3, t4⟩ := freqRow_of two_pos lagsA lagsB lagsC (Arr.of (0 : Matrix (Fin 1) (Fin 1) ℝ)) none false hq hh (0 : Fin 1)
  have hT10 : T 1 0 = 0 := by
    have := t3 0 (by simp)
    simpa [lagsC, Matrix.mul_apply, Fin.sum_univ_two] using this
  have o00 := congrFun (congrFun t1 0) 0
  have o01 := congrFun (congrFun t1 0) 1
  have o11 := congrFun (congrFun t1 1) 1
  simp [Matrix.mul_apply, Fin.sum_univ_two, hT10] at o00 o01 o11
  have hT00 : T 0 0 ≠ 0 := fun h0 => by rw [h0] at o00; simp at o00
  have hT01 : T 0 1 = 0 := o01.resolve_left hT00
  rw [hT01] at o11
  simp at o11
  have hT11 : T 1 1 ≠ 0 := fun h0 => by rw [h0] at o11; simp at o11
  have eH : Tᵀ * lagsA * T = !![-1, 0; T 1 1 * T 0 0, -2] := by
    ext i j
    fin_cases i <;> fin_cases j <;> simp [lagsA, Matrix.mul_apply, Fin.sum_univ_two, hT10, hT01]
    · linear_combination o00
    · linear_combination 2 * o11
  have eC : (Matrix.of fun (_ : Fin 1) j => (lagsC * T) 0 j) = !![0, T 1 1] := by
    ext i j
    fin_cases i
    fin_cases j <;> simp [lagsC, Matrix.mul_apply, Fin.sum_univ_two, hT10]
  have eC' : (Matrix.of fun (_ : Fin 1) j => (lagsC * T) 0 j) = lagsC * T := by
    ext i j
    obtain rfl := Subsingleton.elim i 0
    rfl
  have hP : (!![0, 1; 1, 0] : Matrix (Fin 2) (Fin 2) ℝ).det ≠ 0 := by rw [det_fin_two]; simp
  have hPi : (!![0, 1; 1, 0] : Matrix (Fin 2) (Fin 2) ℝ)⁻¹ = !![0, 1; 1, 0] := inv_eq_left_inv (by
    ext i j
    fin_cases i <;> fin_cases j <;> simp)
  have hbal : Q.bal (Arr.of (Tᵀ * lagsA * T)) = (Arr.of ((!![0, 1; 1, 0] : Matrix (Fin 2) (Fin 2) ℝ)⁻¹ * (Tᵀ * lagsA * T) * !![0, 1; 1, 0]), Arr.of !![0, 1; 1, 0]) := by
    rw [eH, hp _ _ _ (mul_ne_zero hT11 hT00), hPi]
    congr 2
    ext i j
    fin_cases i <;> fin_cases j <;> simp
  have hmin := minrealMatrices_keep hS he hN hP hbal two_pos (C := Matrix.of fun (_ : Fin 1) j => (lagsC * T) 0 j) (B := Tᵀ * lagsB)
    (lt_of_le_of_lt (rank_le_height _) one_lt_two) ((reachable_coords t1).mpr lags_reachable) (by rw [eC']; exact (observable_coords t1).mpr lags_observable)
  have hrow : freqRow N (some (minrealMatrices S Q tol)) lagsObj (0 : Fin 1) = .ok (Arr.of (!![-2, T 1 1 * T 0 0; 0, -1] : Matrix (Fin 2) (Fin 2) ℝ),
      Arr.of (!![0; T 0 0] : Matrix (Fin 2) (Fin 1) ℝ), Arr.of (!![T 1 1, 0] : Matrix (Fin 1) (Fin 2) ℝ)) := by
    unfold lagsObj
    rw [freqRow_red _ t4]
    dsimp only
    rw [hmin]
    simp only [Except.bind, Arr.of_r]
    rw [if_neg (by norm_num), eH, eC, hPi]
    congr 2
    · congr 1
      ext i j
      fin_cases i <;> fin_cases j <;> simp
    · congr 1
      · congr 1
        ext i j
        fin_cases i <;> fin_cases j <;> simp [lagsB, Matrix.mul_apply, Fin.sum_univ_two, hT01]
      · congr 1
        ext i j
        fin_cases i
        fin_cases j <;> simp
  have hu : unitOk "rad/s" = true := by decide
  unfold freqStateMin freqState
  rw [if_neg (by simp [hu])]
  have hg : freqGrid auto lagsObj.isgain lagsObj.dt (some ⟨[w.length], w⟩) none "rad/s" = .ok w := by
    unfold freqGrid
    simp only
    rw [if_neg (by
      have := List.length_filter_le (fun n => decide (n ≠ 1)) [w.length]
      simp only [List.length_singleton] at this
      omega)]
    simp [userGrid, lagsObj]
  rw [hg]
  have hrows : (finM fun i : Fin lagsObj.c.r => freqRow N (some (minrealMatrices S Q tol)) lagsObj i) = .ok fun _ => (Arr.of (!![-2, T 1 1 * T 0 0; 0, -1] : Matrix (Fin 2) (Fin 2) ℝ),
      Arr.of (!![0; T 0 0] : Matrix (Fin 2) (Fin 1) ℝ), Arr.of (!![T 1 1, 0] : Matrix (Fin 1) (Fin 2) ℝ)) := finM_ok.mpr fun i => by
    obtain rfl : i = (0 : Fin 1) := Subsingleton.elim (α := Fin 1) i 0
    exact hrow
  simp only [bind, Except.bind, if_true]
  rw [hrows, if_neg (by simp [lagsObj])]
  simp only [outGrid, if_true]
  congr 2
  refine List.map_congr_left fun x _ => ?_
  change Arr.of (Matrix.of fun (i : Fin 1) (j : Fin 1) => _) = _
  congr 1
  refine Matrix.ext fun i j => ?_
  obtain rfl := Subsingleton.elim i 0
  obtain rfl := Subsingleton.elim j 0
  simp only [Matrix.of_apply]
  have h1 : freqPoint none x + 1 ≠ 0 := by simpa [freqPoint, mul_comm] using hne x 1 one_ne_zero
  have h2 : freqPoint none x + 2 ≠ 0 := by simpa [freqPoint, mul_comm] using hne x 2 two_ne_zero
  have hany : (Arr.of (0 : Matrix (Fin 1) (Fin 1) ℝ)).any = false := any_zero
  unfold addD
  rw [show lagsObj.d.any = false from hany, if_neg (by simp)]
  unfold rowResp elimSolve
  simp [List.range', elimStep, elimInit, Arr.get, lagsObj]
  rw [if_neg (by rwa [add_comm])]
  simp
  rwa [add_comm]

/-! ### Non-vacuity of C86 -/

/-- The hypotheses of `C86_partial` are met by the two lags. -/
example : ∃ (N : HessNum ℝ) (S : SvdNum ℝ) (Q : MinNum ℝ), (∀ b : Matrix (Fin 2) (Fin 1) ℝ, QrOk N b) ∧ (∀ M : Matrix (Fin 2) (Fin 2) ℝ, HessOk N M) ∧
    (∀ {a b : ℕ} (M : Matrix (Fin a) (Fin b) ℝ), SvdExact S M) ∧ S.eps = 0 ∧ Decides Q 0 ∧ Scales Q ∧ Reachable lagsA lagsB ∧ EachObservable lagsA lagsC := by
  obtain ⟨S, he, hS⟩ := exists_svdNum
  obtain ⟨Q, h1, -, h2⟩ := exists_minNum 0
  refine ⟨hess2, S, Q, hess2_qr, hess2_hess, fun M => hS M, he, h1, fun {n} A => ⟨fun _ => 1, fun _ => one_ne_zero, ?_⟩, lags_reachable, fun i => ?_⟩
  · rw [h2, diagonal_one, inv_one, Matrix.one_mul, Matrix.mul_one]
  · have : (Matrix.of fun (_ : Fin 1) (j : Fin 2) => lagsC i j) = lagsC := by
      ext a b
      rw [Subsingleton.elim a i]
      rfl
    rw [this]
    exact lags_observable

/-- The hypotheses of `C86_permuted_violated` are met. -/
example : ∃ (N : HessNum ℝ) (S : SvdNum ℝ) (Q : MinNum ℝ), (∀ b : Matrix (Fin 2) (Fin 1) ℝ, QrOk N b) ∧ (∀ M : Matrix (Fin 2) (Fin 2) ℝ, HessOk N M) ∧
    (∀ (a b : ℕ) (M : Matrix (Fin a) (Fin b) ℝ), SvdOk S M) ∧ S.eps = 0 ∧ Decides Q 0 ∧ Permutes Q := by
  classical
  obtain ⟨S, he, hS⟩ := exists_svdNum
  obtain ⟨Q, h1, -, h2⟩ := exists_minNum 0
  refine ⟨hess2, S, ⟨fun a => (Arr.of (!![a.get 1 1, a.get 1 0; 0, a.get 0 0] : Matrix (Fin 2) (Fin 2) ℝ), Arr.of (!![0, 1; 1, 0] : Matrix (Fin 2) (Fin 2) ℝ)), Q.dist⟩, hess2_qr, hess2_hess,
    fun a b M => let ⟨U, s, V, h1, h2, _⟩ := hS M; ⟨U, s, V, h1, h2⟩, he, h1, fun x y g _ => ?_⟩
  simp [Arr.get]

/-- The hypotheses of `C86_first_order_violated` are met by `State(-1, [[1, 1]], 1)`. -/
example : ∃ (N : HessNum ℝ) (S : SvdNum ℝ) (Q : MinNum ℝ) (ws : List ℝ), (∀ b : Matrix (Fin 1) (Fin 1) ℝ, QrOk N b) ∧ (∀ M : Matrix (Fin 1) (Fin 1) ℝ, HessOk N M) ∧
    (∀ {a b : ℕ} (M : Matrix (Fin a) (Fin b) ℝ), SvdExact S M) ∧ 0 ≤ S.eps ∧ Balances Q ∧ (1 : Matrix (Fin 1) (Fin 1) ℝ) ≠ 0 ∧ unitOk "Hz" = true ∧
    freqGrid [] false none (some ⟨[1], [1]⟩) none "Hz" = .ok ws := by
  obtain ⟨S, he, hS⟩ := exists_svdNum
  obtain ⟨Q, -, h1, -⟩ := exists_minNum 0
  refine ⟨⟨fun b => (Arr.eye b.r, b), fun a => (a, Arr.eye a.r)⟩, S, Q, _, fun b => ⟨1, b, rfl, by simp, by simp, fun i j h => by omega⟩,
    fun M => ⟨M, 1, rfl, by simp, by simp, fun i j h => by omega, fun i j _ => by rw [Matrix.one_apply]⟩, fun M => hS M, he.ge, h1, one_ne_zero, by decide, rfl⟩

end Harold
