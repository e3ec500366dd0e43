import Verif.Spec.LyapTest
import Verif.Lemmas.LqrLoop
import Verif.Lemmas.Hautus
import Verif.Lemmas.SchurExists
import Verif.Lemmas.Motion
import Verif.Props.Lyap
import Verif.Props.Kalman

/-!
# C118: Lyapunov's stability test and gramians

`lyapunov_eq_solver` used the way a user of a control toolbox uses it: all motions die out exactly if the solution for a right-hand side
that sees all states is positive definite; the gramians decide reachability and observability and agree with the rank tests.
-/

namespace Harold

open Matrix Spec

variable {n m p : ℕ} {A X Y : Matrix (Fin n) (Fin n) ℝ}

/-- A nonnegative form vanishes only on the kernel. -/
theorem form_ker (hX : Xᵀ = X) (h : NonnegForm X) {x : Fin n → ℝ} (hx : x ⬝ᵥ X *ᵥ x = 0) : X *ᵥ x = 0 := by
  by_contra hne
  set y := X *ᵥ x with hy
  have hpos : 0 < y ⬝ᵥ y := lt_of_le_of_ne (Finset.sum_nonneg fun i _ => mul_self_nonneg _) fun h0 => hne (dotProduct_self_eq_zero.mp h0.symm)
  set q := y ⬝ᵥ X *ᵥ y with hq
  have hq0 : 0 ≤ q := h y
  have key : ∀ t : ℝ, 0 ≤ 2 * t * (y ⬝ᵥ y) + t ^ 2 * q := fun t => by
    have h1 := h (x + t • y)
    have h2 : x ⬝ᵥ X *ᵥ y = y ⬝ᵥ y := by rw [← quad_comm hX x y]
    simp only [mulVec_add, mulVec_smul, dotProduct_add, add_dotProduct, dotProduct_smul, smul_dotProduct, smul_eq_mul, hx, h2, ← hy, ← hq] at h1
    nlinarith
  have h3 := key (-(y ⬝ᵥ y) / (q + 1))
  have hq1 : 0 < q + 1 := by linarith
  have h4 : 2 * (-(y ⬝ᵥ y) / (q + 1)) * (y ⬝ᵥ y) + (-(y ⬝ᵥ y) / (q + 1)) ^ 2 * q = -((y ⬝ᵥ y) ^ 2 * (q + 2)) / (q + 1) ^ 2 := by
    field_simp
    ring
  rw [h4] at h3
  have : 0 < (y ⬝ᵥ y) ^ 2 * (q + 2) / (q + 1) ^ 2 := by positivity
  rw [neg_div] at h3
  linarith

theorem form_eq (h : Aᵀ * X + X * A + Y = 0) (x : Fin n → ℝ) : (A *ᵥ x) ⬝ᵥ X *ᵥ x + x ⬝ᵥ X *ᵥ (A *ᵥ x) = -(x ⬝ᵥ Y *ᵥ x) := by
  have := congrArg (fun M => x ⬝ᵥ M *ᵥ x) h
  simp only [add_mulVec, dotProduct_add, zero_mulVec, dotProduct_zero, ← mulVec_mulVec] at this
  rw [dotProduct_mulVec x Aᵀ, vecMul_transpose] at this
  linarith

theorem form_eq_disc (h : Aᵀ * X * A - X + Y = 0) (x : Fin n → ℝ) : (A *ᵥ x) ⬝ᵥ X *ᵥ (A *ᵥ x) - x ⬝ᵥ X *ᵥ x = -(x ⬝ᵥ Y *ᵥ x) := by
  have := congrArg (fun M => x ⬝ᵥ M *ᵥ x) h
  simp only [add_mulVec, sub_mulVec, dotProduct_add, dotProduct_sub, zero_mulVec, dotProduct_zero, ← mulVec_mulVec] at this
  rw [dotProduct_mulVec x Aᵀ, vecMul_transpose] at this
  linarith

/-- The kernel of a solution is carried into itself and is not seen by the right-hand side. -/
theorem ker_step (hX : Xᵀ = X) (hY : Yᵀ = Y) (hY0 : NonnegForm Y) (h : Aᵀ * X + X * A + Y = 0) {x : Fin n → ℝ} (hx : X *ᵥ x = 0) : Y *ᵥ x = 0 ∧ X *ᵥ (A *ᵥ x) = 0 := by
  have h1 := form_eq h x
  rw [← quad_comm hX x (A *ᵥ x), hx, dotProduct_zero] at h1
  have h2 : Y *ᵥ x = 0 := form_ker hY hY0 (by linarith)
  refine ⟨h2, ?_⟩
  have := congrArg (fun M => M *ᵥ x) h
  simpa only [add_mulVec, zero_mulVec, ← mulVec_mulVec, hx, h2, mulVec_zero, add_zero, zero_add] using this

theorem ker_step_disc (hX : Xᵀ = X) (hX0 : NonnegForm X) (hY : Yᵀ = Y) (hY0 : NonnegForm Y) (h : Aᵀ * X * A - X + Y = 0) {x : Fin n → ℝ} (hx : X *ᵥ x = 0) :
    Y *ᵥ x = 0 ∧ X *ᵥ (A *ᵥ x) = 0 := by
  have h1 := form_eq_disc h x
  rw [hx, dotProduct_zero] at h1
  have h2 := hX0 (A *ᵥ x)
  have h3 := hY0 x
  exact ⟨form_ker hY hY0 (by linarith), form_ker hX hX0 (by linarith)⟩

/-- A nonnegative form with such a kernel is positive if the right-hand side sees every state. -/
theorem pos_of_ker (hX : Xᵀ = X) (hX0 : NonnegForm X) (hs : ∀ x, X *ᵥ x = 0 → Y *ᵥ x = 0 ∧ X *ᵥ (A *ᵥ x) = 0) (ho : Observable A Y) : PosForm X := by
  intro x hx
  refine lt_of_le_of_ne (hX0 x) fun h0 => hx (ho x fun k => ?_)
  have hk : ∀ k : ℕ, X *ᵥ (A ^ k *ᵥ x) = 0 := fun k => by
    induction k with
    | zero => simpa using form_ker hX hX0 h0.symm
    | succ k ih =>
      rw [pow_succ', ← mulVec_mulVec]
      exact (hs _ ih).2
  exact (hs _ (hk k)).1

/-- A motion that the right-hand side does not see is not there. -/
theorem unseen_zero (hY : Yᵀ = Y) (hY0 : NonnegForm Y) (ho : Observable A Y) {z : ℂ} {v : Fin n → ℂ} (h : A.map (algebraMap ℝ ℂ) *ᵥ v = z • v)
    (hc : (fun i => (v i).re) ⬝ᵥ Y *ᵥ (fun i => (v i).re) + (fun i => (v i).im) ⬝ᵥ Y *ᵥ (fun i => (v i).im) = 0) : v = 0 := by
  refine (hautus A Y).mp ho z v h ?_
  have h1 := hY0 (fun i => (v i).re)
  have h2 := hY0 (fun i => (v i).im)
  have h3 := form_ker hY hY0 (x := fun i => (v i).re) (by linarith)
  have h4 := form_ker hY hY0 (x := fun i => (v i).im) (by linarith)
  obtain ⟨h5, h6⟩ := map_mulVec_parts Y v
  funext i
  refine Complex.ext ?_ ?_
  · rw [show _ = _ from congrFun h5 i, h3]; rfl
  · rw [show _ = _ from congrFun h6 i, h4]; rfl

theorem NonnegForm.of_pos (h : PosForm X) : NonnegForm X := fun x => by
  by_cases hx : x = 0
  · simp [hx]
  · exact (h x hx).le

/-- **C118**, continuous time: if no motion of `x' = A x` keeps out of sight of a nonnegative symmetric `Y`, then all motions die out exactly
if `lyapunov_eq_solver(A, Y)` answers with a positive definite matrix. Missing: integer arrays (`C53_integer_violated`). -/
theorem C118_continuous_partial {N : LyapNum ℝ} (X0 : Wk ℝ) (hN : SchurOk N A) (h0 : 0 < n) (hY : Yᵀ = Y) (hY0 : NonnegForm Y) (ho : Observable A Y)
    {form : String} (hf : form ∈ ["c", "continuous"]) :
    MotionsVanish none A ↔ ∃ X : Matrix (Fin n) (Fin n) ℝ, lyapunovEqSolver N id X0 (Arr.of A) (Arr.of Y) none form = .ok (some (Arr.of X)) ∧ PosForm X := by
  rw [← hurwitz_iff_motions]
  constructor
  · intro hA
    obtain ⟨X, h1, h2, h3, -⟩ := C53_continuous_stable_partial (X0 := X0) hN h0 hY hf hA
    have hX0 : NonnegForm X := psd_of_hurwitz hA (form_eq h2) hY0
    exact ⟨X, h1, pos_of_ker h3 hX0 (fun x hx => ker_step h3 hY hY0 h2 hx) ho⟩
  · rintro ⟨X, h1, hX⟩
    obtain ⟨X', h2, h3, h4⟩ := C53_continuous_solution_partial hN h0 hY hf h1
    obtain rfl : X = X' := by simpa using h2
    exact hurwitz_of_psd h4 (NonnegForm.of_pos hX) (form_eq h3) hY0 fun z v _ h5 h6 => unseen_zero hY hY0 ho h5 h6

/-- **C118**, discrete time: the same for `x[k+1] = A x[k]`. Missing: integer arrays (`C53_integer_violated`). -/
theorem C118_discrete_partial {N : LyapNum ℝ} (X0 : Wk ℝ) (hN : SchurOk N A) (h0 : 0 < n) (hY : Yᵀ = Y) (hY0 : NonnegForm Y) (ho : Observable A Y)
    {form : String} (hf : form ∈ ["d", "discrete"]) (dt : ℝ) :
    MotionsVanish (some dt) A ↔ ∃ X : Matrix (Fin n) (Fin n) ℝ, lyapunovEqSolver N id X0 (Arr.of A) (Arr.of Y) none form = .ok (some (Arr.of X)) ∧ PosForm X := by
  rw [← schur_iff_motions]
  constructor
  · intro hA
    obtain ⟨X, h1, h2, h3, -⟩ := C53_discrete_stable_partial (X0 := X0) hN h0 hY hf hA
    have hX0 : NonnegForm X := psd_of_schur hA (form_eq_disc h2) hY0
    exact ⟨X, h1, pos_of_ker h3 hX0 (fun x hx => ker_step_disc h3 hX0 hY hY0 h2 hx) ho⟩
  · rintro ⟨X, h1, hX⟩
    obtain ⟨X', h2, h3, h4⟩ := C53_discrete_solution_partial hN h0 hY hf h1
    obtain rfl : X = X' := by simpa using h2
    exact schur_of_psd h4 (NonnegForm.of_pos hX) (form_eq_disc h3) hY0 fun z v _ h5 h6 => unseen_zero hY hY0 ho h5 h6

theorem observable_of_pos (h : PosForm Y) (A : Matrix (Fin n) (Fin n) ℝ) : Observable A Y := fun x hx => by
  by_contra hne
  have := h x hne
  have h0 := hx 0
  rw [pow_zero, one_mulVec] at h0
  rw [h0, dotProduct_zero] at this
  exact lt_irrefl _ this

/-- **C118**, the textbook form: with a positive definite right-hand side the test needs no further assumption. Missing: integer arrays (`C53_integer_violated`). -/
theorem C118_definite_partial {N : LyapNum ℝ} (X0 : Wk ℝ) (hN : SchurOk N A) (h0 : 0 < n) (hY : Yᵀ = Y) (hY0 : PosForm Y) :
    (MotionsVanish none A ↔ ∃ X : Matrix (Fin n) (Fin n) ℝ, lyapunovEqSolver N id X0 (Arr.of A) (Arr.of Y) none "c" = .ok (some (Arr.of X)) ∧ PosForm X) ∧
    (∀ dt, MotionsVanish (some dt) A ↔ ∃ X : Matrix (Fin n) (Fin n) ℝ, lyapunovEqSolver N id X0 (Arr.of A) (Arr.of Y) none "d" = .ok (some (Arr.of X)) ∧ PosForm X) :=
  ⟨C118_continuous_partial X0 hN h0 hY (NonnegForm.of_pos hY0) (observable_of_pos hY0 A) (by simp),
    fun dt => C118_discrete_partial X0 hN h0 hY (NonnegForm.of_pos hY0) (observable_of_pos hY0 A) (by simp) dt⟩

theorem gram_sym (C : Matrix (Fin p) (Fin n) ℝ) : (Cᵀ * C)ᵀ = Cᵀ * C := by rw [transpose_mul, transpose_transpose]

theorem gram_form (C : Matrix (Fin p) (Fin n) ℝ) (x : Fin n → ℝ) : x ⬝ᵥ (Cᵀ * C) *ᵥ x = (C *ᵥ x) ⬝ᵥ (C *ᵥ x) := by
  rw [← mulVec_mulVec, dotProduct_mulVec, vecMul_transpose]

theorem gram_nonneg (C : Matrix (Fin p) (Fin n) ℝ) : NonnegForm (Cᵀ * C) := fun x => by
  rw [gram_form]
  exact Finset.sum_nonneg fun i _ => mul_self_nonneg _

theorem gram_observable (A : Matrix (Fin n) (Fin n) ℝ) (C : Matrix (Fin p) (Fin n) ℝ) : Observable A (Cᵀ * C) ↔ Observable A C := by
  have : ∀ x, (Cᵀ * C) *ᵥ x = 0 ↔ C *ᵥ x = 0 := fun x => by
    constructor
    · intro h
      have := gram_form C x
      rw [h, dotProduct_zero] at this
      exact dotProduct_self_eq_zero.mp this.symm
    · intro h
      rw [← mulVec_mulVec, h, mulVec_zero]
  unfold Observable
  simp only [this]

/-- The equation along an eigenvector. -/
theorem eig_form (hX : Xᵀ = X) (h : Aᵀ * X + X * A + Y = 0) {z : ℂ} {v : Fin n → ℂ} (hv : A.map (algebraMap ℝ ℂ) *ᵥ v = z • v) :
    2 * z.re * ((fun i => (v i).re) ⬝ᵥ X *ᵥ (fun i => (v i).re) + (fun i => (v i).im) ⬝ᵥ X *ᵥ (fun i => (v i).im)) =
      -((fun i => (v i).re) ⬝ᵥ Y *ᵥ (fun i => (v i).re) + (fun i => (v i).im) ⬝ᵥ Y *ᵥ (fun i => (v i).im)) := by
  obtain ⟨h1, h2⟩ := eig_parts hv
  set x : Fin n → ℝ := fun i => (v i).re
  set y : Fin n → ℝ := fun i => (v i).im
  have e1 := form_eq h x
  have e2 := form_eq h y
  rw [h1] at e1
  rw [h2] at e2
  simp only [mulVec_add, mulVec_sub, mulVec_smul, dotProduct_add, dotProduct_sub, add_dotProduct, sub_dotProduct, dotProduct_smul, smul_dotProduct, smul_eq_mul, quad_comm hX x y] at e1 e2
  linear_combination e1 + e2

theorem eig_form_disc (hX : Xᵀ = X) (h : Aᵀ * X * A - X + Y = 0) {z : ℂ} {v : Fin n → ℂ} (hv : A.map (algebraMap ℝ ℂ) *ᵥ v = z • v) :
    (‖z‖ ^ 2 - 1) * ((fun i => (v i).re) ⬝ᵥ X *ᵥ (fun i => (v i).re) + (fun i => (v i).im) ⬝ᵥ X *ᵥ (fun i => (v i).im)) =
      -((fun i => (v i).re) ⬝ᵥ Y *ᵥ (fun i => (v i).re) + (fun i => (v i).im) ⬝ᵥ Y *ᵥ (fun i => (v i).im)) := by
  obtain ⟨h1, h2⟩ := eig_parts hv
  set x : Fin n → ℝ := fun i => (v i).re
  set y : Fin n → ℝ := fun i => (v i).im
  have e1 := form_eq_disc h x
  have e2 := form_eq_disc h y
  rw [h1] at e1
  rw [h2] at e2
  simp only [mulVec_add, mulVec_sub, mulVec_smul, dotProduct_add, dotProduct_sub, add_dotProduct, sub_dotProduct, dotProduct_smul, smul_dotProduct, smul_eq_mul, quad_comm hX x y] at e1 e2
  rw [Complex.sq_norm, Complex.normSq_apply]
  linear_combination e1 + e2

/-- A positive definite solution shows that the right-hand side sees every motion. -/
theorem observable_of_form (hX0 : PosForm X) {c : ℂ → ℝ} (hc : ∀ z, IsEig A z → c z ≠ 0)
    (hl : ∀ (z : ℂ) (v : Fin n → ℂ), A.map (algebraMap ℝ ℂ) *ᵥ v = z • v →
      c z * ((fun i => (v i).re) ⬝ᵥ X *ᵥ (fun i => (v i).re) + (fun i => (v i).im) ⬝ᵥ X *ᵥ (fun i => (v i).im)) =
        -((fun i => (v i).re) ⬝ᵥ Y *ᵥ (fun i => (v i).re) + (fun i => (v i).im) ⬝ᵥ Y *ᵥ (fun i => (v i).im))) : Observable A Y := by
  rw [hautus]
  intro z v hv hY
  by_contra hne
  have h1 := hl z v hv
  obtain ⟨h2, h3⟩ := map_mulVec_parts Y v
  rw [hY] at h2 h3
  rw [← h2, ← h3] at h1
  have h4 : (fun i => (v i).re) ⬝ᵥ X *ᵥ (fun i => (v i).re) + (fun i => (v i).im) ⬝ᵥ X *ᵥ (fun i => (v i).im) = 0 := by
    refine (mul_eq_zero.mp (h1.trans ?_)).resolve_left (hc z (isEig_of_vec hne hv))
    simp [dotProduct]
  have h5 := NonnegForm.of_pos hX0 (fun i => (v i).re)
  have h6 := NonnegForm.of_pos hX0 (fun i => (v i).im)
  have h7 : ∀ x : Fin n → ℝ, x ⬝ᵥ X *ᵥ x = 0 → x = 0 := fun x hx => by
    by_contra h
    exact absurd hx (hX0 x h).ne'
  have h8 := h7 (fun i => (v i).re) (by linarith)
  have h9 := h7 (fun i => (v i).im) (by linarith)
  exact hne (funext fun i => Complex.ext (congrFun h8 i) (congrFun h9 i))

/-- **C118**, the observability gramian in continuous time: for a stable `A`, the solution of `A'X + XA + C'C = 0` that the solver returns is
positive definite exactly if `is_kalman_observable` answers `True`. Missing: integer arrays (`C53_integer_violated`). -/
theorem C118_obs_gramian_partial {N : LyapNum ℝ} (X0 : Wk ℝ) (hN : SchurOk N A) {S : SvdNum ℝ} (he : 0 ≤ S.eps) {C : Matrix (Fin p) (Fin n) ℝ}
    (h : SvdExact S (obsvM A C (n - 1))) (hn : 0 < n) (hp : 0 < p) (hA : MotionsVanish none A) {form : String} (hf : form ∈ ["c", "continuous"]) :
    ∃ X : Matrix (Fin n) (Fin n) ℝ, lyapunovEqSolver N id X0 (Arr.of A) (Arr.of (Cᵀ * C)) none form = .ok (some (Arr.of X)) ∧ NonnegForm X ∧
      (PosForm X ↔ isKalmanObservable S (Arr.of A) (Arr.of C) = .ok true) := by
  have hA' := hurwitz_iff_motions.mpr hA
  obtain ⟨X, h1, h2, h3, -⟩ := C53_continuous_stable_partial (X0 := X0) hN hn (gram_sym C) hf hA'
  have hX0 : NonnegForm X := psd_of_hurwitz hA' (form_eq h2) (gram_nonneg C)
  obtain ⟨t, ht, hk⟩ := C48_observable he h hn hp
  refine ⟨X, h1, hX0, ?_⟩
  rw [ht]
  simp only [Except.ok.injEq]
  rw [hk, ← gram_observable]
  exact ⟨fun hX => observable_of_form hX (c := fun z => 2 * z.re) (fun z hz => by have := hA' z hz; exact (by linarith : (2 * z.re : ℝ) < 0).ne) fun z v hv => eig_form h3 h2 hv,
    fun ho => pos_of_ker h3 hX0 (fun x hx => ker_step h3 (gram_sym C) (gram_nonneg C) h2 hx) ho⟩

/-- **C118**, the observability gramian in discrete time. Missing: integer arrays (`C53_integer_violated`). -/
theorem C118_obs_gramian_discrete_partial {N : LyapNum ℝ} (X0 : Wk ℝ) (hN : SchurOk N A) {S : SvdNum ℝ} (he : 0 ≤ S.eps) {C : Matrix (Fin p) (Fin n) ℝ}
    (h : SvdExact S (obsvM A C (n - 1))) (hn : 0 < n) (hp : 0 < p) {dt : ℝ} (hA : MotionsVanish (some dt) A) {form : String} (hf : form ∈ ["d", "discrete"]) :
    ∃ X : Matrix (Fin n) (Fin n) ℝ, lyapunovEqSolver N id X0 (Arr.of A) (Arr.of (Cᵀ * C)) none form = .ok (some (Arr.of X)) ∧ NonnegForm X ∧
      (PosForm X ↔ isKalmanObservable S (Arr.of A) (Arr.of C) = .ok true) := by
  have hA' := schur_iff_motions.mpr hA
  obtain ⟨X, h1, h2, h3, -⟩ := C53_discrete_stable_partial (X0 := X0) hN hn (gram_sym C) hf hA'
  have hX0 : NonnegForm X := psd_of_schur hA' (form_eq_disc h2) (gram_nonneg C)
  obtain ⟨t, ht, hk⟩ := C48_observable he h hn hp
  refine ⟨X, h1, hX0, ?_⟩
  rw [ht]
  simp only [Except.ok.injEq]
  rw [hk, ← gram_observable]
  refine ⟨fun hX => observable_of_form hX (c := fun z => ‖z‖ ^ 2 - 1) (fun z hz => ?_) fun z v hv => eig_form_disc h3 h2 hv,
    fun ho => pos_of_ker h3 hX0 (fun x hx => ker_step_disc h3 hX0 (gram_sym C) (gram_nonneg C) h2 hx) ho⟩
  have h4 := hA' z hz
  have h5 := norm_nonneg z
  exact (by nlinarith : (‖z‖ ^ 2 - 1 : ℝ) < 0).ne

/-- **C118**, the controllability gramians: for a stable `A`, the solution for `(A', B B')` is positive definite exactly if
`is_kalman_controllable` answers `True`. Missing: integer arrays (`C53_integer_violated`). -/
theorem C118_ctrb_gramian_partial {N : LyapNum ℝ} (X0 : Wk ℝ) (hN : SchurOk N Aᵀ) {S : SvdNum ℝ} (he : 0 ≤ S.eps) {B : Matrix (Fin n) (Fin m) ℝ}
    (hS : ∀ (k l : ℕ) (M : Matrix (Fin k) (Fin l) ℝ), SvdExact S M) (hn : 0 < n) (hm : 0 < m) {dt : Option ℝ} (hA : MotionsVanish dt A) {form : String}
    (hf : form ∈ if dt = none then ["c", "continuous"] else ["d", "discrete"]) :
    ∃ X : Matrix (Fin n) (Fin n) ℝ, lyapunovEqSolver N id X0 (Arr.of Aᵀ) (Arr.of (B * Bᵀ)) none form = .ok (some (Arr.of X)) ∧ NonnegForm X ∧
      (PosForm X ↔ isKalmanControllable S (Arr.of A) (Arr.of B) = .ok true) := by
  obtain ⟨t, h1, h2⟩ := C48_controllable he (hS _ _ (ctrbM A B (n - 1))) hn hm
  obtain ⟨t', h3, h4⟩ := C48_observable he (hS _ _ (obsvM Aᵀ Bᵀ (n - 1))) hn hm
  have hk : isKalmanControllable S (Arr.of A) (Arr.of B) = isKalmanObservable S (Arr.of Aᵀ) (Arr.of Bᵀ) := by
    rw [h1, h3]
    congr 1
    rw [Bool.eq_iff_iff, h2, h4, observable_iff_dual, transpose_transpose, transpose_transpose]
  rw [hk]
  cases dt with
  | none =>
    have hA' : MotionsVanish none Aᵀ := hurwitz_iff_motions.mp fun z hz => hurwitz_iff_motions.mpr hA z (isEig_transpose.mp hz)
    obtain ⟨X, hX⟩ := C118_obs_gramian_partial X0 hN he (hS _ _ (obsvM Aᵀ Bᵀ (n - 1))) hn hm hA' (form := form) (by simpa using hf)
    rw [transpose_transpose] at hX
    exact ⟨X, hX⟩
  | some dt =>
    have hA' : MotionsVanish (some dt) Aᵀ := schur_iff_motions.mp fun z hz => schur_iff_motions.mpr hA z (isEig_transpose.mp hz)
    obtain ⟨X, hX⟩ := C118_obs_gramian_discrete_partial X0 hN he (hS _ _ (obsvM Aᵀ Bᵀ (n - 1))) hn hm hA' (form := form) (by simpa using hf)
    rw [transpose_transpose] at hX
    exact ⟨X, hX⟩

/-- The contracts are met by exact numerics, and a triple integrator chain with damping and `Y = 1` meets the hypotheses. -/
example : ∃ N : LyapNum ℝ, SchurOk N !![(-1 : ℝ), 2, 0; 0, -1, 2; 0, 0, -1] ∧ PosForm (1 : Matrix (Fin 3) (Fin 3) ℝ) ∧
    (∃ X : Matrix (Fin 3) (Fin 3) ℝ, lyapunovEqSolver N id 0 (Arr.of !![(-1 : ℝ), 2, 0; 0, -1, 2; 0, 0, -1]) (Arr.of (1 : Matrix (Fin 3) (Fin 3) ℝ)) none "c" = .ok (some (Arr.of X)) ∧ PosForm X) := by
  obtain ⟨N, -, hN, -⟩ := exists_lyapNum
  have h1 : PosForm (1 : Matrix (Fin 3) (Fin 3) ℝ) := fun x hx => by
    rw [one_mulVec]
    exact lt_of_le_of_ne (Finset.sum_nonneg fun i _ => mul_self_nonneg _) fun h => hx (dotProduct_self_eq_zero.mp h.symm)
  refine ⟨N, hN _, h1, (C118_definite_partial 0 (hN _) (by norm_num) transpose_one h1).1.mp (hurwitz_iff_motions.mp fun z hz => ?_)⟩
  unfold IsEig at hz
  rw [det_fin_three] at hz
  have : z = -1 := by
    simp [Matrix.one_apply] at hz
    exact eq_neg_of_add_eq_zero_left hz
  rw [this]
  norm_num

/-- A model in which only the first state is measured: the gramian decides. -/
example : ∃ (N : LyapNum ℝ) (S : SvdNum ℝ) (X : Matrix (Fin 2) (Fin 2) ℝ),
    lyapunovEqSolver N id 0 (Arr.of !![(1 / 2 : ℝ), 1; 0, 1 / 2]) (Arr.of (!![(1 : ℝ), 0]ᵀ * !![(1 : ℝ), 0])) none "d" = .ok (some (Arr.of X)) ∧
      (PosForm X ↔ isKalmanObservable S (Arr.of !![(1 / 2 : ℝ), 1; 0, 1 / 2]) (Arr.of !![(1 : ℝ), 0]) = .ok true) := by
  obtain ⟨N, -, hN, -⟩ := exists_lyapNum
  obtain ⟨S, he, hS⟩ := exists_svdNum
  have hA : MotionsVanish (some 1) !![(1 / 2 : ℝ), 1; 0, 1 / 2] := schur_iff_motions.mp fun z hz => by
    unfold IsEig at hz
    rw [det_fin_two] at hz
    have : z = 1 / 2 := by
      simp at hz
      rw [sub_eq_zero.mp hz, one_div]
    rw [this]
    norm_num
  obtain ⟨X, h1, -, h2⟩ := C118_obs_gramian_discrete_partial 0 (hN _) he.ge (hS (obsvM !![(1 / 2 : ℝ), 1; 0, 1 / 2] !![(1 : ℝ), 0] (2 - 1))) (by norm_num) (by norm_num) hA (form := "d") (by simp)
  exact ⟨N, S, X, h1, h2⟩

end Harold
