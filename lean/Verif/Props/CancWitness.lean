import Verif.Props.CancDist
import Mathlib.Topology.MetricSpace.ProperSpace.Lemmas

/-!
# C71: a pair for which the reported lower bound is too large
-/

namespace Harold

open Matrix Spec
open scoped Matrix.Norms.L2Operator

/-- The smallest singular value exists. -/
theorem exists_smallest {r c : ℕ} (hc : 0 < c) (A : Matrix (Fin r) (Fin c) ℂ) : ∃ σ, IsSmallest A σ := by
  have hcomp : IsCompact (Metric.sphere (0 : EuclideanSpace ℂ (Fin c)) 1) := isCompact_sphere _ _
  have hne : (Metric.sphere (0 : EuclideanSpace ℂ (Fin c)) 1).Nonempty := by
    refine ⟨EuclideanSpace.single ⟨0, hc⟩ 1, ?_⟩
    simp
  have hcont : Continuous fun x : EuclideanSpace ℂ (Fin c) => vnorm (A *ᵥ x.ofLp) := by
    unfold vnorm
    refine Real.continuous_sqrt.comp (continuous_finset_sum _ fun i _ => ?_)
    refine Continuous.pow (Continuous.norm ?_) 2
    simp only [mulVec, dotProduct]
    refine continuous_finset_sum _ fun j _ => continuous_const.mul ?_
    exact (EuclideanSpace.proj (𝕜 := ℂ) j).continuous
  obtain ⟨x, hx, hmin⟩ := hcomp.exists_isMinOn hne hcont.continuousOn
  have hx1 : vnorm x.ofLp = 1 := by
    rw [vnorm_eq]; simpa using hx
  refine ⟨_, ⟨x.ofLp, hx1, rfl⟩, fun y => ?_⟩
  by_cases hy : y = 0
  · subst hy
    rw [vnorm_eq_zero.2 rfl, mul_zero]
    exact vnorm_nonneg _
  · have hp := vnorm_pos hy
    have hmem : (WithLp.toLp 2 (((vnorm y)⁻¹ : ℂ) • y) : EuclideanSpace ℂ (Fin c)) ∈
        Metric.sphere (0 : EuclideanSpace ℂ (Fin c)) 1 := by
      rw [mem_sphere_zero_iff_norm, ← vnorm_eq, vnorm_smul, norm_inv, Complex.norm_real,
        Real.norm_of_nonneg hp.le, inv_mul_cancel₀ hp.ne']
    have := hmin hmem
    simp only [Set.mem_setOf_eq] at this
    rw [mulVec_smul, vnorm_smul, norm_inv, Complex.norm_real, Real.norm_of_nonneg hp.le] at this
    rwa [inv_mul_eq_div, le_div_iff₀ hp] at this

theorem norm_le_entries {r c : ℕ} (A : Matrix (Fin r) (Fin c) ℂ) : ‖A‖ ≤ ∑ i, ∑ j, ‖A i j‖ := by
  have hs : ∀ (k : ℕ) (i : Fin k) (a : ℂ), vnorm (Pi.single i a) = ‖a‖ := by
    intro k i a
    rw [vnorm_eq]
    simp
  have h1 : A = ∑ i, ∑ j, vecMulVec (Pi.single i (A i j)) (Pi.single j 1) := by
    ext a b
    simp only [Matrix.sum_apply, vecMulVec_apply]
    rw [Finset.sum_eq_single a, Finset.sum_eq_single b]
    · simp
    · intro j _ hj; simp [hj.symm]
    · simp
    · intro i _ hi; simp [hi.symm]
    · simp
  calc ‖A‖ = ‖∑ i, ∑ j, vecMulVec (Pi.single i (A i j)) (Pi.single j 1)‖ := by rw [← h1]
    _ ≤ _ := (norm_sum_le _ _).trans (Finset.sum_le_sum fun i _ => (norm_sum_le _ _).trans
      (Finset.sum_le_sum fun j _ => by
        refine (norm_vecMulVec_le _ _).trans ?_
        rw [hs, hs]; simp))

theorem vnorm_real {k : ℕ} (v : Fin k → ℝ) : vnorm (fun i => (v i : ℂ)) = √(∑ i, v i ^ 2) := by
  simp [vnorm]

theorem upp0_smul {N M : ℕ} (C : Matrix (Fin (N + M)) (Fin M) ℝ) (e : ℂ) (v : Fin (N + M) → ℂ) {c : ℂ}
    (hc : c ≠ 0) : upp0 C e (c • v) = upp0 C e v := by
  have h1 : topPart (c • v) = c • topPart v := rfl
  have h2 : botPart (c • v) = c • botPart v := rfl
  have hn : ‖c‖ ≠ 0 := norm_ne_zero_iff.2 hc
  unfold upp0
  rw [h1, h2, mulVec_smul, vnorm_smul, vnorm_smul, fdiv, fdiv]
  simp only [mul_eq_zero, hn, false_or]
  rw [mul_div_mul_left _ _ hn]

theorem fdiv_le {x y c : ℝ} (hy : 0 < y) (h : x ≤ c * y) : fdiv x y ≤ ((c : WithTop ℝ) : NFloat) := by
  rw [fdiv, if_neg hy.ne', WithTop.coe_le_coe, WithTop.coe_le_coe, div_le_iff₀ hy]
  exact h

theorem lt_fdiv {x y c : ℝ} (hy : 0 < y) (h : c * y < x) : ((c : WithTop ℝ) : NFloat) < fdiv x y := by
  rw [fdiv, if_neg hy.ne', WithTop.coe_lt_coe, WithTop.coe_lt_coe, lt_div_iff₀ hy]
  exact h

/-! ### The pair -/

/-- The state matrix. -/
noncomputable def wF : Matrix (Fin 2) (Fin 2) ℝ :=
  !![2997/10000000, -8991/20000000; -4001001/5000000, 3003/10000000]

/-- The input matrix. -/
noncomputable def wG : Matrix (Fin 2) (Fin 1) ℝ := !![-8991/20000000; -5996997/10000000]

/-- The unit vector drawn. -/
noncomputable def wC : Matrix (Fin 3) (Fin 1) ℝ := !![4/5; 0; 3/5]

/-- Eigenvectors of the extended matrix. -/
noncomputable def wV : Matrix (Fin 3) (Fin 3) ℝ :=
  !![2002/1000, -2, 4002/1000; 2997/1000, 3, -3/1000; 2997/1000, 3, 2997/1000]

/-- The inverse of the matrix of eigenvectors. -/
noncomputable def wW : Matrix (Fin 3) (Fin 3) ℝ :=
  !![1/4, 1/2, -1/3; -999/4000, -333/2000, 1/3; 0, -1/3, 1/3]

/-- The eigenvalues of the extended matrix. -/
noncomputable def wL : Fin 3 → ℝ := ![0, 3/5000, 3/5]

/-- The extended matrix. -/
noncomputable def wH : Matrix (Fin 3) (Fin 3) ℝ :=
  !![2997/10000000, -4001001/5000000, 4/5; -8991/20000000, 3003/10000000, 0;
    -8991/20000000, -5996997/10000000, 3/5]

theorem wH_eq : hcat (cancA wF wG) wC = wH := by
  ext i j
  fin_cases i <;> fin_cases j <;> rfl

theorem wHV : wH * wV = wV * diagonal wL := by
  ext i j
  fin_cases i <;> fin_cases j <;>
    simp [wH, wV, wL, Matrix.mul_apply, Fin.sum_univ_three] <;> norm_num

theorem wVW : wV * wW = 1 := by
  ext i j
  fin_cases i <;> fin_cases j <;>
    simp [wW, wV, Matrix.mul_apply, Fin.sum_univ_three] <;> norm_num

/-- The norm of an eigenvector. -/
noncomputable def wn (x : Fin 3) : ℝ := vnorm fun i => (wV i x : ℂ)

theorem wn_val (x : Fin 3) : wn x = √(wV 0 x ^ 2 + wV 1 x ^ 2 + wV 2 x ^ 2) := by
  rw [wn, vnorm_real, Fin.sum_univ_three]

theorem wn_bounds (x : Fin 3) : 1 ≤ wn x ∧ wn x ≤ 6 := by
  rw [wn_val]
  constructor
  · apply Real.le_sqrt_of_sq_le
    fin_cases x <;> simp [wV] <;> norm_num
  · rw [Real.sqrt_le_left (by norm_num)]
    fin_cases x <;> simp [wV] <;> norm_num

/-- Eigenvectors of norm one. -/
noncomputable def wU : Matrix (Fin 3) (Fin 3) ℂ :=
  toCM wV * diagonal fun x => ((wn x)⁻¹ : ℂ)

theorem wU_col (x : Fin 3) : (fun i => wU i x) = ((wn x)⁻¹ : ℂ) • fun i => (wV i x : ℂ) := by
  ext i
  rw [wU, Matrix.mul_diagonal, mul_comm]
  rfl

theorem wn_ne (x : Fin 3) : (wn x : ℂ) ≠ 0 := by
  have := (wn_bounds x).1
  rw [Complex.ofReal_ne_zero]; linarith

/-- The inverse of the matrix of unit eigenvectors. -/
noncomputable def wUi : Matrix (Fin 3) (Fin 3) ℂ := diagonal (fun x => (wn x : ℂ)) * toCM wW

theorem toCM_mul {r c d : ℕ} (X : Matrix (Fin r) (Fin c) ℝ) (Y : Matrix (Fin c) (Fin d) ℝ) :
    toCM (X * Y) = toCM X * toCM Y := Matrix.map_mul

theorem toCM_one {r : ℕ} : toCM (1 : Matrix (Fin r) (Fin r) ℝ) = 1 :=
  Matrix.map_one _ (map_zero _) (map_one _)

theorem toCM_diagonal {r : ℕ} (d : Fin r → ℝ) : toCM (diagonal d) = diagonal fun i => (d i : ℂ) := by
  unfold toCM
  rw [Matrix.diagonal_map (map_zero _)]
  rfl

theorem wU_inv : wU * wUi = 1 := by
  rw [wU, wUi, Matrix.mul_assoc, ← Matrix.mul_assoc (diagonal _), diagonal_mul_diagonal]
  have : (diagonal fun x => ((wn x)⁻¹ : ℂ) * (wn x : ℂ)) = (1 : Matrix (Fin 3) (Fin 3) ℂ) := by
    rw [← diagonal_one]
    congr 1
    ext x
    exact inv_mul_cancel₀ (wn_ne x)
  rw [this, Matrix.one_mul, ← toCM_mul, wVW, toCM_one]

theorem wU_det : wU.det ≠ 0 := by
  intro h
  have := congrArg Matrix.det wU_inv
  rw [det_mul, h, zero_mul, det_one] at this
  exact zero_ne_one this

theorem wU_eig : toCM wH * wU = wU * diagonal fun i => (wL i : ℂ) := by
  rw [wU, ← Matrix.mul_assoc, ← toCM_mul, wHV, toCM_mul, toCM_diagonal, Matrix.mul_assoc, Matrix.mul_assoc,
    diagonal_mul_diagonal, diagonal_mul_diagonal]
  congr 2
  ext i
  ring

theorem wU_unit (x : Fin 3) : vnorm (fun i => wU i x) = 1 := by
  rw [wU_col, vnorm_smul, norm_inv, Complex.norm_real]
  have h := (wn_bounds x).1
  rw [Real.norm_of_nonneg (by linarith)]
  exact inv_mul_cancel₀ (by linarith : wn x ≠ 0)

open Classical in
/-- Exact routines that draw `wC`. -/
noncomputable def wE : CancNum where
  orth n k := match n, k with
    | 3, 1 => wC
    | _, _ => 0
  eig k H := match k, H with
    | 3, _ => (fun i => (wL i : ℂ), wU)
    | _, _ => (0, 0)
  cond _ V := ‖V‖ * ‖V⁻¹‖
  svdLast r c A := if h : ∃ σ, IsSmallest A σ then h.choose else 0

theorem wE_exact : CancExact (N := 2) (M := 1) wE wH where
  svd A := by
    have h := exists_smallest (by norm_num) A
    have : wE.svdLast (2 + 1) 2 A = h.choose := dif_pos h
    rw [this]; exact h.choose_spec
  eig := wU_eig
  unit := wU_unit
  basis := wU_det
  cond V _ := rfl

theorem wK : ‖wU‖ * ‖wU⁻¹‖ ≤ 180 := by
  have h1 : ‖wU‖ ≤ 9 := by
    refine (norm_le_entries _).trans ?_
    have : ∀ i x, ‖wU i x‖ ≤ 1 := by
      intro i x
      rw [← wU_unit x, vnorm]
      apply Real.le_sqrt_of_sq_le
      exact Finset.single_le_sum (f := fun i => ‖wU i x‖ ^ 2) (fun _ _ => sq_nonneg _) (Finset.mem_univ i)
    simp only [Fin.sum_univ_three]
    have a := this 0 0; have b := this 0 1; have c := this 0 2
    have d := this 1 0; have e := this 1 1; have f := this 1 2
    have g := this 2 0; have h := this 2 1; have i := this 2 2
    linarith
  have h2 : ‖wU⁻¹‖ ≤ 20 := by
    have hi : wU⁻¹ = wUi := Matrix.inv_eq_right_inv wU_inv
    rw [hi]
    refine (norm_le_entries _).trans ?_
    have : ∀ i j, ‖wUi i j‖ ≤ 6 * |wW i j| := by
      intro i j
      rw [wUi, Matrix.diagonal_mul, norm_mul, Complex.norm_real]
      have h := wn_bounds i
      rw [Real.norm_of_nonneg (by linarith)]
      have e : ‖toCM wW i j‖ = |wW i j| := by
        simp [toCM]
      rw [e]
      exact mul_le_mul_of_nonneg_right h.2 (abs_nonneg _)
    refine (Finset.sum_le_sum fun i _ => Finset.sum_le_sum fun j _ => this i j).trans ?_
    simp only [Fin.sum_univ_three]
    simp [wW]
    norm_num [abs_of_pos, abs_of_neg]
  have := norm_nonneg wU⁻¹
  have := norm_nonneg wU
  nlinarith

theorem argFirst_eq {k : ℕ} {u : Fin k → NFloat} {f : Fin k} (h : ∀ j, j ≠ f → u f < u j) :
    argFirst u = .ok f := by
  obtain ⟨g, hg⟩ := argFirst_ok (Fin.pos_iff_nonempty.2 ⟨f⟩) u
  rw [hg]
  by_contra hne
  have hgf : g ≠ f := fun e => hne (by rw [e])
  exact absurd (argFirst_spec hg f) (not_le.2 (h g hgf))

theorem sqrt_le_mul {a b c : ℝ} (hc : 0 ≤ c) (h : a ≤ c ^ 2 * b) : √a ≤ c * √b := by
  rw [← Real.sqrt_sq hc, ← Real.sqrt_mul (sq_nonneg _)]
  exact Real.sqrt_le_sqrt h

theorem mul_lt_sqrt {a b c : ℝ} (hc : 0 ≤ c) (hb : 0 ≤ b) (h : c ^ 2 * b < a) : c * √b < √a := by
  rw [← Real.sqrt_sq hc, ← Real.sqrt_mul (sq_nonneg _)]
  exact Real.sqrt_lt_sqrt (by positivity) h

theorem w_upp (x : Fin 3) : upp0 (N := 2) (M := 1) wC (wL x : ℂ) (fun i => (wV i x : ℂ)) =
    fdiv (√((4/5 * wV 2 x) ^ 2 + ((3/5 - wL x) * wV 2 x) ^ 2)) (√(wV 0 x ^ 2 + wV 1 x ^ 2)) := by
  have h1 : topPart (N := 2) (M := 1) (fun i => (wV i x : ℂ)) = fun i : Fin 2 => ((![wV 0 x, wV 1 x] i : ℝ) : ℂ) := by
    ext i; fin_cases i <;> rfl
  have h2 : (toCM wC - (wL x : ℂ) • toCM (cancD 2 1)) *ᵥ botPart (N := 2) (M := 1) (fun i => (wV i x : ℂ)) =
      fun i : Fin 3 => ((![4/5 * wV 2 x, 0, (3/5 - wL x) * wV 2 x] i : ℝ) : ℂ) := by
    have hb : botPart (N := 2) (M := 1) (fun i => (wV i x : ℂ)) = fun _ => ((wV 2 x : ℝ) : ℂ) := by
      ext i; fin_cases i; rfl
    have hD : cancD 2 1 = !![0; 0; 1] := by
      ext i j; fin_cases i <;> fin_cases j <;> rfl
    rw [hb, hD]
    ext i
    fin_cases i <;> simp [mulVec, dotProduct, toCM, wC]
  unfold upp0
  rw [h1, h2]
  refine congrArg₂ fdiv ?_ ?_
  · refine (vnorm_real (k := 3) _).trans ?_
    rw [Fin.sum_univ_three]
    simp
  · refine (vnorm_real (k := 2) _).trans ?_
    rw [Fin.sum_univ_two]
    simp

theorem w_pick : argFirst (fun x => upp0 (N := 2) (M := 1) wC (wL x : ℂ) fun i => wU i x) = .ok (2 : Fin 3) := by
  have hu : ∀ x : Fin 3, (upp0 (N := 2) (M := 1) wC (wL x : ℂ) fun i => wU i x) =
      fdiv (√((4/5 * wV 2 x) ^ 2 + ((3/5 - wL x) * wV 2 x) ^ 2)) (√(wV 0 x ^ 2 + wV 1 x ^ 2)) := by
    intro x
    rw [← w_upp]
    refine Eq.trans ?_ (upp0_smul _ _ _ (inv_ne_zero (wn_ne x)))
    exact congrArg (upp0 (N := 2) (M := 1) wC (wL x : ℂ)) (wU_col x)
  refine argFirst_eq (k := 3) fun j hj => ?_
  have h2 : (upp0 (N := 2) (M := 1) wC (wL 2 : ℂ) fun i => wU i 2) ≤ (((3/5 : ℝ) : WithTop ℝ) : NFloat) := by
    rw [hu]
    refine fdiv_le (Real.sqrt_pos.2 (by simp [wV]; norm_num)) (sqrt_le_mul (by norm_num) ?_)
    simp [wV, wL]; norm_num
  refine lt_of_le_of_lt h2 ?_
  rw [hu]
  have hj' : j = 0 ∨ j = 1 := by
    fin_cases j
    · exact .inl rfl
    · exact .inr rfl
    · exact absurd rfl hj
  rcases hj' with rfl | rfl
  · refine lt_fdiv (Real.sqrt_pos.2 (by simp [wV]; norm_num)) (mul_lt_sqrt (by norm_num) (by positivity) ?_)
    simp [wV, wL]; norm_num
  · refine lt_fdiv (Real.sqrt_pos.2 (by simp [wV]; norm_num)) (mul_lt_sqrt (by norm_num) (by positivity) ?_)
    simp [wV, wL]; norm_num

/-- The pencil at the point picked is far from singular. -/
theorem w_sigma {σ : ℝ} (h : IsSmallest (toCM (cancA wF wG) - (wL 2 : ℂ) • toCM (cancB 2 1)) σ) : 1 / 3 ≤ σ := by
  obtain ⟨⟨x, hx, rfl⟩, -⟩ := h
  have hA : cancA wF wG = !![2997/10000000, -4001001/5000000; -8991/20000000, 3003/10000000;
      -8991/20000000, -5996997/10000000] := by
    ext i j; fin_cases i <;> fin_cases j <;> rfl
  have hB : cancB 2 1 = !![1, 0; 0, 1; 0, 0] := by
    ext i j; fin_cases i <;> fin_cases j <;> rfl
  have hP : toCM (cancA wF wG) - (wL 2 : ℂ) • toCM (cancB 2 1) =
      toCM !![2997/10000000 - 3/5, -4001001/5000000; -8991/20000000, 3003/10000000 - 3/5;
      -8991/20000000, -5996997/10000000] := by
    rw [hA, hB]
    ext i j
    fin_cases i <;> fin_cases j <;> simp [toCM, wL]
  rw [hP]
  rw [vnorm] at hx ⊢
  rw [Real.sqrt_eq_one, Fin.sum_univ_two] at hx
  apply Real.le_sqrt_of_sq_le
  rw [show (∑ i, ‖(toCM !![2997/10000000 - 3/5, -4001001/5000000; -8991/20000000, 3003/10000000 - 3/5;
      -8991/20000000, -5996997/10000000] *ᵥ x) i‖ ^ 2) = _ from Fin.sum_univ_three _]
  simp only [← Complex.normSq_eq_norm_sq, Complex.normSq_apply] at hx ⊢
  simp [mulVec, dotProduct, toCM, Fin.sum_univ_two]
  have key : ∀ a c : ℝ, 1 / 9 * (a * a + c * c) ≤
      ((2997 / 10000000 - 3 / 5) * a + -4001001 / 5000000 * c) *
        ((2997 / 10000000 - 3 / 5) * a + -4001001 / 5000000 * c) +
      (-8991 / 20000000 * a + (3003 / 10000000 - 3 / 5) * c) *
        (-8991 / 20000000 * a + (3003 / 10000000 - 3 / 5) * c) +
      (-8991 / 20000000 * a + -5996997 / 10000000 * c) *
        (-8991 / 20000000 * a + -5996997 / 10000000 * c) := by
    intro a c
    nlinarith [sq_nonneg (a + 193 / 100 * c), sq_nonneg a, sq_nonneg c]
  have h1 := key (x 0).re (x 1).re
  have h2 := key (x 0).im (x 1).im
  have h3 : ((3 : ℝ) ^ 2)⁻¹ = 1 / 9 * ((x 0).re * (x 0).re + (x 1).re * (x 1).re) +
      1 / 9 * ((x 0).im * (x 0).im + (x 1).im * (x 1).im) := by
    linarith
  rw [h3]
  linarith

/-- **C71 fails: the lower bound.** All routines exact, distinct eigenvalues, and yet a perturbation of
norm below `lower0` makes the pencil rank deficient. -/
theorem C71_lower_violated : ∃ (E : CancNum) (F : Matrix (Fin 2) (Fin 2) ℝ) (G : Matrix (Fin 2) (Fin 1) ℝ)
    (upper2 lower0 radius : ℝ) (upper1 : NFloat) (e p : ℂ) (dF : Matrix (Fin 2) (Fin 2) ℂ)
    (dG : Matrix (Fin 2) (Fin 1) ℂ),
    CancExact (N := 2) (M := 1) E (hcat (hcat F G)ᵀ (E.orth 3 1)) ∧ (E.orth 3 1)ᵀ * E.orth 3 1 = 1 ∧
    Function.Injective (E.eig 3 (hcat (hcat F G)ᵀ (E.orth 3 1))).1 ∧
    cancellationDistance E (Arr.of F) (Arr.of G) = .ok (upper2, upper1, lower0, e, radius) ∧
    Breaks F G dF dG p ∧ pertNorm dF dG < lower0 := by
  have hσ := w_sigma (wE_exact.svd (toCM (cancA wF wG) - (wL 2 : ℂ) • toCM (cancB 2 1)))
  have hK := wK
  have hK0 : 0 ≤ ‖wU‖ * ‖wU⁻¹‖ := mul_nonneg (norm_nonneg _) (norm_nonneg _)
  have hn : pertNorm (!![-2997/10000000, 8991/20000000; 0, 0] : Matrix (Fin 2) (Fin 2) ℂ) !![8991/20000000; 0] ≤ 1/800 := by
    have e : hcat (!![-2997/10000000, 8991/20000000; 0, 0] : Matrix (Fin 2) (Fin 2) ℂ) !![8991/20000000; 0] =
        toCM !![-2997/10000000, 8991/20000000, 8991/20000000; 0, 0, 0] := by
      ext i j
      fin_cases i <;> fin_cases j <;> simp [toCM, hcat, finSumFinEquiv, Fin.addCases]
    unfold pertNorm
    rw [e]
    refine (norm_le_entries _).trans ?_
    rw [Fin.sum_univ_two, Fin.sum_univ_three, Fin.sum_univ_three]
    simp [toCM]
    norm_num
  have hrun : cancellationDistance wE (Arr.of wF) (Arr.of wG) =
      .ok (wE.svdLast (2 + 1) 2 (toCM (cancA wF wG) - (wL 2 : ℂ) • toCM (cancB 2 1)),
        upp0 (N := 2) (M := 1) wC (wL 2 : ℂ) (fun i => wU i 2),
        wE.svdLast (2 + 1) 2 (toCM (cancA wF wG) - (wL 2 : ℂ) • toCM (cancB 2 1)) / (‖wU‖ * ‖wU⁻¹‖ + 1),
        (wL 2 : ℂ), wE.svdLast (2 + 1) 2 (toCM (cancA wF wG) - (wL 2 : ℂ) • toCM (cancB 2 1)) * (‖wU‖ * ‖wU⁻¹‖)) := by
    rw [cancellationDistance_of]
    unfold cancCore
    have e1 : wE.eig (2 + 1) (hcat (cancA wF wG) wC) = (fun i => (wL i : ℂ), wU) := rfl
    have e2 : wE.orth (2 + 1) 1 = wC := rfl
    have e3 : wE.cond (2 + 1) wU = ‖wU‖ * ‖wU⁻¹‖ := rfl
    simp only [e2, e1]
    rw [w_pick]
    rfl
  refine ⟨wE, wF, wG, _, _, _, _, _, 0, !![-2997/10000000, 8991/20000000; 0, 0], !![8991/20000000; 0],
    ?_, ?_, ?_, hrun, ?_, ?_⟩
  · exact wH_eq ▸ wE_exact
  · show wCᵀ * wC = 1
    ext i j
    fin_cases i; fin_cases j
    simp [wC, Matrix.mul_apply, Fin.sum_univ_three]
    norm_num
  · show Function.Injective fun i => (wL i : ℂ)
    intro a b h
    have h := Complex.ofReal_injective h
    fin_cases a <;> fin_cases b <;> simp [wL] at h ⊢ <;> norm_num at h
  · refine ⟨![1, 0], ?_, ?_, ?_⟩
    · intro h
      have := congrFun h 0
      simp at this
    · ext j
      fin_cases j <;> simp [vecMul, dotProduct, wF] <;> norm_num
    · ext j
      fin_cases j
      simp [vecMul, dotProduct, wG]
      norm_num
  · refine lt_of_le_of_lt hn ?_
    rw [lt_div_iff₀ (by linarith)]
    linarith

/-- The hypotheses of `C71_upper_partial` and `C71_radius_partial` are met. -/
example : CancExact (N := 2) (M := 1) wE (hcat (hcat wF wG)ᵀ (wE.orth (2 + 1) 1)) := wH_eq ▸ wE_exact

/-- Unit eigenvectors of the exchange matrix. -/
noncomputable def xU : Matrix (Fin 2) (Fin 2) ℝ := !![√(1/2), √(1/2); √(1/2), -√(1/2)]

open Classical in
/-- Exact routines for the pair `F = 0`, `G = 1` that draw the first unit vector. -/
noncomputable def xE : CancNum where
  orth n k := match n, k with
    | 2, 1 => !![1; 0]
    | _, _ => 0
  eig k H := match k, H with
    | 2, _ => (fun i => ((![1, -1] i : ℝ) : ℂ), toCM xU)
    | _, _ => (0, 0)
  cond _ V := ‖V‖ * ‖V⁻¹‖
  svdLast r c A := if h : ∃ σ, IsSmallest A σ then h.choose else 0

theorem xE_svd (A : Matrix (Fin 2) (Fin 1) ℂ) : IsSmallest A (xE.svdLast 2 1 A) := by
  have h := exists_smallest (by norm_num) A
  have : xE.svdLast 2 1 A = h.choose := dif_pos h
  rw [this]; exact h.choose_spec

theorem xU_sq : xU * xU = 1 := by
  have h : √(1/2 : ℝ) * √(1/2) = 1/2 := Real.mul_self_sqrt (by norm_num)
  ext i j
  fin_cases i <;> fin_cases j <;> simp [xU, Matrix.mul_apply, Fin.sum_univ_two] at h ⊢ <;> linarith

theorem xE_exact : CancExact (N := 1) (M := 1) xE !![0, 1; 1, 0] where
  svd := xE_svd
  eig := by
    show toCM !![0, 1; 1, 0] * toCM xU = toCM xU * diagonal fun i => ((![1, -1] i : ℝ) : ℂ)
    rw [← toCM_diagonal, ← toCM_mul, ← toCM_mul]
    congr 1
    ext i j
    fin_cases i <;> fin_cases j <;> simp [xU, Matrix.mul_apply, Fin.sum_univ_two]
  unit x := by
    show vnorm (k := 2) (fun i => ((xU i x : ℝ) : ℂ)) = 1
    rw [vnorm_real, Fin.sum_univ_two, Real.sqrt_eq_one]
    fin_cases x <;> simp [xU] <;> norm_num
  basis := by
    intro h
    have := congrArg Matrix.det (congrArg toCM xU_sq)
    rw [toCM_mul, toCM_one, det_mul, det_one] at this
    have h' : (toCM xU).det = 0 := h
    rw [h', zero_mul] at this
    exact zero_ne_one this
  cond V _ := rfl

theorem smallest_col {a b : ℝ} {σ : ℝ} (h : IsSmallest (toCM (!![a; b] : Matrix (Fin 2) (Fin 1) ℝ)) σ) :
    σ = √(a ^ 2 + b ^ 2) := by
  obtain ⟨⟨x, hx, rfl⟩, -⟩ := h
  have h1 : ‖x 0‖ = 1 := by
    rw [vnorm, Fin.sum_univ_one, Real.sqrt_sq (norm_nonneg _)] at hx
    exact hx
  rw [vnorm, Fin.sum_univ_two]
  simp [mulVec, dotProduct, toCM, h1]

/-- The hypotheses of `C71_lower_partial` are met by `F = 0`, `G = 1`: both eigenvalues are equally
good. -/
example (dF dG : Matrix (Fin 1) (Fin 1) ℂ) (p : ℂ) (hb : Breaks !![0] !![1] dF dG p) :
    ∃ lower0 > 0, lower0 ≤ pertNorm dF dG := by
  have hH : hcat (hcat !![(0 : ℝ)] !![1])ᵀ (xE.orth (1 + 1) 1) = !![0, 1; 1, 0] := by
    ext i j; fin_cases i <;> fin_cases j <;> rfl
  obtain ⟨upper2, lower0, radius, upper1, e, hrun, -, -⟩ := C71_upper_partial xE !![(0 : ℝ)] !![1] one_pos
    (hH ▸ xE_exact)
  have hcol : ∀ c : ℝ, ((hcat !![(0 : ℝ)] !![1])ᵀ).map (algebraMap ℝ ℂ) - (c : ℂ) •
      (vcat (1 : Matrix (Fin 1) (Fin 1) ℂ) (0 : Matrix (Fin 1) (Fin 1) ℂ)) = toCM !![-c; 1] := by
    intro c
    ext i j
    fin_cases i <;> fin_cases j <;> simp [toCM, hcat, vcat, finSumFinEquiv, Fin.addCases]
  have hcol' : ∀ c : ℝ, toCM (cancA !![(0 : ℝ)] !![1]) - (c : ℂ) • toCM (cancB 1 1) = toCM !![-c; 1] := by
    intro c
    ext i j
    fin_cases i <;> fin_cases j <;> simp [toCM, cancA, cancB, hcat, vcat, finSumFinEquiv, Fin.addCases]
  have hu2 : upper2 = √2 := by
    have h := hrun
    rw [cancellationDistance_of] at h
    unfold cancCore at h
    dsimp only at h
    split at h
    · cases h
    · rename_i f hf
      simp only [Except.ok.injEq, Prod.mk.injEq] at h
      obtain ⟨rfl, -⟩ := h
      have e1 : (xE.eig (1 + 1) (hcat (cancA !![(0 : ℝ)] !![1]) (xE.orth (1 + 1) 1))).1 f =
        ((![1, -1] (f : Fin 2) : ℝ) : ℂ) := rfl
      rw [e1, hcol', smallest_col (xE_svd _)]
      revert f
      intro (f : Fin 2) _ _
      fin_cases f <;> norm_num
  have hl := (canc_run hrun).1
  refine ⟨lower0, ?_, ?_⟩
  · rw [hl, hu2]
    have : 0 ≤ xE.cond (1 + 1) (xE.eig (1 + 1) (hcat (cancA !![(0 : ℝ)] !![1]) (xE.orth (1 + 1) 1))).2 :=
      mul_nonneg (norm_nonneg _) (norm_nonneg _)
    positivity
  · refine C71_lower_partial xE !![(0 : ℝ)] !![1] (hH ▸ xE_exact) upper2 lower0 radius _ e hrun ?_ dF dG p hb
    intro i σ hσ
    have e1 : (xE.eig (1 + 1) (hcat (hcat !![(0 : ℝ)] !![1])ᵀ (xE.orth (1 + 1) 1))).1 i =
      ((![1, -1] (i : Fin 2) : ℝ) : ℂ) := rfl
    rw [e1, hcol] at hσ
    rw [smallest_col hσ, hu2]
    revert i
    intro (i : Fin 2) _ _
    fin_cases i <;> norm_num

/-- The hypothesis of `C71_shapes` is met. -/
example (E : CancNum) : cancellationDistance E (Arr.zeros 4 3) (Arr.zeros 4 1) = .error .value :=
  C71_shapes E _ _ (.inl (by simp [Arr.zeros]))

end Harold
