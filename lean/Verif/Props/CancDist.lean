import Verif.Spec.CancDist
import Mathlib.Algebra.Order.BigOperators.Group.Finset

/-!
# C71: the distance to an uncontrollable pair
-/

namespace Harold

open Matrix Spec
open scoped Matrix.Norms.L2Operator

variable {N M : ℕ}

theorem hcat_mulVec_parts {r : ℕ} (X : Matrix (Fin r) (Fin N) ℂ) (Y : Matrix (Fin r) (Fin M) ℂ)
    (v : Fin (N + M) → ℂ) : hcat X Y *ᵥ v = X *ᵥ topPart v + Y *ᵥ botPart v := by
  ext i
  simp [mulVec, dotProduct, Fin.sum_univ_add, hcat, topPart, botPart]

/-- Every vector is the sum of its two parts. -/
theorem parts_eq (v : Fin (N + M) → ℂ) :
    v = toCM (cancB N M) *ᵥ topPart v + toCM (cancD N M) *ᵥ botPart v := by
  ext i
  refine Fin.addCases (fun i => ?_) (fun i => ?_) i
  · simp [mulVec, dotProduct, toCM, cancB, cancD, vcat, topPart, Matrix.one_apply, apply_ite]
  · simp [mulVec, dotProduct, toCM, cancB, cancD, vcat, botPart, Matrix.one_apply, apply_ite]

/-- `(y, 0)`. -/
def padTop (M : ℕ) (y : Fin N → ℂ) : Fin (N + M) → ℂ := Fin.addCases y fun _ => 0

theorem topPart_pad (y : Fin N → ℂ) : topPart (padTop M y) = y := by
  ext i; simp [topPart, padTop]

theorem botPart_pad (y : Fin N → ℂ) : botPart (padTop M y) = 0 := by
  ext i; simp [botPart, padTop]

theorem cancB_mulVec (y : Fin N → ℂ) : toCM (cancB N M) *ᵥ y = padTop M y := by
  have := parts_eq (padTop M y)
  rw [topPart_pad, botPart_pad, mulVec_zero, add_zero] at this
  exact this.symm

theorem vnorm_pad (y : Fin N → ℂ) : vnorm (padTop M y) = vnorm y := by
  simp [vnorm, Fin.sum_univ_add, padTop]

theorem vnorm_top_le (v : Fin (N + M) → ℂ) : vnorm (topPart v) ≤ vnorm v := by
  rw [vnorm, vnorm]
  apply Real.sqrt_le_sqrt
  rw [Fin.sum_univ_add]
  exact le_add_of_nonneg_right (Finset.sum_nonneg fun _ _ => sq_nonneg _)

theorem norm_hcat_zero_le {r : ℕ} (Q : Matrix (Fin r) (Fin N) ℂ) :
    ‖hcat Q (0 : Matrix (Fin r) (Fin M) ℂ)‖ ≤ ‖Q‖ := by
  refine opNorm_le (norm_nonneg _) fun v => ?_
  rw [hcat_mulVec_parts, zero_mulVec, add_zero]
  exact (vnorm_mulVec_le _ _).trans (mul_le_mul_of_nonneg_left (vnorm_top_le v) (norm_nonneg _))

theorem hcat_toCM {r : ℕ} (X : Matrix (Fin r) (Fin N) ℝ) (Y : Matrix (Fin r) (Fin M) ℝ) :
    toCM (hcat X Y) = hcat (toCM X) (toCM Y) := by
  ext i j
  refine Fin.addCases (fun j => ?_) (fun j => ?_) j <;> simp [toCM, hcat]

/-- The pencil of `(F, G)`, perturbed and transposed. -/
theorem breaks_iff (F : Matrix (Fin N) (Fin N) ℝ) (G : Matrix (Fin N) (Fin M) ℝ)
    (dF : Matrix (Fin N) (Fin N) ℂ) (dG : Matrix (Fin N) (Fin M) ℂ) (p : ℂ) :
    Breaks F G dF dG p ↔ ∃ y, y ≠ 0 ∧
      (toCM (cancA F G) - p • toCM (cancB N M)) *ᵥ y + (hcat dF dG)ᵀ *ᵥ y = 0 := by
  have key : ∀ y : Fin N → ℂ, (y ᵥ* (F.map (algebraMap ℝ ℂ) + dF - p • 1) = 0 ∧
      y ᵥ* (G.map (algebraMap ℝ ℂ) + dG) = 0) ↔
      (toCM (cancA F G) - p • toCM (cancB N M)) *ᵥ y + (hcat dF dG)ᵀ *ᵥ y = 0 := by
    intro y
    have h1 : ∀ j : Fin N, (((toCM (cancA F G) - p • toCM (cancB N M)) *ᵥ y + (hcat dF dG)ᵀ *ᵥ y) (Fin.castAdd M j))
        = (y ᵥ* (F.map (algebraMap ℝ ℂ) + dF - p • 1)) j := by
      intro j
      simp only [mulVec, vecMul, dotProduct, Pi.add_apply, ← Finset.sum_add_distrib]
      refine Finset.sum_congr rfl fun i _ => ?_
      simp [toCM, cancA, cancB, hcat, vcat, Matrix.one_apply, eq_comm]
      split <;> simp <;> ring
    have h2 : ∀ j : Fin M, (((toCM (cancA F G) - p • toCM (cancB N M)) *ᵥ y + (hcat dF dG)ᵀ *ᵥ y) (Fin.natAdd N j))
        = (y ᵥ* (G.map (algebraMap ℝ ℂ) + dG)) j := by
      intro j
      simp only [mulVec, vecMul, dotProduct, Pi.add_apply, ← Finset.sum_add_distrib]
      refine Finset.sum_congr rfl fun i _ => ?_
      simp [toCM, cancA, cancB, hcat, vcat]
      ring
    constructor
    · rintro ⟨e1, e2⟩
      ext k
      refine Fin.addCases (fun j => ?_) (fun j => ?_) k
      · rw [h1, e1]; rfl
      · rw [h2, e2]; rfl
    · intro e
      constructor
      · ext j; rw [← h1, e]; rfl
      · ext j; rw [← h2, e]; rfl
  unfold Breaks RankDeficient
  simp only [key]

/-- The residual of the two parts of an eigenvector. -/
theorem eig_residual {F : Matrix (Fin N) (Fin N) ℝ} {G : Matrix (Fin N) (Fin M) ℝ}
    {C : Matrix (Fin (N + M)) (Fin M) ℝ} {e : ℂ} {v : Fin (N + M) → ℂ}
    (h : toCM (hcat (cancA F G) C) *ᵥ v = e • v) :
    (toCM (cancA F G) - e • toCM (cancB N M)) *ᵥ topPart v =
      -((toCM C - e • toCM (cancD N M)) *ᵥ botPart v) := by
  have h2 := parts_eq v
  rw [hcat_toCM, hcat_mulVec_parts] at h
  have h3 : toCM (cancA F G) *ᵥ topPart v + toCM C *ᵥ botPart v =
      e • (toCM (cancB N M) *ᵥ topPart v + toCM (cancD N M) *ᵥ botPart v) := by
    rw [← h2]; exact h
  rw [sub_mulVec, sub_mulVec, smul_mulVec, smul_mulVec, eq_neg_iff_add_eq_zero]
  rw [smul_add] at h3
  have : ∀ a b c d : Fin (N + M) → ℂ, a + b = c + d → a - c + (b - d) = 0 := by
    intro a b c d h
    have : a - c + (b - d) = (a + b) - (c + d) := by abel
    rw [this, h, sub_self]
  exact this _ _ _ _ h3

theorem argFirst_spec {k : ℕ} {u : Fin k → NFloat} {f : Fin k} (h : argFirst u = .ok f) : ∀ j, u f ≤ u j := by
  unfold argFirst at h
  split at h
  · rename_i i hi
    cases h
    simpa using List.find?_some hi
  · cases h

theorem argFirst_ok {k : ℕ} (hk : 0 < k) (u : Fin k → NFloat) : ∃ f, argFirst u = .ok f := by
  unfold argFirst
  split
  · exact ⟨_, rfl⟩
  · rename_i h
    exfalso
    haveI : Nonempty (Fin k) := ⟨⟨0, hk⟩⟩
    obtain ⟨i, -, hi⟩ := Finset.exists_min_image Finset.univ u Finset.univ_nonempty
    rw [List.find?_eq_none] at h
    have := h i (List.mem_finRange i)
    simp at this
    obtain ⟨j, hj⟩ := this
    exact absurd (hi j (Finset.mem_univ _)) (not_le.2 hj)

theorem fdiv_finite {x y z : ℝ} (h : fdiv x y ≤ ((z : WithTop ℝ) : NFloat)) :
    y ≠ 0 ∧ fdiv x y = ((x / y : ℝ) : WithTop ℝ) := by
  unfold fdiv at h ⊢
  split at h
  · exfalso
    split at h
    · simp at h
    · rw [WithTop.coe_le_coe] at h
      simp at h
  · rename_i hy
    exact ⟨hy, by rw [if_neg hy]⟩

theorem mulVec_col {k : ℕ} {H V : Matrix (Fin k) (Fin k) ℂ} {d : Fin k → ℂ} (h : H * V = V * diagonal d)
    (x : Fin k) : (H *ᵥ fun i => V i x) = d x • fun i => V i x := by
  ext i
  have := congrFun (congrFun h i) x
  rw [Matrix.mul_diagonal] at this
  rw [Pi.smul_apply, smul_eq_mul, mul_comm, ← this]
  rfl

/-- An eigenvector whose first part is not zero exists. -/
theorem exists_top {V : Matrix (Fin (N + M)) (Fin (N + M)) ℂ} (hN : 0 < N) (hV : V.det ≠ 0) :
    ∃ x, topPart (fun i => V i x) ≠ 0 := by
  by_contra hcon
  push Not at hcon
  apply hV
  apply Matrix.det_eq_zero_of_row_eq_zero (Fin.castAdd M ⟨0, hN⟩)
  intro x
  exact congrFun (hcon x) ⟨0, hN⟩

/-- The distance routine accepts every compatible pair. -/
theorem cancellationDistance_of (E : CancNum) (F : Matrix (Fin N) (Fin N) ℝ) (G : Matrix (Fin N) (Fin M) ℝ) :
    cancellationDistance E (Arr.of F) (Arr.of G) = cancCore E F G := by
  unfold cancellationDistance
  rw [dif_pos rfl, dif_pos rfl]
  rfl

theorem exists_breaking {F : Matrix (Fin N) (Fin N) ℝ} {G : Matrix (Fin N) (Fin M) ℝ} {e : ℂ} {y : Fin N → ℂ}
    {σ : ℝ} (hy1 : vnorm y = 1) (hy2 : vnorm ((toCM (cancA F G) - e • toCM (cancB N M)) *ᵥ y) = σ) :
    ∃ dF dG, pertNorm dF dG ≤ σ ∧ Breaks F G dF dG e := by
  generalize hP : toCM (cancA F G) - e • toCM (cancB N M) = P at hy2
  let Q : Matrix (Fin (N + M)) (Fin N) ℂ := vecMulVec (-(P *ᵥ y)) (star y)
  have hQ : hcat (Q.submatrix (Fin.castAdd M) id)ᵀ (Q.submatrix (Fin.natAdd N) id)ᵀ = Qᵀ := by
    ext i j
    refine Fin.addCases (fun j => ?_) (fun j => ?_) j <;> simp [hcat]
  refine ⟨(Q.submatrix (Fin.castAdd M) id)ᵀ, (Q.submatrix (Fin.natAdd N) id)ᵀ, ?_, ?_⟩
  · unfold pertNorm
    rw [hQ, norm_transpose]
    refine (norm_vecMulVec_le _ _).trans ?_
    rw [vnorm_neg, vnorm_star, hy1, hy2, mul_one]
  · rw [breaks_iff, hQ, hP]
    refine ⟨y, ?_, ?_⟩
    · rintro rfl
      rw [vnorm_eq_zero.2 rfl] at hy1
      exact zero_ne_one hy1
    · rw [transpose_transpose]
      have hs : star y ⬝ᵥ y = 1 := by
        have h1 : (∑ i, ‖y i‖ ^ 2) = 1 := by
          rw [vnorm, Real.sqrt_eq_one] at hy1
          exact hy1
        have : star y ⬝ᵥ y = ((∑ i, ‖y i‖ ^ 2 : ℝ) : ℂ) := by
          simp only [dotProduct, Pi.star_apply, RCLike.star_def]
          rw [Complex.ofReal_sum]
          exact Finset.sum_congr rfl fun i _ => by rw [Complex.conj_mul']; simp
        rw [this, h1, Complex.ofReal_one]
      have : Q *ᵥ y = (star y ⬝ᵥ y) • (-(P *ᵥ y)) := by
        ext i
        simp only [Q, mulVec, dotProduct, vecMulVec_apply, Pi.smul_apply, smul_eq_mul, Finset.sum_mul]
        exact Finset.sum_congr rfl fun j _ => by ring
      rw [this, hs, one_smul, add_neg_cancel]

/-- **C71, upper bounds.** Some perturbation of norm at most `upper2` makes the pencil rank deficient at
the returned point, and `upper1` is a number that is not smaller than `upper2`. Missing from the full claim: the lower bound, which fails (`C71_lower_violated`). -/
theorem C71_upper_partial (E : CancNum) (F : Matrix (Fin N) (Fin N) ℝ) (G : Matrix (Fin N) (Fin M) ℝ)
    (hN : 0 < N) (hE : CancExact E (hcat (hcat F G)ᵀ (E.orth (N + M) M))) :
    ∃ (upper2 lower0 radius upper1 : ℝ) (e : ℂ),
      cancellationDistance E (Arr.of F) (Arr.of G) =
        .ok (upper2, ((upper1 : WithTop ℝ) : NFloat), lower0, e, radius) ∧
      (∃ dF dG, pertNorm dF dG ≤ upper2 ∧ Breaks F G dF dG e) ∧
      upper2 ≤ upper1 := by
  have hA : (hcat F G)ᵀ = cancA F G := rfl
  rw [hA] at hE
  rw [cancellationDistance_of]
  unfold cancCore
  generalize hev : E.eig (N + M) (hcat (cancA F G) (E.orth (N + M) M)) = ev
  have hE2 := hE.eig
  have hE4 := hE.basis
  rw [hev] at hE2 hE4
  obtain ⟨f, hf⟩ := argFirst_ok (show 0 < N + M by omega)
    (fun x => upp0 (E.orth (N + M) M) (ev.1 x) fun i => ev.2 i x)
  simp only [hev, hf]
  have hmin := argFirst_spec hf
  obtain ⟨x, hx⟩ := exists_top hN hE4
  have hxf := hmin x
  simp only [upp0] at hxf
  have hfin : fdiv (vnorm ((toCM (E.orth (N + M) M) - ev.1 x • toCM (cancD N M)) *ᵥ botPart fun i => ev.2 i x))
      (vnorm (topPart fun i => ev.2 i x)) = _ := if_neg (vnorm_pos hx).ne'
  rw [hfin] at hxf
  obtain ⟨hy, hval⟩ := fdiv_finite hxf
  obtain ⟨⟨y, hy1, hy2⟩, hsm⟩ := hE.svd (toCM (cancA F G) - ev.1 f • toCM (cancB N M))
  refine ⟨E.svdLast (N + M) N (toCM (cancA F G) - ev.1 f • toCM (cancB N M)), _, _,
    vnorm ((toCM (E.orth (N + M) M) - ev.1 f • toCM (cancD N M)) *ᵥ botPart fun i => ev.2 i f) /
      vnorm (topPart fun i => ev.2 i f), ev.1 f, by rw [← hval]; rfl, ?_, ?_⟩
  · generalize E.svdLast (N + M) N (toCM (cancA F G) - ev.1 f • toCM (cancB N M)) = σ at hy2
    exact exists_breaking hy1 hy2
  · rw [le_div_iff₀ (lt_of_le_of_ne (vnorm_nonneg _) (Ne.symm hy))]
    refine (hsm _).trans ?_
    rw [eig_residual (mulVec_col hE2 f), vnorm_neg]

/-- Any perturbation that breaks the pencil at `p` is found near an eigenvalue of the extended matrix. -/
theorem canc_fike {F : Matrix (Fin N) (Fin N) ℝ} {G : Matrix (Fin N) (Fin M) ℝ}
    {C : Matrix (Fin (N + M)) (Fin M) ℝ} {V : Matrix (Fin (N + M)) (Fin (N + M)) ℂ}
    {d : Fin (N + M) → ℂ} (h : toCM (hcat (cancA F G) C) * V = V * diagonal d) (hV : V.det ≠ 0)
    {dF : Matrix (Fin N) (Fin N) ℂ} {dG : Matrix (Fin N) (Fin M) ℂ} {p : ℂ} (hb : Breaks F G dF dG p) :
    ∃ i, ‖p - d i‖ ≤ ‖V‖ * ‖V⁻¹‖ * pertNorm dF dG ∧
      ∀ σ, IsSmallest (toCM (cancA F G) - d i • toCM (cancB N M)) σ →
        σ ≤ (‖V‖ * ‖V⁻¹‖ + 1) * pertNorm dF dG := by
  rw [breaks_iff] at hb
  obtain ⟨y, hy, hyz⟩ := hb
  have hp : pertNorm dF dG = ‖(hcat dF dG)ᵀ‖ := (norm_transpose _).symm
  rw [hp]
  generalize (hcat dF dG)ᵀ = Q at hyz hp ⊢
  have hz : padTop M y ≠ 0 := by
    intro e
    apply hy
    rw [← topPart_pad (M := M) y, e]; rfl
  have hAy : toCM (cancA F G) *ᵥ y + Q *ᵥ y = p • padTop M y := by
    rw [sub_mulVec, smul_mulVec, cancB_mulVec] at hyz
    rw [← sub_eq_zero, ← hyz]; abel
  obtain ⟨i, hi⟩ := bauer_fike (E := hcat Q (0 : Matrix (Fin (N + M)) (Fin M) ℂ)) hV h hz (p := p) (by
    rw [hcat_toCM, hcat_mulVec_parts, hcat_mulVec_parts, topPart_pad, botPart_pad, mulVec_zero, mulVec_zero,
      add_zero, add_zero, hAy])
  have hK : 0 ≤ ‖V‖ * ‖V⁻¹‖ := mul_nonneg (norm_nonneg _) (norm_nonneg _)
  have hi' : ‖p - d i‖ ≤ ‖V‖ * ‖V⁻¹‖ * ‖Q‖ := hi.trans (mul_le_mul_of_nonneg_left (norm_hcat_zero_le Q) hK)
  refine ⟨i, hi', fun σ hσ => ?_⟩
  have h1 := hσ.2 y
  have e : (toCM (cancA F G) - d i • toCM (cancB N M)) *ᵥ y = (p - d i) • padTop M y - Q *ᵥ y := by
    rw [sub_mulVec, smul_mulVec, cancB_mulVec, sub_smul, ← hAy]; abel
  rw [e] at h1
  have h2 : vnorm ((p - d i) • padTop M y - Q *ᵥ y) ≤ (‖V‖ * ‖V⁻¹‖ + 1) * ‖Q‖ * vnorm y := by
    refine (vnorm_sub_le _ _).trans ?_
    rw [vnorm_smul, vnorm_pad]
    have h3 := vnorm_mulVec_le Q y
    have h4 := vnorm_nonneg y
    nlinarith
  exact le_of_mul_le_mul_right (h1.trans h2) (vnorm_pos hy)

theorem canc_run {E : CancNum} {F : Matrix (Fin N) (Fin N) ℝ} {G : Matrix (Fin N) (Fin M) ℝ}
    {upper2 lower0 radius : ℝ} {upper1 : NFloat} {e : ℂ}
    (h : cancellationDistance E (Arr.of F) (Arr.of G) = .ok (upper2, upper1, lower0, e, radius)) :
    lower0 = upper2 / (E.cond (N + M) (E.eig (N + M) (hcat (cancA F G) (E.orth (N + M) M))).2 + 1) ∧
    radius = upper2 * E.cond (N + M) (E.eig (N + M) (hcat (cancA F G) (E.orth (N + M) M))).2 := by
  rw [cancellationDistance_of] at h
  unfold cancCore at h
  dsimp only at h
  split at h
  · cases h
  · simp only [Except.ok.injEq, Prod.mk.injEq] at h
    obtain ⟨rfl, rfl, rfl, rfl, rfl⟩ := h
    exact ⟨rfl, rfl⟩

/-- **C71, lower bound.** If the returned point is the eigenvalue of the extended matrix at which the
smallest singular value of the pencil is least, no perturbation of norm below `lower0` makes the pencil
rank deficient anywhere. Missing: the code picks the eigenvalue by another criterion
(`C71_lower_violated`). -/
theorem C71_lower_partial (E : CancNum) (F : Matrix (Fin N) (Fin N) ℝ) (G : Matrix (Fin N) (Fin M) ℝ)
    (hE : CancExact E (hcat (hcat F G)ᵀ (E.orth (N + M) M)))
    (upper2 lower0 radius : ℝ) (upper1 : NFloat) (e : ℂ)
    (h : cancellationDistance E (Arr.of F) (Arr.of G) = .ok (upper2, upper1, lower0, e, radius))
    (hleast : ∀ i σ, IsSmallest (((hcat F G)ᵀ).map (algebraMap ℝ ℂ) -
      (E.eig (N + M) (hcat (hcat F G)ᵀ (E.orth (N + M) M))).1 i •
        (vcat (1 : Matrix (Fin N) (Fin N) ℂ) (0 : Matrix (Fin M) (Fin N) ℂ))) σ → upper2 ≤ σ)
    (dF : Matrix (Fin N) (Fin N) ℂ) (dG : Matrix (Fin N) (Fin M) ℂ) (p : ℂ) (hb : Breaks F G dF dG p) :
    lower0 ≤ pertNorm dF dG := by
  have hA : (hcat F G)ᵀ = cancA F G := rfl
  rw [hA] at hE hleast
  obtain ⟨i, -, hi⟩ := canc_fike hE.eig hE.basis hb
  obtain ⟨rfl, -⟩ := canc_run h
  have hc := hE.cond _ hE.basis
  rw [hc]
  have hK : 0 ≤ ‖(E.eig (N + M) (hcat (cancA F G) (E.orth (N + M) M))).2‖ *
    ‖(E.eig (N + M) (hcat (cancA F G) (E.orth (N + M) M))).2⁻¹‖ := mul_nonneg (norm_nonneg _) (norm_nonneg _)
  rw [div_le_iff₀ (by linarith), mul_comm]
  have hs := hE.svd (toCM (cancA F G) - (E.eig (N + M) (hcat (cancA F G) (E.orth (N + M) M))).1 i • toCM (cancB N M))
  refine (hleast i _ ?_).trans (hi _ hs)
  have e : (vcat (1 : Matrix (Fin N) (Fin N) ℂ) (0 : Matrix (Fin M) (Fin N) ℂ)) = toCM (cancB N M) := by
    ext a b
    refine Fin.addCases (fun a => ?_) (fun a => ?_) a
    · simp [toCM, cancB, vcat, Matrix.one_apply]; split <;> simp
    · simp [toCM, cancB, vcat]
  rw [e]
  exact hs

/-- **C71, location.** A perturbation of norm at most `upper2` that makes the pencil rank deficient at
`p` does so within `radius` of an eigenvalue of the extended matrix. Missing: it need not be the
returned one. -/
theorem C71_radius_partial (E : CancNum) (F : Matrix (Fin N) (Fin N) ℝ) (G : Matrix (Fin N) (Fin M) ℝ)
    (hE : CancExact E (hcat (hcat F G)ᵀ (E.orth (N + M) M)))
    (upper2 lower0 radius : ℝ) (upper1 : NFloat) (e : ℂ)
    (h : cancellationDistance E (Arr.of F) (Arr.of G) = .ok (upper2, upper1, lower0, e, radius))
    (dF : Matrix (Fin N) (Fin N) ℂ) (dG : Matrix (Fin N) (Fin M) ℂ) (p : ℂ) (hb : Breaks F G dF dG p)
    (hn : pertNorm dF dG ≤ upper2) :
    ∃ i, ‖p - (E.eig (N + M) (hcat (hcat F G)ᵀ (E.orth (N + M) M))).1 i‖ ≤ radius := by
  have hA : (hcat F G)ᵀ = cancA F G := rfl
  rw [hA] at hE ⊢
  obtain ⟨i, hi, -⟩ := canc_fike hE.eig hE.basis hb
  obtain ⟨-, rfl⟩ := canc_run h
  refine ⟨i, hi.trans ?_⟩
  rw [hE.cond _ hE.basis, mul_comm upper2]
  exact mul_le_mul_of_nonneg_left hn (mul_nonneg (norm_nonneg _) (norm_nonneg _))

/-- Shapes that do not fit are refused. -/
theorem C71_shapes (E : CancNum) (F G : Arr ℝ) (h : F.r ≠ F.c ∨ F.r ≠ G.r) :
    cancellationDistance E F G = .error .value := by
  unfold cancellationDistance
  by_cases h1 : F.c = F.r
  · rw [dif_pos h1, dif_neg]
    rcases h with h | h
    · exact absurd h1.symm h
    · exact h
  · rw [dif_neg h1]

end Harold
