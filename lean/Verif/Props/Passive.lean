import Verif.Spec.Passive
import Verif.Lemmas.Passive
import Verif.Props.GainOps
import Verif.Props.Energy
import Verif.Props.BlockLaws

/-!
# C130: passive models
-/

namespace Harold

open Matrix Harold.Spec

variable {n m : ℕ} {G H R : StateM ℝ}

open scoped Matrix.Norms.L2Operator in
/-- The quadratic form of a stable model outside the stability region. -/
theorem form_outside (hc : Consistent G m m) (hdt : DtOk G.dt) (hst : StableModel G) (hG : Passive G m) {s : ℂ} (hs : ¬ StablePoint G.dt s) :
    ∃ M : Matrix (Fin m) (Fin m) ℂ, HasTF G m m s M ∧ (∀ v : Fin m → ℂ, 0 ≤ (star v ⬝ᵥ M *ᵥ v).re) ∧ (StrictlyPassive G m → ∀ v : Fin m → ℂ, v ≠ 0 → 0 < (star v ⬝ᵥ M *ᵥ v).re) := by
  have hchar := (stable_iff_char hc).mp hst
  obtain ⟨a, b, c, D, dt, rfl⟩ | ⟨n, A, B, C, D, dt, rfl⟩ := consistent_cases hc
  · have hu : ∀ {z : ℂ} {M : Matrix (Fin m) (Fin m) ℂ}, HasTF ⟨a, b, c, Arr.of D, dt, true⟩ m m z M → M = D.map (algebraMap ℝ ℂ) := by
      rintro z M (⟨hg, D', hD, rfl⟩ | ⟨hg, _⟩)
      · rw [Arr.of_inj.mp hD]
      · cases hg
    refine ⟨_, Or.inl ⟨rfl, D, rfl, rfl⟩, ?_, fun h => ?_⟩
    · obtain ⟨M, h1, h2⟩ := hG 0
      rwa [hu h1] at h2
    · obtain ⟨M, h1, h2⟩ := h 0
      rwa [hu h1] at h2
  · have hdet : ∀ z : ℂ, ¬ StablePoint dt z → (z • (1 : Matrix (Fin n) (Fin n) ℂ) - A.map (algebraMap ℝ ℂ)).det ≠ 0 := by
      intro z hz h0
      exact hz (hchar z (Or.inr ⟨rfl, n, A, rfl, h0.symm⟩))
    set T := tfAt (A.map (algebraMap ℝ ℂ)) (B.map (algebraMap ℝ ℂ)) (C.map (algebraMap ℝ ℂ)) (D.map (algebraMap ℝ ℂ)) with hT
    have hu : ∀ {z : ℂ} {M : Matrix (Fin m) (Fin m) ℂ}, HasTF ⟨Arr.of A, Arr.of B, Arr.of C, Arr.of D, dt, false⟩ m m z M → M = T z := by
      intro z M h1
      obtain ⟨n', A', B', C', D', hA, hB, hC, hD, hT'⟩ := dyn_elim h1 rfl
      obtain rfl : n = n' := congrArg Arr.r hA
      obtain rfl := Arr.of_inj.mp hA
      obtain rfl := Arr.of_inj.mp hB
      obtain rfl := Arr.of_inj.mp hC
      obtain rfl := Arr.of_inj.mp hD
      exact hT'.2
    have h0 : ∀ (ω : ℝ) (v : Fin m → ℂ), 0 ≤ (star v ⬝ᵥ T (evalPoint dt ω) *ᵥ v).re := fun ω v => by
      obtain ⟨M, h1, h2⟩ := hG ω
      rw [← hu h1]; exact h2 v
    have h0' : StrictlyPassive ⟨Arr.of A, Arr.of B, Arr.of C, Arr.of D, dt, false⟩ m → ∀ (ω : ℝ) (v : Fin m → ℂ), v ≠ 0 → 0 < (star v ⬝ᵥ T (evalPoint dt ω) *ᵥ v).re := fun hS ω v hv => by
      obtain ⟨M, h1, h2⟩ := hS ω
      rw [← hu h1]; exact h2 v hv
    have key : ∀ v : Fin m → ℂ, 0 ≤ (star v ⬝ᵥ T s *ᵥ v).re ∧ ((∀ ω : ℝ, 0 < (star v ⬝ᵥ T (evalPoint dt ω) *ᵥ v).re) → 0 < (star v ⬝ᵥ T s *ᵥ v).re) := fun v => by
      cases dt with
      | none =>
        refine half_plane_form _ _ _ _ (fun z hz => hdet z ?_) v (fun w => h0 w v) ?_
        · simpa [StablePoint] using hz
        · simpa [StablePoint] using hs
      | some h =>
        have := exterior_form (A.map (algebraMap ℝ ℂ)) (B.map (algebraMap ℝ ℂ)) (C.map (algebraMap ℝ ℂ)) (D.map (algebraMap ℝ ℂ)) (fun z hz => hdet z (by simpa [StablePoint] using hz)) v (fun z hz => ?_)
          (s := s) (by simpa [StablePoint] using hs)
        · refine ⟨this.1, fun h1 => this.2 fun z hz => ?_⟩
          obtain ⟨ω, rfl⟩ := circle_point (hdt h rfl) hz
          exact h1 ω
        · obtain ⟨ω, rfl⟩ := circle_point (hdt h rfl) hz
          exact h0 ω v
    exact ⟨T s, HasTF.of_dyn ⟨hdet s hs, rfl⟩, fun v => (key v).1, fun hS v hv => (key v).2 fun ω => h0' hS ω v hv⟩

theorem passive_of_strict (h : StrictlyPassive G m) : Passive G m := fun ω => by
  obtain ⟨M, h1, h2⟩ := h ω
  refine ⟨M, h1, fun v => ?_⟩
  rcases eq_or_ne v 0 with rfl | hv
  · simp
  · exact (h2 v hv).le

/-- `Re u* v = Re v* u`. -/
theorem re_star_comm (u v : Fin m → ℂ) : (star u ⬝ᵥ v).re = (star v ⬝ᵥ u).re := by
  simp only [dotProduct, Complex.re_sum]
  refine Finset.sum_congr rfl fun i _ => ?_
  simp [Complex.mul_re]
  ring

/-- The return difference of matrices with positive Hermitian parts, one of them definite, is invertible. -/
theorem return_invertible {M N : Matrix (Fin m) (Fin m) ℂ} (hM : ∀ v : Fin m → ℂ, 0 ≤ (star v ⬝ᵥ M *ᵥ v).re) (hN : ∀ v : Fin m → ℂ, 0 ≤ (star v ⬝ᵥ N *ᵥ v).re)
    (h : (∀ v : Fin m → ℂ, v ≠ 0 → 0 < (star v ⬝ᵥ M *ᵥ v).re) ∨ ∀ v : Fin m → ℂ, v ≠ 0 → 0 < (star v ⬝ᵥ N *ᵥ v).re) : (1 + N * M).det ≠ 0 := by
  intro h0
  obtain ⟨v, hv, hk⟩ := Matrix.exists_mulVec_eq_zero_iff.mpr h0
  rw [add_mulVec, one_mulVec, ← mulVec_mulVec] at hk
  have h1 : v = -(N *ᵥ (M *ᵥ v)) := eq_neg_of_add_eq_zero_left hk
  have h2 : (star (M *ᵥ v) ⬝ᵥ v).re = -(star (M *ᵥ v) ⬝ᵥ N *ᵥ (M *ᵥ v)).re := by
    have : star (M *ᵥ v) ⬝ᵥ v = star (M *ᵥ v) ⬝ᵥ (-(N *ᵥ (M *ᵥ v))) := congrArg _ h1
    rw [this, dotProduct_neg, Complex.neg_re]
  rw [re_star_comm] at h2
  have h3 := hM v
  have h4 := hN (M *ᵥ v)
  rcases h with h | h
  · linarith [h v hv]
  · have : M *ᵥ v ≠ 0 := fun h5 => hv (by rw [h1, h5, mulVec_zero, neg_zero])
    linarith [h _ this]

/-- **C130**, the passivity theorem: the negative feedback loop of two passive stable models, one of them strictly passive, is stable. Missing: loops around a direct feedthrough (`E * D ≠ 0`), where `feedback` returns the wrong
model (C30). -/
theorem C130_passivity_partial (hG : Consistent G m m) (hH : Consistent H m m) (hdt : DtOk G.dt) (h : feedback (.state G) (.state H) true = .ok R) (D E : Matrix (Fin m) (Fin m) ℝ) (hGd : G.d = Arr.of D)
    (hHd : H.d = Arr.of E) (h0 : E * D = 0) (hsG : StableModel G) (hsH : StableModel H) (hpG : Passive G m) (hpH : Passive H m) (hst : StrictlyPassive G m ∨ StrictlyPassive H m) : StableModel R := by
  have he := feedback_dt h
  rw [C99_stable_partial hG hH hdt h D E hGd hHd (Or.inr h0) hsG hsH]
  intro s hs
  obtain ⟨Gs, h1, h2, h3⟩ := form_outside hG hdt hsG hpG hs
  obtain ⟨Hs, h4, h5, h6⟩ := form_outside hH (he ▸ hdt) hsH hpH (he ▸ hs)
  refine ⟨Gs, Hs, h1, h4, ?_⟩
  have := return_invertible h2 h5 (hst.imp h3 h6)
  simpa [sub_eq_add_neg] using this

/-- The closed loop of matrices with positive Hermitian parts. -/
theorem closed_form {M N : Matrix (Fin m) (Fin m) ℂ} (hM : ∀ v : Fin m → ℂ, 0 ≤ (star v ⬝ᵥ M *ᵥ v).re) (hN : ∀ v : Fin m → ℂ, 0 ≤ (star v ⬝ᵥ N *ᵥ v).re) (hd : (1 + N * M).det ≠ 0) (u : Fin m → ℂ) :
    0 ≤ (star u ⬝ᵥ (M * (1 + N * M)⁻¹) *ᵥ u).re ∧ ((∀ v : Fin m → ℂ, v ≠ 0 → 0 < (star v ⬝ᵥ M *ᵥ v).re) → u ≠ 0 → 0 < (star u ⬝ᵥ (M * (1 + N * M)⁻¹) *ᵥ u).re) := by
  obtain ⟨e, rfl⟩ : ∃ e, u = e + N *ᵥ (M *ᵥ e) := ⟨(1 + N * M)⁻¹ *ᵥ u, by
    have : (1 + N * M) *ᵥ ((1 + N * M)⁻¹ *ᵥ u) = u := by rw [mulVec_mulVec, mul_nonsing_inv _ (isUnit_iff_ne_zero.mpr hd), one_mulVec]
    conv_lhs => rw [← this]
    rw [add_mulVec, one_mulVec, ← mulVec_mulVec]⟩
  have h1 : (M * (1 + N * M)⁻¹) *ᵥ (e + N *ᵥ (M *ᵥ e)) = M *ᵥ e := by
    have : e + N *ᵥ (M *ᵥ e) = (1 + N * M) *ᵥ e := by rw [add_mulVec, one_mulVec, ← mulVec_mulVec]
    rw [this, ← mulVec_mulVec, mulVec_mulVec, mulVec_mulVec, mul_assoc, nonsing_inv_mul _ (isUnit_iff_ne_zero.mpr hd), mul_one]
  have h2 : (star (e + N *ᵥ (M *ᵥ e)) ⬝ᵥ M *ᵥ e).re = (star e ⬝ᵥ M *ᵥ e).re + (star (M *ᵥ e) ⬝ᵥ N *ᵥ (M *ᵥ e)).re := by
    rw [star_add, add_dotProduct, Complex.add_re, re_star_comm (N *ᵥ (M *ᵥ e))]
  rw [h1, h2]
  refine ⟨add_nonneg (hM e) (hN _), fun h3 hu => add_pos_of_pos_of_nonneg (h3 e ?_) (hN _)⟩
  rintro rfl
  simp at hu

/-- **C130**, the closed loop: the negative feedback loop of two passive stable models, one of them strictly passive, exists, is stable and passive; it is strictly passive if the first model is. Missing: as in
`C130_passivity_partial`; loops of two static gains; `2⁴⁹` inputs or more. -/
theorem C130_closed_partial (hG : Consistent G m m) (hH : Consistent H m m) (hdt : DtOk G.dt) (hd : G.dt = H.dt) (hg : G.isgain = false) (hm : (m * spacing10 : ℝ) < 1) (D E : Matrix (Fin m) (Fin m) ℝ)
    (hGd : G.d = Arr.of D) (hHd : H.d = Arr.of E) (h0 : E * D = 0) (hsG : StableModel G) (hsH : StableModel H) (hpG : Passive G m) (hpH : Passive H m) (hst : StrictlyPassive G m ∨ StrictlyPassive H m) :
    ∃ R, feedback (.state G) (.state H) true = .ok R ∧ StableModel R ∧ Passive R m ∧ (StrictlyPassive G m → StrictlyPassive R m) := by
  obtain ⟨R, hR⟩ := feedback_exists hG hH hdt hd hg hGd hHd h0 hm true
  have hsv : ¬ HasSVAtMost (m * spacing10 : ℝ) (1 - E * D) := by
    rw [h0, sub_zero]
    exact not_sv_one (by unfold spacing10; positivity) hm
  have key : ∀ ω : ℝ, ∃ M : Matrix (Fin m) (Fin m) ℂ, HasTF R m m (evalPoint R.dt ω) M ∧ (∀ v : Fin m → ℂ, 0 ≤ (star v ⬝ᵥ M *ᵥ v).re) ∧
      (StrictlyPassive G m → ∀ v : Fin m → ℂ, v ≠ 0 → 0 < (star v ⬝ᵥ M *ᵥ v).re) := by
    intro ω
    obtain ⟨Gs, h1, h2⟩ := hpG ω
    obtain ⟨Hs, h3, h4⟩ := hpH ω
    have hstr : ∀ {F : StateM ℝ} {M : Matrix (Fin m) (Fin m) ℂ}, StrictlyPassive F m → HasTF F m m (evalPoint F.dt ω) M → ∀ v : Fin m → ℂ, v ≠ 0 → 0 < (star v ⬝ᵥ M *ᵥ v).re := fun {F M} hF hM => by
      obtain ⟨M', h5, h6⟩ := hF ω
      rwa [HasTF_unique hM h5]
    have hdet : (1 + Hs * Gs).det ≠ 0 := return_invertible h2 h4 (hst.imp (fun h => hstr h h1) (fun h => hstr h h3))
    obtain ⟨R', h5, h6, h7⟩ := C30_feedback_partial h1 (hd ▸ h3) hdt hd true D E hGd hHd (Or.inr h0) (fun h => by rw [hg] at h; cases h) hsv (by simpa [sub_eq_add_neg] using hdet)
    rw [hR] at h5
    cases h5
    refine ⟨Gs * (1 + Hs * Gs)⁻¹, ?_, fun v => (closed_form h2 h4 hdet v).1, fun hS v hv => (closed_form h2 h4 hdet v).2 (hstr hS h1) hv⟩
    rw [h7]
    simpa [sub_eq_add_neg] using h6
  refine ⟨R, hR, C130_passivity_partial hG hH hdt hR D E hGd hHd h0 hsG hsH hpG hpH hst, fun ω => ?_, fun hS ω => ?_⟩
  · obtain ⟨M, h1, h2, -⟩ := key ω
    exact ⟨M, h1, h2⟩
  · obtain ⟨M, h1, -, h2⟩ := key ω
    exact ⟨M, h1, h2 hS⟩

/-- **C130**, sums: the sum of two passive models is passive. Missing: sampled models, whose sum loses the sampling period (C16); SISO models added to static gains (C15). -/
theorem C130_sum_partial {fuel : ℕ} (hdt : G.dt = none) (hdt' : H.dt = none) (hs : G.isgain = H.isgain ∨ ¬ (m = 1 ∧ m = 1)) (hG : Passive G m) (hH : Passive H m) :
    ∃ R, G.add (fuel + 2) H = .ok R ∧ Passive R m := by
  have he : G.dt = H.dt := hdt.trans hdt'.symm
  have hok : DtOk G.dt := hdt ▸ dtOk_none
  have key : ∀ ω : ℝ, ∃ R, G.add (fuel + 2) H = .ok R ∧ ∃ M : Matrix (Fin m) (Fin m) ℂ, HasTF R m m (evalPoint R.dt ω) M ∧ ∀ v : Fin m → ℂ, 0 ≤ (star v ⬝ᵥ M *ᵥ v).re := by
    intro ω
    obtain ⟨M, h1, h2⟩ := hG ω
    obtain ⟨N, h3, h4⟩ := hH ω
    obtain ⟨R, h5, h6, h7⟩ := add_hasTF h1 (he ▸ h3) hok he hs fuel
    refine ⟨R, h5, M + N, ?_, fun v => ?_⟩
    · have : R.dt = G.dt := by rw [h7, hdt]; split_ifs <;> rfl
      rw [this]; exact h6
    · rw [add_mulVec, dotProduct_add, Complex.add_re]
      exact add_nonneg (h2 v) (h4 v)
  obtain ⟨R, h1, -⟩ := key 0
  refine ⟨R, h1, fun ω => ?_⟩
  obtain ⟨R', h2, h3⟩ := key ω
  rw [h1] at h2
  cases h2
  exact h3

section simulations

variable {P : Type} {Nm : Numerics ℝ P} {E : DNum} {S : StateObj ℝ P} {A : Matrix (Fin n) (Fin n) ℝ} {B : Matrix (Fin n) (Fin m) ℝ} {C : Matrix (Fin m) (Fin n) ℝ} {D : Matrix (Fin m) (Fin m) ℝ} {h : ℝ}

theorem norm_sub_sq_c (ε : ℝ) (v w : Fin m → ℂ) : ∑ i, ‖v i - ε * w i‖ ^ 2 = ∑ i, ‖v i‖ ^ 2 - 2 * ε * (star v ⬝ᵥ w).re + ε ^ 2 * ∑ i, ‖w i‖ ^ 2 := by
  simp only [dotProduct, Complex.re_sum, Finset.mul_sum]
  rw [← Finset.sum_sub_distrib, ← Finset.sum_add_distrib]
  refine Finset.sum_congr rfl fun i _ => ?_
  simp only [Complex.sq_norm, Complex.normSq_apply, Pi.star_apply, Complex.sub_re, Complex.sub_im, Complex.mul_re, Complex.mul_im, Complex.ofReal_re, Complex.ofReal_im, Complex.star_def, Complex.conj_re, Complex.conj_im]
  ring

theorem sub_sq_r (ε : ℝ) (v w : Fin m → ℝ) : ∑ i, (v i - ε * w i) ^ 2 = ∑ i, v i ^ 2 - 2 * ε * (v ⬝ᵥ w) + ε ^ 2 * ∑ i, w i ^ 2 := by
  simp only [dotProduct, Finset.mul_sum]
  rw [← Finset.sum_sub_distrib, ← Finset.sum_add_distrib]
  exact Finset.sum_congr rfl fun i _ => by ring

/-- `I - ε G`. -/
theorem tf_shift (ε : ℝ) (z : ℂ) :
    tfAt (A.map (algebraMap ℝ ℂ)) (B.map (algebraMap ℝ ℂ)) ((-ε • C).map (algebraMap ℝ ℂ)) ((1 - ε • D).map (algebraMap ℝ ℂ)) z =
      1 - (ε : ℂ) • tfAt (A.map (algebraMap ℝ ℂ)) (B.map (algebraMap ℝ ℂ)) (C.map (algebraMap ℝ ℂ)) (D.map (algebraMap ℝ ℂ)) z := by
  have h1 : (-ε • C).map (algebraMap ℝ ℂ) = -((ε : ℂ) • C.map (algebraMap ℝ ℂ)) := by ext i j; simp
  have h2 : ((1 : Matrix (Fin m) (Fin m) ℝ) - ε • D).map (algebraMap ℝ ℂ) = 1 - (ε : ℂ) • D.map (algebraMap ℝ ℂ) := by
    ext i j
    by_cases hij : i = j
    · subst hij; simp
    · simp [hij]
  simp only [tfAt, h1, h2, Matrix.neg_mul, Matrix.smul_mul, smul_add]
  abel

/-- From `0 ≤ a + ε b` for all `ε > 0`. -/
theorem nonneg_of_eps {a b : ℝ} (h : ∀ ε : ℝ, 0 < ε → 0 ≤ a + ε * b) : 0 ≤ a := by
  by_contra ha
  rw [not_le] at ha
  have h1 := h (-a / (2 * (|b| + 1))) (by have := abs_nonneg b; apply div_pos <;> linarith)
  have hb := abs_nonneg b
  have h2 : -a / (2 * (|b| + 1)) * b ≤ -a / 2 := by
    rw [div_mul_eq_mul_div, div_le_div_iff₀ (by positivity) (by norm_num)]
    nlinarith [le_abs_self b]
  linarith

open scoped Matrix.Norms.L2Operator in
/-- The gains of `I - ε G` tell whether the model is passive. -/
theorem form_iff_shift {γ : ℝ} {T : Matrix (Fin m) (Fin m) ℂ} (hγ : ‖T‖ ≤ γ) :
    (∀ v : Fin m → ℂ, 0 ≤ (star v ⬝ᵥ T *ᵥ v).re) ↔ ∀ ε : ℝ, 0 < ε → ‖1 - (ε : ℂ) • T‖ ≤ Real.sqrt (1 + ε ^ 2 * γ ^ 2) := by
  have hv : ∀ (ε : ℝ) (v : Fin m → ℂ) (i : Fin m), ((1 - (ε : ℂ) • T) *ᵥ v) i = v i - ε * (T *ᵥ v) i := fun ε v i => by
    rw [sub_mulVec, one_mulVec, smul_mulVec]; rfl
  have hs : ∀ ε : ℝ, Real.sqrt (1 + ε ^ 2 * γ ^ 2) ^ 2 = 1 + ε ^ 2 * γ ^ 2 := fun ε => Real.sq_sqrt (by positivity)
  constructor
  · intro h ε hε
    refine opNorm_le_of_sq (Real.sqrt_nonneg _) fun v => ?_
    simp only [hv]
    rw [norm_sub_sq_c, hs]
    have h1 := sq_mulVec_le hγ v
    have h2 := mul_nonneg hε.le (h v)
    have h3 := mul_le_mul_of_nonneg_left h1 (sq_nonneg ε)
    linarith
  · intro h v
    refine nonneg_of_eps (b := γ ^ 2 * ∑ i, ‖v i‖ ^ 2) fun ε hε => ?_
    have h1 := sq_mulVec_le (h ε hε) v
    simp only [hv] at h1
    rw [norm_sub_sq_c, hs] at h1
    have h2 : 0 ≤ ε ^ 2 * ∑ i, ‖(T *ᵥ v) i‖ ^ 2 := by positivity
    have h3 : 0 ≤ ε ^ 2 * (γ ^ 2 * ∑ i, ‖v i‖ ^ 2) := by positivity
    have h4 : 0 ≤ ε * ((star v ⬝ᵥ T *ᵥ v).re + ε * (γ ^ 2 * ∑ i, ‖v i‖ ^ 2)) := by linarith
    exact nonneg_of_mul_nonneg_right h4 hε

theorem passive_disc (hh : 0 < h) (hA : Schur A) : Passive ⟨Arr.of A, Arr.of B, Arr.of C, Arr.of D, some h, false⟩ m ↔
    ∀ z : ℂ, ‖z‖ = 1 → ∀ v : Fin m → ℂ, 0 ≤ (star v ⬝ᵥ tfAt (A.map (algebraMap ℝ ℂ)) (B.map (algebraMap ℝ ℂ)) (C.map (algebraMap ℝ ℂ)) (D.map (algebraMap ℝ ℂ)) z *ᵥ v).re := by
  constructor
  · intro hγ z hz
    obtain ⟨ω, rfl⟩ := circle_point hh hz
    obtain ⟨M, h1, h2⟩ := hγ ω
    obtain ⟨n', A', B', C', D', hA, hB, hC, hD, hT⟩ := dyn_elim h1 rfl
    obtain rfl : n = n' := congrArg Arr.r hA
    obtain rfl := Arr.of_inj.mp hA
    obtain rfl := Arr.of_inj.mp hB
    obtain rfl := Arr.of_inj.mp hC
    obtain rfl := Arr.of_inj.mp hD
    rw [hT.2] at h2
    exact h2
  · intro hz ω
    have h1 : ‖evalPoint (some h) ω‖ = 1 := by
      simp only [evalPoint, Option.elim]
      rw [show Complex.I * (ω * h : ℂ) = ((ω * h : ℝ) : ℂ) * Complex.I by push_cast; ring]
      exact Complex.norm_exp_ofReal_mul_I _
    exact ⟨_, HasTF.of_dyn ⟨schur_circle_det hA _ h1, rfl⟩, hz _ h1⟩

open scoped Matrix.Norms.L2Operator in
theorem circle_bounded (hA : Schur A) :
    ∃ γ : ℝ, ∀ z : ℂ, ‖z‖ = 1 → ‖tfAt (A.map (algebraMap ℝ ℂ)) (B.map (algebraMap ℝ ℂ)) (C.map (algebraMap ℝ ℂ)) (D.map (algebraMap ℝ ℂ)) z‖ ≤ γ := by
  obtain ⟨γ, hγ⟩ := (isCompact_sphere (0 : ℂ) 1).exists_bound_of_continuousOn (f := tfAt (A.map (algebraMap ℝ ℂ)) (B.map (algebraMap ℝ ℂ)) (C.map (algebraMap ℝ ℂ)) (D.map (algebraMap ℝ ℂ)))
    fun z hz => (differentiable_tfAt _ _ _ _ (schur_circle_det hA z (by simpa using hz))).continuousAt.continuousWithinAt
  exact ⟨γ, fun z hz => hγ z (by simpa using hz)⟩

/-- The responses of a passive model. -/
theorem passive_sum_iff (hA : Schur A) :
    (∀ z : ℂ, ‖z‖ = 1 → ∀ v : Fin m → ℂ, 0 ≤ (star v ⬝ᵥ tfAt (A.map (algebraMap ℝ ℂ)) (B.map (algebraMap ℝ ℂ)) (C.map (algebraMap ℝ ℂ)) (D.map (algebraMap ℝ ℂ)) z *ᵥ v).re) ↔
      ∀ (z : ℕ → Fin n → ℝ) (w : ℕ → Fin m → ℝ), z 0 = 0 → (∀ k, z (k + 1) = A *ᵥ z k + B *ᵥ w k) → ∀ N, 2 ≤ N → 0 ≤ ∑ k ∈ Finset.range N, w k ⬝ᵥ (C *ᵥ z k + D *ᵥ w k) := by
  obtain ⟨γ, hγ⟩ := circle_bounded (B := B) (C := C) (D := D) hA
  have hs : ∀ ε : ℝ, Real.sqrt (1 + ε ^ 2 * γ ^ 2) ^ 2 = 1 + ε ^ 2 * γ ^ 2 := fun ε => Real.sq_sqrt (by positivity)
  have hout : ∀ (ε : ℝ) (x : Fin n → ℝ) (u : Fin m → ℝ) (i : Fin m), ((-ε • C) *ᵥ x + ((1 : Matrix (Fin m) (Fin m) ℝ) - ε • D) *ᵥ u : Fin m → ℝ) i = u i - ε * (C *ᵥ x + D *ᵥ u) i := fun ε x u i => by
    rw [sub_mulVec, one_mulVec, smul_mulVec, smul_mulVec]
    simp
    ring
  have hsum : ∀ (ε : ℝ) (z : ℕ → Fin n → ℝ) (w : ℕ → Fin m → ℝ) (N : ℕ), ∑ k ∈ Finset.range N, ∑ i, ((-ε • C) *ᵥ z k + ((1 : Matrix (Fin m) (Fin m) ℝ) - ε • D) *ᵥ w k : Fin m → ℝ) i ^ 2 =
      ∑ k ∈ Finset.range N, ∑ i, w k i ^ 2 - 2 * ε * ∑ k ∈ Finset.range N, w k ⬝ᵥ (C *ᵥ z k + D *ᵥ w k) + ε ^ 2 * ∑ k ∈ Finset.range N, ∑ i, (C *ᵥ z k + D *ᵥ w k) i ^ 2 := fun ε z w N => by
    simp only [hout, sub_sq_r, Finset.sum_add_distrib, Finset.sum_sub_distrib, Finset.mul_sum]
  constructor
  · intro h z w h0 h1 N hN
    refine nonneg_of_eps (b := γ ^ 2 * ∑ k ∈ Finset.range N, ∑ i, w k i ^ 2) fun ε hε => ?_
    have h2 := energy_le (C := -ε • C) (D := 1 - ε • D) hA (fun s hs' => by rw [tf_shift]; exact (form_iff_shift (hγ s hs')).mp (h s hs') ε hε) h0 h1 N
    rw [hsum, hs] at h2
    have h3 : 0 ≤ ε ^ 2 * ∑ k ∈ Finset.range N, ∑ i, (C *ᵥ z k + D *ᵥ w k) i ^ 2 := by positivity
    have h5 : 0 ≤ ε ^ 2 * (γ ^ 2 * ∑ k ∈ Finset.range N, ∑ i, w k i ^ 2) := by positivity
    have h4 : 0 ≤ ε * (∑ k ∈ Finset.range N, w k ⬝ᵥ (C *ᵥ z k + D *ᵥ w k) + ε * (γ ^ 2 * ∑ k ∈ Finset.range N, ∑ i, w k i ^ 2)) := by linarith
    exact nonneg_of_mul_nonneg_right h4 hε
  · intro h s hs'
    rw [form_iff_shift (hγ s hs')]
    intro ε hε
    rw [← tf_shift]
    refine gain_of_energy hA (Real.sqrt_nonneg _) (fun z w h0 h1 N hN => ?_) s hs'
    have h2 := energy_le hA hγ h0 h1 N
    have h3 := mul_nonneg hε.le (h z w h0 h1 N hN)
    have h4 := mul_le_mul_of_nonneg_left h2 (sq_nonneg ε)
    rw [hsum, hs]
    linarith

/-- **C130**, simulations: a stable sampled model is passive if and only if in every simulation from rest the sum of the products of inputs and outputs, the energy supplied, is nonnegative. Missing: inputs of a single sample
(`C39_single_sample_violated`). -/
theorem C130_simulate_partial (hm : 1 ≤ m) (hG : S.g = ⟨Arr.of A, Arr.of B, Arr.of C, Arr.of D, some h, false⟩) (hh : 0 < h) (hst : StableModel S.g) :
    Passive S.g m ↔ ∀ (N : ℕ) (U : Matrix (Fin N) (Fin m) ℝ), 2 ≤ N → ∃ (Y : Matrix (Fin N) (Fin m) ℝ) (t : List ℝ),
      simulate Nm E S (Arr.of U) none none false = .ok (.flat (Arr.of Y), t) ∧ 0 ≤ ∑ i, ∑ k, U i k * Y i k := by
  have hA : Schur A := schur_of_stable (B := B) (C := C) (D := D) (h := h) (hG ▸ hst)
  rw [hG, passive_disc hh hA, passive_sum_iff hA]
  constructor
  · intro hγ N U hN
    refine ⟨_, _, C39_output_partial hN hm hG (Or.inl ⟨rfl, rfl⟩), ?_⟩
    set w : ℕ → Fin m → ℝ := fun k => if hk : k < N then U ⟨k, hk⟩ else 0 with hw
    have hU : ∀ i : Fin N, U i = w i := fun i => by simp [hw]
    obtain ⟨z, h1, h2, h3⟩ := output_states (A := A) (B := B) (C := C) (D := D) w hU
    have h4 := hγ z w h1 h2 N hN
    simp only [Matrix.of_apply, h3]
    rw [← Fin.sum_univ_eq_sum_range (fun k => w k ⬝ᵥ (C *ᵥ z k + D *ᵥ w k))] at h4
    simp only [← hU, dotProduct] at h4 ⊢
    exact h4
  · intro hE z w h0 h1 N hN
    obtain ⟨Y, t, h2, h3⟩ := hE N (Matrix.of fun i : Fin N => w i) hN
    rw [C39_output_partial hN hm hG (Or.inl ⟨rfl, rfl⟩)] at h2
    simp only [Except.ok.injEq, Prod.mk.injEq, SimOut.flat.injEq, Arr.of_inj] at h2
    obtain ⟨z', h4, h5, h6⟩ := output_states (A := A) (B := B) (C := C) (D := D) (N := N) (U := Matrix.of fun i : Fin N => w i) w (fun i => rfl)
    rw [← h2.1] at h3
    simp only [Matrix.of_apply] at h3
    simp only [h6, ← states_unique (h0.trans h4.symm) h1 h5] at h3
    rw [← Fin.sum_univ_eq_sum_range (fun k => w k ⬝ᵥ (C *ᵥ z k + D *ᵥ w k))]
    exact h3

end simulations

section tustin

variable {A : Matrix (Fin n) (Fin n) ℝ} {B : Matrix (Fin n) (Fin m) ℝ} {C : Matrix (Fin m) (Fin n) ℝ} {D : Matrix (Fin m) (Fin m) ℝ}

theorem hasTF_shift {dt : Option ℝ} {s : ℂ} {M : Matrix (Fin m) (Fin m) ℂ} (ε : ℝ) (hM : HasTF ⟨Arr.of A, Arr.of B, Arr.of C, Arr.of D, dt, false⟩ m m s M) :
    HasTF ⟨Arr.of A, Arr.of B, Arr.of (-ε • C), Arr.of (1 - ε • D), dt, false⟩ m m s (1 - (ε : ℂ) • M) := by
  obtain ⟨n', A', B', C', D', hA, hB, hC, hD, hT⟩ := dyn_elim hM rfl
  obtain rfl : n = n' := congrArg Arr.r hA
  obtain rfl := Arr.of_inj.mp hA
  obtain rfl := Arr.of_inj.mp hB
  obtain rfl := Arr.of_inj.mp hC
  obtain rfl := Arr.of_inj.mp hD
  exact HasTF.of_dyn ⟨hT.1, by rw [hT.2]; exact (tf_shift ε s).symm⟩

theorem passive_iff_shift {dt : Option ℝ} {γ : ℝ} (hγ : GainBound ⟨Arr.of A, Arr.of B, Arr.of C, Arr.of D, dt, false⟩ m m γ) :
    Passive ⟨Arr.of A, Arr.of B, Arr.of C, Arr.of D, dt, false⟩ m ↔ ∀ ε : ℝ, 0 < ε → GainBound ⟨Arr.of A, Arr.of B, Arr.of (-ε • C), Arr.of (1 - ε • D), dt, false⟩ m m (Real.sqrt (1 + ε ^ 2 * γ ^ 2)) := by
  constructor
  · intro h ε hε ω
    obtain ⟨M, h1, h2⟩ := hγ ω
    obtain ⟨M', h3, h4⟩ := h ω
    rw [HasTF_unique h3 h1] at h4
    exact ⟨_, hasTF_shift ε h1, (form_iff_shift h2).mp h4 ε hε⟩
  · intro h ω
    obtain ⟨M, h1, h2⟩ := hγ ω
    refine ⟨M, h1, (form_iff_shift h2).mpr fun ε hε => ?_⟩
    obtain ⟨M', h3, h4⟩ := h ε hε ω
    rwa [HasTF_unique h3 (hasTF_shift ε h1)] at h4

variable {P : Type} {Nm : Numerics ℝ P} {E : DNum} {g S : StateObj ℝ P} {dt pw : ℝ} {method : String} {qq : Option (Arr ℝ)}

/-- The matrix of the bilinear transformation does not depend on the model. -/
theorem tustin_args_all (hm : method = "tustin" ∨ method = "bilinear") (hdt : 0 < dt) (hpw : 0 ≤ pw) (hny : pw < 1 / (2 * dt)) :
    ∃ y : ℝ, 0 < y ∧ (∀ F : StateM ℝ, discretizeArgs E F dt method pw qq = simpleLft (q2 1 y y (y ^ 2 / 2)) F.a F.b F.c F.d) ∧
      y ^ 2 = if pw = 0 then dt else 2 * Real.tan (2 * Real.pi * pw * dt / 2) / (2 * Real.pi * pw) := by
  by_cases h0 : pw = 0
  · refine ⟨√dt, Real.sqrt_pos.mpr hdt, fun F => ?_, by rw [if_pos h0, Real.sq_sqrt hdt.le]⟩
    rw [Real.sq_sqrt hdt.le]
    rcases hm with rfl | rfl <;> simp [discretizeArgs, discTustin, tustinQ, tustinNames, bind, Except.bind, h0]
  · have hpos : 0 < pw := lt_of_le_of_ne hpw (Ne.symm h0)
    have hpi := Real.pi_pos
    have harg : 2 * Real.pi * pw * dt / 2 < Real.pi / 2 := by
      rw [lt_div_iff₀ (by positivity)] at hny
      have : Real.pi * (pw * (2 * dt)) < Real.pi * 1 := mul_lt_mul_of_pos_left hny hpi
      linarith
    have htan : 0 < Real.tan (2 * Real.pi * pw * dt / 2) := Real.tan_pos_of_pos_of_lt_pi_div_two (by positivity) harg
    have hq : 0 < 2 * Real.tan (2 * Real.pi * pw * dt / 2) / (2 * Real.pi * pw) := by positivity
    refine ⟨sq2tan dt pw, Real.sqrt_pos.mpr hq, fun F => ?_, by rw [if_neg h0]; exact Real.sq_sqrt hq.le⟩
    have hn : ¬ (1 / (2 * dt) < pw) := not_lt.mpr hny.le
    rcases hm with rfl | rfl <;> simp only [discretizeArgs, discTustin, tustinQ, tustinNames, bind, Except.bind, h0, hn] <;> simp

/-- **C130**, discretization: the bilinear transformation (with or without prewarping below the Nyquist frequency) of a stable model is passive if and only if the model is. -/
theorem C130_tustin (hm : method = "tustin" ∨ method = "bilinear") (hc : Consistent g.g m m) (hst : StableModel g.g) (hpw : 0 ≤ pw) (hny : pw < 1 / (2 * dt))
    (h : discretize Nm E g dt method pw qq = .ok S) : Passive g.g m ↔ Passive S.g m := by
  obtain ⟨hk, hdt0, hdt⟩ := discretize_pre h
  obtain ⟨a, b, c, D, dt', hG⟩ | ⟨n, A, B, C, D, dt', hG⟩ := consistent_cases hc
  · have hval : ∀ s : ℂ, HasTF g.g m m s (D.map (algebraMap ℝ ℂ)) := fun s => Or.inl ⟨by rw [hG], D, by rw [hG], rfl⟩
    have hS : ∀ s : ℂ, HasTF S.g m m s (D.map (algebraMap ℝ ℂ)) := by
      obtain ⟨S', h1, h2, h3, -⟩ := C37_discretize (N := Nm) (E := E) (pw := pw) (q := qq) (G := g) (by rw [hG]) hdt0 hk hdt
      rw [h] at h1
      cases h1
      exact fun s => Or.inl ⟨h2, D, by rw [h3, hG], rfl⟩
    constructor
    · intro h1 ω
      obtain ⟨M, h2, h3⟩ := h1 ω
      exact ⟨M, by rw [HasTF_unique h2 (hval _)]; exact hS _, h3⟩
    · intro h1 ω
      obtain ⟨M, h2, h3⟩ := h1 ω
      exact ⟨M, by rw [HasTF_unique h2 (hS _)]; exact hval _, h3⟩
  · obtain rfl : dt' = none := by rw [hG] at hdt0; exact hdt0
    have hA : Hurwitz A := by
      rw [hG] at hst
      rcases hst with h0 | ⟨n', A', hA, hM⟩
      · cases h0
      · obtain rfl : n = n' := congrArg Arr.r hA
        obtain rfl := Arr.of_inj.mp hA
        exact fun z hz => by simpa [StablePoint] using motions_iff.mp hM z hz
    obtain ⟨y, hy, hargs, -⟩ := tustin_args_all (E := E) (qq := qq) hm hdt hpw hny
    obtain ⟨S', h3, h4, -⟩ := (discretize_lft_ok (N := Nm) (hargs g.g) (fun _ _ => hny.le) hG hk).2 (Hurwitz.det_ne_zero hA (by positivity)) hdt
    rw [h] at h3
    cases h3
    have hA' : Schur (((1 : ℝ) • 1 + (y * y) • (A * (1 - (y ^ 2 / 2) • A)⁻¹)) : Matrix (Fin n) (Fin n) ℝ) := by
      have := (hurwitz_iff_schur (h := y ^ 2) (by positivity) (Hurwitz.det_ne_zero hA (by positivity))).mp hA
      simpa [sq] using this
    obtain ⟨γ, hγ⟩ := circle_bounded (B := y • ((1 - (y ^ 2 / 2) • A)⁻¹ * B)) (C := y • (C * (1 - (y ^ 2 / 2) • A)⁻¹)) (D := D + (y ^ 2 / 2) • (C * (1 - (y ^ 2 / 2) • A)⁻¹ * B)) hA'
    have hγS : GainBound S.g m m γ := by rw [h4]; exact (gainBound_disc hdt hA').mpr hγ
    have hγG : GainBound g.g m m γ := (C106_tustin hm hc hst hpw hny h).mpr hγS
    have hkey : ∀ ε : ℝ, GainBound ⟨Arr.of A, Arr.of B, Arr.of (-ε • C), Arr.of (1 - ε • D), none, false⟩ m m (Real.sqrt (1 + ε ^ 2 * γ ^ 2)) ↔
        GainBound ⟨Arr.of ((1 : ℝ) • 1 + (y * y) • (A * (1 - (y ^ 2 / 2) • A)⁻¹)), Arr.of (y • ((1 - (y ^ 2 / 2) • A)⁻¹ * B)), Arr.of (-ε • (y • (C * (1 - (y ^ 2 / 2) • A)⁻¹))),
          Arr.of (1 - ε • (D + (y ^ 2 / 2) • (C * (1 - (y ^ 2 / 2) • A)⁻¹ * B))), some dt, false⟩ m m (Real.sqrt (1 + ε ^ 2 * γ ^ 2)) := by
      intro ε
      set g' : StateObj ℝ P := { g with g := ⟨Arr.of A, Arr.of B, Arr.of (-ε • C), Arr.of (1 - ε • D), none, false⟩ } with hg'
      obtain ⟨S', h5, h6, -⟩ := (discretize_lft_ok (G := g') (N := Nm) (hargs g'.g) (fun _ _ => hny.le) rfl hk).2 (Hurwitz.det_ne_zero hA (by positivity)) hdt
      have hst' : StableModel g'.g := stable_of_hurwitz hA
      rw [show (⟨Arr.of A, Arr.of B, Arr.of (-ε • C), Arr.of (1 - ε • D), none, false⟩ : StateM ℝ) = g'.g from rfl, C106_tustin hm ⟨⟨rfl, rfl⟩, fun _ => ⟨rfl, rfl, rfl, rfl, rfl⟩⟩ hst' hpw hny h5, h6]
      have e1 : y • (-ε • C * (1 - (y ^ 2 / 2) • A)⁻¹) = -ε • (y • (C * (1 - (y ^ 2 / 2) • A)⁻¹)) := by
        rw [Matrix.smul_mul, smul_comm]
      have e2 : 1 - ε • D + (y ^ 2 / 2) • (-ε • C * (1 - (y ^ 2 / 2) • A)⁻¹ * B) = 1 - ε • (D + (y ^ 2 / 2) • (C * (1 - (y ^ 2 / 2) • A)⁻¹ * B)) := by
        rw [Matrix.smul_mul, Matrix.smul_mul, smul_comm, smul_add, neg_smul]
        abel
      rw [e1, e2]
    rw [hG, h4]
    rw [hG] at hγG
    rw [h4] at hγS
    rw [passive_iff_shift hγG, passive_iff_shift hγS]
    exact forall_congr' fun ε => imp_congr_right fun _ => hkey ε

end tustin

/-! ### Examples -/

/-- `Re v* x v = Re x |v|²` for `1 × 1` matrices. -/
theorem form_one (x : ℂ) (v : Fin 1 → ℂ) : (star v ⬝ᵥ !![x] *ᵥ v).re = x.re * ‖v 0‖ ^ 2 := by
  have : star v ⬝ᵥ !![x] *ᵥ v = x * (starRingEnd ℂ (v 0) * v 0) := by
    simp [dotProduct, Matrix.mulVec]
    ring
  rw [this, Complex.conj_mul', ← Complex.ofReal_pow, Complex.re_mul_ofReal]

/-- `1/(s + 1)`. -/
theorem lagR_tf (s : ℂ) (hs : s + 1 ≠ 0) : HasTF lagR 1 1 s !![(s + 1)⁻¹] := by
  refine HasTF.of_dyn (isTF_iff_sol.mpr ⟨?_, !![(s + 1)⁻¹], ?_, ?_⟩)
  · simpa [Matrix.det_fin_one] using hs
  · ext i j; fin_cases i; fin_cases j
    simp [Matrix.mul_apply, hs]
  · ext i j; fin_cases i; fin_cases j
    simp [Matrix.mul_apply]

theorem lagR_strict : StrictlyPassive lagR 1 := by
  intro ω
  have h0 : (Complex.I * ω + 1 : ℂ) ≠ 0 := fun h => by simpa using congrArg Complex.re h
  refine ⟨_, lagR_tf _ (by simpa [lagR, evalPoint] using h0), fun v hv => ?_⟩
  rw [form_one]
  have h1 : v 0 ≠ 0 := fun h => hv (by funext i; fin_cases i; exact h)
  refine mul_pos ?_ (by positivity)
  simp only [lagR, evalPoint, Option.elim]
  rw [Complex.inv_re]
  exact div_pos (by simp) (Complex.normSq_pos.mpr h0)

theorem lagR_stable : StableModel lagR := stable_of_hurwitz (one_state_hurwitz (by norm_num))

/-- The loop of `1/(s + 1)` with itself. -/
example : ∃ R, feedback (.state lagR) (.state lagR) true = .ok R ∧ StableModel R ∧ Passive R 1 ∧ (StrictlyPassive lagR 1 → StrictlyPassive R 1) :=
  C130_closed_partial lagR_consistent.1 lagR_consistent.1 dtOk_none rfl rfl (by norm_num [spacing10]) !![0] !![0] rfl rfl (by ext i j; fin_cases i; fin_cases j; simp) lagR_stable lagR_stable
    (passive_of_strict lagR_strict) (passive_of_strict lagR_strict) (Or.inl lagR_strict)

example {fuel : ℕ} : ∃ R, lagR.add (fuel + 2) lagR = .ok R ∧ Passive R 1 :=
  C130_sum_partial rfl rfl (Or.inl rfl) (passive_of_strict lagR_strict) (passive_of_strict lagR_strict)

/-- Discretized with the period `0.1`, `1/(s + 1)` is passive, and simulations draw energy. -/
example {P : Type} {Nm : Numerics ℝ P} {E : DNum} : ∃ S, discretize Nm E ({ lagObj P with g := lagR } : StateObj ℝ P) (1 / 10) "tustin" 0 none = .ok S ∧ Passive S.g 1 ∧
    ∀ (N : ℕ) (U : Matrix (Fin N) (Fin 1) ℝ), 2 ≤ N → ∃ (Y : Matrix (Fin N) (Fin 1) ℝ) (t : List ℝ), simulate Nm E S (Arr.of U) none none false = .ok (.flat (Arr.of Y), t) ∧ 0 ≤ ∑ i, ∑ k, U i k * Y i k := by
  have hA : Hurwitz !![(-1 : ℝ)] := one_state_hurwitz (by norm_num)
  obtain ⟨y, hy, hargs, -⟩ := tustin_args_all (method := "tustin") (dt := 1 / 10) (pw := 0) (E := E) (qq := none) (Or.inl rfl) (by norm_num) le_rfl (by norm_num)
  obtain ⟨S, h1, h2, -⟩ := (discretize_lft_ok (N := Nm) (G := ({ lagObj P with g := lagR } : StateObj ℝ P)) (hargs lagR) (fun _ _ => by norm_num) rfl (by decide)).2 (Hurwitz.det_ne_zero hA (by positivity)) (by norm_num)
  have h3 : Passive S.g 1 := (C130_tustin (m := 1) (Or.inl rfl) lagR_consistent.1 lagR_stable le_rfl (by norm_num) h1).mp (passive_of_strict lagR_strict)
  have hA' : Schur (((1 : ℝ) • 1 + (y * y) • (!![(-1 : ℝ)] * (1 - (y ^ 2 / 2) • !![(-1 : ℝ)])⁻¹)) : Matrix (Fin 1) (Fin 1) ℝ) := by
    have := (hurwitz_iff_schur (h := y ^ 2) (by positivity) (Hurwitz.det_ne_zero hA (by positivity))).mp hA
    simpa [sq] using this
  exact ⟨S, h1, h3, (C130_simulate_partial le_rfl h2 (by norm_num) (by rw [h2]; exact Or.inr ⟨1, _, rfl, schur_iff_motions.mp hA'⟩)).mp h3⟩

end Harold
