import Verif.Model.TransferInv
import Verif.Spec.TransferInv
import Verif.Props.ToTransfer
import Verif.Props.Transfer
import Mathlib.Analysis.Polynomial.Basic

/-!
# Inverses of `Transfer` models
-/

namespace Harold

open Matrix Spec Polynomial Filter

variable {p m n : ℕ}

theorem polyAt_real (s : ℝ) (l : List ℝ) : polyAt s l = (toPoly l).eval s := by
  unfold polyAt
  rw [← Polynomial.coe_aeval_eq_eval]

theorem toPoly_ne_zero_of_head {l : List ℝ} (h : l.getD 0 0 ≠ 0) : toPoly l ≠ 0 ∧ (toPoly l).degree = ((l.length - 1 : ℕ) : WithBot ℕ) := by
  cases l with
  | nil => simp at h
  | cons a t =>
    have ha : a ≠ 0 := by simpa using h
    have := degree_toPoly_cons ha t
    refine ⟨fun h0 => ?_, by simpa using this⟩
    rw [h0] at this
    simp at this

/-- The feedthrough of an entry is its value at infinity. -/
theorem EntryOk.limit {num den n e : List ℝ} {d : ℝ} (h0 : den.getD 0 0 ≠ 0) (h : EntryOk ℝ num den d n e) :
    Tendsto (fun s : ℝ => polyAt s num / polyAt s den) atTop (nhds d) := by
  have hden := (toPoly_ne_zero_of_head h0).1
  have he := (toPoly_ne_zero_of_head (l := e) (by rw [h.head]; exact one_ne_zero)).2
  have h1 : Tendsto (fun s : ℝ => (toPoly n).eval s / (toPoly e).eval s) atTop (nhds 0) :=
    Polynomial.div_tendsto_zero_of_degree_lt _ _ (by rw [he]; exact h.deg)
  have h2 : Tendsto (fun s : ℝ => d + (toPoly n).eval s / (toPoly e).eval s) atTop (nhds (d + 0)) := h1.const_add d
  rw [add_zero] at h2
  refine h2.congr' ?_
  filter_upwards [Polynomial.eventually_no_roots (toPoly den) hden] with s hs
  have := (h.val s (by rw [polyAt_real]; exact hs)).2
  rw [this, polyAt_real, polyAt_real]
  simp

/-- Shape of the matrices from `transfer_to_state`: the feedthrough is the value at infinity and the
realization has the values of the quotients. -/
theorem t2sMimo_parts0 (E : TNum ℝ) (hbal : ∀ polys i, E.bal polys i ≠ 0) (hthr : E.lcmTol ≤ 0) (htol : E.remTol ≤ 0)
    (hp : 0 < p) (hm : 0 < m) {N D : Matrix (Fin p) (Fin m) (List ℝ)} (h0 : ∀ i j, (D i j).getD 0 0 ≠ 0)
    (htr : ∀ i j, Trimmed (N i j)) (hc : ∀ i j, (N i j).length ≤ (D i j).length) :
    ∃ (r : Option (Arr ℝ × Arr ℝ × Arr ℝ) × Arr ℝ) (H : Matrix (Fin p) (Fin m) ℝ), t2sMimo E N D = .ok r ∧ r.2 = Arr.of H ∧
      AtInfinity N D H ∧ ∀ (L : Type) [Field L] [Algebra ℝ L], Realizes L r N D := by
  have hne : ∀ i j, N i j ≠ [] := fun i j e => by
    rcases htr i j with h | ⟨a, t, h, -⟩ <;> rw [e] at h <;> simp at h
  have hdeg : ∀ i j, (toPoly (N i j)).degree ≤ (toPoly (D i j)).degree := fun i j => by
    rw [(toPoly_ne_zero_of_head (h0 i j)).2]
    have h1 := degree_toPoly_lt (N i j)
    have h2 := hc i j
    by_cases hz : toPoly (N i j) = 0
    · simp [hz]
    · rw [degree_eq_natDegree hz] at h1 ⊢
      norm_cast at h1 ⊢
      omega
  have hE := fun i j => t2sEntry_ok (L := ℝ) htol (N i j) (D i j) (h0 i j) (hdeg i j)
  choose d n e h1 hE using hE
  have hmat : matM (fun x y => t2sEntry E.remTol (N x y) (D x y)) = .ok fun x y => (d x y, n x y, e x y) := matM_ok.mpr h1
  obtain ⟨-, x, y, hxy⟩ | ⟨r, hr, -⟩ := t2sMimo_ok (L := ℝ) E hbal hthr htol hp hm N D h0 hne hdeg
  · exact absurd (htr x y) hxy
  · refine ⟨r, Matrix.of d, hr, ?_, fun i j => (hE i j).limit (h0 i j), ?_⟩
    · unfold t2sMimo at hr
      simp only [hmat, Bind.bind, Except.bind] at hr
      split_ifs at hr
      · obtain rfl := Except.ok.inj hr
        rfl
      · split at hr
        · cases hr
        · obtain rfl := Except.ok.inj hr
          rfl
      · split at hr
        · cases hr
        · obtain rfl := Except.ok.inj hr
          rfl
    · intro L _ _
      obtain ⟨-, x, y, hxy⟩ | ⟨r', hr', h⟩ := t2sMimo_ok (L := L) E hbal hthr htol hp hm N D h0 hne hdeg
      · exact absurd (htr x y) hxy
      · rw [hr] at hr'
        obtain rfl := Except.ok.inj hr'
        exact h

theorem t2sMimo_parts (E : TNum ℝ) (hbal : ∀ polys i, E.bal polys i ≠ 0)
    (hp : 0 < p) (hm : 0 < m) {N D : Matrix (Fin p) (Fin m) (List ℝ)}
    (hclr : ClearMatrix E.lcmTol E.remTol (fun i j => toPoly (N i j)) fun i j => toPoly (D i j)) (h0 : ∀ i j, (D i j).getD 0 0 ≠ 0)
    (htr : ∀ i j, Trimmed (N i j)) (hc : ∀ i j, (N i j).length ≤ (D i j).length) :
    ∃ (r : Option (Arr ℝ × Arr ℝ × Arr ℝ) × Arr ℝ) (H : Matrix (Fin p) (Fin m) ℝ), t2sMimo E N D = .ok r ∧ r.2 = Arr.of H ∧
      AtInfinity N D H ∧ ∀ (L : Type) [Field L] [Algebra ℝ L], Realizes L r N D := by
  rw [t2sMimo_exact E hbal hp hm N D h0 (fun i j => (properPair_of_length (h0 i j) (hc i j)).2) hclr]
  exact t2sMimo_parts0 E.exact hbal le_rfl le_rfl hp hm h0 htr hc

/-- Quotients with the same value wherever they are defined are constants. -/
theorem allConstant_of_values {N D : Matrix (Fin p) (Fin m) (List ℝ)} (h0 : ∀ i j, (D i j).getD 0 0 ≠ 0) {H : Matrix (Fin p) (Fin m) ℝ}
    (h : ∀ s : ℝ, (∀ i j, polyAt s (D i j) ≠ 0) → ∀ i j, H i j = polyAt s (N i j) / polyAt s (D i j)) : AllConstant N D := by
  intro i j
  refine ⟨H i j, ?_⟩
  have hP : (∏ x : Fin p, ∏ y : Fin m, toPoly (D x y)) ≠ 0 :=
    Finset.prod_ne_zero_iff.mpr fun x _ => Finset.prod_ne_zero_iff.mpr fun y _ => (toPoly_ne_zero_of_head (h0 x y)).1
  have : (toPoly (N i j) - C (H i j) * toPoly (D i j)) * (∏ x : Fin p, ∏ y : Fin m, toPoly (D x y)) = 0 := by
    refine Polynomial.funext fun s => ?_
    rw [eval_mul, eval_zero]
    by_cases hs : ∀ x y, polyAt s (D x y) ≠ 0
    · have h1 := h s hs i j
      have h2 := hs i j
      rw [polyAt_real] at h2
      rw [polyAt_real, polyAt_real] at h1
      have h3 : (toPoly (N i j) - C (H i j) * toPoly (D i j)).eval s = 0 := by
        rw [eval_sub, eval_mul, eval_C, h1, div_mul_cancel₀ _ h2, sub_self]
      rw [h3, zero_mul]
    · push Not at hs
      obtain ⟨x, y, hxy⟩ := hs
      rw [polyAt_real] at hxy
      have : (∏ x : Fin p, ∏ y : Fin m, toPoly (D x y)).eval s = 0 := by
        rw [eval_prod]
        refine Finset.prod_eq_zero (Finset.mem_univ x) ?_
        rw [eval_prod]
        exact Finset.prod_eq_zero (Finset.mem_univ y) hxy
      rw [this, mul_zero]
  exact sub_eq_zero.mp ((mul_eq_zero.mp this).resolve_right hP)

/-- The inverse system has no eigenvalue at a point where the transfer matrix is invertible. -/
theorem det_inverse_ne_zero {L : Type} [Field L] {A : Matrix (Fin n) (Fin n) L} {B : Matrix (Fin n) (Fin m) L} {C : Matrix (Fin m) (Fin n) L}
    {D D' M : Matrix (Fin m) (Fin m) L} {s : L} (h : IsTF A B C D s M) (hD : D' * D = 1) (hM : M.det ≠ 0) :
    (s • (1 : Matrix (Fin n) (Fin n) L) - (A - B * (D' * C))).det ≠ 0 := by
  obtain ⟨h1, rfl⟩ := h
  set R := s • (1 : Matrix (Fin n) (Fin n) L) - A with hR
  have hu : IsUnit R.det := isUnit_iff_ne_zero.mpr h1
  have e : s • (1 : Matrix (Fin n) (Fin n) L) - (A - B * (D' * C)) = R * (1 + R⁻¹ * B * (D' * C)) := by
    rw [Matrix.mul_add, Matrix.mul_one, ← Matrix.mul_assoc R, ← Matrix.mul_assoc R, Matrix.mul_nonsing_inv _ hu, Matrix.one_mul, hR]
    abel
  rw [e, det_mul, Matrix.det_one_add_mul_comm]
  have e2 : (1 + D' * C * (R⁻¹ * B)) = D' * (C * R⁻¹ * B + D) := by
    rw [Matrix.mul_add, hD, add_comm]
    congr 1
    simp only [Matrix.mul_assoc]
  rw [e2, det_mul]
  have hD' : D'.det ≠ 0 := by
    intro h0
    have := congrArg Matrix.det hD
    rw [det_mul, h0, zero_mul, det_one] at this
    exact zero_ne_one this
  exact mul_ne_zero h1 (mul_ne_zero hD' hM)

end Harold
