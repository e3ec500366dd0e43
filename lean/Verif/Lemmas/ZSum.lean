import Verif.Props.Energy
import Verif.Props.SimConv
import Verif.Props.TimeUnits

/-!
# Sums of the samples of inputs and outputs with powers of a number as weights
-/

namespace Harold

open Matrix Spec Filter Topology

variable {n m p N : ℕ} {A : Matrix (Fin n) (Fin n) ℝ} {B : Matrix (Fin n) (Fin m) ℝ} {C : Matrix (Fin p) (Fin n) ℝ} {D : Matrix (Fin p) (Fin m) ℝ}

/-- The states behind the outputs of `output`. -/
theorem output_states_from (x0 : Fin n → ℝ) (w : ℕ → Fin m → ℝ) :
    ∃ z : ℕ → Fin n → ℝ, z 0 = x0 ∧ (∀ k, z (k + 1) = A *ᵥ z k + B *ᵥ w k) ∧
      ∀ {N : ℕ} {U : Fin N → Fin m → ℝ}, (∀ i : Fin N, U i = w i) → ∀ i : Fin N, output A B C D x0 U i = C *ᵥ z i + D *ᵥ w i := by
  refine ⟨fun k => A ^ k *ᵥ x0 + ∑ j ∈ Finset.range k, A ^ (k - 1 - j) *ᵥ (B *ᵥ w j), by simp, fun k => ?_, fun {N U} hU i => ?_⟩
  · simp only
    rw [Finset.sum_range_succ, Matrix.mulVec_add, pow_succ', ← Matrix.mulVec_mulVec, Matrix.mulVec_sum, add_assoc]
    have e1 : ∑ j ∈ Finset.range k, A ^ (k + 1 - 1 - j) *ᵥ (B *ᵥ w j) = ∑ j ∈ Finset.range k, A *ᵥ (A ^ (k - 1 - j) *ᵥ (B *ᵥ w j)) := by
      refine Finset.sum_congr rfl fun j hj => ?_
      rw [Matrix.mulVec_mulVec (B *ᵥ w j) A, ← pow_succ']
      have := Finset.mem_range.mp hj
      congr 2
      omega
    rw [e1]
    simp [add_assoc]
  · rw [output_range w hU i, Matrix.mulVec_add, Matrix.mulVec_sum]

/-- Complex copy of a real vector. -/
def cvec {k : ℕ} (v : Fin k → ℝ) : Fin k → ℂ := fun i => (v i : ℂ)

theorem cvec_add {k : ℕ} (v w : Fin k → ℝ) : cvec (v + w) = cvec v + cvec w := by funext i; simp [cvec]

theorem cvec_mulVec {r c : ℕ} (M : Matrix (Fin r) (Fin c) ℝ) (v : Fin c → ℝ) : cvec (M *ᵥ v) = M.map (algebraMap ℝ ℂ) *ᵥ cvec v := by
  funext i
  simp [cvec, mulVec, dotProduct]

/-- The weighted sums of finitely many samples: the transfer matrix, and a term with the first and the last state. -/
theorem zsum_identity {x : ℕ → Fin n → ℝ} {w : ℕ → Fin m → ℝ} (hx : ∀ k, x (k + 1) = A *ᵥ x k + B *ᵥ w k) {z : ℂ} (hz : z ≠ 0) {M : Matrix (Fin p) (Fin m) ℂ}
    (hM : IsTF (A.map (algebraMap ℝ ℂ)) (B.map (algebraMap ℝ ℂ)) (C.map (algebraMap ℝ ℂ)) (D.map (algebraMap ℝ ℂ)) z M) (N : ℕ) :
    ∑ k ∈ Finset.range N, z⁻¹ ^ k • cvec (C *ᵥ x k + D *ᵥ w k) = M *ᵥ ∑ k ∈ Finset.range N, z⁻¹ ^ k • cvec (w k)
      + (C.map (algebraMap ℝ ℂ) * (z • 1 - A.map (algebraMap ℝ ℂ))⁻¹) *ᵥ (z • (cvec (x 0) - z⁻¹ ^ N • cvec (x N))) := by
  obtain ⟨hd, rfl⟩ := hM
  set R := (z • 1 - A.map (algebraMap ℝ ℂ))⁻¹ with hR
  have hRR : R * (z • 1 - A.map (algebraMap ℝ ℂ)) = 1 := nonsing_inv_mul _ (isUnit_iff_ne_zero.mpr hd)
  induction N with
  | zero => simp
  | succ N ih =>
    rw [Finset.sum_range_succ, Finset.sum_range_succ, ih, mulVec_add, mulVec_smul _ _ (cvec (w N))]
    have e1 : z • (cvec (x 0) - z⁻¹ ^ (N + 1) • cvec (x (N + 1))) = z • (cvec (x 0) - z⁻¹ ^ N • cvec (x N)) + z⁻¹ ^ N • (z • cvec (x N) - cvec (x (N + 1))) := by
      have : z * z⁻¹ ^ (N + 1) = z⁻¹ ^ N := by rw [pow_succ']; field_simp
      rw [smul_sub, smul_sub, smul_sub, smul_smul, this, smul_smul, smul_smul]
      rw [mul_comm z (z⁻¹ ^ N)]
      abel
    rw [e1, mulVec_add (C.map (algebraMap ℝ ℂ) * R), mulVec_smul _ _ (z • cvec (x N) - cvec (x (N + 1)))]
    have e2 : cvec (C *ᵥ x N + D *ᵥ w N) = (C.map (algebraMap ℝ ℂ) * R * B.map (algebraMap ℝ ℂ) + D.map (algebraMap ℝ ℂ)) *ᵥ cvec (w N)
        + (C.map (algebraMap ℝ ℂ) * R) *ᵥ (z • cvec (x N) - cvec (x (N + 1))) := by
      have e3 : z • cvec (x N) - A.map (algebraMap ℝ ℂ) *ᵥ cvec (x N) = (z • 1 - A.map (algebraMap ℝ ℂ)) *ᵥ cvec (x N) := by
        rw [sub_mulVec, smul_mulVec, one_mulVec]
      rw [hx N, cvec_add, cvec_add, cvec_mulVec, cvec_mulVec, cvec_mulVec, cvec_mulVec, sub_add_eq_sub_sub, e3, mulVec_sub, mulVec_mulVec,
        Matrix.mul_assoc _ R (z • 1 - A.map (algebraMap ℝ ℂ)), hRR, Matrix.mul_one, add_mulVec, mulVec_mulVec]
      abel
    rw [e2]
    module

/-- Bounded inputs give bounded states. -/
theorem states_bounded (hA : Schur A) {v : ℕ → Fin n → ℝ} {b : ℝ} (hv : ∀ k, ‖v k‖ ≤ b) {x : ℕ → Fin n → ℝ} (hx : ∀ k, x (k + 1) = A *ᵥ x k + v k) : ∃ c, ∀ k, ‖x k‖ ≤ c := by
  set s : ℕ → ℝ := fun k => ∑ i, ∑ j, |(A ^ k) i j| with hs
  have hs0 : ∀ k, 0 ≤ s k := fun k => Finset.sum_nonneg fun i _ => Finset.sum_nonneg fun j _ => abs_nonneg _
  have hsum : Summable s := summable_sum fun i _ => summable_sum fun j _ => schur_pow_summable hA i j
  have hb : ∀ k (u : Fin n → ℝ), ‖A ^ k *ᵥ u‖ ≤ s k * ‖u‖ := fun k u => by
    refine (pi_norm_le_iff_of_nonneg (mul_nonneg (hs0 k) (norm_nonneg _))).mpr fun i => ?_
    rw [Real.norm_eq_abs, mulVec, dotProduct]
    refine (Finset.abs_sum_le_sum_abs _ _).trans ?_
    calc ∑ j, |(A ^ k) i j * u j| ≤ ∑ j, |(A ^ k) i j| * ‖u‖ := Finset.sum_le_sum fun j _ => by
          rw [abs_mul]
          exact mul_le_mul_of_nonneg_left (norm_le_pi_norm u j) (abs_nonneg _)
      _ = (∑ j, |(A ^ k) i j|) * ‖u‖ := by rw [Finset.sum_mul]
      _ ≤ s k * ‖u‖ := mul_le_mul_of_nonneg_right (Finset.single_le_sum (f := fun i => ∑ j, |(A ^ k) i j|) (fun i _ => Finset.sum_nonneg fun j _ => abs_nonneg _) (Finset.mem_univ i)) (norm_nonneg _)
  have hb0 : 0 ≤ b := (norm_nonneg _).trans (hv 0)
  have hform : ∀ k, x k = A ^ k *ᵥ x 0 + ∑ j ∈ Finset.range k, A ^ j *ᵥ v (k - 1 - j) := fun k => by
    induction k with
    | zero => simp
    | succ k ih =>
      rw [hx, ih, Finset.sum_range_succ', Matrix.mulVec_add, mulVec_mulVec, ← pow_succ', Matrix.mulVec_sum]
      simp only [pow_zero, one_mulVec, mulVec_mulVec, ← pow_succ']
      rw [add_assoc]
      congr 2
      · refine Finset.sum_congr rfl fun j hj => ?_
        have := Finset.mem_range.mp hj
        congr 2
        omega
  refine ⟨(∑' k, s k) * ‖x 0‖ + (∑' k, s k) * b, fun k => ?_⟩
  rw [hform k]
  refine (norm_add_le _ _).trans (add_le_add ((hb k _).trans (mul_le_mul_of_nonneg_right (hsum.le_tsum k fun j _ => hs0 j) (norm_nonneg _))) ?_)
  refine (norm_sum_le _ _).trans ?_
  calc ∑ j ∈ Finset.range k, ‖A ^ j *ᵥ v (k - 1 - j)‖ ≤ ∑ j ∈ Finset.range k, s j * b := Finset.sum_le_sum fun j _ => (hb j _).trans (mul_le_mul_of_nonneg_left (hv _) (hs0 j))
    _ = (∑ j ∈ Finset.range k, s j) * b := by rw [Finset.sum_mul]
    _ ≤ _ := mul_le_mul_of_nonneg_right (hsum.sum_le_tsum _ fun j _ => hs0 j) hb0

theorem isEig_smul {r : ℝ} (hr : r ≠ 0) {s : ℂ} : IsEig (r⁻¹ • A) s ↔ IsEig A (r * s) := by
  have hc : (r : ℂ) ≠ 0 := Complex.ofReal_ne_zero.mpr hr
  have e : ((r : ℂ) * s) • (1 : Matrix (Fin n) (Fin n) ℂ) - A.map (algebraMap ℝ ℂ) = (r : ℂ) • (s • (1 : Matrix (Fin n) (Fin n) ℂ) - (r⁻¹ • A).map (algebraMap ℝ ℂ)) := by
    ext i j
    simp only [Matrix.sub_apply, Matrix.smul_apply, Matrix.map_apply, smul_eq_mul, Complex.coe_algebraMap, Complex.ofReal_mul, Complex.ofReal_inv]
    field_simp
  unfold IsEig
  rw [e, det_smul, mul_eq_zero]
  exact ⟨Or.inr, fun h => h.resolve_left (pow_ne_zero _ hc)⟩

/-- Inputs bounded by `c r ^ k` give states bounded by `c' r ^ k` if all eigenvalues are in the disc of radius `r`. -/
theorem states_growth {r : ℝ} (hr : 0 < r) (hA : ∀ s, IsEig A s → ‖s‖ < r) {v : ℕ → Fin n → ℝ} {b : ℝ} (hv : ∀ k, ‖v k‖ ≤ b * r ^ k) {x : ℕ → Fin n → ℝ} (hx : ∀ k, x (k + 1) = A *ᵥ x k + v k) :
    ∃ c, ∀ k, ‖x k‖ ≤ c * r ^ k := by
  have hS : Schur (r⁻¹ • A) := fun s hs => by
    have h1 := hA _ ((isEig_smul hr.ne').mp hs)
    rw [norm_mul, Complex.norm_real, Real.norm_eq_abs, abs_of_pos hr] at h1
    nlinarith
  obtain ⟨c, hc⟩ := states_bounded hS (v := fun k => (r⁻¹ ^ (k + 1)) • v k) (b := b * r⁻¹) (fun k => by
    have hp : 0 < r⁻¹ ^ (k + 1) := by positivity
    rw [norm_smul, Real.norm_eq_abs, abs_of_pos hp]
    calc r⁻¹ ^ (k + 1) * ‖v k‖ ≤ r⁻¹ ^ (k + 1) * (b * r ^ k) := mul_le_mul_of_nonneg_left (hv k) hp.le
      _ = b * r⁻¹ := by rw [pow_succ, inv_pow]; field_simp) (x := fun k => (r⁻¹ ^ k) • x k) (fun k => by
    rw [hx, smul_add, smul_mulVec, mulVec_smul, smul_smul, pow_succ, mul_comm (r⁻¹ ^ k) r⁻¹])
  refine ⟨c, fun k => ?_⟩
  have hp : 0 < r⁻¹ ^ k := by positivity
  have h1 := hc k
  rw [norm_smul, Real.norm_eq_abs, abs_of_pos hp, inv_pow] at h1
  rwa [inv_mul_le_iff₀ (by positivity), mul_comm] at h1

end Harold
