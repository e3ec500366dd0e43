import Verif.Spec.Margins
import Verif.Props.LqrLoop
import Verif.Props.SmallGain

/-!
# C102: the robustness margins of `lqr`
-/

namespace Harold

open Matrix Harold.Spec

variable {n m p : ℕ}

theorem parts_mulVec_add {A : Matrix (Fin n) (Fin n) ℝ} {B : Matrix (Fin n) (Fin m) ℝ} {z : ℂ} {x : Fin n → ℂ} {u : Fin m → ℂ}
    (h : A.map (algebraMap ℝ ℂ) *ᵥ x + B.map (algebraMap ℝ ℂ) *ᵥ u = z • x) :
    A *ᵥ (fun i => (x i).re) + B *ᵥ (fun i => (u i).re) = z.re • (fun i => (x i).re) - z.im • (fun i => (x i).im) ∧
      A *ᵥ (fun i => (x i).im) + B *ᵥ (fun i => (u i).im) = z.re • (fun i => (x i).im) + z.im • (fun i => (x i).re) := by
  obtain ⟨a1, a2⟩ := map_mulVec_parts A x
  obtain ⟨b1, b2⟩ := map_mulVec_parts B u
  constructor <;> funext i
  · have := congrArg Complex.re (congrFun h i)
    rw [Pi.add_apply, Complex.add_re, Pi.smul_apply, smul_eq_mul, Complex.mul_re] at this
    rw [Pi.add_apply, ← a1, ← b1]
    exact this
  · have := congrArg Complex.im (congrFun h i)
    rw [Pi.add_apply, Complex.add_im, Pi.smul_apply, smul_eq_mul, Complex.mul_im, add_comm (z.re * _)] at this
    rw [Pi.add_apply, ← a2, ← b2]
    simp only [Pi.add_apply, Pi.smul_apply, smul_eq_mul]
    linarith

/-- The Riccati equation along a complex motion `x exp(z t)` with the input `u exp(z t)`. -/
theorem care_energy {A X Q : Matrix (Fin n) (Fin n) ℝ} {B : Matrix (Fin n) (Fin m) ℝ} {R : Matrix (Fin m) (Fin m) ℝ}
    (hX : Xᵀ = X) (hR : Rᵀ = R) (hd : R.det ≠ 0) (h : Aᵀ * X + X * A - (X * B + 0) * R⁻¹ * (Bᵀ * X + (0 : Matrix (Fin n) (Fin m) ℝ)ᵀ) + Q = 0)
    {z : ℂ} {x : Fin n → ℂ} {u : Fin m → ℂ} (hz : A.map (algebraMap ℝ ℂ) *ᵥ x + B.map (algebraMap ℝ ℂ) *ᵥ u = z • x) :
    2 * z.re * energy X x + energy Q x + energy R u = energy R (u + (R⁻¹ * (Bᵀ * X + (0 : Matrix (Fin n) (Fin m) ℝ)ᵀ)).map (algebraMap ℝ ℂ) *ᵥ x) := by
  set Kg := R⁻¹ * (Bᵀ * X + (0 : Matrix (Fin n) (Fin m) ℝ)ᵀ) with hKg
  obtain ⟨p1, p2⟩ := parts_mulVec_add hz
  obtain ⟨k1, k2⟩ := map_mulVec_parts Kg x
  have e1 := care_square hX hR hd h (fun i => (x i).re) (fun i => (u i).re)
  have e2 := care_square hX hR hd h (fun i => (x i).im) (fun i => (u i).im)
  rw [← hKg, p1] at e1
  rw [← hKg, p2] at e2
  have f1 : (fun i => ((u + Kg.map (algebraMap ℝ ℂ) *ᵥ x) i).re) = (fun i => (u i).re) + Kg *ᵥ (fun i => (x i).re) := by
    rw [← k1]; rfl
  have f2 : (fun i => ((u + Kg.map (algebraMap ℝ ℂ) *ᵥ x) i).im) = (fun i => (u i).im) + Kg *ᵥ (fun i => (x i).im) := by
    rw [← k2]; rfl
  unfold energy
  rw [f1, f2, ← e1, ← e2]
  simp only [cost, mulVec_add, mulVec_sub, mulVec_smul, dotProduct_add, dotProduct_sub, add_dotProduct, sub_dotProduct, dotProduct_smul, smul_dotProduct, smul_eq_mul,
    quad_comm hX (fun i => (x i).re) (fun i => (x i).im), transpose_zero, zero_mulVec, dotProduct_zero]
  ring

theorem energy_nonneg {R : Matrix (Fin m) (Fin m) ℝ} (h : ∀ v, 0 ≤ v ⬝ᵥ R *ᵥ v) (w : Fin m → ℂ) : 0 ≤ energy R w := add_nonneg (h _) (h _)

/-- **C102, return difference**: at every frequency that is not a pole, the loop transfer matrix `L = K (iω - A)⁻¹ B` of the regulator satisfies `(I + L)* R (I + L) ≥ R`. -/
theorem C102_return_difference (N : AreNum ℝ) (A : Matrix (Fin n) (Fin n) ℝ) (B : Matrix (Fin n) (Fin m) ℝ) (C : Matrix (Fin p) (Fin n) ℝ) (D : Matrix (Fin p) (Fin m) ℝ)
    (Q : Matrix (Fin n) (Fin n) ℝ) (R : Option (Matrix (Fin m) (Fin m) ℝ)) (w : List Char) (hw : w ≠ "output".toList) (hN : CareOk N A B Q (R.getD 1) none) {Kg : Matrix (Fin m) (Fin n) ℝ} {x acl : Arr ℝ}
    (h : lqr N (stateOf A B C D none) (Arr.of Q) (R.map Arr.of) none w = .ok (Arr.of Kg, x, acl)) (hQ : ∀ v, 0 ≤ v ⬝ᵥ Q *ᵥ v) (ω : ℝ) (L : Matrix (Fin m) (Fin m) ℂ)
    (hL : HasTF (stateOf A B Kg 0 none) m m (evalPoint none ω) L) (v : Fin m → ℂ) : energy (R.getD 1) v ≤ energy (R.getD 1) ((1 + L) *ᵥ v) := by
  obtain ⟨X, hx, hX, hR, hd, hk, hacl, e⟩ := lqr_cont_parts (S := none) N hw hN h
  have hk := Arr.of_inj.1 hk
  obtain ⟨n', A', B', C', D', hA, hB, hC, hD, hT⟩ := dyn_elim hL rfl
  obtain rfl : n = n' := congrArg Arr.r hA
  obtain rfl := Arr.of_inj.mp hA
  obtain rfl := Arr.of_inj.mp hB
  obtain rfl := Arr.of_inj.mp hC
  obtain rfl := Arr.of_inj.mp hD
  obtain ⟨-, Z, hZ, hLZ⟩ := isTF_iff_sol.mp hT
  have hz : A.map (algebraMap ℝ ℂ) *ᵥ (Z *ᵥ v) + B.map (algebraMap ℝ ℂ) *ᵥ v = evalPoint none ω • (Z *ᵥ v) := by
    have := congrArg (· *ᵥ v) hZ
    simp only [← mulVec_mulVec, sub_mulVec, smul_mulVec, one_mulVec] at this
    rw [← this]
    abel
  have key := care_energy hX hR hd e hz
  rw [show (none : Option (Matrix (Fin n) (Fin m) ℝ)).getD 0 = 0 from rfl] at hk
  rw [← hk] at key
  have hre : (evalPoint none ω).re = 0 := by simp [evalPoint]
  have hv : (1 + L) *ᵥ v = v + Kg.map (algebraMap ℝ ℂ) *ᵥ (Z *ᵥ v) := by
    rw [hLZ]
    simp [add_mulVec, mulVec_mulVec]
  rw [hv, ← key, hre]
  have := energy_nonneg hQ (Z *ᵥ v)
  linarith

/-- **C102 for one input**: `|1 + L(iω)| ≥ 1`, the Nyquist plot of the loop stays out of the open unit disc around `-1`. -/
theorem C102_single_input (N : AreNum ℝ) (A : Matrix (Fin n) (Fin n) ℝ) (B : Matrix (Fin n) (Fin 1) ℝ) (C : Matrix (Fin p) (Fin n) ℝ) (D : Matrix (Fin p) (Fin 1) ℝ)
    (Q : Matrix (Fin n) (Fin n) ℝ) (R : Option (Matrix (Fin 1) (Fin 1) ℝ)) (w : List Char) (hw : w ≠ "output".toList) (hN : CareOk N A B Q (R.getD 1) none) {Kg : Matrix (Fin 1) (Fin n) ℝ} {x acl : Arr ℝ}
    (h : lqr N (stateOf A B C D none) (Arr.of Q) (R.map Arr.of) none w = .ok (Arr.of Kg, x, acl)) (hQ : ∀ v, 0 ≤ v ⬝ᵥ Q *ᵥ v) (hR : 0 < R.getD 1 0 0) (ω : ℝ) (L : Matrix (Fin 1) (Fin 1) ℂ)
    (hL : HasTF (stateOf A B Kg 0 none) 1 1 (evalPoint none ω) L) : 1 ≤ ‖1 + L 0 0‖ := by
  have key := C102_return_difference N A B C D Q R w hw hN h hQ ω L hL (fun _ => 1)
  simp only [energy, mulVec, dotProduct, Fin.sum_univ_one, Matrix.add_apply, Matrix.one_apply_eq, mul_one, Complex.one_re, Complex.one_im, one_mul, mul_zero, zero_mul, add_zero] at key
  have h1 : 1 ≤ (1 + L 0 0).re ^ 2 + (1 + L 0 0).im ^ 2 := by nlinarith
  rw [← Complex.normSq_add_mul_I, Complex.re_add_im, Complex.normSq_eq_norm_sq] at h1
  nlinarith [norm_nonneg (1 + L 0 0)]

/-- A solution of the Riccati equation with a stable closed loop is not negative. -/
theorem lqr_psd (N : AreNum ℝ) {A : Matrix (Fin n) (Fin n) ℝ} {B : Matrix (Fin n) (Fin m) ℝ} {C : Matrix (Fin p) (Fin n) ℝ} {D : Matrix (Fin p) (Fin m) ℝ}
    {Q : Matrix (Fin n) (Fin n) ℝ} {R : Option (Matrix (Fin m) (Fin m) ℝ)} {w : List Char} (hw : w ≠ "output".toList) (hN : CareOk N A B Q (R.getD 1) none) {X Acl : Matrix (Fin n) (Fin n) ℝ} {k : Arr ℝ}
    (h : lqr N (stateOf A B C D none) (Arr.of Q) (R.map Arr.of) none w = .ok (k, Arr.of X, Arr.of Acl)) (hQ : ∀ v, 0 ≤ v ⬝ᵥ Q *ᵥ v) (hR : ∀ u, u ≠ 0 → 0 < u ⬝ᵥ R.getD 1 *ᵥ u) (hH : Hurwitz Acl) (v : Fin n → ℝ) :
    0 ≤ v ⬝ᵥ X *ᵥ v := by
  obtain ⟨X', hx, hX, hR', hd, hk, hacl, e⟩ := lqr_cont_parts (S := none) N hw hN h
  obtain rfl := Arr.of_inj.1 hx
  obtain rfl := Arr.of_inj.1 hacl
  refine psd_of_hurwitz (c := fun x => cost Q 0 (R.getD 1) x (-(((R.getD 1)⁻¹ * (Bᵀ * X + (0 : Matrix (Fin n) (Fin m) ℝ)ᵀ)) *ᵥ x))) hH (fun x => ?_) (fun x => ?_) v
  · have := care_square hX hR' hd e x (-(((R.getD 1)⁻¹ * (Bᵀ * X + (0 : Matrix (Fin n) (Fin m) ℝ)ᵀ)) *ᵥ x))
    rw [show (none : Option (Matrix (Fin n) (Fin m) ℝ)).getD 0 = 0 from rfl] at this ⊢
    rw [neg_add_cancel, zero_dotProduct, ← loop_mulVec] at this
    linarith
  · have hu : ∀ u, 0 ≤ u ⬝ᵥ R.getD 1 *ᵥ u := fun u => by
      by_cases hu : u = 0
      · simp [hu]
      · exact (hR u hu).le
    simpa [cost] using add_nonneg (hQ x) (hu (-(((R.getD 1)⁻¹ * (Bᵀ * X + (0 : Matrix (Fin n) (Fin m) ℝ)ᵀ)) *ᵥ x)))

/-- **C102, margins**: the loop stays stable if the actuators do `u = -Δ K x` instead of `u = -K x`, for every complex matrix `Δ` with `(w - Δw)* R (w - Δw) < (Δw)* R (Δw)` for `w ≠ 0`: all eigenvalues of
`A - B Δ K` are in the open left half plane. -/
theorem C102_margins (N : AreNum ℝ) (A : Matrix (Fin n) (Fin n) ℝ) (B : Matrix (Fin n) (Fin m) ℝ) (C : Matrix (Fin p) (Fin n) ℝ) (D : Matrix (Fin p) (Fin m) ℝ)
    (Q : Matrix (Fin n) (Fin n) ℝ) (R : Option (Matrix (Fin m) (Fin m) ℝ)) (w : List Char) (hw : w ≠ "output".toList) (hN : CareOk N A B Q (R.getD 1) none) {Kg : Matrix (Fin m) (Fin n) ℝ}
    {X Acl : Matrix (Fin n) (Fin n) ℝ} (h : lqr N (stateOf A B C D none) (Arr.of Q) (R.map Arr.of) none w = .ok (Arr.of Kg, Arr.of X, Arr.of Acl)) (hQ : ∀ v, 0 ≤ v ⬝ᵥ Q *ᵥ v)
    (hR : ∀ u, u ≠ 0 → 0 < u ⬝ᵥ R.getD 1 *ᵥ u) (hH : Hurwitz Acl) (Δ : Matrix (Fin m) (Fin m) ℂ) (hΔ : ∀ v, v ≠ 0 → energy (R.getD 1) (v - Δ *ᵥ v) < energy (R.getD 1) (Δ *ᵥ v)) (z : ℂ)
    (hz : (z • (1 : Matrix (Fin n) (Fin n) ℂ) - (A.map (algebraMap ℝ ℂ) - B.map (algebraMap ℝ ℂ) * Δ * Kg.map (algebraMap ℝ ℂ))).det = 0) : z.re < 0 := by
  have hpsd := lqr_psd N hw hN h hQ hR hH
  obtain ⟨X', hx, hX, hR', hd, hk, hacl, e⟩ := lqr_cont_parts (S := none) N hw hN h
  obtain rfl := Arr.of_inj.1 hx
  rw [show (none : Option (Matrix (Fin n) (Fin m) ℝ)).getD 0 = 0 from rfl] at hk e hacl
  have hk := Arr.of_inj.1 hk
  have hacl := Arr.of_inj.1 hacl
  obtain ⟨v, hv, hv0⟩ := exists_mulVec_eq_zero_iff.mpr hz
  by_contra hneg
  push Not at hneg
  set y := Kg.map (algebraMap ℝ ℂ) *ᵥ v with hy
  have hm : A.map (algebraMap ℝ ℂ) *ᵥ v + B.map (algebraMap ℝ ℂ) *ᵥ (-(Δ *ᵥ y)) = z • v := by
    rw [sub_mulVec, smul_mulVec, one_mulVec, sub_mulVec, ← mulVec_mulVec, ← mulVec_mulVec, ← hy, sub_eq_zero] at hv0
    rw [hv0, mulVec_neg]
    abel
  have key := care_energy hX hR' hd e hm
  rw [← hk, ← hy] at key
  have e1 : energy (R.getD 1) (-(Δ *ᵥ y)) = energy (R.getD 1) (Δ *ᵥ y) := by
    have g1 : (fun i => ((-(Δ *ᵥ y)) i).re) = -(fun i => ((Δ *ᵥ y) i).re) := rfl
    have g2 : (fun i => ((-(Δ *ᵥ y)) i).im) = -(fun i => ((Δ *ᵥ y) i).im) := rfl
    simp only [energy, g1, g2, mulVec_neg, neg_dotProduct, dotProduct_neg, neg_neg]
  rw [e1, neg_add_eq_sub] at key
  have e2 := energy_nonneg hpsd v
  have e3 := energy_nonneg hQ v
  have e4 : 0 ≤ z.re * energy X v := mul_nonneg hneg e2
  by_cases hy0 : y = 0
  · -- the loop is not closed along `v`, so `v` is a motion of the nominal loop
    refine absurd (hH z ?_) (not_lt.mpr hneg)
    rw [IsEig]
    refine exists_mulVec_eq_zero_iff.mp ⟨v, hv, ?_⟩
    rw [hacl, ← hk]
    have : (A - B * Kg).map (algebraMap ℝ ℂ) = A.map (algebraMap ℝ ℂ) - B.map (algebraMap ℝ ℂ) * Kg.map (algebraMap ℝ ℂ) := by
      rw [Matrix.map_sub _ (fun a b => map_sub _ a b), Matrix.map_mul]
    rw [this, sub_mulVec, sub_mulVec, ← mulVec_mulVec, ← hy, hy0, mulVec_zero, smul_mulVec, one_mulVec, ← hm, hy0]
    simp
  · have := hΔ y hy0
    linarith

theorem energy_smul {R : Matrix (Fin m) (Fin m) ℝ} (hR : Rᵀ = R) (g : ℂ) (w : Fin m → ℂ) : energy R (g • w) = ‖g‖ ^ 2 * energy R w := by
  have e1 : (fun i => ((g • w) i).re) = g.re • (fun i => (w i).re) - g.im • (fun i => (w i).im) := by
    funext i; simp
  have e2 : (fun i => ((g • w) i).im) = g.re • (fun i => (w i).im) + g.im • (fun i => (w i).re) := by
    funext i; simp
  unfold energy
  rw [e1, e2, ← Complex.normSq_eq_norm_sq, Complex.normSq_apply]
  simp only [mulVec_add, mulVec_sub, mulVec_smul, dotProduct_add, dotProduct_sub, add_dotProduct, sub_dotProduct, dotProduct_smul, smul_dotProduct, smul_eq_mul,
    quad_comm hR (fun i => (w i).re) (fun i => (w i).im)]
  ring

theorem energy_pos {R : Matrix (Fin m) (Fin m) ℝ} (h : ∀ u, u ≠ 0 → 0 < u ⬝ᵥ R *ᵥ u) {w : Fin m → ℂ} (hw : w ≠ 0) : 0 < energy R w := by
  have h0 : ∀ u, 0 ≤ u ⬝ᵥ R *ᵥ u := fun u => by
    by_cases hu : u = 0
    · simp [hu]
    · exact (h u hu).le
  by_contra hneg
  have h1 := h0 fun i => (w i).re
  have h2 := h0 fun i => (w i).im
  unfold energy at hneg
  refine hw (vec_zero_of_parts ?_ ?_)
  · by_contra hne
    linarith [h _ hne]
  · by_contra hne
    linarith [h _ hne]

theorem norm_lt_of_half {g : ℂ} (h : 1 / 2 < g.re) : ‖1 - g‖ ^ 2 < ‖g‖ ^ 2 := by
  rw [← Complex.normSq_eq_norm_sq, ← Complex.normSq_eq_norm_sq, Complex.normSq_apply, Complex.normSq_apply]
  simp
  nlinarith

/-- **C102, gain and phase margins**: the loop gain may be multiplied by any complex `g` with real part above `1/2`: by any real factor above one half, and by `exp(iφ)` for `|φ| < 60°`. -/
theorem C102_gain_phase (N : AreNum ℝ) (A : Matrix (Fin n) (Fin n) ℝ) (B : Matrix (Fin n) (Fin m) ℝ) (C : Matrix (Fin p) (Fin n) ℝ) (D : Matrix (Fin p) (Fin m) ℝ)
    (Q : Matrix (Fin n) (Fin n) ℝ) (R : Option (Matrix (Fin m) (Fin m) ℝ)) (w : List Char) (hw : w ≠ "output".toList) (hN : CareOk N A B Q (R.getD 1) none) {Kg : Matrix (Fin m) (Fin n) ℝ}
    {X Acl : Matrix (Fin n) (Fin n) ℝ} (h : lqr N (stateOf A B C D none) (Arr.of Q) (R.map Arr.of) none w = .ok (Arr.of Kg, Arr.of X, Arr.of Acl)) (hQ : ∀ v, 0 ≤ v ⬝ᵥ Q *ᵥ v)
    (hR : ∀ u, u ≠ 0 → 0 < u ⬝ᵥ R.getD 1 *ᵥ u) (hH : Hurwitz Acl) (g : ℂ) (hg : 1 / 2 < g.re) (z : ℂ)
    (hz : (z • (1 : Matrix (Fin n) (Fin n) ℂ) - (A.map (algebraMap ℝ ℂ) - g • (B.map (algebraMap ℝ ℂ) * Kg.map (algebraMap ℝ ℂ)))).det = 0) : z.re < 0 := by
  have hRT : (R.getD 1)ᵀ = R.getD 1 := by
    obtain ⟨X', -, -, hR', -⟩ := lqr_cont_parts (S := none) N hw hN h
    exact hR'
  refine C102_margins N A B C D Q R w hw hN h hQ hR hH (g • 1) (fun v hv => ?_) z ?_
  · rw [smul_mulVec, one_mulVec]
    have e1 : v - g • v = (1 - g) • v := by rw [sub_smul, one_smul]
    rw [e1, energy_smul hRT, energy_smul hRT]
    exact mul_lt_mul_of_pos_right (norm_lt_of_half hg) (energy_pos hR hv)
  · rwa [Matrix.mul_smul, Matrix.mul_one, Matrix.smul_mul]

/-- **C102, margins of the channels**: if `R` is diagonal, each input may have its own factor with real part above `1/2`. -/
theorem C102_channels (N : AreNum ℝ) (A : Matrix (Fin n) (Fin n) ℝ) (B : Matrix (Fin n) (Fin m) ℝ) (C : Matrix (Fin p) (Fin n) ℝ) (D : Matrix (Fin p) (Fin m) ℝ)
    (Q : Matrix (Fin n) (Fin n) ℝ) (R : Option (Matrix (Fin m) (Fin m) ℝ)) (w : List Char) (hw : w ≠ "output".toList) (hN : CareOk N A B Q (R.getD 1) none) {Kg : Matrix (Fin m) (Fin n) ℝ}
    {X Acl : Matrix (Fin n) (Fin n) ℝ} (h : lqr N (stateOf A B C D none) (Arr.of Q) (R.map Arr.of) none w = .ok (Arr.of Kg, Arr.of X, Arr.of Acl)) (hQ : ∀ v, 0 ≤ v ⬝ᵥ Q *ᵥ v)
    (r : Fin m → ℝ) (hr : ∀ i, 0 < r i) (hRr : R.getD 1 = diagonal r) (hH : Hurwitz Acl) (g : Fin m → ℂ) (hg : ∀ i, 1 / 2 < (g i).re) (z : ℂ)
    (hz : (z • (1 : Matrix (Fin n) (Fin n) ℂ) - (A.map (algebraMap ℝ ℂ) - B.map (algebraMap ℝ ℂ) * diagonal g * Kg.map (algebraMap ℝ ℂ))).det = 0) : z.re < 0 := by
  have hen : ∀ v : Fin m → ℂ, energy (R.getD 1) v = ∑ i, r i * ‖v i‖ ^ 2 := by
    intro v
    unfold energy
    rw [hRr]
    simp only [dotProduct, mulVec_diagonal, ← Finset.sum_add_distrib]
    refine Finset.sum_congr rfl fun i _ => ?_
    rw [← Complex.normSq_eq_norm_sq, Complex.normSq_apply]
    ring
  refine C102_margins N A B C D Q R w hw hN h hQ (fun u hu => ?_) hH (diagonal g) (fun v hv => ?_) z hz
  · rw [hRr]
    simp only [dotProduct, mulVec_diagonal]
    obtain ⟨i, hi⟩ := Function.ne_iff.mp hu
    refine Finset.sum_pos' (fun j _ => ?_) ⟨i, Finset.mem_univ _, ?_⟩
    · nlinarith [mul_nonneg (hr j).le (mul_self_nonneg (u j))]
    · nlinarith [mul_pos (hr i) (mul_self_pos.mpr hi)]
  · rw [hen, hen]
    obtain ⟨i, hi⟩ := Function.ne_iff.mp hv
    have key : ∀ j, r j * ‖(v - diagonal g *ᵥ v) j‖ ^ 2 = r j * ‖v j‖ ^ 2 * ‖1 - g j‖ ^ 2 ∧ r j * ‖(diagonal g *ᵥ v) j‖ ^ 2 = r j * ‖v j‖ ^ 2 * ‖g j‖ ^ 2 := by
      intro j
      rw [Pi.sub_apply, mulVec_diagonal, norm_mul]
      have : v j - g j * v j = (1 - g j) * v j := by ring
      rw [this, norm_mul]
      constructor <;> ring
    refine Finset.sum_lt_sum (fun j _ => ?_) ⟨i, Finset.mem_univ _, ?_⟩
    · rw [(key j).1, (key j).2]
      exact mul_le_mul_of_nonneg_left (norm_lt_of_half (hg j)).le (mul_nonneg (hr j).le (sq_nonneg _))
    · rw [(key i).1, (key i).2]
      exact mul_lt_mul_of_pos_left (norm_lt_of_half (hg i)) (mul_pos (hr i) (pow_pos (norm_pos_iff.mpr hi) 2))

/-- **C102 with `feedback`**: `feedback(State(A, B, g K), eye(m))` returns a stable model for every `g > 1/2`. -/
theorem C102_loop (N : AreNum ℝ) (A : Matrix (Fin n) (Fin n) ℝ) (B : Matrix (Fin n) (Fin m) ℝ) (C : Matrix (Fin p) (Fin n) ℝ) (D : Matrix (Fin p) (Fin m) ℝ)
    (Q : Matrix (Fin n) (Fin n) ℝ) (R : Option (Matrix (Fin m) (Fin m) ℝ)) (w : List Char) (hw : w ≠ "output".toList) (hN : CareOk N A B Q (R.getD 1) none) {Kg : Matrix (Fin m) (Fin n) ℝ}
    {X Acl : Matrix (Fin n) (Fin n) ℝ} (h : lqr N (stateOf A B C D none) (Arr.of Q) (R.map Arr.of) none w = .ok (Arr.of Kg, Arr.of X, Arr.of Acl)) (hQ : ∀ v, 0 ≤ v ⬝ᵥ Q *ᵥ v)
    (hR : ∀ u, u ≠ 0 → 0 < u ⬝ᵥ R.getD 1 *ᵥ u) (hH : Hurwitz Acl) (hm : (m * spacing10 : ℝ) < 1) (g : ℝ) (hg : 1 / 2 < g) :
    ∃ F, feedback (.state (stateOf A B (g • Kg) 0 none)) (.gain (.arr (Arr.of (1 : Matrix (Fin m) (Fin m) ℝ)))) true = .ok F ∧ StableModel F := by
  have e0 : (1 : Matrix (Fin m) (Fin m) ℝ) * 0 = 0 := Matrix.mul_zero _
  have hsv : ¬ HasSVAtMost (m * spacing10 : ℝ) (1 - (1 : Matrix (Fin m) (Fin m) ℝ) * 0) := by
    rw [e0, sub_zero]
    exact not_sv_one (by unfold spacing10; positivity) hm
  have e1 : feedback (.state (stateOf A B (g • Kg) 0 none)) (.gain (.arr (Arr.of (1 : Matrix (Fin m) (Fin m) ℝ)))) true
      = closeLoop (stateOf A B (g • Kg) 0 none) ⟨Arr.empty, Arr.empty, Arr.empty, Arr.of (1 : Matrix (Fin m) (Fin m) ℝ), none, true⟩ true := by
    simp [feedback, checkFeedbackIc, gainState_eq _ dtOk_none, Gain.toArr, stateOf, StateM.p, StateM.m, Bind.bind, Except.bind]
  refine ⟨_, e1.trans ((closeLoop_of _ _ 0 1 rfl rfl hsv true).trans (closeBody_ds dtOk_none _ _ _ _ _ _ _ _ _ _ (det_ne_zero_of_not_sv hsv) _)), ?_⟩
  refine Or.inr ⟨n, _, rfl, motions_iff.mpr fun z hz => ?_⟩
  have hre : z.re < 0 := by
    refine C102_gain_phase N A B C D Q R w hw hN h hQ hR hH g (by simpa using hg) z ?_
    rw [IsEig] at hz
    rw [← hz]
    congr 2
    rw [e0, sub_zero, inv_one, Matrix.one_mul, Matrix.one_mul, show (fbSign true : ℝ) = -1 from rfl, neg_one_smul, Matrix.neg_mul, ← sub_eq_add_neg, Matrix.map_sub _ (fun a b => map_sub _ a b), Matrix.mul_smul]
    congr 1
    ext i j
    simp [Matrix.mul_apply, Matrix.map_apply, Matrix.smul_apply]
  simpa [StablePoint] using hre

/-- The Riccati equation along a complex motion in discrete time. -/
theorem dare_energy {A X Q : Matrix (Fin n) (Fin n) ℝ} {B : Matrix (Fin n) (Fin m) ℝ} {R : Matrix (Fin m) (Fin m) ℝ}
    (hX : Xᵀ = X) (hR : Rᵀ = R) (hd : (R + Bᵀ * X * B).det ≠ 0)
    (h : Aᵀ * X * A - X - (Aᵀ * X * B + 0) * (R + Bᵀ * X * B)⁻¹ * (Bᵀ * X * A + (0 : Matrix (Fin n) (Fin m) ℝ)ᵀ) + Q = 0)
    {z : ℂ} {x : Fin n → ℂ} {u : Fin m → ℂ} (hz : A.map (algebraMap ℝ ℂ) *ᵥ x + B.map (algebraMap ℝ ℂ) *ᵥ u = z • x) :
    (‖z‖ ^ 2 - 1) * energy X x + energy Q x + energy R u
      = energy (R + Bᵀ * X * B) (u + ((R + Bᵀ * X * B)⁻¹ * (Bᵀ * X * A + (0 : Matrix (Fin n) (Fin m) ℝ)ᵀ)).map (algebraMap ℝ ℂ) *ᵥ x) := by
  set Kg := (R + Bᵀ * X * B)⁻¹ * (Bᵀ * X * A + (0 : Matrix (Fin n) (Fin m) ℝ)ᵀ) with hKg
  obtain ⟨p1, p2⟩ := parts_mulVec_add hz
  obtain ⟨k1, k2⟩ := map_mulVec_parts Kg x
  have e1 := dare_square hX hR hd h (fun i => (x i).re) (fun i => (u i).re)
  have e2 := dare_square hX hR hd h (fun i => (x i).im) (fun i => (u i).im)
  rw [← hKg, p1] at e1
  rw [← hKg, p2] at e2
  have f1 : (fun i => ((u + Kg.map (algebraMap ℝ ℂ) *ᵥ x) i).re) = (fun i => (u i).re) + Kg *ᵥ (fun i => (x i).re) := by
    rw [← k1]; rfl
  have f2 : (fun i => ((u + Kg.map (algebraMap ℝ ℂ) *ᵥ x) i).im) = (fun i => (u i).im) + Kg *ᵥ (fun i => (x i).im) := by
    rw [← k2]; rfl
  rw [← Complex.normSq_eq_norm_sq, Complex.normSq_apply]
  unfold energy
  rw [f1, f2, ← e1, ← e2]
  simp only [cost, mulVec_add, mulVec_sub, mulVec_smul, dotProduct_add, dotProduct_sub, add_dotProduct, sub_dotProduct, dotProduct_smul, smul_dotProduct, smul_eq_mul,
    quad_comm hX (fun i => (x i).re) (fun i => (x i).im), transpose_zero, zero_mulVec, dotProduct_zero]
  ring

/-- **C102, return difference in discrete time**: `(I + L)* (R + B'XB) (I + L) ≥ R` on the unit circle, for `L = K (z - A)⁻¹ B`. The hypotheses are those of `C57_discrete` and are met by the example there. -/
theorem C102_return_difference_discrete (N : AreNum ℝ) (A : Matrix (Fin n) (Fin n) ℝ) (B : Matrix (Fin n) (Fin m) ℝ) (C : Matrix (Fin p) (Fin n) ℝ) (D : Matrix (Fin p) (Fin m) ℝ) (dt : ℝ)
    (Q : Matrix (Fin n) (Fin n) ℝ) (R : Option (Matrix (Fin m) (Fin m) ℝ)) (w : List Char) (hw : w ≠ "output".toList) (hN : DareOk N A B Q (R.getD 1) none) {Kg : Matrix (Fin m) (Fin n) ℝ}
    {X : Matrix (Fin n) (Fin n) ℝ} {acl : Arr ℝ} (h : lqr N (stateOf A B C D (some dt)) (Arr.of Q) (R.map Arr.of) none w = .ok (Arr.of Kg, Arr.of X, acl)) (hQ : ∀ v, 0 ≤ v ⬝ᵥ Q *ᵥ v) (ω : ℝ)
    (L : Matrix (Fin m) (Fin m) ℂ) (hL : HasTF (stateOf A B Kg 0 (some dt)) m m (evalPoint (some dt) ω) L) (v : Fin m → ℂ) :
    energy (R.getD 1) v ≤ energy (R.getD 1 + Bᵀ * X * B) ((1 + L) *ᵥ v) := by
  obtain ⟨X', hx, hX, hR, hd, hk, hacl, e⟩ := lqr_disc_parts (S := none) N hw hN h
  obtain rfl := Arr.of_inj.1 hx
  have hk := Arr.of_inj.1 hk
  obtain ⟨n', A', B', C', D', hA, hB, hC, hD, hT⟩ := dyn_elim hL rfl
  obtain rfl : n = n' := congrArg Arr.r hA
  obtain rfl := Arr.of_inj.mp hA
  obtain rfl := Arr.of_inj.mp hB
  obtain rfl := Arr.of_inj.mp hC
  obtain rfl := Arr.of_inj.mp hD
  obtain ⟨-, Z, hZ, hLZ⟩ := isTF_iff_sol.mp hT
  have hz : A.map (algebraMap ℝ ℂ) *ᵥ (Z *ᵥ v) + B.map (algebraMap ℝ ℂ) *ᵥ v = evalPoint (some dt) ω • (Z *ᵥ v) := by
    have := congrArg (· *ᵥ v) hZ
    simp only [← mulVec_mulVec, sub_mulVec, smul_mulVec, one_mulVec] at this
    rw [← this]
    abel
  have key := dare_energy hX hR hd e hz
  rw [show (none : Option (Matrix (Fin n) (Fin m) ℝ)).getD 0 = 0 from rfl] at hk
  rw [← hk] at key
  have hn : ‖evalPoint (some dt) ω‖ = 1 := by
    have : evalPoint (some dt) ω = Complex.exp ((ω * dt : ℝ) * Complex.I) := by
      simp only [evalPoint, Option.elim]
      congr 1
      push_cast
      ring
    rw [this, Complex.norm_exp_ofReal_mul_I]
  have hv : (1 + L) *ᵥ v = v + Kg.map (algebraMap ℝ ℂ) *ᵥ (Z *ᵥ v) := by
    rw [hLZ]
    simp [add_mulVec, mulVec_mulVec]
  rw [hv, ← key, hn]
  have := energy_nonneg hQ (Z *ᵥ v)
  linarith

/-- The hypotheses are met: `x' = x + u` with the weights 3 and 1. -/
example : ∃ Kg : Matrix (Fin 1) (Fin 1) ℝ, lqr exAre (stateOf (!![1] : Matrix (Fin 1) (Fin 1) ℝ) (!![1] : Matrix (Fin 1) (Fin 1) ℝ) (!![4] : Matrix (Fin 1) (Fin 1) ℝ) !![0] none) (Arr.of !![3])
      (Option.map Arr.of (none : Option (Matrix (Fin 1) (Fin 1) ℝ))) none "state".toList = .ok (Arr.of Kg, Arr.of (!![3] : Matrix (Fin 1) (Fin 1) ℝ), Arr.of (!![-2] : Matrix (Fin 1) (Fin 1) ℝ)) ∧
    (∀ g : ℝ, 1 / 2 < g → ∃ F, feedback (.state (stateOf !![1] !![1] (g • Kg) 0 none)) (.gain (.arr (Arr.of (1 : Matrix (Fin 1) (Fin 1) ℝ)))) true = .ok F ∧ StableModel F) ∧
    ∀ (ω : ℝ) (L : Matrix (Fin 1) (Fin 1) ℂ), HasTF (stateOf !![1] !![1] Kg 0 none) 1 1 (evalPoint none ω) L → 1 ≤ ‖1 + L 0 0‖ := by
  obtain ⟨k, h⟩ := exLoop_cont
  obtain ⟨X, -, -, -, -, hk, -, -⟩ := lqr_cont_parts (R := none) (S := none) exAre (by decide) exAre_care3 h
  rw [hk] at h
  have hQ : ∀ v : Fin 1 → ℝ, 0 ≤ v ⬝ᵥ !![3] *ᵥ v := fun v => by
    have := mul_self_nonneg (v 0)
    simp [mulVec, dotProduct]
    nlinarith
  have hR : ∀ u : Fin 1 → ℝ, u ≠ 0 → 0 < u ⬝ᵥ (1 : Matrix (Fin 1) (Fin 1) ℝ) *ᵥ u := fun u hu => by
    have h0 : u 0 ≠ 0 := fun h => hu (by funext i; fin_cases i; exact h)
    have := mul_self_pos.mpr h0
    simpa [mulVec, dotProduct] using this
  refine ⟨_, h, fun g hg => ?_, fun ω L hL => ?_⟩
  · exact C102_loop exAre _ _ _ _ _ none _ (by decide) exAre_care3 h hQ hR (hurwitz_one (by norm_num)) (by norm_num [spacing10]) g hg
  · exact C102_single_input exAre _ _ _ _ _ none _ (by decide) exAre_care3 h hQ (by simp) ω L hL

end Harold
