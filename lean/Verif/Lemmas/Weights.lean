import Verif.Lemmas.FeedbackTransfer
import Verif.Props.HoldInverse
import Verif.Spec.Sim
import Verif.Spec.SimTransfer
import Mathlib.RingTheory.PowerSeries.Basic

/-!
# The transfer function determines the Markov parameters
-/

namespace Harold

open Matrix Spec Filter Topology NormedSpace

variable {n n' p m : ℕ}

theorem eventually_det (A : Matrix (Fin n) (Fin n) ℝ) : ∀ᶠ s : ℝ in atTop, (s • (1 : Matrix (Fin n) (Fin n) ℝ) - A).det ≠ 0 := by
  filter_upwards [Polynomial.eventually_no_roots A.charpoly (Matrix.charpoly_monic A).ne_zero] with s hs
  rw [Polynomial.IsRoot.def, Matrix.eval_charpoly] at hs
  rwa [Matrix.scalar_apply, ← Matrix.smul_one_eq_diagonal] at hs

/-- The value of the transfer matrix at `s`. -/
noncomputable def tfReal (A : Matrix (Fin n) (Fin n) ℝ) (B : Matrix (Fin n) (Fin m) ℝ) (C : Matrix (Fin p) (Fin n) ℝ)
    (D : Matrix (Fin p) (Fin m) ℝ) (s : ℝ) : Matrix (Fin p) (Fin m) ℝ := C * (s • (1 : Matrix (Fin n) (Fin n) ℝ) - A)⁻¹ * B + D

theorem tfReal_tendsto (A : Matrix (Fin n) (Fin n) ℝ) (B : Matrix (Fin n) (Fin m) ℝ) (C : Matrix (Fin p) (Fin n) ℝ)
    (D : Matrix (Fin p) (Fin m) ℝ) : Tendsto (tfReal A B C D) atTop (𝓝 D) := by
  have hc : Continuous fun X : Matrix (Fin n) (Fin n) ℝ => C * X * B + D := by fun_prop
  have := (hc.tendsto 0).comp (tendsto_resolvent_real A)
  have e0 : C * (0 : Matrix (Fin n) (Fin n) ℝ) * B + D = D := by simp
  rw [e0] at this
  exact this

/-- `s (H(s) - D)` is the transfer function of `(A, B, C A, C B)`. -/
theorem tfReal_shift (A : Matrix (Fin n) (Fin n) ℝ) (B : Matrix (Fin n) (Fin m) ℝ) (C : Matrix (Fin p) (Fin n) ℝ)
    (D : Matrix (Fin p) (Fin m) ℝ) {s : ℝ} (hs : (s • (1 : Matrix (Fin n) (Fin n) ℝ) - A).det ≠ 0) :
    tfReal A B (C * A) (C * B) s = s • (tfReal A B C D s - D) := by
  have h1 := Matrix.mul_nonsing_inv (s • (1 : Matrix (Fin n) (Fin n) ℝ) - A) (isUnit_iff_ne_zero.mpr hs)
  unfold tfReal
  set R := (s • (1 : Matrix (Fin n) (Fin n) ℝ) - A)⁻¹
  rw [Matrix.sub_mul, Matrix.smul_mul, Matrix.one_mul] at h1
  have h2 : A * R = s • R - 1 := by rw [← h1]; abel
  rw [add_sub_cancel_right, Matrix.mul_assoc C A, h2, Matrix.mul_sub, Matrix.sub_mul, Matrix.mul_one, Matrix.mul_smul, Matrix.smul_mul]
  abel

theorem markov_shift (A : Matrix (Fin n) (Fin n) ℝ) (B : Matrix (Fin n) (Fin m) ℝ) (C : Matrix (Fin p) (Fin n) ℝ)
    (D : Matrix (Fin p) (Fin m) ℝ) (k : ℕ) : markov A B C D (k + 1) = markov A B (C * A) (C * B) k := by
  cases k with
  | zero => simp [markov]
  | succ k => simp only [markov, pow_succ', Matrix.mul_assoc]

/-- Equal values for all large arguments imply equal Markov parameters. -/
theorem markov_of_tf {A : Matrix (Fin n) (Fin n) ℝ} {B : Matrix (Fin n) (Fin m) ℝ} {A' : Matrix (Fin n') (Fin n') ℝ}
    {B' : Matrix (Fin n') (Fin m) ℝ} (k : ℕ) : ∀ {C : Matrix (Fin p) (Fin n) ℝ} {D : Matrix (Fin p) (Fin m) ℝ}
    {C' : Matrix (Fin p) (Fin n') ℝ} {D' : Matrix (Fin p) (Fin m) ℝ}, (∀ᶠ s in atTop, tfReal A B C D s = tfReal A' B' C' D' s) →
      markov A B C D k = markov A' B' C' D' k := by
  have h0 : ∀ {C : Matrix (Fin p) (Fin n) ℝ} {D : Matrix (Fin p) (Fin m) ℝ}
    {C' : Matrix (Fin p) (Fin n') ℝ} {D' : Matrix (Fin p) (Fin m) ℝ}, (∀ᶠ s in atTop, tfReal A B C D s = tfReal A' B' C' D' s) → D = D' :=
    fun h => tendsto_nhds_unique (tfReal_tendsto A B _ _) ((tfReal_tendsto A' B' _ _).congr' (h.mono fun s hs => hs.symm))
  induction k with
  | zero => intro C D C' D' h; exact h0 h
  | succ k ih =>
    intro C D C' D' h
    have hD := h0 h
    rw [markov_shift, markov_shift]
    refine ih ?_
    filter_upwards [h, eventually_det A, eventually_det A'] with s hs h1 h2
    rw [tfReal_shift A B C D h1, tfReal_shift A' B' C' D' h2, hs, hD]

theorem blk_zero_pow (A : Matrix (Fin n) (Fin n) ℝ) (B : Matrix (Fin n) (Fin m) ℝ) (k : ℕ) :
    (blk A B 0 (0 : Matrix (Fin m) (Fin m) ℝ)) ^ (k + 1) = blk (A ^ (k + 1)) (A ^ k * B) 0 0 := by
  induction k with
  | zero => simp
  | succ k ih =>
    rw [pow_succ', ih, blk_mul]
    simp only [Matrix.mul_zero, Matrix.zero_mul, add_zero, ← pow_succ', ← Matrix.mul_assoc]

theorem blk_one_pow (F : Matrix (Fin n) (Fin n) ℝ) (G : Matrix (Fin n) (Fin m) ℝ) (k : ℕ) :
    (blk F G 0 (1 : Matrix (Fin m) (Fin m) ℝ)) ^ k = blk (F ^ k) (∑ i ∈ Finset.range k, F ^ i * G) 0 1 := by
  induction k with
  | zero => simp [blk_one]
  | succ k ih =>
    rw [pow_succ, ih, blk_mul, Finset.sum_range_succ]
    simp only [Matrix.mul_zero, Matrix.zero_mul, add_zero, Matrix.mul_one, ← pow_succ, zero_add]
    congr 1
    exact add_comm _ _

/-- Sums of the Markov parameters of the zero order hold discretization are power series in those of the continuous model. -/
theorem hasSum_hold (A : Matrix (Fin n) (Fin n) ℝ) (B : Matrix (Fin n) (Fin m) ℝ) (C : Matrix (Fin p) (Fin n) ℝ) (h : ℝ) (k : ℕ) (i : Fin p) (j : Fin m) :
    HasSum (fun r : ℕ => (r.factorial : ℝ)⁻¹ * ((k * h) ^ r * markov A B C 0 r i j))
      ((∑ l ∈ Finset.range k, C * exp (h • A) ^ l * gam (h • A) (h • B) 0) i j) := by
  set X := blk (((k : ℝ) * h) • A) (((k : ℝ) * h) • B) 0 (0 : Matrix (Fin m) (Fin m) ℝ) with hX
  have hk : X = k • blk (h • A) (h • B) 0 (0 : Matrix (Fin m) (Fin m) ℝ) := by
    rw [hX, ← Nat.cast_smul_eq_nsmul ℝ, smul_blk, smul_smul, smul_smul, smul_zero, smul_zero]
  have hexp : exp X = blk (exp (h • A) ^ k) (∑ l ∈ Finset.range k, exp (h • A) ^ l * gam (h • A) (h • B) 0) 0 1 := by
    rw [hk, Matrix.exp_nsmul, exp_blk, exp_zero, blk_one_pow]
  have hr : ∀ (Y : Matrix (Fin p) (Fin n) ℝ) (Z : Matrix (Fin p) (Fin m) ℝ), hcat Y Z i (Fin.natAdd n j) = Z i j :=
    fun Y Z => congrFun (congrFun (hcat_right Y Z) i) j
  have h1 := hasSum_mul_exp X (hcat C (0 : Matrix (Fin p) (Fin m) ℝ)) i (Fin.natAdd n j)
  have e1 : (hcat C (0 : Matrix (Fin p) (Fin m) ℝ) * exp X) i (Fin.natAdd n j)
      = (∑ l ∈ Finset.range k, C * exp (h • A) ^ l * gam (h • A) (h • B) 0) i j := by
    rw [hexp, hcat_mul_blk, hr, Matrix.zero_mul, add_zero, Matrix.mul_sum]
    simp only [Matrix.mul_assoc]
  rw [e1] at h1
  have e2 : (fun r : ℕ => (r.factorial : ℝ)⁻¹ * (hcat C (0 : Matrix (Fin p) (Fin m) ℝ) * X ^ r) i (Fin.natAdd n j))
      = fun r : ℕ => (r.factorial : ℝ)⁻¹ * ((k * h) ^ r * markov A B C 0 r i j) := by
    funext r
    congr 1
    cases r with
    | zero => rw [pow_zero, Matrix.mul_one, hr]; simp [markov]
    | succ r =>
      rw [hX, blk_zero_pow, hcat_mul_blk, hr, Matrix.zero_mul, add_zero, markov, smul_pow, Matrix.smul_mul, Matrix.mul_smul, Matrix.mul_smul,
        Matrix.mul_smul, smul_smul, Matrix.smul_apply, smul_eq_mul, ← Matrix.mul_assoc, pow_succ]
  rw [e2] at h1
  exact h1

/-- Equal Markov parameters imply equal Markov parameters of the zero order hold discretizations. -/
theorem markov_hold {A : Matrix (Fin n) (Fin n) ℝ} {B : Matrix (Fin n) (Fin m) ℝ} {A' : Matrix (Fin n') (Fin n') ℝ}
    {B' : Matrix (Fin n') (Fin m) ℝ} {C : Matrix (Fin p) (Fin n) ℝ} {D : Matrix (Fin p) (Fin m) ℝ}
    {C' : Matrix (Fin p) (Fin n') ℝ} {D' : Matrix (Fin p) (Fin m) ℝ} (heq : ∀ k, markov A B C D k = markov A' B' C' D' k) (h : ℝ) (k : ℕ) :
    markov (exp (h • A)) (gam (h • A) (h • B) 0) C D k = markov (exp (h • A')) (gam (h • A') (h • B') 0) C' D' k := by
  have h0 : ∀ r, markov A B C 0 r = markov A' B' C' 0 r := by
    intro r
    cases r with
    | zero => rfl
    | succ r => exact heq (r + 1)
  have hs : ∀ k, (∑ l ∈ Finset.range k, C * exp (h • A) ^ l * gam (h • A) (h • B) 0)
      = ∑ l ∈ Finset.range k, C' * exp (h • A') ^ l * gam (h • A') (h • B') 0 := by
    intro k
    ext i j
    refine (hasSum_hold A B C h k i j).unique ?_
    simpa only [h0] using hasSum_hold A' B' C' h k i j
  cases k with
  | zero => exact heq 0
  | succ k =>
    have h1 := hs (k + 1)
    rw [Finset.sum_range_succ, Finset.sum_range_succ, hs k] at h1
    exact add_left_cancel h1

/-! ## Polynomials as sums -/

/-- The value of the polynomial with coefficients `a 0, ..., a (l - 1)` in decreasing powers. -/
noncomputable def decr (l : ℕ) (a : ℕ → ℝ) (s : ℝ) : ℝ := ∑ i ∈ Finset.range l, a i * s ^ (l - 1 - i)

theorem polyAt_decr (s : ℝ) (l : List ℝ) : polyAt s l = decr l.length (fun i => l.getD i 0) s := by
  induction l with
  | nil => simp [decr]
  | cons a l ih =>
    unfold decr
    rw [List.length_cons, Finset.sum_range_succ']
    have : polyAt s (a :: l) = a * s ^ l.length + polyAt s l := by
      simp [polyAt]
    rw [this, ih, decr, add_comm]
    congr 1
    · refine Finset.sum_congr rfl fun i hi => ?_
      simp only [List.getD_cons_succ]
      congr 2
      omega

theorem decr_tendsto (l : ℕ) (a : ℕ → ℝ) : Tendsto (fun s : ℝ => (s ^ l)⁻¹ * decr (l + 1) a s) atTop (𝓝 (a 0)) := by
  have h1 : Tendsto (fun s : ℝ => ∑ i ∈ Finset.range (l + 1), a i * (s⁻¹) ^ i) atTop (𝓝 (∑ i ∈ Finset.range (l + 1), a i * (0 : ℝ) ^ i)) :=
    tendsto_finsetSum _ fun i _ => (tendsto_inv_atTop_zero.pow i).const_mul _
  have e : ∑ i ∈ Finset.range (l + 1), a i * (0 : ℝ) ^ i = a 0 := by
    rw [Finset.sum_range_succ']; simp
  rw [e] at h1
  refine h1.congr' ?_
  filter_upwards [eventually_gt_atTop 0] with s hs
  unfold decr
  rw [Finset.mul_sum]
  refine Finset.sum_congr rfl fun i hi => ?_
  have hi' : i ≤ l := by have := Finset.mem_range.mp hi; omega
  have h2 : s ^ l = s ^ (l - i) * s ^ i := by rw [← pow_add]; congr 1; omega
  rw [Nat.add_sub_cancel, h2, inv_pow]
  have : s ^ i ≠ 0 := pow_ne_zero _ hs.ne'
  have : s ^ (l - i) ≠ 0 := pow_ne_zero _ hs.ne'
  field_simp

/-- If `H(s) a(s) = b(s)` for large `s`, the Markov parameters satisfy the recursion `a * h = b`. -/
theorem markov_recursion {A : Matrix (Fin n) (Fin n) ℝ} {B : Matrix (Fin n) (Fin m) ℝ} {l : ℕ} {a : ℕ → ℝ} (ha : ∀ i, l < i → a i = 0) (i : Fin p) (j : Fin m)
    (k : ℕ) : ∀ {C : Matrix (Fin p) (Fin n) ℝ} {D : Matrix (Fin p) (Fin m) ℝ} {b : ℕ → ℝ}, (∀ i, l < i → b i = 0) →
      (∀ᶠ s in atTop, tfReal A B C D s i j * decr (l + 1) a s = decr (l + 1) b s) →
      ∑ r ∈ Finset.range (k + 1), a r * markov A B C D (k - r) i j = b k := by
  have h0 : ∀ {C : Matrix (Fin p) (Fin n) ℝ} {D : Matrix (Fin p) (Fin m) ℝ} {b : ℕ → ℝ},
      (∀ᶠ s in atTop, tfReal A B C D s i j * decr (l + 1) a s = decr (l + 1) b s) → D i j * a 0 = b 0 := by
    intro C D b h
    have hF : Tendsto (fun s => tfReal A B C D s i j) atTop (𝓝 (D i j)) :=
      tendsto_pi_nhds.mp (tendsto_pi_nhds.mp (tfReal_tendsto A B C D) i) j
    refine tendsto_nhds_unique (hF.mul (decr_tendsto l a)) ((decr_tendsto l b).congr' ?_)
    filter_upwards [h] with s hs
    rw [← hs]; ring
  induction k with
  | zero =>
    intro C D b hb h
    rw [Finset.sum_range_one, ← h0 h, mul_comm]
    rfl
  | succ k ih =>
    intro C D b hb h
    have hD := h0 h
    have hrec := ih (C := C * A) (D := C * B) (b := fun r => b (r + 1) - D i j * a (r + 1)) (fun r hr => by
      rw [hb (r + 1) (by omega), ha (r + 1) (by omega)]; simp) (by
      filter_upwards [h, eventually_det A] with s hs hd
      rw [tfReal_shift A B C D hd]
      have e : decr (l + 1) (fun r => b (r + 1) - D i j * a (r + 1)) s = s * (decr (l + 1) b s - D i j * decr (l + 1) a s) := by
        unfold decr
        rw [Finset.sum_range_succ, Finset.sum_range_succ' (fun i => b i * _), Finset.sum_range_succ' (fun i => a i * _)]
        beta_reduce
        rw [hb (l + 1) (by omega), ha (l + 1) (by omega), ← hD]
        have h3 : ∀ c : ℕ → ℝ, s * ∑ r ∈ Finset.range l, c (r + 1) * s ^ (l + 1 - 1 - (r + 1)) = ∑ r ∈ Finset.range l, c (r + 1) * s ^ (l + 1 - 1 - r) := by
          intro c
          rw [Finset.mul_sum]
          refine Finset.sum_congr rfl fun r hr => ?_
          have hr' := Finset.mem_range.mp hr
          have : l + 1 - 1 - r = (l + 1 - 1 - (r + 1)) + 1 := by omega
          rw [this, pow_succ]; ring
        have h4 : ∑ r ∈ Finset.range l, (b (r + 1) - D i j * a (r + 1)) * s ^ (l + 1 - 1 - r)
            = ∑ r ∈ Finset.range l, b (r + 1) * s ^ (l + 1 - 1 - r) - D i j * ∑ r ∈ Finset.range l, a (r + 1) * s ^ (l + 1 - 1 - r) := by
          rw [Finset.mul_sum, ← Finset.sum_sub_distrib]
          exact Finset.sum_congr rfl fun r _ => by ring
        rw [h4, ← h3 b, ← h3 a]
        ring
      rw [e, ← hs]
      simp only [Matrix.smul_apply, Matrix.sub_apply, smul_eq_mul]
      ring)
    rw [Finset.sum_range_succ, Nat.sub_self]
    have e2 : ∀ r ∈ Finset.range (k + 1), a r * markov A B C D (k + 1 - r) i j = a r * markov A B (C * A) (C * B) (k - r) i j := by
      intro r hr
      have hr' := Finset.mem_range.mp hr
      have : k + 1 - r = (k - r) + 1 := by omega
      rw [this, markov_shift]
    rw [Finset.sum_congr rfl e2, hrec]
    simp only [markov]
    ring

/-! ## Convolutions -/

theorem conv_assoc {a h b u y : ℕ → ℝ} (hy : ∀ k, y k = ∑ l ∈ Finset.range (k + 1), h l * u (k - l))
    (hb : ∀ k, ∑ l ∈ Finset.range (k + 1), a l * h (k - l) = b k) (k : ℕ) :
    ∑ l ∈ Finset.range (k + 1), a l * y (k - l) = ∑ l ∈ Finset.range (k + 1), b l * u (k - l) := by
  have hc : ∀ f g : ℕ → ℝ, ∀ k, (PowerSeries.mk f * PowerSeries.mk g).coeff k = ∑ l ∈ Finset.range (k + 1), f l * g (k - l) := by
    intro f g k
    rw [PowerSeries.coeff_mul, Finset.Nat.sum_antidiagonal_eq_sum_range_succ_mk]
    simp
  have e1 : PowerSeries.mk y = PowerSeries.mk h * PowerSeries.mk u := by
    ext k; rw [hc, PowerSeries.coeff_mk, hy]
  have e2 : PowerSeries.mk b = PowerSeries.mk a * PowerSeries.mk h := by
    ext k; rw [hc, PowerSeries.coeff_mk, hb]
  rw [← hc, ← hc, e1, e2, mul_assoc]

end Harold
