import Verif.Lemmas.StripKrylov
import Verif.Lemmas.Weights

/-!
# Markov parameters of hold discretizations and of their inverses

Two continuous models with poles below the Nyquist frequency have the same Markov parameters if and only if their (zero or first order hold)
discretizations have.
-/

namespace Harold

open Matrix Spec Filter Topology NormedSpace

variable {n n' p m k : ℕ}

/-! ## Krylov sequences -/

theorem strip_krylov_real {L : Matrix (Fin n) (Fin n) ℝ} (hL : ImBelow Real.pi L) {c : Matrix (Fin p) (Fin n) ℝ} {e : Matrix (Fin n) (Fin m) ℝ}
    (h : ∀ r : ℕ, c * (exp L ^ r * e) = 0) (r : ℕ) : c * (L ^ r * e) = 0 := by
  have h1 := strip_krylov (inStrip_of hL) (c := c.map (algebraMap ℝ ℂ)) (e := e.map (algebraMap ℝ ℂ)) (fun r => by
    rw [exp_map_ofReal, ← Matrix.map_pow, ← map_mul', ← map_mul', h r]
    simp) r
  rw [← Matrix.map_pow, ← map_mul', ← map_mul'] at h1
  exact Matrix.map_injective (algebraMap ℝ ℂ).injective (h1.trans (by simp))

theorem krylov_exp {L : Matrix (Fin n) (Fin n) ℝ} {c : Matrix (Fin p) (Fin n) ℝ} {e : Matrix (Fin n) (Fin m) ℝ}
    (h : ∀ r : ℕ, c * (L ^ r * e) = 0) (r : ℕ) : c * (exp L ^ r * e) = 0 := by
  rw [← Matrix.exp_nsmul, ← Matrix.mul_assoc]
  ext i j
  rw [Matrix.mul_apply]
  have h1 : HasSum (fun s : ℕ => ∑ a, ((s.factorial : ℝ)⁻¹ * (c * (r • L) ^ s) i a) * e a j) (∑ a, (c * exp (r • L)) i a * e a j) :=
    hasSum_sum fun a _ => (hasSum_mul_exp (r • L) c i a).mul_right (e a j)
  refine h1.unique ?_
  have e1 : (fun s : ℕ => ∑ a, ((s.factorial : ℝ)⁻¹ * (c * (r • L) ^ s) i a) * e a j) = fun _ => 0 := by
    funext s
    simp only [mul_assoc]
    rw [← Finset.mul_sum, ← Matrix.mul_apply, smul_pow, ← Nat.cast_smul_eq_nsmul ℝ, Matrix.mul_smul, Matrix.smul_mul, Matrix.mul_assoc, h s]
    simp
  rw [e1]
  exact hasSum_zero

/-- Solutions of `(s - F) y = e` inherit the annihilator. -/
theorem krylov_resolvent {L : Matrix (Fin n) (Fin n) ℝ} {c : Matrix (Fin p) (Fin n) ℝ} {e y : Matrix (Fin n) (Fin m) ℝ}
    (h : ∀ r : ℕ, c * (L ^ r * e) = 0) {s : ℝ} (hs : (s • (1 : Matrix (Fin n) (Fin n) ℝ) - L).det ≠ 0) (hy : (s • (1 : Matrix (Fin n) (Fin n) ℝ) - L) * y = e) :
    c * y = 0 := by
  let W : Submodule ℝ (Matrix (Fin n) (Fin m) ℝ) :=
    { carrier := {Z | ∀ r : ℕ, c * (L ^ r * Z) = 0}
      add_mem' := fun {a b} ha hb r => by rw [Matrix.mul_add, Matrix.mul_add, ha r, hb r, add_zero]
      zero_mem' := fun r => by simp
      smul_mem' := fun t a ha r => by rw [Matrix.mul_smul, Matrix.mul_smul, ha r, smul_zero] }
  have hW : ∀ Z : W, (s • (1 : Matrix (Fin n) (Fin n) ℝ) - L) * Z.1 ∈ W := fun Z r => by
    rw [Matrix.sub_mul, Matrix.smul_mul, Matrix.one_mul, Matrix.mul_sub, Matrix.mul_sub, Matrix.mul_smul, Matrix.mul_smul, Z.2 r, ← Matrix.mul_assoc (L ^ r),
      ← pow_succ, Z.2 (r + 1), smul_zero, sub_zero]
  let f : W →ₗ[ℝ] W :=
    { toFun := fun Z => ⟨(s • (1 : Matrix (Fin n) (Fin n) ℝ) - L) * Z.1, hW Z⟩
      map_add' := fun a b => Subtype.ext (Matrix.mul_add _ _ _)
      map_smul' := fun t a => Subtype.ext (Matrix.mul_smul _ _ _) }
  have hi := Matrix.nonsing_inv_mul (s • (1 : Matrix (Fin n) (Fin n) ℝ) - L) (isUnit_iff_ne_zero.mpr hs)
  have hinj : ∀ a b : Matrix (Fin n) (Fin m) ℝ, (s • (1 : Matrix (Fin n) (Fin n) ℝ) - L) * a = (s • (1 : Matrix (Fin n) (Fin n) ℝ) - L) * b → a = b := by
    intro a b hab
    have := congrArg (fun Z => (s • (1 : Matrix (Fin n) (Fin n) ℝ) - L)⁻¹ * Z) hab
    simpa only [← Matrix.mul_assoc, hi, Matrix.one_mul] using this
  have hf : Function.Injective f := fun a b hab => Subtype.ext (hinj _ _ (congrArg Subtype.val hab))
  obtain ⟨Z, hZ⟩ := (LinearMap.injective_iff_surjective.mp hf) ⟨e, h⟩
  have : Z.1 = y := hinj _ _ ((congrArg Subtype.val hZ).trans hy.symm)
  have h0 := Z.2 0
  rwa [pow_zero, Matrix.one_mul, this] at h0

section two
variable {L : Matrix (Fin n) (Fin n) ℝ} {c : Matrix (Fin p) (Fin n) ℝ} {e : Matrix (Fin n) (Fin m) ℝ}
  {L' : Matrix (Fin n') (Fin n') ℝ} {c' : Matrix (Fin p) (Fin n') ℝ} {e' : Matrix (Fin n') (Fin m) ℝ}

theorem diag_pow (L : Matrix (Fin n) (Fin n) ℝ) (L' : Matrix (Fin n') (Fin n') ℝ) (r : ℕ) : blk L 0 0 L' ^ r = blk (L ^ r) 0 0 (L' ^ r) := by
  induction r with
  | zero => simp [blk_one]
  | succ r ih => rw [pow_succ, ih, blk_mul]; simp [pow_succ]

theorem diag_exp (L : Matrix (Fin n) (Fin n) ℝ) (L' : Matrix (Fin n') (Fin n') ℝ) : exp (blk L 0 0 L') = blk (exp L) 0 0 (exp L') := by
  have h : exp (blk L 0 0 L') * vcat (0 : Matrix (Fin n) (Fin n') ℝ) 1 = vcat (0 : Matrix (Fin n) (Fin n') ℝ) 1 * exp L' := exp_intertwine (by
    rw [blk_mul_vcat, vcat_mul]; simp)
  rw [exp_blk, blk_mul_vcat, vcat_mul] at h
  simp only [Matrix.mul_one, Matrix.mul_zero, Matrix.zero_mul, add_zero, zero_add] at h
  rw [exp_blk, (vcat_inj h).1]

theorem diag_krylov (r : ℕ) (X : Matrix (Fin n) (Fin n) ℝ) (X' : Matrix (Fin n') (Fin n') ℝ) :
    hcat c c' * (blk X 0 0 X' ^ r * vcat e (-e')) = 0 ↔ c * (X ^ r * e) = c' * (X' ^ r * e') := by
  rw [diag_pow, blk_mul_vcat, hcat_mul_vcat']
  simp only [Matrix.zero_mul, add_zero, zero_add, Matrix.mul_neg, neg_zero]
  rw [← sub_eq_add_neg, sub_eq_zero]

/-- The Krylov sequences of two matrices in the strip agree if and only if those of the exponentials do. -/
theorem krylov_iff (hL : ImBelow Real.pi L) (hL' : ImBelow Real.pi L') :
    (∀ r : ℕ, c * (exp L ^ r * e) = c' * (exp L' ^ r * e')) ↔ ∀ r : ℕ, c * (L ^ r * e) = c' * (L' ^ r * e') := by
  constructor
  · intro h r
    refine (diag_krylov r L L').mp (strip_krylov_real (imBelow_blk.mpr ⟨hL, hL'⟩) (fun r => ?_) r)
    rw [diag_exp]
    exact (diag_krylov r _ _).mpr (h r)
  · intro h r
    refine (diag_krylov r _ _).mp ?_
    rw [← diag_exp]
    exact krylov_exp (fun r => (diag_krylov r L L').mpr (h r)) r

/-- One direction does not need the strip. -/
theorem krylov_exp_two (h : ∀ r : ℕ, c * (L ^ r * e) = c' * (L' ^ r * e')) (r : ℕ) : c * (exp L ^ r * e) = c' * (exp L' ^ r * e') := by
  refine (diag_krylov r _ _).mp ?_
  rw [← diag_exp]
  exact krylov_exp (fun r => (diag_krylov r L L').mpr (h r)) r

end two

/-! ## Markov parameters and transfer functions -/

section markov
variable {A : Matrix (Fin n) (Fin n) ℝ} {B : Matrix (Fin n) (Fin m) ℝ} {C : Matrix (Fin p) (Fin n) ℝ} {D : Matrix (Fin p) (Fin m) ℝ}
  {A' : Matrix (Fin n') (Fin n') ℝ} {B' : Matrix (Fin n') (Fin m) ℝ} {C' : Matrix (Fin p) (Fin n') ℝ} {D' : Matrix (Fin p) (Fin m) ℝ}

/-- Equal Markov parameters imply equal values of the transfer functions. -/
theorem tf_of_markov (h : ∀ k, markov A B C D k = markov A' B' C' D' k) {s : ℝ} (h1 : (s • (1 : Matrix (Fin n) (Fin n) ℝ) - A).det ≠ 0)
    (h2 : (s • (1 : Matrix (Fin n') (Fin n') ℝ) - A').det ≠ 0) : tfReal A B C D s = tfReal A' B' C' D' s := by
  have e1 : s • (1 : Matrix (Fin (n + n')) (Fin (n + n')) ℝ) - blk A 0 0 A' = blk (s • 1 - A) 0 0 (s • 1 - A') := by
    ext i j
    obtain ⟨i, rfl⟩ := finSumFinEquiv.surjective i
    obtain ⟨j, rfl⟩ := finSumFinEquiv.surjective j
    have h1 : ∀ (a : Fin n) (b : Fin n'), Fin.castAdd n' a ≠ Fin.natAdd n b := fun a b h => by
      have := congrArg Fin.val h
      simp at this
      omega
    rcases i with i | i <;> rcases j with j | j <;> simp [blk, Matrix.one_apply, h1, (h1 _ _).symm]
  have e2 : (blk (s • 1 - A) 0 0 (s • 1 - A')).det = (s • (1 : Matrix (Fin n) (Fin n) ℝ) - A).det * (s • (1 : Matrix (Fin n') (Fin n') ℝ) - A').det := by
    rw [blk, det_submatrix_equiv_self, det_fromBlocks_zero₂₁]
  have key := krylov_resolvent (L := blk A 0 0 A') (c := hcat C C') (e := vcat B (-B'))
    (y := vcat ((s • (1 : Matrix (Fin n) (Fin n) ℝ) - A)⁻¹ * B) (-((s • (1 : Matrix (Fin n') (Fin n') ℝ) - A')⁻¹ * B')))
    (fun r => (diag_krylov r A A').mpr (by have := h (r + 1); simpa only [markov, Matrix.mul_assoc] using this)) (s := s)
    (by rw [e1, e2]; exact mul_ne_zero h1 h2)
    (by
      rw [e1, blk_mul_vcat]
      simp only [Matrix.zero_mul, add_zero, zero_add, Matrix.mul_neg, neg_zero, ← Matrix.mul_assoc]
      rw [Matrix.mul_nonsing_inv _ (isUnit_iff_ne_zero.mpr h1), Matrix.mul_nonsing_inv _ (isUnit_iff_ne_zero.mpr h2), Matrix.one_mul, Matrix.one_mul])
  rw [hcat_mul_vcat', Matrix.mul_neg, ← sub_eq_add_neg, sub_eq_zero, ← Matrix.mul_assoc, ← Matrix.mul_assoc] at key
  unfold tfReal
  rw [key]
  congr 1
  exact h 0

/-! ## Zero order hold -/

def zohE (n m : ℕ) : Matrix (Fin (n + m)) (Fin m) ℝ := vcat (0 : Matrix (Fin n) (Fin m) ℝ) (1 : Matrix (Fin m) (Fin m) ℝ)

def fohE (n m : ℕ) : Matrix (Fin (n + (m + m))) (Fin m) ℝ := vcat (0 : Matrix (Fin n) (Fin m) ℝ) (zohE m m)

theorem zoh_krylov (r : ℕ) : hcat C D * (blk A B 0 (0 : Matrix (Fin m) (Fin m) ℝ) ^ r * zohE n m) = markov A B C D r := by
  cases r with
  | zero => rw [pow_zero, Matrix.one_mul, zohE, hcat_mul_vcat']; simp [markov]
  | succ r =>
    rw [blk_zero_pow, zohE, blk_mul_vcat, hcat_mul_vcat']
    simp [markov, Matrix.mul_assoc]

theorem zoh_exp_krylov (r : ℕ) : hcat C D * (exp (blk A B 0 (0 : Matrix (Fin m) (Fin m) ℝ)) ^ r * zohE n m)
    = ∑ j ∈ Finset.range (r + 1), markov (exp A) (gam A B 0) C D j := by
  rw [exp_blk, exp_zero, blk_one_pow, zohE, blk_mul_vcat, hcat_mul_vcat', Finset.sum_range_succ']
  simp only [Matrix.mul_zero, Matrix.mul_one, zero_add, Matrix.mul_sum, markov, Matrix.mul_assoc]

theorem partial_sums {M : Type} [AddCommGroup M] {a b : ℕ → M} :
    (∀ r, ∑ j ∈ Finset.range (r + 1), a j = ∑ j ∈ Finset.range (r + 1), b j) ↔ ∀ r, a r = b r := by
  constructor
  · intro h r
    cases r with
    | zero => simpa using h 0
    | succ r =>
      have := h (r + 1)
      rw [Finset.sum_range_succ _ (r + 1), Finset.sum_range_succ _ (r + 1), h r] at this
      exact add_left_cancel this
  · intro h r
    exact Finset.sum_congr rfl fun j _ => h j

theorem markov_zoh_iff (hA : ImBelow Real.pi A) (hA' : ImBelow Real.pi A') :
    (∀ k, markov (exp A) (gam A B 0) C D k = markov (exp A') (gam A' B' 0) C' D' k) ↔ ∀ k, markov A B C D k = markov A' B' C' D' k := by
  rw [← partial_sums]
  simp only [← zoh_exp_krylov]
  simp only [← zoh_krylov (r := _)]
  exact krylov_iff (imBelow_blk.mpr ⟨hA, imBelow_zero⟩) (imBelow_blk.mpr ⟨hA', imBelow_zero⟩)

/-! ## First order hold -/

theorem foh_pow (r : ℕ) : blk A (hcat B 0) 0 (shiftN m) ^ (r + 2) * fohE n m
    = vcat (A ^ r * B) (0 : Matrix (Fin (m + m)) (Fin m) ℝ) := by
  induction r with
  | zero =>
    rw [zero_add, pow_two, Matrix.mul_assoc, fohE, blk_mul_vcat, shiftN, zohE, hcat_mul_vcat', blk_mul_vcat]
    simp only [Matrix.mul_zero, Matrix.zero_mul, Matrix.mul_one, Matrix.one_mul, add_zero, zero_add]
    rw [blk_mul_vcat, hcat_mul_vcat', blk_mul_vcat]
    simp [vcat_zero']
  | succ r ih =>
    rw [show r + 1 + 2 = (r + 2) + 1 from rfl, pow_succ', Matrix.mul_assoc, ih, blk_mul_vcat]
    simp [pow_succ', Matrix.mul_assoc]

theorem foh_krylov (r : ℕ) : hcat C (hcat D 0) * (blk A (hcat B 0) 0 (shiftN m) ^ (r + 1) * fohE n m) = markov A B C D r := by
  cases r with
  | zero =>
    rw [zero_add, pow_one, fohE, blk_mul_vcat, shiftN, zohE, hcat_mul_vcat', blk_mul_vcat, hcat_mul_vcat']
    simp only [Matrix.mul_zero, Matrix.zero_mul, Matrix.mul_one, Matrix.one_mul, add_zero, zero_add]
    rw [hcat_mul_vcat']
    simp [markov]
  | succ r =>
    rw [foh_pow, hcat_mul_vcat']
    simp [markov, Matrix.mul_assoc]

/-- The ramp response of the discretized model. -/
theorem foh_exp_pow {g : Matrix (Fin n) (Fin m) ℝ} (hg : gam A (hcat B 0) (shiftN m) = hcat (gam A B 0) g) (r : ℕ) :
    exp (blk A (hcat B 0) 0 (shiftN m)) ^ r * fohE n m
      = vcat ((r : ℝ) • g + ∑ j ∈ Finset.range r, (j : ℝ) • (exp A ^ (r - 1 - j) * (gam A B 0 + exp A * g - g))) (vcat ((r : ℝ) • 1) 1) := by
  induction r with
  | zero => simp [fohE, zohE]
  | succ r ih =>
    rw [pow_succ', Matrix.mul_assoc, ih, exp_blk, hg, exp_shiftN, blk_mul_vcat, hcat_mul_vcat', blk_mul_vcat]
    simp only [Matrix.zero_mul, Matrix.one_mul, zero_add, Matrix.mul_one, Matrix.mul_smul]
    congr 1
    · have e1 : ∑ j ∈ Finset.range (r + 1), (j : ℝ) • (exp A ^ (r + 1 - 1 - j) * (gam A B 0 + exp A * g - g))
          = exp A * ∑ j ∈ Finset.range r, (j : ℝ) • (exp A ^ (r - 1 - j) * (gam A B 0 + exp A * g - g)) + (r : ℝ) • (gam A B 0 + exp A * g - g) := by
        rw [Finset.sum_range_succ, Matrix.mul_sum]
        congr 1
        · refine Finset.sum_congr rfl fun j hj => ?_
          have hj' := Finset.mem_range.mp hj
          rw [Matrix.mul_smul, ← Matrix.mul_assoc, ← pow_succ', show r - 1 - j + 1 = r + 1 - 1 - j by omega]
        · rw [show r + 1 - 1 - r = 0 by omega, pow_zero, Matrix.one_mul]
      rw [e1, Matrix.mul_add, Matrix.mul_smul, Nat.cast_add, Nat.cast_one, add_smul, one_smul, smul_sub, smul_add]
      abel
    · congr 1
      · rw [Nat.cast_add, Nat.cast_one, add_smul, one_smul]
      · simp

theorem foh_exp_krylov {g : Matrix (Fin n) (Fin m) ℝ} (hg : gam A (hcat B 0) (shiftN m) = hcat (gam A B 0) g) (r : ℕ) :
    hcat C (hcat D 0) * (exp (blk A (hcat B 0) 0 (shiftN m)) ^ r * fohE n m)
      = ∑ j ∈ Finset.range (r + 1), (j : ℝ) • markov (exp A) (gam A B 0 + exp A * g - g) C (D + C * g) (r - j) := by
  rw [foh_exp_pow hg, hcat_mul_vcat', hcat_mul_vcat', Finset.sum_range_succ, Nat.sub_self, markov, Matrix.mul_add, Matrix.mul_sum, Matrix.zero_mul, add_zero,
    Matrix.mul_smul, Matrix.mul_smul, Matrix.mul_one, smul_add]
  have e : ∑ j ∈ Finset.range r, (j : ℝ) • markov (exp A) (gam A B 0 + exp A * g - g) C (D + C * g) (r - j)
      = ∑ j ∈ Finset.range r, C * (j : ℝ) • (exp A ^ (r - 1 - j) * (gam A B 0 + exp A * g - g)) := by
    refine Finset.sum_congr rfl fun j hj => ?_
    have hj' := Finset.mem_range.mp hj
    obtain ⟨t, ht⟩ : ∃ t, r - j = t + 1 := ⟨r - j - 1, by omega⟩
    rw [ht, show r - 1 - j = t by omega, markov, Matrix.mul_smul, Matrix.mul_assoc]
  rw [e]
  abel

theorem ramp_sums {M : Type} [AddCommGroup M] [Module ℝ M] {a b : ℕ → M} :
    (∀ r, ∑ j ∈ Finset.range (r + 1), (j : ℝ) • a (r - j) = ∑ j ∈ Finset.range (r + 1), (j : ℝ) • b (r - j)) ↔ ∀ r, a r = b r := by
  constructor
  · intro h r
    induction r using Nat.strong_induction_on with
    | _ r ih =>
      have h1 := h (r + 1)
      have hsplit : ∀ f : ℕ → M, ∑ j ∈ Finset.range (r + 1 + 1), (j : ℝ) • f (r + 1 - j) = ∑ j ∈ Finset.range r, ((j + 2 : ℕ) : ℝ) • f (r - 1 - j) + f r := by
        intro f
        rw [Finset.sum_range_succ', Finset.sum_range_succ']
        simp only [Nat.cast_zero, zero_smul, add_zero, Nat.cast_one, zero_add, one_smul, Nat.add_sub_cancel]
        congr 1
        refine Finset.sum_congr rfl fun j hj => ?_
        rw [show r + 1 - (j + 1 + 1) = r - 1 - j by omega]
      rw [hsplit, hsplit] at h1
      have e : ∑ j ∈ Finset.range r, ((j + 2 : ℕ) : ℝ) • a (r - 1 - j) = ∑ j ∈ Finset.range r, ((j + 2 : ℕ) : ℝ) • b (r - 1 - j) :=
        Finset.sum_congr rfl fun j hj => by
          have := Finset.mem_range.mp hj
          rw [ih (r - 1 - j) (by omega)]
      rw [e] at h1
      exact add_left_cancel h1
  · intro h r
    exact Finset.sum_congr rfl fun j _ => by rw [h]

theorem shift_iff {M : Type} {a b : ℕ → M} (h0 : a 0 = b 0) : (∀ r, a r = b r) ↔ ∀ r, a (r + 1) = b (r + 1) :=
  ⟨fun h r => h (r + 1), fun h r => by cases r with
    | zero => exact h0
    | succ r => exact h r⟩

theorem markov_foh_iff {g : Matrix (Fin n) (Fin m) ℝ} {g' : Matrix (Fin n') (Fin m) ℝ} (hA : ImBelow Real.pi A) (hA' : ImBelow Real.pi A')
    (hg : gam A (hcat B 0) (shiftN m) = hcat (gam A B 0) g) (hg' : gam A' (hcat B' 0) (shiftN m) = hcat (gam A' B' 0) g') :
    (∀ k, markov (exp A) (gam A B 0 + exp A * g - g) C (D + C * g) k = markov (exp A') (gam A' B' 0 + exp A' * g' - g') C' (D' + C' * g') k) ↔
      ∀ k, markov A B C D k = markov A' B' C' D' k := by
  rw [← ramp_sums]
  simp only [← foh_exp_krylov hg, ← foh_exp_krylov hg']
  simp only [← foh_krylov (r := _)]
  rw [krylov_iff (imBelow_blk.mpr ⟨hA, imBelow_shiftN⟩) (imBelow_blk.mpr ⟨hA', imBelow_shiftN⟩)]
  refine shift_iff ?_
  rw [pow_zero, pow_zero, Matrix.one_mul, Matrix.one_mul, fohE, fohE, zohE, hcat_mul_vcat', hcat_mul_vcat', hcat_mul_vcat', hcat_mul_vcat']
  simp

/-- Scaling. -/
theorem markov_smul_iff {t : ℝ} (ht : t ≠ 0) : (∀ k, markov (t • A) (t • B) C D k = markov (t • A') (t • B') C' D' k) ↔
    ∀ k, markov A B C D k = markov A' B' C' D' k := by
  have key : ∀ {n : ℕ} {A : Matrix (Fin n) (Fin n) ℝ} {B : Matrix (Fin n) (Fin m) ℝ} {C : Matrix (Fin p) (Fin n) ℝ} {D : Matrix (Fin p) (Fin m) ℝ} (k : ℕ),
      markov (t • A) (t • B) C D k = t ^ k • markov A B C D k := by
    intro n A B C D k
    cases k with
    | zero => simp [markov]
    | succ k => simp [markov, smul_pow, smul_smul, pow_succ', mul_comm]
  simp only [key]
  refine forall_congr' fun k => ?_
  exact smul_right_inj (pow_ne_zero k ht)

end markov

end Harold
