import Verif.Lemmas.LogUniq
import Mathlib.Algebra.Polynomial.Roots
import Mathlib.Algebra.Polynomial.AlgebraMap

/-!
# The Krylov sequence of a matrix in the strip `|Im| < π` is determined by that of its exponential
-/

namespace Harold

open Matrix NormedSpace

variable {k l q : Type} [Fintype k] [DecidableEq k] [Fintype l] [DecidableEq l] [Fintype q]

/-- Multiplication from the left. -/
def leftMul (l : Type) (X : Matrix k k ℂ) : Module.End ℂ (Matrix k l ℂ) where
  toFun Z := X * Z
  map_add' := Matrix.mul_add X
  map_smul' c Z := Matrix.mul_smul X c Z

omit [DecidableEq l] [Fintype l] in
@[simp] theorem leftMul_apply (X : Matrix k k ℂ) (Z : Matrix k l ℂ) : leftMul l X Z = X * Z := rfl

omit [DecidableEq l] [Fintype l] in
theorem leftMul_shift (X : Matrix k k ℂ) (c : ℂ) : leftMul l X - c • (1 : Module.End ℂ (Matrix k l ℂ)) = leftMul l (X - c • 1) :=
  LinearMap.ext fun Z => by simp [Matrix.sub_mul]

omit [DecidableEq l] [Fintype l] in
theorem leftMul_pow (X : Matrix k k ℂ) (r : ℕ) (Z : Matrix k l ℂ) : (leftMul l X ^ r) Z = X ^ r * Z := by
  induction r with
  | zero => simp
  | succ r ih => rw [pow_succ', Module.End.mul_apply, ih, leftMul_apply, pow_succ', Matrix.mul_assoc]

theorem exp_eig {X : Matrix k k ℂ} {Z : Matrix k l ℂ} {a : ℂ} (h : X * Z = a • Z) : exp X * Z = Complex.exp a • Z := by
  have := exp_intertwine (X := X) (Y := a • (1 : Matrix l l ℂ)) (Z := Z) (by rw [h, Matrix.mul_smul, Matrix.mul_one])
  rw [this, exp_scalar, Matrix.mul_smul, Matrix.mul_one]

/-- Generalized eigenspaces of the exponential are contained in those of the matrix. -/
theorem genEig_exp {L : Matrix k k ℂ} (hL : InStrip L) (μ : ℂ) :
    ∃ c : ℂ, (leftMul l (exp L)).maxGenEigenspace μ ≤ (leftMul l L).maxGenEigenspace c := by
  set f := leftMul l L with hf
  set g := leftMul l (exp L) with hg
  have hcomm : Commute g f := by
    refine LinearMap.ext fun Z => ?_
    show exp L * (L * Z) = L * (exp L * Z)
    rw [← Matrix.mul_assoc, ← Matrix.mul_assoc, (Commute.refl L).exp_right.eq]
  set p := g.maxGenEigenspace μ with hp
  have hinv : ∀ x ∈ p, f x ∈ p := fun x hx => Module.End.mapsTo_maxGenEigenspace_of_comm hcomm μ hx
  have hsup := Submodule.eq_iSup_inf_genEigenspace (f := f) ⊤ hinv (Module.End.iSup_maxGenEigenspace_eq_top f)
  have key : ∀ c : ℂ, p ⊓ f.maxGenEigenspace c ≠ ⊥ → |c.im| < Real.pi ∧ Complex.exp c = μ := by
    intro c hc
    obtain ⟨Z, hZ, hZ0⟩ := Submodule.exists_mem_ne_zero_of_ne_bot hc
    obtain ⟨hZp, hZc⟩ := Submodule.mem_inf.mp hZ
    rw [Module.End.mem_maxGenEigenspace] at hZc
    have hsh : ∀ x ∈ p, (f - c • (1 : Module.End ℂ (Matrix k l ℂ))) x ∈ p := fun x hx => by
      rw [LinearMap.sub_apply]
      exact p.sub_mem (hinv x hx) (p.smul_mem c hx)
    have hpow : ∀ r : ℕ, ((f - c • (1 : Module.End ℂ (Matrix k l ℂ))) ^ r) Z ∈ p := by
      intro r
      induction r with
      | zero => simpa using hZp
      | succ r ih => rw [pow_succ', Module.End.mul_apply]; exact hsh _ ih
    classical
    obtain ⟨r, hr, hmin⟩ : ∃ r : ℕ, ((f - c • (1 : Module.End ℂ (Matrix k l ℂ))) ^ r) Z = 0 ∧
      ∀ j < r, ((f - c • (1 : Module.End ℂ (Matrix k l ℂ))) ^ j) Z ≠ 0 := ⟨Nat.find hZc, Nat.find_spec hZc, fun j hj => Nat.find_min hZc hj⟩
    cases r with
    | zero => exact absurd (by simpa using hr) hZ0
    | succ r =>
      set V := ((f - c • (1 : Module.End ℂ (Matrix k l ℂ))) ^ r) Z with hV
      have hV0 : V ≠ 0 := hmin r (by omega)
      have hVp : V ∈ p := hpow r
      have hVe : L * V = c • V := by
        rw [pow_succ', Module.End.mul_apply, ← hV, LinearMap.sub_apply, sub_eq_zero] at hr
        exact hr
      obtain ⟨i, j, hij⟩ : ∃ i j, V i j ≠ 0 := by
        by_contra hc
        push Not at hc
        exact hV0 (Matrix.ext hc)
      refine ⟨hL c (fun x => V x j) (fun h0 => hij (congrFun h0 i)) ?_, ?_⟩
      · funext x
        have := congrFun (congrFun hVe x) j
        simpa [Matrix.mul_apply, mulVec, dotProduct] using this
      · have h1 := exp_eig hVe
        rw [hp, Module.End.mem_maxGenEigenspace] at hVp
        obtain ⟨s, hs⟩ := hVp
        have h2 : ∀ s : ℕ, ((g - μ • (1 : Module.End ℂ (Matrix k l ℂ))) ^ s) V = (Complex.exp c - μ) ^ s • V := by
          intro s
          induction s with
          | zero => simp
          | succ s ih =>
            rw [pow_succ', Module.End.mul_apply, ih, LinearMap.map_smul, LinearMap.sub_apply, hg, leftMul_apply, h1]
            rw [LinearMap.smul_apply, Module.End.one_apply, ← sub_smul, smul_smul, pow_succ]
        rw [h2, smul_eq_zero] at hs
        exact sub_eq_zero.mp (eq_zero_of_pow_eq_zero (hs.resolve_right hV0))
  by_cases hbot : ∀ c : ℂ, p ⊓ f.maxGenEigenspace c = ⊥
  · refine ⟨0, ?_⟩
    rw [hsup]
    exact iSup_le fun c => (hbot c).le.trans bot_le
  · push Not at hbot
    obtain ⟨c, hc⟩ := hbot
    obtain ⟨h1, h2⟩ := key c hc
    refine ⟨c, ?_⟩
    rw [hsup]
    refine iSup_le fun c' => ?_
    by_cases hc' : p ⊓ f.maxGenEigenspace c' = ⊥
    · exact hc'.le.trans bot_le
    · obtain ⟨h3, h4⟩ := key c' hc'
      rw [abs_lt] at h1 h3
      have : c' = c := Complex.exp_inj_of_neg_pi_lt_of_le_pi h3.1 h3.2.le h1.1 h1.2.le (h4.trans h2.symm)
      rw [this]
      exact inf_le_right

/-- Powers of the exponential on a generalized eigenvector. -/
theorem exp_pow_gen {L : Matrix k k ℂ} {c : ℂ} {d : ℕ} {Z : Matrix k l ℂ} (h : (L - c • 1) ^ d * Z = 0) (r : ℕ) :
    exp L ^ r * Z = Complex.exp (r * c) • ∑ j ∈ Finset.range d, ((r : ℂ) ^ j * (j.factorial : ℂ)⁻¹) • ((L - c • 1) ^ j * Z) := by
  set M := L - c • (1 : Matrix k k ℂ) with hM
  have e1 : (r • L : Matrix k k ℂ) = (r * c) • (1 : Matrix k k ℂ) + (r : ℂ) • M := by
    rw [hM, smul_sub, smul_smul, ← Nat.cast_smul_eq_nsmul ℂ]
    abel
  have e2 : exp L ^ r = Complex.exp (r * c) • exp ((r : ℂ) • M) := by
    rw [← Matrix.exp_nsmul, e1, Matrix.exp_add_of_commute _ _ ((Commute.one_left _).smul_left _), exp_scalar, smul_mul, Matrix.one_mul]
  rw [e2, smul_mul]
  congr 1
  have hz : ∀ j, d ≤ j → M ^ j * Z = 0 := by
    intro j hj
    obtain ⟨s, rfl⟩ := Nat.exists_eq_add_of_le hj
    rw [add_comm, pow_add, Matrix.mul_assoc, h, Matrix.mul_zero]
  ext a b
  have h1 := hasSum_exp_mul ((r : ℂ) • M) Z a b
  have h2 := hasSum_sum_of_ne_finset_zero (L := SummationFilter.unconditional ℕ) (f := fun n : ℕ => (n.factorial : ℂ)⁻¹ * (((r : ℂ) • M) ^ n * Z) a b) (s := Finset.range d) (by
    intro j hj
    have : d ≤ j := by simpa using hj
    rw [smul_pow, smul_mul, hz j this]
    simp)
  rw [h1.unique h2, Matrix.sum_apply]
  refine Finset.sum_congr rfl fun j _ => ?_
  rw [smul_pow, smul_mul, Matrix.smul_apply, Matrix.smul_apply, smul_eq_mul, smul_eq_mul]
  ring

theorem coeff_zero_of_nat {d : ℕ} {a : ℕ → ℂ} (h : ∀ r : ℕ, ∑ j ∈ Finset.range d, (r : ℂ) ^ j * a j = 0) : ∀ j < d, a j = 0 := by
  let P : Polynomial ℂ := ∑ j ∈ Finset.range d, Polynomial.C (a j) * Polynomial.X ^ j
  have hP : P = 0 := by
    refine Polynomial.eq_zero_of_infinite_isRoot P (Set.infinite_of_injective_forall_mem (f := fun r : ℕ => (r : ℂ)) Nat.cast_injective fun r => ?_)
    show P.IsRoot (r : ℂ)
    rw [Polynomial.IsRoot.def, Polynomial.eval_finset_sum, ← h r]
    refine Finset.sum_congr rfl fun j _ => ?_
    rw [Polynomial.eval_mul, Polynomial.eval_C, Polynomial.eval_pow, Polynomial.eval_X, mul_comm]
  intro j hj
  have h1 : P.coeff j = a j := by
    rw [Polynomial.finset_sum_coeff, Finset.sum_eq_single j]
    · simp
    · intro b _ hb
      simp [Polynomial.coeff_X_pow, Ne.symm hb]
    · intro hn; exact absurd (Finset.mem_range.mpr hj) hn
  rw [← h1, hP, Polynomial.coeff_zero]

/-- **Main lemma**: a row and a column annihilated by all powers of `exp L` are annihilated by all powers of `L`. -/
theorem strip_krylov {L : Matrix k k ℂ} (hL : InStrip L) {c : Matrix q k ℂ} {e : Matrix k l ℂ} (h : ∀ r : ℕ, c * (exp L ^ r * e) = 0) (r : ℕ) :
    c * (L ^ r * e) = 0 := by
  let ann (X : Matrix k k ℂ) : Submodule ℂ (Matrix k l ℂ) :=
    { carrier := {Z | ∀ r : ℕ, c * (X ^ r * Z) = 0}
      add_mem' := fun {a b} ha hb r => by
        rw [Matrix.mul_add, Matrix.mul_add, ha r, hb r, add_zero]
      zero_mem' := fun r => by simp
      smul_mem' := fun t a ha r => by
        rw [Matrix.mul_smul, Matrix.mul_smul, ha r, smul_zero] }
  have hann : ∀ X Z, Z ∈ ann X ↔ ∀ r : ℕ, c * (X ^ r * Z) = 0 := fun _ _ => Iff.rfl
  suffices hle : ann (exp L) ≤ ann L from hle h r
  have hinv : ∀ x ∈ ann (exp L), leftMul l (exp L) x ∈ ann (exp L) := by
    intro x hx r
    rw [leftMul_apply, ← Matrix.mul_assoc (exp L ^ r), ← pow_succ]
    exact hx (r + 1)
  rw [Submodule.eq_iSup_inf_genEigenspace (f := leftMul l (exp L)) ⊤ hinv (Module.End.iSup_maxGenEigenspace_eq_top _)]
  refine iSup_le fun μ => ?_
  obtain ⟨a, ha⟩ := genEig_exp (l := l) hL μ
  intro Z hZ
  obtain ⟨hZ1, hZ2⟩ := Submodule.mem_inf.mp hZ
  have hZ3 := ha hZ2
  rw [Module.End.mem_maxGenEigenspace] at hZ3
  obtain ⟨d, hd⟩ := hZ3
  rw [leftMul_shift, leftMul_pow] at hd
  have hz : ∀ j, c * ((L - a • 1) ^ j * Z) = 0 := by
    intro j
    by_cases hj : j < d
    · ext x y
      have := coeff_zero_of_nat (d := d) (a := fun j => (j.factorial : ℂ)⁻¹ * (c * ((L - a • (1 : Matrix k k ℂ)) ^ j * Z) : Matrix q l ℂ) x y) (fun r => by
        have h1 := hZ1 r
        rw [exp_pow_gen hd, Matrix.mul_smul, smul_eq_zero, or_iff_right (Complex.exp_ne_zero _), Matrix.mul_sum] at h1
        have h2 := congrFun (congrFun h1 x) y
        rw [Matrix.sum_apply, Matrix.zero_apply] at h2
        rw [← h2]
        refine Finset.sum_congr rfl fun j _ => ?_
        rw [Matrix.mul_smul, Matrix.smul_apply, smul_eq_mul]
        ring) j hj
      have hf : (j.factorial : ℂ)⁻¹ ≠ 0 := inv_ne_zero (Nat.cast_ne_zero.mpr j.factorial_ne_zero)
      exact (mul_eq_zero.mp this).resolve_left hf
    · obtain ⟨s, rfl⟩ := Nat.exists_eq_add_of_le (not_lt.mp hj)
      rw [add_comm, pow_add, Matrix.mul_assoc, hd, Matrix.mul_zero, Matrix.mul_zero]
  intro r
  have hb : ∀ r : ℕ, ∀ j : ℕ, c * ((L - a • 1) ^ j * (L ^ r * Z)) = 0 := by
    intro r
    induction r with
    | zero => intro j; simpa using hz j
    | succ r ih =>
      intro j
      have e2 : (L - a • 1) ^ j * (L ^ (r + 1) * Z) = (L - a • 1) ^ (j + 1) * (L ^ r * Z) + a • ((L - a • 1) ^ j * (L ^ r * Z)) := by
        have e3 : L ^ (r + 1) = (L - a • 1) * L ^ r + a • L ^ r := by
          rw [Matrix.sub_mul, smul_mul, Matrix.one_mul, pow_succ']; abel
        rw [e3, Matrix.add_mul, Matrix.mul_add, pow_succ, Matrix.mul_assoc, Matrix.mul_assoc, smul_mul, Matrix.mul_smul]
      rw [e2, Matrix.mul_add, ih, Matrix.mul_smul, ih, smul_zero, add_zero]
  simpa using hb r 0

end Harold
