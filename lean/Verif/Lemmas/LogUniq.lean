import Mathlib.Analysis.Normed.Algebra.MatrixExponential
import Mathlib.Analysis.SpecialFunctions.Exponential
import Mathlib.Analysis.SpecialFunctions.Complex.Circle
import Mathlib.Topology.UniformSpace.Matrix
import Mathlib.Analysis.Complex.Polynomial.Basic
import Mathlib.LinearAlgebra.Eigenspace.Triangularizable
import Mathlib.LinearAlgebra.Matrix.ToLinearEquiv

/-!
# Matrices with spectrum in the strip `|Im| < π` are determined by their exponentials

The main lemma: if `exp X * Z = Z * exp Y` and the eigenvalues of `X` and `Y` lie in the strip, then `X * Z = Z * Y`.
-/

namespace Harold

open Matrix NormedSpace

section series
variable {𝕜 : Type} [RCLike 𝕜] {k l : Type} [Fintype k] [DecidableEq k] [Fintype l] [DecidableEq l]

set_option backward.isDefEq.respectTransparency false in
open scoped Matrix.Norms.Operator in
theorem hasSum_exp_entry (M : Matrix k k 𝕜) (i j : k) : HasSum (fun n : ℕ => (n.factorial : 𝕜)⁻¹ * (M ^ n) i j) (exp M i j) := by
  have h := exp_series_hasSum_exp' (𝕂 := 𝕜) M
  let e : Matrix k k 𝕜 →ₗ[𝕜] 𝕜 := { toFun := fun X => X i j, map_add' := fun _ _ => rfl, map_smul' := fun _ _ => rfl }
  exact h.mapL (LinearMap.toContinuousLinearMap e)

theorem hasSum_exp_mul (M : Matrix k k 𝕜) (Z : Matrix k l 𝕜) (i : k) (j : l) :
    HasSum (fun n : ℕ => (n.factorial : 𝕜)⁻¹ * (M ^ n * Z) i j) ((exp M * Z) i j) := by
  simp only [Matrix.mul_apply, Finset.mul_sum]
  refine hasSum_sum fun a _ => ?_
  simpa only [mul_assoc] using (hasSum_exp_entry M i a).mul_right (Z a j)

theorem hasSum_mul_exp (M : Matrix l l 𝕜) (Z : Matrix k l 𝕜) (i : k) (j : l) :
    HasSum (fun n : ℕ => (n.factorial : 𝕜)⁻¹ * (Z * M ^ n) i j) ((Z * exp M) i j) := by
  simp only [Matrix.mul_apply, Finset.mul_sum]
  refine hasSum_sum fun a _ => ?_
  have := (hasSum_exp_entry M a j).mul_left (Z i a)
  have e : (fun n : ℕ => (n.factorial : 𝕜)⁻¹ * (Z i a * (M ^ n) a j)) = fun n : ℕ => Z i a * ((n.factorial : 𝕜)⁻¹ * (M ^ n) a j) := by
    funext n; ring
  rw [e]
  exact this

theorem pow_intertwine {X : Matrix k k 𝕜} {Y : Matrix l l 𝕜} {Z : Matrix k l 𝕜} (h : X * Z = Z * Y) (n : ℕ) : X ^ n * Z = Z * Y ^ n := by
  induction n with
  | zero => simp
  | succ n ih => rw [pow_succ, Matrix.mul_assoc, h, ← Matrix.mul_assoc, ih, Matrix.mul_assoc, ← pow_succ]

/-- `X Z = Z Y` implies `exp X Z = Z exp Y`. -/
theorem exp_intertwine {X : Matrix k k 𝕜} {Y : Matrix l l 𝕜} {Z : Matrix k l 𝕜} (h : X * Z = Z * Y) : exp X * Z = Z * exp Y := by
  ext i j
  refine (hasSum_exp_mul X Z i j).unique ?_
  simpa only [pow_intertwine h] using hasSum_mul_exp Y Z i j

/-- `X V - V Y = U` and `X U = U Y` imply `exp X V = V exp Y + U exp Y`. -/
theorem exp_jordan {X : Matrix k k 𝕜} {Y : Matrix l l 𝕜} {U V : Matrix k l 𝕜} (hV : X * V = V * Y + U) (hU : X * U = U * Y) :
    exp X * V = V * exp Y + U * exp Y := by
  have hp : ∀ n : ℕ, X ^ n * V = V * Y ^ n + (n : 𝕜) • (U * Y ^ (n - 1)) := by
    intro n
    induction n with
    | zero => simp
    | succ n ih =>
      rw [pow_succ', Matrix.mul_assoc, ih, Matrix.mul_add, ← Matrix.mul_assoc, hV, Matrix.mul_smul, ← Matrix.mul_assoc, hU, Matrix.add_mul,
        Matrix.mul_assoc, ← pow_succ']
      cases n with
      | zero => simp
      | succ n =>
        rw [Matrix.mul_assoc, ← pow_succ']
        simp only [Nat.add_sub_cancel, Nat.cast_add, Nat.cast_one, add_smul, one_smul]
        abel
  ext i j
  refine (hasSum_exp_mul X V i j).unique ?_
  have h1 := hasSum_mul_exp Y V i j
  have h2 : HasSum (fun n : ℕ => (n.factorial : 𝕜)⁻¹ * ((n : 𝕜) * (U * Y ^ (n - 1)) i j)) ((U * exp Y) i j) := by
    have h3 := hasSum_mul_exp Y U i j
    rw [← hasSum_nat_add_iff' 1]
    simp only [Finset.range_one, Finset.sum_singleton, Nat.cast_zero, zero_mul, mul_zero, sub_zero, Nat.add_sub_cancel]
    have e : (fun n : ℕ => ((n + 1).factorial : 𝕜)⁻¹ * (((n + 1 : ℕ) : 𝕜) * (U * Y ^ n) i j)) = fun n : ℕ => (n.factorial : 𝕜)⁻¹ * (U * Y ^ n) i j := by
      funext n
      have hn : ((n + 1 : ℕ) : 𝕜) ≠ 0 := Nat.cast_ne_zero.mpr (Nat.succ_ne_zero n)
      have hf : (n.factorial : 𝕜) ≠ 0 := Nat.cast_ne_zero.mpr n.factorial_ne_zero
      rw [Nat.factorial_succ, Nat.cast_mul]
      field_simp
    rw [e]
    exact h3
  have h := h1.add h2
  have e : (fun n : ℕ => (n.factorial : 𝕜)⁻¹ * (X ^ n * V) i j)
      = fun n : ℕ => (n.factorial : 𝕜)⁻¹ * (V * Y ^ n) i j + (n.factorial : 𝕜)⁻¹ * ((n : 𝕜) * (U * Y ^ (n - 1)) i j) := by
    funext n
    rw [hp, Matrix.add_apply, Matrix.smul_apply, smul_eq_mul, mul_add]
  rw [e, Matrix.add_apply]
  exact h

end series

/-- All eigenvalues lie in the strip `|Im| < π`. -/
def InStrip {k : Type} [Fintype k] (X : Matrix k k ℂ) : Prop := ∀ (z : ℂ) (v : k → ℂ), v ≠ 0 → X *ᵥ v = z • v → |z.im| < Real.pi

section strip
variable {k l : Type} [Fintype k] [DecidableEq k] [Fintype l] [DecidableEq l]

/-- An eigenvector on the left gives one on the right. -/
theorem right_of_left_eig {Y : Matrix l l ℂ} {w : l → ℂ} {ν : ℂ} (hw : w ≠ 0) (h : w ᵥ* Y = ν • w) : ∃ v : l → ℂ, v ≠ 0 ∧ Y *ᵥ v = ν • v := by
  have h1 : w ᵥ* (Y - ν • 1) = 0 := by
    rw [vecMul_sub, h, vecMul_smul, vecMul_one, sub_self]
  have h2 : (Y - ν • (1 : Matrix l l ℂ)).det = 0 := exists_vecMul_eq_zero_iff.mp ⟨w, hw, h1⟩
  obtain ⟨v, hv, h3⟩ := exists_mulVec_eq_zero_iff.mpr h2
  refine ⟨v, hv, ?_⟩
  rw [sub_mulVec, smul_mulVec, one_mulVec, sub_eq_zero] at h3
  exact h3

theorem exp_scalar (c : ℂ) : exp (c • (1 : Matrix l l ℂ)) = Complex.exp c • 1 := by
  rw [smul_one_eq_diagonal, exp_diagonal, smul_one_eq_diagonal]
  congr 1
  funext i
  rw [Pi.coe_exp, Complex.exp_eq_exp_ℂ]

/-- A common eigenvector of `X ·` and `· Y` that is also exchanged by the exponentials: the eigenvalues agree. -/
theorem strip_eig {X : Matrix k k ℂ} {Y : Matrix l l ℂ} (hX : InStrip X) (hY : InStrip Y) {Z : Matrix k l ℂ} (hZ : Z ≠ 0) {a b : ℂ} (ha : X * Z = a • Z)
    (hb : Z * Y = b • Z) (h : exp X * Z = Z * exp Y) : a = b := by
  have h1 : exp X * Z = Complex.exp a • Z := by
    have := exp_intertwine (X := X) (Y := a • (1 : Matrix l l ℂ)) (Z := Z) (by rw [ha, Matrix.mul_smul, Matrix.mul_one])
    rw [this, exp_scalar, Matrix.mul_smul, Matrix.mul_one]
  have h2 : Z * exp Y = Complex.exp b • Z := by
    have := exp_intertwine (X := b • (1 : Matrix k k ℂ)) (Y := Y) (Z := Z) (by rw [hb, smul_mul, Matrix.one_mul])
    rw [← this, exp_scalar, smul_mul, Matrix.one_mul]
  obtain ⟨i, j, hij⟩ : ∃ i j, Z i j ≠ 0 := by
    by_contra hc
    push Not at hc
    exact hZ (Matrix.ext hc)
  have he : Complex.exp a = Complex.exp b := by
    rw [h1, h2] at h
    have := congrFun (congrFun h i) j
    simpa [hij] using this
  have h3 : |a.im| < Real.pi := by
    refine hX a (fun x => Z x j) (fun h0 => hij (congrFun h0 i)) ?_
    funext x
    have := congrFun (congrFun ha x) j
    simpa [Matrix.mul_apply, mulVec, dotProduct] using this
  have h4 : |b.im| < Real.pi := by
    obtain ⟨v, hv, h5⟩ := right_of_left_eig (Y := Y) (w := fun y => Z i y) (ν := b) (fun h0 => hij (congrFun h0 j)) (by
      funext y
      have := congrFun (congrFun hb i) y
      simpa [Matrix.mul_apply, vecMul, dotProduct] using this)
    exact hY b v hv h5
  rw [abs_lt] at h3 h4
  exact Complex.exp_inj_of_neg_pi_lt_of_le_pi h3.1 h3.2.le h4.1 h4.2.le he

/-- **Main lemma.** -/
theorem strip_intertwine {X : Matrix k k ℂ} {Y : Matrix l l ℂ} (hX : InStrip X) (hY : InStrip Y) {Z : Matrix k l ℂ} (h : exp X * Z = Z * exp Y) :
    X * Z = Z * Y := by
  have cX : X * exp X = exp X * X := (Commute.refl X).exp_right.eq
  have cY : Y * exp Y = exp Y * Y := (Commute.refl Y).exp_right.eq
  -- the matrices exchanged by the exponentials
  let W : Submodule ℂ (Matrix k l ℂ) :=
    { carrier := {Z | exp X * Z = Z * exp Y}
      add_mem' := fun {a b} ha hb => by
        simp only [Set.mem_setOf_eq] at ha hb ⊢
        rw [Matrix.mul_add, Matrix.add_mul, ha, hb]
      zero_mem' := by simp
      smul_mem' := fun c a ha => by
        simp only [Set.mem_setOf_eq] at ha ⊢
        rw [Matrix.mul_smul, smul_mul, ha] }
  have hW : ∀ Z, Z ∈ W ↔ exp X * Z = Z * exp Y := fun _ => Iff.rfl
  let T : Module.End ℂ (Matrix k l ℂ) :=
    { toFun := fun Z => X * Z - Z * Y
      map_add' := fun a b => by rw [Matrix.mul_add, Matrix.add_mul]; abel
      map_smul' := fun c a => by simp [smul_sub] }
  have hT : ∀ Z, T Z = X * Z - Z * Y := fun _ => rfl
  have hTW : ∀ Z ∈ W, T Z ∈ W := by
    intro Z hZ
    rw [hW] at hZ ⊢
    rw [hT, Matrix.mul_sub, Matrix.sub_mul, ← Matrix.mul_assoc, ← cX, Matrix.mul_assoc, hZ, ← Matrix.mul_assoc (exp X), hZ, Matrix.mul_assoc Z Y, cY]
    simp only [Matrix.mul_assoc]
  have hXW : ∀ Z ∈ W, X * Z ∈ W := by
    intro Z hZ
    rw [hW] at hZ ⊢
    rw [← Matrix.mul_assoc, ← cX, Matrix.mul_assoc, hZ, Matrix.mul_assoc]
  let T' : Module.End ℂ W := T.restrict hTW
  -- the only eigenvalue on `W` is zero
  have heig : ∀ μ : ℂ, μ ≠ 0 → ¬ T'.HasEigenvalue μ := by
    intro μ hμ hE
    let F : Module.End ℂ (T'.eigenspace μ) :=
      { toFun := fun Z => ⟨⟨X * Z.1.1, hXW _ Z.1.2⟩, by
          have hz := Module.End.mem_eigenspace_iff.mp Z.2
          rw [Module.End.mem_eigenspace_iff]
          have h1 : X * Z.1.1 - Z.1.1 * Y = μ • Z.1.1 := congrArg Subtype.val hz
          refine Subtype.ext ?_
          show X * (X * Z.1.1) - X * Z.1.1 * Y = μ • (X * Z.1.1)
          rw [Matrix.mul_assoc X, ← Matrix.mul_sub, h1, Matrix.mul_smul]⟩
        map_add' := fun a b => Subtype.ext (Subtype.ext (Matrix.mul_add _ _ _))
        map_smul' := fun c a => Subtype.ext (Subtype.ext (Matrix.mul_smul _ _ _)) }
    haveI : Nontrivial (T'.eigenspace μ) := Submodule.nontrivial_iff_ne_bot.mpr hE
    obtain ⟨a, ha⟩ := Module.End.exists_eigenvalue (K := ℂ) (V := T'.eigenspace μ) F
    obtain ⟨Z, hZ⟩ := ha.exists_hasEigenvector
    have hZ1 := hZ.apply_eq_smul
    have hZ0 : Z.1.1 ≠ 0 := fun h0 => hZ.2 (Subtype.ext (Subtype.ext h0))
    have e1 : X * Z.1.1 = a • Z.1.1 := congrArg (fun z => z.1.1) hZ1
    have e2 : X * Z.1.1 - Z.1.1 * Y = μ • Z.1.1 := congrArg Subtype.val (Module.End.mem_eigenspace_iff.mp Z.2)
    have e3 : Z.1.1 * Y = (a - μ) • Z.1.1 := by
      rw [sub_smul, ← e1, ← e2]
      abel
    have := strip_eig hX hY hZ0 e1 e3 Z.1.2
    exact hμ (by linear_combination this)
  have htop : T'.maxGenEigenspace 0 = ⊤ := by
    have h1 := Module.End.iSup_maxGenEigenspace_eq_top T'
    rw [eq_top_iff, ← h1]
    refine iSup_le fun μ => ?_
    by_cases hμ : μ = 0
    · rw [hμ]
    · have : T'.maxGenEigenspace μ = ⊥ := by
        by_contra hb
        exact heig μ hμ (Module.End.HasUnifEigenvalue.lt (k := ⊤) zero_lt_one hb)
      rw [this]
      exact bot_le
  have hnil : ∃ n : ℕ, (T' ^ n) ⟨Z, h⟩ = 0 := by
    have : (⟨Z, h⟩ : W) ∈ T'.maxGenEigenspace 0 := by rw [htop]; trivial
    rw [Module.End.mem_maxGenEigenspace] at this
    obtain ⟨n, hn⟩ := this
    refine ⟨n, ?_⟩
    have e : T' - (0 : ℂ) • (1 : Module.End ℂ W) = T' := LinearMap.ext fun x => by simp
    rwa [e] at hn
  by_contra hne
  classical
  obtain ⟨n, hn, hmin⟩ : ∃ n : ℕ, (T' ^ n) ⟨Z, h⟩ = 0 ∧ ∀ j < n, (T' ^ j) ⟨Z, h⟩ ≠ 0 := ⟨Nat.find hnil, Nat.find_spec hnil, fun j hj => Nat.find_min hnil hj⟩
  have h0 : Z ≠ 0 := by
    rintro rfl
    exact hne (by simp)
  obtain ⟨j, rfl⟩ : ∃ j, n = j + 2 := by
    rcases n with _ | _ | n
    · exact absurd (congrArg Subtype.val hn) (by simpa using h0)
    · exact absurd (congrArg Subtype.val hn) (by
        rw [pow_one]
        exact fun hc => hne (sub_eq_zero.mp hc))
    · exact ⟨n, rfl⟩
  set V : W := (T' ^ j) ⟨Z, h⟩ with hV
  have hU0 : T' V ≠ 0 := by
    have := hmin (j + 1) (by omega)
    rwa [pow_succ', Module.End.mul_apply] at this
  have hUU : T' (T' V) = 0 := by
    rwa [pow_succ', pow_succ', Module.End.mul_apply, Module.End.mul_apply] at hn
  have e1 : X * V.1 = V.1 * Y + (T' V).1 := by
    show X * V.1 = V.1 * Y + (X * V.1 - V.1 * Y)
    abel
  have e2 : X * (T' V).1 = (T' V).1 * Y := sub_eq_zero.mp (congrArg Subtype.val hUU)
  have e3 := exp_jordan e1 e2
  have e4 : exp X * V.1 = V.1 * exp Y := V.2
  have e5 : (T' V).1 * exp Y = 0 := by
    rw [e4] at e3
    simpa using e3.symm
  refine hU0 (Subtype.ext ?_)
  have hu := (Matrix.isUnit_iff_isUnit_det _).mp (Matrix.isUnit_exp Y)
  have e6 : (T' V).1 * exp Y * (exp Y)⁻¹ = 0 := by rw [e5, Matrix.zero_mul]
  rwa [Matrix.mul_assoc, Matrix.mul_nonsing_inv _ hu, Matrix.mul_one] at e6

end strip

end Harold
