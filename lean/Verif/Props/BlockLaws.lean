import Verif.Spec.BlockLaws
import Verif.Props.Blocks
import Verif.Props.Hold
import Verif.Lemmas.Expand
import Verif.Props.SmallGain

/-!
# C127: the laws of block diagram algebra
-/

namespace Harold

open Matrix Filter Topology Harold.Spec

variable {K L : Type} [Field K] [LinearOrder K] [Field L] [Algebra K L] {p q m : ℕ}

theorem value_unique {s : L} : ∀ {p m : ℕ} (e : SExpr K p m) {M M' : Matrix (Fin p) (Fin m) L}, Value s e M → Value s e M' → M = M' := by
  intro p m e
  induction e with
  | model G => exact fun h h' => HasTF_unique h h'
  | neg e ih | scale k e ih | shift e k ih =>
    rintro _ _ ⟨E, h, rfl⟩ ⟨E', h', rfl⟩
    rw [ih h h']
  | add e f ih ih' | sub e f ih ih' | mul e f ih ih' =>
    rintro _ _ ⟨E, F, h, h', rfl⟩ ⟨E', F', h2, h2', rfl⟩
    rw [ih h h2, ih' h' h2']
  | inv e ih =>
    rintro _ _ ⟨E, h, -, rfl⟩ ⟨E', h', -, rfl⟩
    rw [ih h h']
  | loop n e f ih ih' =>
    rintro _ _ ⟨E, F, h, h', -, rfl⟩ ⟨E', F', h2, h2', -, rfl⟩
    rw [ih h h2, ih' h' h2']

/-! ## Loops of matrices -/

/-- Equations of a loop that is not singular have at most one solution. -/
theorem closed_cancel {c : L} {E : Matrix (Fin p) (Fin m) L} {F : Matrix (Fin m) (Fin p) L} (h : (1 - c • (F * E)).det ≠ 0) {A X Y : Matrix (Fin p) (Fin q) L}
    (hX : X = A + c • (E * (F * X))) (hY : Y = A + c • (E * (F * Y))) : X = Y := by
  have h' : (1 - c • (E * F)).det ≠ 0 := by
    have := Matrix.det_one_sub_mul_comm (c • E) F
    rw [Matrix.smul_mul, Matrix.mul_smul] at this
    rwa [this]
  have hu := isUnit_iff_ne_zero.mpr h'
  have key : ∀ Z : Matrix (Fin p) (Fin q) L, Z = A + c • (E * (F * Z)) → Z = (1 - c • (E * F))⁻¹ * A := by
    intro Z hZ
    have h2 : (1 - c • (E * F)) * Z = A := by
      rw [Matrix.sub_mul, Matrix.one_mul, Matrix.smul_mul, Matrix.mul_assoc]
      exact sub_eq_iff_eq_add.mpr hZ
    rw [← h2, ← Matrix.mul_assoc, Matrix.nonsing_inv_mul _ hu, Matrix.one_mul]
  rw [key X hX, key Y hY]

/-- The closed loop `M` of `E` and `F` satisfies `M = E + c E F M`. -/
theorem closed_eq {c : L} {E : Matrix (Fin p) (Fin m) L} {F : Matrix (Fin m) (Fin p) L} (h : (1 - c • (F * E)).det ≠ 0) :
    E * (1 - c • (F * E))⁻¹ = E + c • (E * (F * (E * (1 - c • (F * E))⁻¹))) := by
  have h5 : (1 - c • (F * E)) * (1 - c • (F * E))⁻¹ = 1 := Matrix.mul_nonsing_inv _ (isUnit_iff_ne_zero.mpr h)
  generalize (1 - c • (F * E))⁻¹ = X at h5 ⊢
  have h6 : X = 1 + c • (F * E * X) := by
    rw [Matrix.sub_mul, Matrix.one_mul, Matrix.smul_mul] at h5
    exact sub_eq_iff_eq_add.mp h5
  conv_lhs => rw [h6]
  rw [Matrix.mul_add, Matrix.mul_one, Matrix.mul_smul]
  simp only [Matrix.mul_assoc]

/-- A loop that is closed once more with the opposite sign, and so on: `M X = E X + c E F M X`. -/
theorem closed_mul {c : L} {E M : Matrix (Fin p) (Fin m) L} {F : Matrix (Fin m) (Fin p) L} (h : M = E + c • (E * (F * M))) (X : Matrix (Fin m) (Fin q) L) :
    M * X = E * X + c • (E * (F * (M * X))) := by
  conv_lhs => rw [h]
  rw [Matrix.add_mul, Matrix.smul_mul, Matrix.mul_assoc, Matrix.mul_assoc]

theorem sign_not (n : Bool) : (if (!n) = true then -1 else 1 : L) = -(if n = true then -1 else 1 : L) := by cases n <;> simp

/-- Both sides of a law take the same value wherever both are defined. -/
theorem law_value {s : L} {e f : SExpr K p m} (h : Law e f) : ∀ {M M' : Matrix (Fin p) (Fin m) L}, Value s e M → Value s f M' → M = M' := by
  induction h with
  | refl e => exact fun h h' => value_unique e h h'
  | symm _ ih => exact fun h h' => (ih h' h).symm
  | neg _ ih | scale _ _ ih | shift _ _ ih =>
    rintro _ _ ⟨E, h, rfl⟩ ⟨E', h', rfl⟩
    rw [ih h h']
  | add _ _ ih ih' | sub _ _ ih ih' | mul _ _ ih ih' =>
    rintro _ _ ⟨E, F, h, h', rfl⟩ ⟨E', F', h2, h2', rfl⟩
    rw [ih h h2, ih' h' h2']
  | inv _ ih =>
    rintro _ _ ⟨E, h, -, rfl⟩ ⟨E', h', -, rfl⟩
    rw [ih h h']
  | loop n _ _ ih ih' =>
    rintro _ _ ⟨E, F, h, h', -, rfl⟩ ⟨E', F', h2, h2', -, rfl⟩
    rw [ih h h2, ih' h' h2']
  | add_comm e f =>
    rintro _ _ ⟨E, F, h, h', rfl⟩ ⟨F', E', h2', h2, rfl⟩
    rw [value_unique _ h h2, value_unique _ h' h2', add_comm]
  | add_assoc e f g =>
    rintro _ _ ⟨_, G, ⟨E, F, hE, hF, rfl⟩, hG, rfl⟩ ⟨E', _, hE', ⟨F', G', hF', hG', rfl⟩, rfl⟩
    rw [value_unique _ hE hE', value_unique _ hF hF', value_unique _ hG hG', add_assoc]
  | sub_eq e f =>
    rintro _ _ ⟨E, F, hE, hF, rfl⟩ ⟨E', _, hE', ⟨F', hF', rfl⟩, rfl⟩
    rw [value_unique _ hE hE', value_unique _ hF hF', sub_eq_add_neg]
  | neg_neg e =>
    rintro _ _ ⟨_, ⟨E, hE, rfl⟩, rfl⟩ hE'
    rw [value_unique _ hE hE', neg_neg]
  | neg_add e f =>
    rintro _ _ ⟨_, ⟨E, F, hE, hF, rfl⟩, rfl⟩ ⟨_, _, ⟨E', hE', rfl⟩, ⟨F', hF', rfl⟩, rfl⟩
    rw [value_unique _ hE hE', value_unique _ hF hF', neg_add]
  | add_sub e f =>
    rintro _ _ ⟨_, F', ⟨E, F, hE, hF, rfl⟩, hF', rfl⟩ hE'
    rw [value_unique _ hE hE', value_unique _ hF hF', add_sub_cancel_right]
  | neg_scale e =>
    rintro _ _ ⟨E, hE, rfl⟩ ⟨E', hE', rfl⟩
    rw [value_unique _ hE hE', map_neg, map_one, neg_one_smul]
  | one_scale e =>
    rintro _ _ ⟨E, hE, rfl⟩ hE'
    rw [value_unique _ hE hE', map_one, one_smul]
  | scale_scale k l e =>
    rintro _ _ ⟨_, ⟨E, hE, rfl⟩, rfl⟩ ⟨E', hE', rfl⟩
    rw [value_unique _ hE hE', map_mul, smul_smul]
  | scale_add k e f =>
    rintro _ _ ⟨_, ⟨E, F, hE, hF, rfl⟩, rfl⟩ ⟨_, _, ⟨E', hE', rfl⟩, ⟨F', hF', rfl⟩, rfl⟩
    rw [value_unique _ hE hE', value_unique _ hF hF', smul_add]
  | add_scale k l e =>
    rintro _ _ ⟨E, hE, rfl⟩ ⟨_, _, ⟨E', hE', rfl⟩, ⟨E'', hE'', rfl⟩, rfl⟩
    rw [value_unique _ hE' hE, value_unique _ hE'' hE, map_add, add_smul]
  | shift_shift k l e =>
    rintro _ _ ⟨_, ⟨E, hE, rfl⟩, rfl⟩ ⟨E', hE', rfl⟩
    rw [value_unique _ hE hE']
    ext i j
    simp [add_assoc]
  | shift_add k e f =>
    rintro _ _ ⟨_, F, ⟨E, hE, rfl⟩, hF, rfl⟩ ⟨_, ⟨E', F', hE', hF', rfl⟩, rfl⟩
    rw [value_unique _ hE hE', value_unique _ hF hF']
    ext i j
    simp [add_right_comm]
  | mul_assoc e f g =>
    rintro _ _ ⟨_, G, ⟨E, F, hE, hF, rfl⟩, hG, rfl⟩ ⟨E', _, hE', ⟨F', G', hF', hG', rfl⟩, rfl⟩
    rw [value_unique _ hE hE', value_unique _ hF hF', value_unique _ hG hG', Matrix.mul_assoc]
  | mul_add e f g =>
    rintro _ _ ⟨E, _, hE, ⟨F, G, hF, hG, rfl⟩, rfl⟩ ⟨_, _, ⟨E', F', hE', hF', rfl⟩, ⟨E'', G', hE'', hG', rfl⟩, rfl⟩
    rw [value_unique _ hE' hE, value_unique _ hE'' hE, value_unique _ hF hF', value_unique _ hG hG', Matrix.mul_add]
  | add_mul e f g =>
    rintro _ _ ⟨_, G, ⟨E, F, hE, hF, rfl⟩, hG, rfl⟩ ⟨_, _, ⟨E', G', hE', hG', rfl⟩, ⟨F', G'', hF', hG'', rfl⟩, rfl⟩
    rw [value_unique _ hE hE', value_unique _ hF hF', value_unique _ hG' hG, value_unique _ hG'' hG, Matrix.add_mul]
  | scale_mul k e f =>
    rintro _ _ ⟨_, F, ⟨E, hE, rfl⟩, hF, rfl⟩ ⟨_, ⟨E', F', hE', hF', rfl⟩, rfl⟩
    rw [value_unique _ hE hE', value_unique _ hF hF', Matrix.smul_mul]
  | mul_scale k e f =>
    rintro _ _ ⟨E, _, hE, ⟨F, hF, rfl⟩, rfl⟩ ⟨_, ⟨E', F', hE', hF', rfl⟩, rfl⟩
    rw [value_unique _ hE hE', value_unique _ hF hF', Matrix.mul_smul]
  | mul_comm e f =>
    rintro _ _ ⟨E, F, hE, hF, rfl⟩ ⟨F', E', hF', hE', rfl⟩
    rw [value_unique _ hE hE', value_unique _ hF hF']
    ext i j
    fin_cases i
    fin_cases j
    simp [Matrix.mul_apply, mul_comm]
  | inv_inv e =>
    rintro _ _ ⟨_, ⟨E, hE, hd, rfl⟩, -, rfl⟩ hE'
    rw [value_unique _ hE' hE, Matrix.nonsing_inv_nonsing_inv _ (isUnit_iff_ne_zero.mpr hd)]
  | inv_mul e f =>
    rintro _ _ ⟨_, ⟨E, F, hE, hF, rfl⟩, -, rfl⟩ ⟨_, _, ⟨F', hF', -, rfl⟩, ⟨E', hE', -, rfl⟩, rfl⟩
    rw [value_unique _ hE hE', value_unique _ hF hF', Matrix.mul_inv_rev]
  | inv_cancel e f =>
    rintro _ _ ⟨_, _, ⟨E, hE, hd, rfl⟩, ⟨E', F, hE', hF, rfl⟩, rfl⟩ hF'
    rw [value_unique _ hE' hE, value_unique _ hF' hF, ← Matrix.mul_assoc, Matrix.nonsing_inv_mul _ (isUnit_iff_ne_zero.mpr hd), Matrix.one_mul]
  | cancel_inv e f =>
    rintro _ _ ⟨_, _, ⟨F, E', hF, hE', rfl⟩, ⟨E, hE, hd, rfl⟩, rfl⟩ hF'
    rw [value_unique _ hE' hE, value_unique _ hF' hF, Matrix.mul_assoc, Matrix.mul_nonsing_inv _ (isUnit_iff_ne_zero.mpr hd), Matrix.mul_one]
  | loop_sign n e f =>
    rintro _ _ ⟨E, F, hE, hF, -, rfl⟩ ⟨E', _, hE', ⟨F', hF', rfl⟩, -, rfl⟩
    rw [value_unique _ hE hE', value_unique _ hF hF', sign_not, Matrix.neg_mul, neg_smul, smul_neg, neg_neg]
  | loop_neg n e f =>
    rintro _ _ ⟨_, F, ⟨E, hE, rfl⟩, hF, -, rfl⟩ ⟨_, ⟨E', F', hE', hF', -, rfl⟩, rfl⟩
    rw [value_unique _ hE hE', value_unique _ hF hF', sign_not, Matrix.mul_neg, neg_smul, smul_neg, Matrix.neg_mul]
  | loop_scale n k e f =>
    rintro _ _ ⟨_, F, ⟨E, hE, rfl⟩, hF, -, rfl⟩ ⟨_, ⟨E', _, hE', ⟨F', hF', rfl⟩, -, rfl⟩, rfl⟩
    rw [value_unique _ hE hE', value_unique _ hF hF', Matrix.mul_smul, Matrix.smul_mul, Matrix.smul_mul]
  | loop_loop n e f g =>
    generalize hc : (if n = true then -1 else 1 : L) = c
    rintro _ _ ⟨_, G, ⟨E, F, hE, hF, h1, rfl⟩, hG, h2, rfl⟩ ⟨E', _, hE', ⟨F', G', hF', hG', rfl⟩, h3, rfl⟩
    rw [hc] at h1 h2 h3 ⊢
    obtain rfl := value_unique _ hE hE'
    obtain rfl := value_unique _ hF hF'
    obtain rfl := value_unique _ hG hG'
    have e1 := closed_eq h1
    have e2 := closed_eq h2
    have e3 := closed_eq h3
    generalize E * (1 - c • (F * E))⁻¹ = M₁ at *
    generalize M₁ * (1 - c • (G * M₁))⁻¹ = M at *
    refine closed_cancel h3 ?_ e3
    have e4 := closed_mul e1 (1 + c • (G * M))
    have e5 : M₁ * (1 + c • (G * M)) = M := by rw [Matrix.mul_add, Matrix.mul_one, Matrix.mul_smul, ← e2]
    rw [e5] at e4
    refine e4.trans ?_
    simp only [Matrix.mul_add, Matrix.add_mul, Matrix.mul_one, Matrix.mul_smul, smul_add]
    abel
  | loop_undo n e f =>
    generalize hc : (if n = true then -1 else 1 : L) = c
    rintro _ E' ⟨_, F', ⟨E, F, hE, hF, h1, rfl⟩, hF', h2, rfl⟩ hE'
    rw [sign_not] at h2 ⊢
    rw [hc] at h1 h2 ⊢
    obtain rfl := value_unique _ hE hE'
    obtain rfl := value_unique _ hF hF'
    have e1 := closed_eq h1
    have e2 := closed_eq h2
    generalize E * (1 - c • (F * E))⁻¹ = M₁ at *
    generalize M₁ * (1 - (-c) • (F * M₁))⁻¹ = M at *
    have e4 := closed_mul e1 (1 + (-c) • (F * M))
    have e5 : M₁ * (1 + (-c) • (F * M)) = M := by rw [Matrix.mul_add, Matrix.mul_one, Matrix.mul_smul, ← e2]
    rw [e5] at e4
    refine e4.trans ?_
    simp only [Matrix.mul_add, Matrix.mul_one, neg_smul, Matrix.mul_neg, Matrix.mul_smul]
    abel
  | loop_pull n e f g =>
    generalize hc : (if n = true then -1 else 1 : L) = c
    rintro _ _ ⟨_, G, ⟨E, F, hE, hF, rfl⟩, hG, h1, rfl⟩ ⟨E', _, hE', ⟨F', _, hF', ⟨G', E'', hG', hE'', rfl⟩, h2, rfl⟩, rfl⟩
    rw [hc] at h1 h2 ⊢
    obtain rfl := value_unique _ hE hE'
    obtain rfl := value_unique _ hE hE''
    obtain rfl := value_unique _ hF hF'
    obtain rfl := value_unique _ hG hG'
    refine closed_cancel h1 (closed_eq h1) ?_
    conv_lhs => rw [closed_eq h2]
    simp only [Matrix.mul_add, Matrix.mul_smul, Matrix.mul_assoc]
  | loop_push n e f g =>
    generalize hc : (if n = true then -1 else 1 : L) = c
    rintro _ _ ⟨_, G, ⟨E, F, hE, hF, rfl⟩, hG, h1, rfl⟩ ⟨_, F'', ⟨E', _, hE', ⟨F', G', hF', hG', rfl⟩, h2, rfl⟩, hF'', rfl⟩
    rw [hc] at h1 h2 ⊢
    obtain rfl := value_unique _ hE hE'
    obtain rfl := value_unique _ hF hF'
    obtain rfl := value_unique _ hF hF''
    obtain rfl := value_unique _ hG hG'
    refine closed_cancel h1 (closed_eq h1) ?_
    refine (closed_mul (closed_eq h2) F).trans ?_
    simp only [Matrix.mul_assoc]
  | loop_around n e f =>
    generalize hc : (if n = true then -1 else 1 : L) = c
    rintro _ _ ⟨_, F'', ⟨E, F, hE, hF, h1, rfl⟩, hF'', rfl⟩ ⟨E'', _, hE'', ⟨F', E', hF', hE', h2, rfl⟩, rfl⟩
    rw [hc] at h1 h2 ⊢
    obtain rfl := value_unique _ hE hE'
    obtain rfl := value_unique _ hE hE''
    obtain rfl := value_unique _ hF hF'
    obtain rfl := value_unique _ hF hF''
    refine closed_cancel h1 (closed_mul (closed_eq h1) F) ?_
    conv_lhs => rw [closed_eq h2]
    simp only [Matrix.mul_add, Matrix.mul_smul]
  | loop_unroll e f =>
    rintro M _ hM ⟨E', _, hE', ⟨E'', _, hE'', ⟨F', M', hF', hM', rfl⟩, rfl⟩, rfl⟩
    obtain rfl := value_unique _ hM hM'
    obtain ⟨E, F, hE, hF, h1, rfl⟩ := hM
    obtain rfl := value_unique _ hE hE'
    obtain rfl := value_unique _ hE hE''
    obtain rfl := value_unique _ hF hF'
    refine (closed_eq h1).trans ?_
    simp
  | loop_unroll_neg e f =>
    rintro M _ hM ⟨E', _, hE', ⟨E'', _, hE'', ⟨F', M', hF', hM', rfl⟩, rfl⟩, rfl⟩
    obtain rfl := value_unique _ hM hM'
    obtain ⟨E, F, hE, hF, h1, rfl⟩ := hM
    obtain rfl := value_unique _ hE hE'
    obtain rfl := value_unique _ hE hE''
    obtain rfl := value_unique _ hF hF'
    refine (closed_eq h1).trans ?_
    simp [sub_eq_add_neg]
  | inv_loop e f | inv_loop_neg e f =>
    rintro _ _ ⟨_, ⟨E, F, hE, hF, h1, rfl⟩, -, rfl⟩ ⟨_, F', ⟨E', hE', h2, rfl⟩, hF', rfl⟩
    obtain rfl := value_unique _ hE hE'
    obtain rfl := value_unique _ hF hF'
    have e1 := closed_eq h1
    generalize E * (1 - (_ : L) • (F * E))⁻¹ = M at *
    refine Matrix.inv_eq_left_inv ?_
    have e2 : E⁻¹ * M = E⁻¹ * M := rfl
    conv_rhs at e2 => rw [e1]
    rw [Matrix.mul_add, Matrix.nonsing_inv_mul _ (isUnit_iff_ne_zero.mpr h2), Matrix.mul_smul, ← Matrix.mul_assoc E⁻¹ E, Matrix.nonsing_inv_mul _ (isUnit_iff_ne_zero.mpr h2), Matrix.one_mul] at e2
    first
    | rw [Matrix.sub_mul, e2]; simp
    | rw [Matrix.add_mul, e2]; simp
  | loop_inv e f | loop_inv_neg e f =>
    rintro _ _ ⟨_, F, ⟨E, hE, h2, rfl⟩, hF, h1, rfl⟩ ⟨_, ⟨E', F', hE', hF', rfl⟩, -, rfl⟩
    obtain rfl := value_unique _ hE hE'
    obtain rfl := value_unique _ hF hF'
    have e1 := closed_eq h1
    generalize E⁻¹ * (1 - (_ : L) • (F * E⁻¹))⁻¹ = M at *
    refine (Matrix.inv_eq_right_inv ?_).symm
    have e2 : E * M = E * M := rfl
    conv_rhs at e2 => rw [e1]
    rw [Matrix.mul_add, Matrix.mul_nonsing_inv _ (isUnit_iff_ne_zero.mpr h2), Matrix.mul_smul, ← Matrix.mul_assoc E E⁻¹, Matrix.mul_nonsing_inv _ (isUnit_iff_ne_zero.mpr h2), Matrix.one_mul] at e2
    first
    | rw [Matrix.sub_mul, e2]; simp
    | rw [Matrix.add_mul, e2]; simp

/-! ## C127 -/

/-- What both sides of a law have to satisfy: every model has at least one output and one input, its matrices fit together and its sampling period is positive, no negative feedback loop has a direct feedthrough, and the formula evaluates to the model `R`. -/
def Evaluates (fuel : ℕ) (e : SExpr ℝ p m) (R : StateM ℝ) : Prop :=
  AllModels (fun p m G => 1 ≤ p ∧ 1 ≤ m ∧ Consistent G p m ∧ DtOk G.dt) e ∧ NoDirectLoop fuel e ∧ e.eval fuel = .ok R

theorem evaluates_value {fuel : ℕ} {e : SExpr ℝ p m} {R : StateM ℝ} (h : Evaluates fuel e R) :
    1 ≤ m ∧ DtOk R.dt ∧ Consistent R p m ∧ ∀ᶠ s : ℝ in atTop, ∃ M, Value s e M ∧ HasTF R p m s M := by
  let Nm : Numerics ℝ Unit := ⟨fun _ => [], fun _ _ _ _ => [], fun _ => true, fun _ => true⟩
  obtain ⟨-, h2, h3, f, w, hw, hv, -⟩ := diagram_aux (Nm := Nm) (h := 1) (N := 2) plainDNum_ok fuel le_rfl (.inl ⟨rfl, rfl⟩) e h.1 h.2.1 R h.2.2
  obtain ⟨s, hs⟩ := hw.1.exists
  refine ⟨h2, h3, hasTF_consistent hs, ?_⟩
  filter_upwards [hv, hw.1] with s a b
  exact ⟨_, a, b⟩

/-- **C127**: two formulas over `State` models that are related by the laws of block diagrams give models with the same transfer matrix, when both can be evaluated. Missing from the full claim: formulas with a negative feedback loop around which there is a direct feedthrough (`C127_sign_violated`). -/
theorem C127_laws_partial (fuel fuel' : ℕ) {e f : SExpr ℝ p m} (hl : Law e f) {R R' : StateM ℝ} (he : Evaluates fuel e R) (hf : Evaluates fuel' f R') :
    Consistent R p m ∧ Consistent R' p m ∧ SameTF R R' p m ∧ ∀ s : ℂ, ∀ M M' : Matrix (Fin p) (Fin m) ℂ, Value s e M → Value s f M' → M = M' ∧ HasTF R p m s M ∧ HasTF R' p m s M := by
  obtain ⟨-, -, h1, h2⟩ := evaluates_value he
  obtain ⟨-, -, h1', h2'⟩ := evaluates_value hf
  refine ⟨h1, h1', ?_, fun s M M' hM hM' => ?_⟩
  · filter_upwards [h2, h2'] with s ⟨M, hM, hT⟩ ⟨M', hM', hT'⟩ X X' hX hX'
    rw [HasTF_unique hX hT, HasTF_unique hX' hT']
    exact law_value hl hM hM'
  · obtain rfl := law_value hl hM hM'
    have m1 := allModels_mono (Q' := fun _ _ G => DtOk G.dt) (fun _ _ _ h => h.2.2.2) e he.1
    have m2 := allModels_mono (Q' := fun _ _ G => DtOk G.dt) (fun _ _ _ h => h.2.2.2) f hf.1
    exact ⟨rfl, C88_value_partial fuel e m1 he.2.1 hM he.2.2, C88_value_partial fuel' f m2 hf.2.1 hM' hf.2.2⟩

/-- A chain of formulas, each of which can be evaluated, and each of which is related to the next one by a law. -/
inductive Rewrites (fuel : ℕ) : SExpr ℝ p m → SExpr ℝ p m → Prop
  | start (e : SExpr ℝ p m) : Rewrites fuel e e
  | step {e f g : SExpr ℝ p m} {R : StateM ℝ} : Rewrites fuel e f → Evaluates fuel f R → Law f g → Rewrites fuel e g

theorem chain_value {fuel : ℕ} {e f : SExpr ℝ p m} (h : Rewrites fuel e f) {R : StateM ℝ} (he : Evaluates fuel e R) :
    ∀ᶠ s : ℝ in atTop, ∀ M M', Value s e M → Value s f M' → M = M' := by
  induction h with
  | start => exact Eventually.of_forall fun s M M' => value_unique _
  | step _ hf hl ih =>
    filter_upwards [ih, (evaluates_value hf).2.2.2] with s h1 ⟨N, hN, _⟩ M M' hM hM'
    exact (h1 M N hM hN).trans (law_value hl hN hM')

/-- **C127**, calculations: the same for a chain of any number of steps. -/
theorem C127_chain_partial (fuel : ℕ) {e f : SExpr ℝ p m} (hl : Rewrites fuel e f) {R R' : StateM ℝ} (he : Evaluates fuel e R) (hf : Evaluates fuel f R') : SameTF R R' p m := by
  filter_upwards [chain_value hl he, (evaluates_value he).2.2.2, (evaluates_value hf).2.2.2] with s h ⟨M, hM, hT⟩ ⟨M', hM', hT'⟩ X X' hX hX'
  rw [HasTF_unique hX hT, HasTF_unique hX' hT']
  exact h M M' hM hM'

/-- **C127**, simulations: formulas that are related by the laws have the same simulations, if the models they evaluate to have the same sampling period. -/
theorem C127_simulation_partial {P : Type} {Nm : Numerics ℝ P} {B : DNum} (hB : BalanceOk B) (fuel : ℕ) {e f : SExpr ℝ p m} (hl : Rewrites fuel e f) {R R' : StateM ℝ}
    (he : Evaluates fuel e R) (hf : Evaluates fuel f R') (hdt : R'.dt = R.dt) {S S' : StateObj ℝ P} (hS : S.g = R) (hS' : S'.g = R') {N : ℕ} (U : Matrix (Fin N) (Fin m) ℝ)
    (targ : Option (List ℝ)) (pc : Bool) (r : SimOut × List ℝ) :
    simulate Nm B S (Arr.of U) targ none pc = .ok r ↔ simulate Nm B S' (Arr.of U) targ none pc = .ok r := by
  subst hS hS'
  obtain ⟨h1, h2, h3, -⟩ := evaluates_value he
  obtain ⟨-, -, h3', -⟩ := evaluates_value hf
  exact C84_realization_iff hB h3 h3' h2 hdt h1 (C127_chain_partial fuel hl he hf)

/-! ## Negative feedback with a direct feedthrough -/

theorem not_sv_real {τ k : ℝ} (h : τ ^ 2 < k ^ 2) : ¬ HasSVAtMost τ (!![k] : Matrix (Fin 1) (Fin 1) ℝ) := by
  rintro ⟨x, hx, h1⟩
  have hx0 : x 0 ≠ 0 := fun h0 => hx (by ext i; fin_cases i; exact h0)
  simp only [mulVec, dotProduct, Fin.sum_univ_one, Fin.isValue, cons_val', cons_val_fin_one, Matrix.of_apply] at h1
  have h2 : 0 < x 0 * x 0 := mul_self_pos.mpr hx0
  nlinarith

/-- A static gain with one output and one input. -/
def gain1 (k : ℝ) : StateM ℝ := ⟨Arr.empty, Arr.empty, Arr.empty, Arr.of !![k], none, true⟩

theorem feedback_gain1 (d n : ℝ) (neg : Bool) (hd : d ≠ 0) (hn : n ≠ 0) (h : ((1 : ℕ) * spacing10 : ℝ) ^ 2 < (1 - n * d) ^ 2) :
    feedback (.state (gain1 d)) (.state (gain1 n)) neg = .ok (gain1 (d + fbSign neg * (d * ((1 - n * d)⁻¹ * (n * d))))) := by
  have e0 : (1 - !![n] * !![d] : Matrix (Fin 1) (Fin 1) ℝ) = !![1 - n * d] := by
    ext i j; fin_cases i; fin_cases j; simp
  have hsv : ¬ HasSVAtMost ((1 : ℕ) * spacing10 : ℝ) (1 - !![n] * !![d] : Matrix (Fin 1) (Fin 1) ℝ) := by
    rw [e0]; exact not_sv_real h
  have h1 : (1 - n * d) ≠ 0 := by
    intro h0
    rw [h0] at h
    nlinarith [sq_nonneg ((1 : ℕ) * spacing10 : ℝ)]
  have e1 : checkFeedbackIc (.state (gain1 d)) (.state (gain1 n)) = .ok (gain1 d, gain1 n) := by
    have e1 : ¬ ((gain1 d).p ≠ (gain1 n).m ∨ (gain1 d).m ≠ (gain1 n).p) := by simp [StateM.p, StateM.m, gain1]
    simp only [checkFeedbackIc, gain1, ne_eq, not_true_eq_false, if_false, Bind.bind, Except.bind] at e1 ⊢
    rw [if_neg e1]
  simp only [feedback, e1, Bind.bind, Except.bind]
  rw [closeLoop_of _ _ !![d] !![n] rfl rfl hsv]
  unfold gain1
  rw [closeBody_ss dtOk_none _ _ _ _ _ _ _ _ (fun h => hd (by simpa using congrFun (congrFun h 0) 0))
      (fun h => hn (by simpa using congrFun (congrFun h 0) 0)) _ _ (det_ne_zero_of_not_sv hsv)]
  congr 3
  have hinv : (1 - !![n] * !![d] : Matrix (Fin 1) (Fin 1) ℝ)⁻¹ = !![(1 - n * d)⁻¹] := by
    apply Matrix.inv_eq_left_inv
    rw [e0]
    ext i j; fin_cases i; fin_cases j; simp [h1]
  rw [hinv]
  congr 1
  ext i j; fin_cases i; fin_cases j; simp

/-- **C127** fails for negative feedback with a direct feedthrough around the loop: for the gain `G = 5` the models `feedback(G, G)` and `feedback(G, -G, negative=False)`, which the laws relate, are `245 / 24` and `5 / 26` (`C30_negative_violated`). -/
theorem C127_sign_violated (fuel : ℕ) : ∃ (e f : SExpr ℝ 1 1) (R R' : StateM ℝ), Law e f ∧ e.eval fuel = .ok R ∧ f.eval fuel = .ok R' ∧
    AllModels (fun p m G => 1 ≤ p ∧ 1 ≤ m ∧ Consistent G p m ∧ DtOk G.dt) e ∧ AllModels (fun p m G => 1 ≤ p ∧ 1 ≤ m ∧ Consistent G p m ∧ DtOk G.dt) f ∧ ¬ SameTF R R' 1 1 := by
  have hc : ∀ k, Consistent (gain1 k) 1 1 := fun k => ⟨⟨rfl, rfl⟩, fun h => by simp [gain1] at h⟩
  have ht : ∀ k s, HasTF (gain1 k) 1 1 (s : ℝ) !![k] := fun k s => .inl ⟨rfl, !![k], rfl, by ext i j; simp⟩
  have e1 := feedback_gain1 5 5 true (by norm_num) (by norm_num) (by norm_num [spacing10])
  have e2 := feedback_gain1 5 (-5) false (by norm_num) (by norm_num) (by norm_num [spacing10])
  have hn : (gain1 5).neg = .ok (gain1 (-5)) := by
    simp only [StateM.neg, gain1, if_true, mkGain_of dtOk_none]
    congr 2
    simp only [Arr.neg_of]
    congr 1
    ext i j; fin_cases i; fin_cases j; simp
  refine ⟨.loop true (.model (gain1 5)) (.model (gain1 5)), .loop false (.model (gain1 5)) (.neg (.model (gain1 5))), _, gain1 (5 + fbSign false * (5 * ((1 - -5 * 5)⁻¹ * (-5 * 5)))), Law.loop_sign true _ _, e1, ?_, ?_, ?_, ?_⟩
  · simp only [SExpr.eval, Bind.bind, Except.bind, hn]
    exact e2
  · exact ⟨⟨le_rfl, le_rfl, hc _, dtOk_none⟩, le_rfl, le_rfl, hc _, dtOk_none⟩
  · exact ⟨⟨le_rfl, le_rfl, hc _, dtOk_none⟩, le_rfl, le_rfl, hc _, dtOk_none⟩
  · intro h
    obtain ⟨s, hs⟩ := h.exists
    have := congrFun (congrFun (hs _ _ (ht _ s) (ht _ s)) 0) 0
    simp [fbSign] at this
    norm_num at this

/-! ## An example -/

/-- The model `1 / (s + 1)`. -/
def lagR : StateM ℝ := ⟨Arr.of !![-1], Arr.of !![1], Arr.of !![1], Arr.of !![0], none, false⟩

theorem lagR_consistent : Consistent lagR 1 1 ∧ lagR.isgain = false ∧ lagR.dt = none := ⟨⟨⟨rfl, rfl⟩, fun _ => ⟨rfl, rfl, rfl, rfl, rfl⟩⟩, rfl, rfl⟩

theorem lagR_evaluates {fuel : ℕ} {e : SExpr ℝ 1 1} (hm : AllModels (fun p m G => p = 1 ∧ m = 1 ∧ G = lagR) e) (hk : NonzeroFactors e) (hn : NoDirectLoop fuel e) (hr : Regular e) :
    ∃ R, Evaluates fuel e R ∧ R.dt = none := by
  obtain ⟨h1, h2⟩ := C88_returns_partial fuel dtOk_none e (allModels_mono (fun p m G h => by obtain ⟨rfl, rfl, rfl⟩ := h; exact lagR_consistent) e hm) hk hn (.inl rfl)
  obtain ⟨R, hR⟩ := h1.mpr hr
  exact ⟨R, ⟨allModels_mono (fun p m G h => by obtain ⟨rfl, rfl, rfl⟩ := h; exact ⟨le_rfl, le_rfl, lagR_consistent.1, dtOk_none⟩) e hm, hn, hR⟩, (h2 R hR).2.2.1⟩

/-- A loop around `1 / (s + 1)` in the forward path has no direct feedthrough and is regular. -/
theorem lagR_loop (fuel : ℕ) {e f : SExpr ℝ 1 1} (he : NoDirectLoop fuel e ∧ Regular e) (hf : NoDirectLoop fuel f ∧ Regular f)
    (h0 : ∀ D, ValueInf e D → D = 0) (h0' : ∀ G D, e.eval fuel = .ok G → G.d = Arr.of D → (D : Matrix (Fin 1) (Fin 1) ℝ) = 0) (n : Bool) :
    NoDirectLoop fuel (.loop n e f) ∧ Regular (.loop n e f) := by
  refine ⟨⟨he.1, hf.1, fun _ G H D N hG _ hD _ => by rw [h0' G D hG hD, Matrix.mul_zero]⟩, he.2, hf.2, fun E F hE _ => ?_⟩
  rw [h0 E hE, Matrix.mul_zero, sub_zero]
  exact not_sv_one (by positivity) (by norm_num)

/-- The models of `feedback(feedback(G, G), G)` and `feedback(G, G + G)` for `G = 1 / (s + 1)`: the first has three states, and so has the second. -/
example (fuel : ℕ) : ∃ (e f : SExpr ℝ 1 1) (R R' : StateM ℝ), Law e f ∧ Evaluates fuel e R ∧ Evaluates fuel f R' ∧ R'.dt = R.dt ∧ Rewrites fuel e f := by
  have m0 : AllModels (fun p m G => p = 1 ∧ m = 1 ∧ G = lagR) (.model lagR : SExpr ℝ 1 1) := ⟨rfl, rfl, rfl⟩
  have r0 : NoDirectLoop fuel (.model lagR : SExpr ℝ 1 1) ∧ Regular (.model lagR : SExpr ℝ 1 1) := ⟨trivial, trivial⟩
  have v0 : ∀ D : Matrix (Fin 1) (Fin 1) ℝ, lagR.d = Arr.of D → D = 0 := by
    intro D hD
    obtain rfl : D = !![0] := (Arr.of_inj.mp (show Arr.of !![0] = Arr.of D from hD)).symm
    ext i j; fin_cases i; fin_cases j; rfl
  have r1 := lagR_loop fuel r0 r0 v0 (fun G D hG hD => by cases hG; exact v0 D hD) true
  have r2 := lagR_loop fuel (f := .add (.model lagR) (.model lagR)) r0 ⟨⟨trivial, trivial⟩, trivial, trivial⟩ v0 (fun G D hG hD => by cases hG; exact v0 D hD) true
  have w1 : ∀ D, ValueInf (.loop true (.model lagR) (.model lagR) : SExpr ℝ 1 1) D → D = 0 := by
    rintro _ ⟨E, F, hE, hF, rfl⟩
    rw [v0 E hE, Matrix.zero_mul]
  have c1 := C88_returns_partial fuel dtOk_none (.loop true (.model lagR) (.model lagR) : SExpr ℝ 1 1) ⟨lagR_consistent, lagR_consistent⟩ ⟨trivial, trivial⟩ r1.1 (.inl rfl)
  have r3 := lagR_loop fuel r1 r0 w1 (fun G D hG hD => by
    obtain ⟨-, -, -, -, D', h1, h2⟩ := c1.2 G hG
    rw [← Arr.of_inj.mp (h2.symm.trans hD)]
    exact w1 D' h1) true
  obtain ⟨R, hR, hd⟩ := lagR_evaluates (fuel := fuel) (e := .loop true (.loop true (.model lagR) (.model lagR)) (.model lagR)) ⟨⟨m0, m0⟩, m0⟩ ⟨⟨trivial, trivial⟩, trivial⟩ r3.1 r3.2
  obtain ⟨R', hR', hd'⟩ := lagR_evaluates (fuel := fuel) (e := .loop true (.model lagR) (.add (.model lagR) (.model lagR))) ⟨m0, m0, m0⟩ ⟨trivial, trivial, trivial⟩ r2.1 r2.2
  exact ⟨_, _, R, R', Law.loop_loop true _ _ _, hR, hR', hd'.trans hd.symm, .step (.start _) hR (Law.loop_loop true _ _ _)⟩

end Harold
