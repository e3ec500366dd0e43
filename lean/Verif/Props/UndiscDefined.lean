import Verif.Props.Discrete
import Verif.Props.Lqr

/-!
# C33: when `undiscretize` is defined, and the other round trip

`C33_tustin`, `C33_forward`, `C33_backward` start from a continuous model. Here the round trip starts from a discrete one: which exception is raised when the inverse map is not
defined for it, and `discretize(undiscretize(S))` otherwise.
-/

namespace Harold

open Matrix Spec

variable {n m p : ℕ} {A : Matrix (Fin n) (Fin n) ℝ} {B : Matrix (Fin n) (Fin m) ℝ} {C : Matrix (Fin p) (Fin n) ℝ} {D : Matrix (Fin p) (Fin m) ℝ} {P : Type} {N : Numerics ℝ P} {E : DNum}
  {S : StateObj ℝ P} {dt pw : ℝ} {q : Option (Arr ℝ)} {method : String}

theorem undiscretize_error {mth : Option String} {e : Err} (hdt : S.g.dt = some dt) (hg : S.g.isgain = false) (hq : undiscQ S (undiscMethod S mth) q = .ok q)
    (h : undiscretizeArgs E S.g dt (undiscMethod S mth) pw q = .error e) : undiscretize N E S mth pw q = .error e := by
  unfold undiscretize
  rw [hdt]
  simp only [hq, bind, Except.bind, hg, Bool.false_eq_true, if_false, h]

theorem undisc_sing {x y z w : ℝ} (hS : S.g = stateOf A B C D (some dt)) (hq : undiscQ S method q = .ok q)
    (hargs : undiscretizeArgs E S.g dt method pw q = simpleLft (q2 x y z w) S.g.a S.g.b S.g.c S.g.d) (h0 : (1 - w • A).det = 0) :
    undiscretize N E S (some method) pw q = .error .linAlg := by
  refine undiscretize_error (by rw [hS]) (by rw [hS]) hq ?_
  show undiscretizeArgs E S.g dt method pw q = _
  rw [hargs, hS]
  exact simpleLft_sing _ _ _ _ _ _ _ _ h0

theorem undisc_back {x y z w Δ : ℝ} (hS : S.g = stateOf A B C D (some dt)) (hdt : 0 < dt) (hq : undiscQ S method q = .ok q)
    (hargs : undiscretizeArgs E S.g dt method pw q = simpleLft (q2 x y z w) S.g.a S.g.b S.g.c S.g.d) (h0 : (1 - w • A).det ≠ 0)
    (hΔ : Δ = z * y - x * w) (hΔ0 : Δ ≠ 0) (hyz : z * y ≠ 0) (hk : method ∈ knownMethods) (hpw : method ∈ tustinNames → pw ≤ 1 / (2 * dt))
    (hd : ∀ g : StateM ℝ, discretizeArgs E g dt method pw q = simpleLft (q2 (-x / Δ) (z / Δ) (y / Δ) (-w / Δ)) g.a g.b g.c g.d) :
    ∃ R R', undiscretize N E S (some method) pw q = .ok R ∧ discretize N E R dt method pw q = .ok R' ∧ R'.g = S.g := by
  have hl := simpleLft_of x y z w A B C D h0
  have hargs' := hargs
  rw [hS] at hargs'
  rw [hl, ← hS] at hargs'
  obtain ⟨R, h1, h2⟩ := undiscretize_of (N := N) (mth := some method) (q := q) (q' := q) (by rw [hS]) (by rw [hS]) hq hargs'
  have hi := simpleLft_inverse hΔ hΔ0 hyz A B C D h0
  have e : discretize N E R dt method pw q = discretizeDyn N E R dt method pw q := by
    simp [discretize, hk, h2]
  have ha : discretizeArgs E R.g dt method pw q = .ok (Arr.of A, Arr.of B, Arr.of C, Arr.of D) := by
    rw [hd, h2]; exact hi
  obtain ⟨R', h3, h4, -⟩ := discretizeDyn_of (N := N) ha hdt hk hpw
  exact ⟨R, R', h1, by rw [e, h3], by rw [h4, hS]⟩

/-- **C33**, tustin from the discrete side: if `-1` is not an eigenvalue of the state matrix, `discretize(undiscretize(S, 'tustin'), dt, 'tustin')` has the matrices of `S`; otherwise
`LinAlgError` is raised. -/
theorem C33_tustin_converse (hm : method = "tustin" ∨ method = "bilinear") (hS : S.g = stateOf A B C D (some dt)) (hdt : 0 < dt) :
    ((1 + A).det ≠ 0 → ∃ R R', undiscretize N E S (some method) 0 q = .ok R ∧ discretize N E R dt method 0 q = .ok R' ∧ R'.g = S.g) ∧
    ((1 + A).det = 0 → undiscretize N E S (some method) 0 q = .error .linAlg) := by
  have hq : undiscQ S method q = .ok q := by rcases hm with rfl | rfl <;> simp [undiscQ]
  have hargs : undiscretizeArgs E S.g dt method 0 q = simpleLft (q2 (-2 / dt) (2 / √dt) (2 / √dt) (-1)) S.g.a S.g.b S.g.c S.g.d := by
    rcases hm with rfl | rfl <;> simp [undiscretizeArgs, tustinNames, undiscTustin, untustinQ, bind, Except.bind]
  have e : (1 + A).det = (1 - (-1 : ℝ) • A).det := by rw [neg_one_smul, sub_neg_eq_add]
  have hsq : √dt * √dt = dt := Real.mul_self_sqrt hdt.le
  have hsq0 : √dt ≠ 0 := (Real.sqrt_pos.mpr hdt).ne'
  rw [e]
  refine ⟨fun h0 => ?_, undisc_sing hS hq hargs⟩
  have hzy : 2 / √dt * (2 / √dt) = 4 / dt := by rw [div_mul_div_comm, hsq]; norm_num
  refine undisc_back (Δ := 2 / dt) hS hdt hq hargs h0 (by rw [hzy]; ring) (by positivity) (by rw [hzy]; positivity) (by rcases hm with rfl | rfl <;> simp [knownMethods])
    (fun _ => by positivity) fun g => ?_
  have e1 : -(-2 / dt) / (2 / dt) = 1 := by field_simp
  have e2 : 2 / √dt / (2 / dt) = √dt := by rw [div_div_eq_mul_div, div_eq_iff (by positivity), div_mul_eq_mul_div, div_eq_iff hsq0]; linear_combination (-2) * hsq
  have e3 : -(-1 : ℝ) / (2 / dt) = dt / 2 := by field_simp
  rw [e1, e2, e3]
  rcases hm with rfl | rfl <;> simp [discretizeArgs, discTustin, tustinQ, tustinNames, bind, Except.bind]

/-- **C33**, forward differences from the discrete side: always defined. -/
theorem C33_forward_converse (hm : method ∈ forwardNames) (hS : S.g = stateOf A B C D (some dt)) (hdt : 0 < dt) :
    ∃ R R', undiscretize N E S (some method) pw q = .ok R ∧ discretize N E R dt method pw q = .ok R' ∧ R'.g = S.g := by
  simp only [forwardNames, List.mem_cons, List.not_mem_nil, or_false] at hm
  have hsq : √dt * √dt = dt := Real.mul_self_sqrt hdt.le
  have hsq0 : √dt ≠ 0 := (Real.sqrt_pos.mpr hdt).ne'
  have hzy : 1 / √dt * (1 / √dt) = 1 / dt := by rw [div_mul_div_comm, hsq]; norm_num
  refine undisc_back (x := -1 / dt) (y := 1 / √dt) (z := 1 / √dt) (w := 0) (Δ := 1 / dt) hS hdt ?_ ?_ (by simp) (by rw [hzy]; ring) (by positivity) (by rw [hzy]; positivity) ?_ ?_
    fun g => ?_
  · rcases hm with rfl | rfl | rfl | rfl <;> simp [undiscQ]
  · rcases hm with rfl | rfl | rfl | rfl <;> simp [undiscretizeArgs, tustinNames, forwardNames]
  · rcases hm with rfl | rfl | rfl | rfl <;> simp [knownMethods]
  · rcases hm with rfl | rfl | rfl | rfl <;> simp [tustinNames]
  · have e1 : -(-1 / dt) / (1 / dt) = 1 := by field_simp
    have e2 : 1 / √dt / (1 / dt) = √dt := by rw [div_div_eq_mul_div, div_eq_iff (by positivity), div_mul_eq_mul_div, div_eq_iff hsq0]; linear_combination (-1) * hsq
    have e3 : -(0 : ℝ) / (1 / dt) = 0 := by simp
    rw [e1, e2, e3]
    rcases hm with rfl | rfl | rfl | rfl <;> simp [discretizeArgs, forwardNames, tustinNames]

/-- **C33**, backward differences from the discrete side: if the state matrix is invertible the round trip returns it, otherwise `ValueError` is raised. -/
theorem C33_backward_converse (hm : method ∈ backwardNames) (hS : S.g = stateOf A B C D (some dt)) (hdt : 0 < dt) :
    (A.det ≠ 0 → ∃ R R', undiscretize N E S (some method) pw q = .ok R ∧ discretize N E R dt method pw q = .ok R' ∧ R'.g = S.g) ∧
    (A.det = 0 → undiscretize N E S (some method) pw q = .error .value) := by
  simp only [backwardNames, List.mem_cons, List.not_mem_nil, or_false] at hm
  have hq : undiscQ S method q = .ok q := by rcases hm with rfl | rfl | rfl | rfl <;> simp [undiscQ]
  have hargs : undiscretizeArgs E S.g dt method pw q = undiscBackward S.g dt := by
    rcases hm with rfl | rfl | rfl | rfl <;> simp [undiscretizeArgs, tustinNames, forwardNames, backwardNames]
  have e1 : ∀ k, (Arr.eye k : Arr ℝ) = Arr.of 1 := fun _ => rfl
  have hsq : √dt * √dt = dt := Real.mul_self_sqrt hdt.le
  have hsq0 : √dt ≠ 0 := (Real.sqrt_pos.mpr hdt).ne'
  constructor
  · intro h0
    have hu := Ne.isUnit h0
    have hinv : undiscInv (Arr.of A) = .ok (Arr.of A⁻¹) := by
      unfold undiscInv
      simp only [e1]
      rw [Arr.solve_of, if_neg h0, Matrix.mul_one]
    have hb : undiscBackward S.g dt = .ok (Arr.of ((1 / dt) • (1 - A⁻¹)), Arr.of ((1 / √dt) • (A⁻¹ * B)), Arr.of ((1 / √dt) • (C * A⁻¹)), Arr.of (D - C * A⁻¹ * B)) := by
      unfold undiscBackward
      rw [hS]
      simp only [hinv, bind, Except.bind, StateM.n, Arr.of_r, e1, Arr.sub_of, Arr.matmul_of, Arr.smul_of]
    obtain ⟨R, h1, h2⟩ := undiscretize_of (N := N) (mth := some method) (q := q) (q' := q) (by rw [hS]) (by rw [hS]) hq (hargs.trans hb)
    have hk : method ∈ knownMethods := by rcases hm with rfl | rfl | rfl | rfl <;> simp [knownMethods]
    have e2 : (1 : Matrix (Fin n) (Fin n) ℝ) - dt • ((1 / dt) • (1 - A⁻¹)) = A⁻¹ := by
      rw [smul_smul, mul_one_div_cancel hdt.ne', one_smul, sub_sub_cancel]
    have hl := discretize_lft_ok (N := N) (E := E) (G := R) (dt := dt) (method := method) (pw := pw) (q := q) (x := 1) (y := √dt) (z := √dt) (w := dt)
      (by rcases hm with rfl | rfl | rfl | rfl <;> simp [discretizeArgs, forwardNames, tustinNames, backwardNames])
      (by rcases hm with rfl | rfl | rfl | rfl <;> simp [tustinNames]) h2 hk
    rw [e2] at hl
    have hu' : (A⁻¹).det ≠ 0 := by rw [det_nonsing_inv]; exact hu.ringInverse.ne_zero
    obtain ⟨R', h3, h4, -⟩ := hl.2 hu' hdt
    refine ⟨R, R', h1, h3, ?_⟩
    rw [h4, hS, nonsing_inv_nonsing_inv _ hu]
    unfold stateOf
    have f1 : (1 : ℝ) • (1 : Matrix (Fin n) (Fin n) ℝ) + (√dt * √dt) • ((1 / dt) • (1 - A⁻¹) * A) = A := by
      rw [hsq, Matrix.smul_mul, smul_smul, mul_one_div_cancel hdt.ne', one_smul, one_smul, Matrix.sub_mul, nonsing_inv_mul _ hu, Matrix.one_mul, add_sub_cancel]
    have f2 : √dt • (A * ((1 / √dt) • (A⁻¹ * B))) = B := by
      rw [Matrix.mul_smul, smul_smul, mul_one_div_cancel hsq0, one_smul, ← Matrix.mul_assoc, mul_nonsing_inv _ hu, Matrix.one_mul]
    have f3 : √dt • ((1 / √dt) • (C * A⁻¹) * A) = C := by
      rw [Matrix.smul_mul, smul_smul, mul_one_div_cancel hsq0, one_smul, Matrix.mul_assoc, nonsing_inv_mul _ hu, Matrix.mul_one]
    have f4 : D - C * A⁻¹ * B + dt • ((1 / √dt) • (C * A⁻¹) * A * ((1 / √dt) • (A⁻¹ * B))) = D := by
      have : (1 / √dt) • (C * A⁻¹) * A * ((1 / √dt) • (A⁻¹ * B)) = (1 / dt) • (C * A⁻¹ * B) := by
        rw [Matrix.smul_mul, Matrix.mul_assoc C, nonsing_inv_mul _ hu, Matrix.mul_one, Matrix.smul_mul, Matrix.mul_smul, smul_smul, div_mul_div_comm, hsq, one_mul, Matrix.mul_assoc]
      rw [this, smul_smul, mul_one_div_cancel hdt.ne', one_smul, sub_add_cancel]
    rw [f1, f2, f3, f4]
  · intro h0
    refine undiscretize_error (by rw [hS]) (by rw [hS]) hq ?_
    show undiscretizeArgs E S.g dt method pw q = _
    rw [hargs, hS]
    unfold undiscBackward undiscInv
    simp only [stateOf, Arr.of_r, e1]
    rw [Arr.solve_of, if_pos h0]
    rfl

/-- Both cases of both tests occur: an integrator returns, a delay has no backward difference inverse and the model `y⁺ = -y + u` none for tustin. -/
example : (1 + (!![1] : Matrix (Fin 1) (Fin 1) ℝ)).det ≠ 0 ∧ (!![1] : Matrix (Fin 1) (Fin 1) ℝ).det ≠ 0 ∧ (!![0] : Matrix (Fin 1) (Fin 1) ℝ).det = 0 ∧
    (1 + (!![-1] : Matrix (Fin 1) (Fin 1) ℝ)).det = 0 := by
  refine ⟨?_, ?_, ?_, ?_⟩ <;> simp [Matrix.det_fin_one]

end Harold
