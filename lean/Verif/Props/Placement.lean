import Verif.Props.Separation
import Verif.Props.LoopKalman
import Verif.Props.TimeUnits

/-!
# C120: rules of pole placement

What a user of `ackermann` relies on beyond the poles of one design: the gain does not depend on the order of the locations, it is zero for the
poles the model already has, designs add up, and they follow changes of coordinates and of the unit of the input. State feedback moves the
poles only; the numerators stay.
-/

namespace Harold

open Matrix Spec

variable {n p : ℕ} {A : Matrix (Fin n) (Fin n) ℝ} {b : Matrix (Fin n) (Fin 1) ℝ} {F F₁ F₂ : Matrix (Fin 1) (Fin n) ℝ} {l l₁ l₂ : List ℝ} {S : SvdNum ℝ} {dt : Option ℝ}

/-- With exact singular values, the gain that places the poles is what is returned. -/
theorem ackermann_iff (he : 0 ≤ S.eps) (hS : ∀ (k l : ℕ) (M : Matrix (Fin k) (Fin l) ℝ), SvdExact S M) (hn : 0 < n) (hr : Reachable A b) (hl : l.length = n) :
    ackermann S (Arr.of A) (Arr.of b) (.real l) = .ok (Arr.of F) ↔ PlacesPoles A b F l := by
  obtain ⟨F', h1, h2⟩ := C56_places_partial he (hS _ _ (ctrbM A b (n - 1))) hn hr hl
  rw [h1]
  constructor
  · intro h
    obtain rfl := Arr.of_inj.mp (Except.ok.inj h)
    exact h2
  · intro h
    rw [C56_unique hr h h2]

theorem loc_length {M : Matrix (Fin n) (Fin n) ℝ} (h : M.charpoly = (l.map fun r => Polynomial.X - Polynomial.C r).prod) : l.length = n := by
  have h1 := congrArg Polynomial.natDegree h
  rw [charpoly_natDegree_eq_dim, Fintype.card_fin] at h1
  have h2 := Polynomial.natDegree_multiset_prod_X_sub_C_eq_card (l : Multiset ℝ)
  rw [Multiset.map_coe, Multiset.prod_coe, Multiset.coe_card] at h2
  omega

section
variable (he : 0 ≤ S.eps) (hS : ∀ (k l : ℕ) (M : Matrix (Fin k) (Fin l) ℝ), SvdExact S M) (hn : 0 < n) (hr : Reachable A b)
include he hS hn hr

/-- **C120**: asked for the poles the model has, `ackermann` returns zero. -/
theorem C120_nothing_to_do (h : A.charpoly = (l.map fun r => Polynomial.X - Polynomial.C r).prod) :
    ackermann S (Arr.of A) (Arr.of b) (.real l) = .ok (Arr.of (0 : Matrix (Fin 1) (Fin n) ℝ)) := by
  rw [ackermann_iff he hS hn hr (loc_length h)]
  unfold PlacesPoles
  rw [Matrix.mul_zero, sub_zero, h]

/-- **C120**: the order of the locations does not matter. -/
theorem C120_order (h : l₁.Perm l₂) (hl : l₁.length = n) : ackermann S (Arr.of A) (Arr.of b) (.real l₁) = ackermann S (Arr.of A) (Arr.of b) (.real l₂) := by
  obtain ⟨F, h1, h2⟩ := C56_places_partial he (hS _ _ (ctrbM A b (n - 1))) hn hr hl
  rw [h1, eq_comm, ackermann_iff he hS hn hr (h.length_eq ▸ hl)]
  unfold PlacesPoles at h2 ⊢
  rw [h2]
  exact (h.map _).prod_eq

/-- **C120**: designs add up. If `F₁` is a gain (from `ackermann` or elsewhere) and `F₂` moves the poles of the loop closed with it to `l₂`, then `F₁ + F₂` is the gain for `l₂`. -/
theorem C120_two_steps (hl₂ : l₂.length = n) (h₂ : ackermann S (Arr.of (A - b * F₁)) (Arr.of b) (.real l₂) = .ok (Arr.of F₂)) : ackermann S (Arr.of A) (Arr.of b) (.real l₂) = .ok (Arr.of (F₁ + F₂)) := by
  have hr' : Reachable (A - b * F₁) b := by
    have := (reachable_feedback A b (-F₁) 1 (by simp)).mpr hr
    rwa [Matrix.mul_neg, ← sub_eq_add_neg, Matrix.mul_one] at this
  rw [ackermann_iff he hS hn hr' hl₂] at h₂
  rw [ackermann_iff he hS hn hr hl₂]
  unfold PlacesPoles at h₂ ⊢
  rw [Matrix.mul_add, show A - (b * F₁ + b * F₂) = A - b * F₁ - b * F₂ by abel, h₂]

/-- **C120**: a gain `F₁`, however chosen, is undone by asking for the poles the model had. -/
theorem C120_undo (h : A.charpoly = (l₂.map fun r => Polynomial.X - Polynomial.C r).prod) :
    ackermann S (Arr.of (A - b * F₁)) (Arr.of b) (.real l₂) = .ok (Arr.of (-F₁)) := by
  have hr' : Reachable (A - b * F₁) b := by
    have := (reachable_feedback A b (-F₁) 1 (by simp)).mpr hr
    rwa [Matrix.mul_neg, ← sub_eq_add_neg, Matrix.mul_one] at this
  rw [ackermann_iff he hS hn hr' (loc_length h)]
  unfold PlacesPoles
  rw [Matrix.mul_neg, sub_neg_eq_add, sub_add_cancel, h]

/-- **C120**: in other coordinates `x = T z` the gain is `F T`. -/
theorem C120_coordinates {T : Matrix (Fin n) (Fin n) ℝ} (hT : IsUnit T.det) (hl : l.length = n) (h : ackermann S (Arr.of A) (Arr.of b) (.real l) = .ok (Arr.of F)) :
    ackermann S (Arr.of (T⁻¹ * A * T)) (Arr.of (T⁻¹ * b)) (.real l) = .ok (Arr.of (F * T)) := by
  rw [ackermann_iff he hS hn hr hl] at h
  rw [ackermann_iff he hS hn (reachable_similar hT hr) hl]
  unfold PlacesPoles at h ⊢
  rw [← h, show T⁻¹ * A * T - T⁻¹ * b * (F * T) = T⁻¹ * (A - b * F) * T by
    rw [Matrix.mul_sub, Matrix.sub_mul, Matrix.mul_assoc T⁻¹ b, ← Matrix.mul_assoc b, ← Matrix.mul_assoc T⁻¹ (b * F)]]
  have := charpoly_units_conj' (T.nonsingInvUnit hT) (A - b * F)
  exact this

/-- **C120**: if the input is measured in a unit that is `k` times as large, the gain is divided by `k`. -/
theorem C120_input_unit {k : ℝ} (hk : k ≠ 0) (hl : l.length = n) (h : ackermann S (Arr.of A) (Arr.of b) (.real l) = .ok (Arr.of F)) :
    ackermann S (Arr.of A) (Arr.of (k • b)) (.real l) = .ok (Arr.of (k⁻¹ • F)) := by
  have hr' : Reachable A (k • b) := by
    have := (reachable_feedback A b 0 (k • 1) (by simp [hk])).mpr hr
    rwa [Matrix.mul_zero, add_zero, Matrix.mul_smul, Matrix.mul_one] at this
  rw [ackermann_iff he hS hn hr hl] at h
  rw [ackermann_iff he hS hn hr' hl]
  unfold PlacesPoles at h ⊢
  rw [Matrix.smul_mul, Matrix.mul_smul, smul_smul, mul_inv_cancel₀ hk, one_smul, h]

/-- **C120**: state feedback keeps the numerators. For every output `y = C x + D u` of the model, the value of the closed loop from the new input to `y` times `∏ (s - lᵢ)` is the value of the model times
its own characteristic polynomial. -/
theorem C120_numerators {C : Matrix (Fin p) (Fin n) ℝ} {D : Matrix (Fin p) (Fin 1) ℝ} (hl : l.length = n) (h : ackermann S (Arr.of A) (Arr.of b) (.real l) = .ok (Arr.of F)) {s : ℂ}
    {M M' : Matrix (Fin p) (Fin 1) ℂ} (hM : HasTF ⟨Arr.of A, Arr.of b, Arr.of C, Arr.of D, dt, false⟩ p 1 s M)
    (hM' : HasTF ⟨Arr.of (A - b * F), Arr.of b, Arr.of (C - D * F), Arr.of D, dt, false⟩ p 1 s M') :
    (l.map fun r : ℝ => s - r).prod • M' = (s • (1 : Matrix (Fin n) (Fin n) ℂ) - A.map (algebraMap ℝ ℂ)).det • M := by
  rw [ackermann_iff he hS hn hr hl] at h
  have key : (s • (1 : Matrix (Fin n) (Fin n) ℂ) - (A - b * F).map (algebraMap ℝ ℂ)).det = (l.map fun r : ℝ => s - r).prod := by
    rw [← map_charpoly_eval, show (A - b * F).charpoly = _ from h, Polynomial.map_list_prod, Polynomial.eval_list_prod, List.map_map, List.map_map]
    congr 1
    refine List.map_congr_left fun z _ => ?_
    simp
  rw [← key]
  have h1 := hasTF_stateOf.mp hM
  have h2 := hasTF_stateOf.mp hM'
  obtain ⟨hd, X, hX, e1⟩ := isTF_iff_sol.mp h1
  obtain ⟨hd', Y, hY, e2⟩ := isTF_iff_sol.mp h2
  set φ := algebraMap ℝ ℂ
  set P := s • (1 : Matrix (Fin n) (Fin n) ℂ) - A.map φ with hP
  have e3 : s • (1 : Matrix (Fin n) (Fin n) ℂ) - (A - b * F).map φ = P + b.map φ * F.map φ := by
    rw [map_sub', map_mul', hP]
    abel
  rw [e3] at hd' hY ⊢
  set t : ℂ := 1 + (F.map φ * X) 0 0 with ht
  have e4 : (P + b.map φ * F.map φ).det = P.det * t := by
    rw [det_add_mul _ _ (Ne.isUnit hd), det_fin_one, Matrix.mul_assoc, show P⁻¹ * b.map φ = X by
      rw [← hX, ← Matrix.mul_assoc, nonsing_inv_mul _ (Ne.isUnit hd), Matrix.one_mul]]
    rfl
  have e5 : (P + b.map φ * F.map φ) * X = t • b.map φ := by
    rw [Matrix.add_mul, hX, Matrix.mul_assoc]
    ext i j
    fin_cases j
    simp [Matrix.mul_apply, ht]
    ring
  have e6 : t • Y = X := by
    have : (P + b.map φ * F.map φ) * (t • Y) = (P + b.map φ * F.map φ) * X := by rw [Matrix.mul_smul, hY, e5]
    have := congrArg (fun Z => (P + b.map φ * F.map φ)⁻¹ * Z) this
    simpa only [← Matrix.mul_assoc, nonsing_inv_mul _ (Ne.isUnit hd'), Matrix.one_mul] using this
  have e7 : D.map φ * (F.map φ * X) = (F.map φ * X) 0 0 • D.map φ := by
    ext i j
    obtain rfl : j = 0 := Subsingleton.elim _ _
    rw [Matrix.mul_apply, Fin.sum_univ_one, Matrix.smul_apply, smul_eq_mul, mul_comm]
  rw [e4, ← smul_smul, e2, smul_add, ← Matrix.mul_smul, e6, e1, map_sub', map_mul', Matrix.sub_mul, Matrix.mul_assoc, e7, ht, add_smul, one_smul]
  congr 1
  abel

/-- **C120**, the loop closed with `feedback` around the measured states has exactly the poles asked for. -/
theorem C120_loop {N : Numerics ℝ ℂ} (hN : EigExact N) (hl : l.length = n) (h : ackermann S (Arr.of A) (Arr.of b) (.real l) = .ok (Arr.of F)) (hdt : DtOk dt) :
    ∃ R, feedback (.state (stateOf A b (1 : Matrix (Fin n) (Fin n) ℝ) 0 dt)) (.state ⟨Arr.empty, Arr.empty, Arr.empty, Arr.of F, dt, true⟩) true = .ok R ∧ R.dt = dt ∧
      ∀ T : StateObj ℝ ℂ, T.g = R → PolesCurrent N T → T.poles.Perm (l.map fun r : ℝ => (r : ℂ)) := by
  rw [ackermann_iff he hS hn hr hl] at h
  have hG : Consistent (stateOf A b (1 : Matrix (Fin n) (Fin n) ℝ) 0 dt) n 1 := ⟨⟨rfl, rfl⟩, fun _ => ⟨rfl, rfl, rfl, rfl, rfl⟩⟩
  have hH : Consistent (⟨Arr.empty, Arr.empty, Arr.empty, Arr.of F, dt, true⟩ : StateM ℝ) 1 n := ⟨⟨rfl, rfl⟩, fun h => by cases h⟩
  obtain ⟨R, hR⟩ := feedback_exists hG hH hdt rfl rfl (D := 0) (E := F) rfl rfl (Matrix.mul_zero _) (by norm_num [spacing10]) true
  obtain ⟨h1, h2, h3⟩ := feedback_result hG hH hdt hR
  refine ⟨R, hR, h2, fun T hT hP => perm_of_prod fun s => ?_⟩
  subst hT
  obtain ⟨h4, h5⟩ := h3 0 F rfl rfl
  unfold stateOf at h5
  rw [closeBody_ds hdt _ _ _ _ _ _ _ _ _ _ h4] at h5
  have h6 := (Except.ok.inj h5).symm
  have e : A + (fbSign true : ℝ) • b * ((1 - F * (0 : Matrix (Fin n) (Fin 1) ℝ))⁻¹ * (F * (1 : Matrix (Fin n) (Fin n) ℝ))) = A - b * F := by
    rw [Matrix.mul_zero, sub_zero, inv_one, Matrix.one_mul, Matrix.mul_one, show (fbSign true : ℝ) = -1 from rfl, neg_one_smul, Matrix.neg_mul, sub_eq_add_neg]
  have hc : CharAt T.g s (s • (1 : Matrix (Fin n) (Fin n) ℂ) - (A - b * F).map (algebraMap ℝ ℂ)).det := Or.inr ⟨by rw [h6], n, _, by rw [h6, e], rfl⟩
  rw [CharAt_unique (char_poles hN hP h1 s) hc, ← map_charpoly_eval, show (A - b * F).charpoly = _ from h, Polynomial.map_list_prod, Polynomial.eval_list_prod, List.map_map, List.map_map, List.map_map]
  congr 1
  refine List.map_congr_left fun z _ => ?_
  simp

end

/-- The double integrator meets all hypotheses: its poles are moved to `-1, -2`, then to `-3, -4`; asked for `0, 0` the gain is zero. -/
example : ∃ (S : SvdNum ℝ) (F₁ F₂ : Matrix (Fin 1) (Fin 2) ℝ), ackermann S (Arr.of dblA) (Arr.of dblB) (.real [-1, -2]) = .ok (Arr.of F₁) ∧ F₁ ≠ 0 ∧
    ackermann S (Arr.of (dblA - dblB * F₁)) (Arr.of dblB) (.real [-3, -4]) = .ok (Arr.of F₂) ∧
    ackermann S (Arr.of dblA) (Arr.of dblB) (.real [-3, -4]) = .ok (Arr.of (F₁ + F₂)) ∧
    ackermann S (Arr.of dblA) (Arr.of dblB) (.real [-4, -3]) = .ok (Arr.of (F₁ + F₂)) ∧
    ackermann S (Arr.of dblA) (Arr.of dblB) (.real [0, 0]) = .ok (Arr.of (0 : Matrix (Fin 1) (Fin 2) ℝ)) ∧
    ackermann S (Arr.of dblA) (Arr.of ((2 : ℝ) • dblB)) (.real [-1, -2]) = .ok (Arr.of ((2 : ℝ)⁻¹ • F₁)) := by
  obtain ⟨S, he, hS⟩ := exists_svdNum
  have hS' : ∀ (k l : ℕ) (M : Matrix (Fin k) (Fin l) ℝ), SvdExact S M := fun _ _ M => hS M
  obtain ⟨F₁, h1, h2⟩ := C56_places_partial (loc := [-1, -2]) he.ge (hS (ctrbM dblA dblB (2 - 1))) (by norm_num) reachable_dbl rfl
  have hr' : Reachable (dblA - dblB * F₁) dblB := by
    have := (reachable_feedback dblA dblB (-F₁) 1 (by simp)).mpr reachable_dbl
    rwa [Matrix.mul_neg, ← sub_eq_add_neg, Matrix.mul_one] at this
  obtain ⟨F₂, h3, -⟩ := C56_places_partial (loc := [-3, -4]) he.ge (hS (ctrbM (dblA - dblB * F₁) dblB (2 - 1))) (by norm_num) hr' rfl
  have h4 := C120_two_steps he.ge hS' (by norm_num) reachable_dbl rfl h3
  have h5 := C120_nothing_to_do he.ge hS' (by norm_num) reachable_dbl (l := [0, 0]) (by
    simp [dblA, charpoly_fin_two, trace_fin_two, det_fin_two, sq])
  refine ⟨S, F₁, F₂, h1, ?_, h3, h4, ?_, h5, C120_input_unit he.ge hS' (by norm_num) reachable_dbl (by norm_num) rfl h1⟩
  · rintro rfl
    unfold PlacesPoles at h2
    have := congrArg (Polynomial.eval 0) h2
    simp [dblA, charpoly_fin_two, trace_fin_two, det_fin_two] at this
  · rw [← h4]
    exact C120_order he.ge hS' (by norm_num) reachable_dbl (List.Perm.swap _ _ _) rfl

end Harold
