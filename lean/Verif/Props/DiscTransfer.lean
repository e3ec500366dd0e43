import Verif.Lemmas.DiscTransfer
import Verif.Props.Hold
import Verif.Props.TransferInv

/-!
# C82: discretization of `Transfer` models
-/

namespace Harold

open Matrix Spec Polynomial

variable {E : TNum ℝ} {N : Numerics ℝ ℂ} {B : DNum} {G : TransferM ℝ} {dt pw : ℝ} {method : String} {q : Option (Arr ℝ)} {n p m : ℕ}
  {P Q : Matrix (Fin p) (Fin m) (List ℝ)}

/-! ## `discretize` -/

theorem rule_known {r : Rule} (h : method ∈ r.names) : method ∈ knownMethods := by
  cases r <;> simp only [Rule.names, List.mem_cons, List.not_mem_nil, or_false] at h
  · rcases h with rfl | rfl <;> simp [knownMethods]
  · rcases h with rfl | rfl | rfl | rfl <;> simp [knownMethods]
  · rcases h with rfl | rfl | rfl | rfl <;> simp [knownMethods]

theorem rule_not_lft {r : Rule} (h : method ∈ r.names) : method ≠ "lft" := by
  rintro rfl
  cases r <;> simp [Rule.names] at h

theorem rule_forward (h : method ∈ Rule.forward.names) : method ∈ forwardNames := by
  simp only [Rule.names, List.mem_cons, List.not_mem_nil, or_false] at h
  rcases h with rfl | rfl | rfl | rfl <;> simp [forwardNames]

theorem rule_backward (h : method ∈ Rule.backward.names) : method ∈ backwardNames := by
  simp only [Rule.names, List.mem_cons, List.not_mem_nil, or_false] at h
  rcases h with rfl | rfl | rfl | rfl <;> simp [backwardNames]

/-- The star product of a rule. -/
noncomputable def ruleW (dt : ℝ) : Rule → ℝ
  | .tustin => dt / 2
  | .forward => 0
  | .backward => dt

theorem rule_args {r : Rule} (h : method ∈ r.names) (hpw : r = .tustin → pw = 0) (T : StateM ℝ) :
    discretizeArgs B T dt method pw q = simpleLft (q2 1 (√dt) (√dt) (ruleW dt r)) T.a T.b T.c T.d := by
  cases r
  · obtain rfl := hpw rfl
    simp only [Rule.names, List.mem_cons, List.not_mem_nil, or_false] at h
    rcases h with rfl | rfl <;>
      simp [discretizeArgs, discTustin, tustinQ, tustinNames, Bind.bind, Except.bind, ruleW]
  · simp only [Rule.names, List.mem_cons, List.not_mem_nil, or_false] at h
    rcases h with rfl | rfl | rfl | rfl <;>
      simp [discretizeArgs, tustinNames, forwardNames, ruleW]
  · simp only [Rule.names, List.mem_cons, List.not_mem_nil, or_false] at h
    rcases h with rfl | rfl | rfl | rfl <;>
      simp [discretizeArgs, tustinNames, forwardNames, backwardNames, ruleW]

theorem rule_tustinNames {r : Rule} (h : method ∈ r.names) (ht : method ∈ tustinNames) : r = .tustin := by
  cases r
  · rfl
  all_goals
    simp only [Rule.names, List.mem_cons, List.not_mem_nil, or_false] at h
    rcases h with rfl | rfl | rfl | rfl <;> simp [tustinNames] at ht

/-- The value of the discretised `State` model. -/
theorem rule_hasTF {S G : StateObj ℝ ℂ} {r : Rule} (hr : method ∈ r.names) (hpw : r = .tustin → pw = 0)
    (h : discretize N B G dt method pw q = .ok S) {L : Type} [Field L] [Algebra ℝ L] {s ζ : L} {M : Matrix (Fin p) (Fin m) L}
    (hrel : r.Related dt s ζ) (hG : HasTF G.g p m s M) : HasTF S.g p m ζ M := by
  cases r
  · obtain rfl := hpw rfl
    exact (C32_tustin (by simpa [Rule.names] using hr) h hG hrel.1 hrel.2).1
  · exact (C32_forward (rule_forward hr) h hG hrel).1
  · exact (C32_backward (rule_backward hr) h hG hrel.1 hrel.2).1

/-- The matrix that must be invertible for the `State` model to be discretised. -/
theorem ruleW_det {A : Matrix (Fin n) (Fin n) ℝ} {r : Rule} (hdt : 0 < dt)
    (h : ∀ s, r.contAtInfinity dt = some s → (s • (1 : Matrix (Fin n) (Fin n) ℝ) - A).det ≠ 0) : (1 - ruleW dt r • A).det ≠ 0 := by
  have key : ∀ w : ℝ, w ≠ 0 → ((1 / w) • (1 : Matrix (Fin n) (Fin n) ℝ) - A).det ≠ 0 → (1 - w • A).det ≠ 0 := by
    intro w hw h1
    have : 1 - w • A = w • ((1 / w) • (1 : Matrix (Fin n) (Fin n) ℝ) - A) := by
      rw [smul_sub, smul_smul, mul_one_div, div_self hw, one_smul]
    rw [this, det_smul]
    exact mul_ne_zero (pow_ne_zero _ hw) h1
  cases r
  · refine key (dt / 2) (by positivity) ?_
    have := h _ rfl
    rwa [show (1 : ℝ) / (dt / 2) = 2 / dt by field_simp]
  · simp [ruleW]
  · exact key _ hdt.ne' (h _ rfl)

theorem hasTF_det {T : StateM ℝ} {A : Matrix (Fin n) (Fin n) ℝ} {B₁ : Matrix (Fin n) (Fin m) ℝ} {C : Matrix (Fin p) (Fin n) ℝ}
    {D : Matrix (Fin p) (Fin m) ℝ} {d : Option ℝ} (hT : T = ⟨Arr.of A, Arr.of B₁, Arr.of C, Arr.of D, d, false⟩) {s : ℝ}
    {M : Matrix (Fin p) (Fin m) ℝ} (h : HasTF T p m s M) : (s • (1 : Matrix (Fin n) (Fin n) ℝ) - A).det ≠ 0 := by
  subst hT
  rcases h with ⟨h, -⟩ | ⟨-, n', A', B', C', D', e1, e2, e3, e4, hT⟩
  · cases h
  simp only at e1 e2 e3 e4
  have hnn : n' = n := (congrArg Arr.r e1).symm
  subst hnn
  rw [Arr.of_inj] at e1 e2 e3 e4
  subst e1 e2 e3 e4
  simpa using hT.1

theorem hasTF_dyn {T : StateM ℝ} {A : Matrix (Fin n) (Fin n) ℝ} {B₁ : Matrix (Fin n) (Fin m) ℝ} {C : Matrix (Fin p) (Fin n) ℝ}
    {D : Matrix (Fin p) (Fin m) ℝ} {d : Option ℝ} (hT : T = ⟨Arr.of A, Arr.of B₁, Arr.of C, Arr.of D, d, false⟩) {L : Type} [Field L] [Algebra ℝ L]
    {s : L} {M : Matrix (Fin p) (Fin m) L} (h : HasTF T p m s M) :
    IsTF (A.map (algebraMap ℝ L)) (B₁.map (algebraMap ℝ L)) (C.map (algebraMap ℝ L)) (D.map (algebraMap ℝ L)) s M := by
  subst hT
  rcases h with ⟨h, -⟩ | ⟨-, n', A', B', C', D', e1, e2, e3, e4, hT⟩
  · cases h
  simp only at e1 e2 e3 e4
  have hnn : n' = n := (congrArg Arr.r e1).symm
  subst hnn
  rw [Arr.of_inj] at e1 e2 e3 e4
  subst e1 e2 e3 e4
  exact hT

theorem hasTF_exists {T : StateM ℝ} {A : Matrix (Fin n) (Fin n) ℝ} (hc : Consistent T p m) (hg : T.isgain = false) (hA : T.a = Arr.of A) {s : ℝ}
    (h : (s • (1 : Matrix (Fin n) (Fin n) ℝ) - A).det ≠ 0) : ∃ M : Matrix (Fin p) (Fin m) ℝ, HasTF T p m s M := by
  obtain ⟨a, b, c, D, dt', hT'⟩ | ⟨n', A', B₁, C, D, dt', hT'⟩ := consistent_cases hc
  · rw [hT'] at hg; cases hg
  rw [hT'] at hA
  have hnn : n' = n := congrArg Arr.r hA
  subst hnn
  obtain rfl := Arr.of_inj.mp hA
  exact ⟨_, by rw [hT']; exact HasTF.of_dyn ⟨by simpa using h, rfl⟩⟩

/-- The discretised model has no pole at the point that corresponds to `s = ∞`. -/
theorem rule_disc_det {A : Matrix (Fin n) (Fin n) ℝ} {r : Rule} (hdt : 0 < dt) (h0 : (1 - ruleW dt r • A).det ≠ 0) {x : ℝ}
    (hx : r.discAtInfinity = some x) :
    (x • (1 : Matrix (Fin n) (Fin n) ℝ) - ((1 : ℝ) • 1 + (√dt * √dt) • (A * (1 - ruleW dt r • A)⁻¹))).det ≠ 0 := by
  have hi : (1 - ruleW dt r • A)⁻¹ * (1 - ruleW dt r • A) = 1 := nonsing_inv_mul _ (Ne.isUnit h0)
  have hx1 : x - 1 ≠ 0 ∧ (x - 1) * ruleW dt r + dt = 0 := by
    cases r <;> simp only [Rule.discAtInfinity, Option.some.injEq, reduceCtorEq] at hx
    · subst hx
      refine ⟨by norm_num, ?_⟩
      simp only [ruleW]
      ring
    · subst hx
      refine ⟨by norm_num, ?_⟩
      simp only [ruleW]
      ring
  have key : (x • (1 : Matrix (Fin n) (Fin n) ℝ) - ((1 : ℝ) • 1 + (√dt * √dt) • (A * (1 - ruleW dt r • A)⁻¹))) * (1 - ruleW dt r • A)
      = (x - 1) • (1 : Matrix (Fin n) (Fin n) ℝ) := by
    rw [Real.mul_self_sqrt hdt.le, Matrix.sub_mul, Matrix.add_mul, smul_mul (a := dt), Matrix.mul_assoc, hi, Matrix.mul_one, smul_mul, smul_mul,
      Matrix.one_mul, smul_sub, one_smul, smul_smul]
    have e : (x - 1) • (1 : Matrix (Fin n) (Fin n) ℝ) = x • 1 - 1 - ((x - 1) * ruleW dt r + dt) • A := by
      rw [hx1.2, zero_smul, sub_zero, sub_smul, one_smul]
    rw [e, add_smul, sub_mul, one_mul, sub_smul]
    abel
  intro h
  have h1 := congrArg det key
  rw [det_mul, h, zero_mul, det_smul, det_one, mul_one] at h1
  exact pow_ne_zero _ hx1.1 h1.symm

/-- Every other point `s` corresponds to a point `z`. -/
theorem rule_related_exists {r : Rule} (hdt : 0 < dt) {L : Type} [Field L] [Algebra ℝ L] (s : L)
    (h : ∀ x, r.contAtInfinity dt = some x → s ≠ algebraMap ℝ L x) : ∃ z, r.Related dt s z := by
  have hd : algebraMap ℝ L dt ≠ 0 := by simpa using hdt.ne'
  have h2 : (2 : L) ≠ 0 := by
    have : algebraMap ℝ L (2 : ℝ) ≠ 0 := by simp
    rwa [map_ofNat] at this
  cases r
  · have h1 := h _ rfl
    rw [map_div₀, map_ofNat] at h1
    have h3 : 2 - s * algebraMap ℝ L dt ≠ 0 := fun h4 => h1 (by rw [eq_div_iff hd]; linear_combination -h4)
    refine ⟨(2 + s * algebraMap ℝ L dt) / (2 - s * algebraMap ℝ L dt), ?_, ?_⟩
    · rw [div_add_one h3]
      refine div_ne_zero ?_ h3
      have : 2 + s * algebraMap ℝ L dt + (2 - s * algebraMap ℝ L dt) = 2 * 2 := by ring
      rw [this]
      exact mul_ne_zero h2 h2
    · rw [div_add_one h3, div_sub_one h3, div_div_div_cancel_right₀ h3]
      have e1 : 2 + s * algebraMap ℝ L dt + (2 - s * algebraMap ℝ L dt) = 2 * 2 := by ring
      have e2 : 2 + s * algebraMap ℝ L dt - (2 - s * algebraMap ℝ L dt) = 2 * (s * algebraMap ℝ L dt) := by ring
      rw [e1, e2]
      field_simp
  · refine ⟨1 + s * algebraMap ℝ L dt, ?_⟩
    simp only [Rule.Related]
    field_simp
    ring
  · have h1 := h _ rfl
    rw [map_div₀, map_one] at h1
    have h3 : 1 - s * algebraMap ℝ L dt ≠ 0 := fun h4 => h1 (by rw [eq_div_iff hd]; linear_combination -h4)
    refine ⟨1 / (1 - s * algebraMap ℝ L dt), one_div_ne_zero h3, ?_⟩
    field_simp
    ring

/-- Quotients with the same value wherever they are defined, except at one point, are constants. -/
theorem allConstant_of_values_off {N D : Matrix (Fin p) (Fin m) (List ℝ)} (h0 : ∀ i j, (D i j).getD 0 0 ≠ 0) {H : Matrix (Fin p) (Fin m) ℝ} (x₀ : ℝ)
    (h : ∀ s : ℝ, s ≠ x₀ → (∀ i j, polyAt s (D i j) ≠ 0) → ∀ i j, H i j = polyAt s (N i j) / polyAt s (D i j)) : AllConstant N D := by
  intro i j
  refine ⟨H i j, ?_⟩
  have hP : (∏ x : Fin p, ∏ y : Fin m, toPoly (D x y)) ≠ 0 :=
    Finset.prod_ne_zero_iff.mpr fun x _ => Finset.prod_ne_zero_iff.mpr fun y _ => (toPoly_ne_zero_of_head (h0 x y)).1
  have : (toPoly (N i j) - C (H i j) * toPoly (D i j)) * ((X - C x₀) * ∏ x : Fin p, ∏ y : Fin m, toPoly (D x y)) = 0 := by
    refine Polynomial.funext fun s => ?_
    rw [eval_mul, eval_mul, eval_zero]
    by_cases hx : s = x₀
    · simp [hx]
    by_cases hs : ∀ x y, polyAt s (D x y) ≠ 0
    · have h1 := h s hx hs i j
      have h2 := hs i j
      rw [polyAt_real] at h2
      rw [polyAt_real, polyAt_real] at h1
      have h3 : (toPoly (N i j) - C (H i j) * toPoly (D i j)).eval s = 0 := by
        rw [eval_sub, eval_mul, eval_C, h1, div_mul_cancel₀ _ h2, sub_self]
      rw [h3, zero_mul]
    · push Not at hs
      obtain ⟨x, y, hxy⟩ := hs
      rw [polyAt_real] at hxy
      have : (∏ x : Fin p, ∏ y : Fin m, toPoly (D x y)).eval s = 0 := by
        rw [eval_prod]
        refine Finset.prod_eq_zero (Finset.mem_univ x) ?_
        rw [eval_prod]
        exact Finset.prod_eq_zero (Finset.mem_univ y) hxy
      rw [this, mul_zero, mul_zero]
  exact sub_eq_zero.mp ((mul_eq_zero.mp this).resolve_right (mul_ne_zero (X_sub_C_ne_zero _) hP))

/-- Constant quotients have constant values. -/
theorem hasVal_const {F : TransferM ℝ} {P' Q' : Matrix (Fin p) (Fin m) (List ℝ)} (hF : Normal F p m P' Q') {c : Fin p → Fin m → ℝ}
    (hc : ∀ i j, toPoly (P' i j) = C (c i j) * toPoly (Q' i j)) {s : ℝ} {M : Matrix (Fin p) (Fin m) ℝ} (h : HasVal F p m s M) (i : Fin p) (j : Fin m) :
    M i j = c i j := by
  obtain ⟨num, den, h1, h2, h3⟩ := h
  obtain rfl := Arr.of_inj.mp (hF.num.symm.trans h1)
  obtain rfl := Arr.of_inj.mp (hF.den.symm.trans h2)
  obtain ⟨h4, h5⟩ := h3 i j
  rw [h5, polyAt_real, polyAt_real, hc i j, eval_mul, eval_C]
  rw [polyAt_real] at h4
  exact mul_div_cancel_right₀ _ h4

/-- The discretised `State` model in the dynamic case. -/
theorem rule_state {T : StateM ℝ} (hT : Consistent T p m) (hTg : T.isgain = false) (hTd : T.dt = none) {r : Rule} (hr : method ∈ r.names)
    (hpw : r = .tustin → pw = 0) (hdt : 0 < dt)
    (hreg : ∀ s, r.contAtInfinity dt = some s → ∃ M : Matrix (Fin p) (Fin m) ℝ, HasTF T p m s M) :
    ∃ (S : StateObj ℝ ℂ) (n : ℕ) (A : Matrix (Fin n) (Fin n) ℝ) (B₁ : Matrix (Fin n) (Fin m) ℝ) (C : Matrix (Fin p) (Fin n) ℝ) (D : Matrix (Fin p) (Fin m) ℝ),
      T = ⟨Arr.of A, Arr.of B₁, Arr.of C, Arr.of D, none, false⟩ ∧
      discretize N B (bareState T) dt method pw q = .ok S ∧ Consistent S.g p m ∧ S.g.isgain = false ∧ (1 - ruleW dt r • A).det ≠ 0 ∧
      S.g.a = Arr.of ((1 : ℝ) • 1 + (√dt * √dt) • (A * (1 - ruleW dt r • A)⁻¹)) := by
  obtain ⟨a, b, c, D, dt', hT'⟩ | ⟨n, A, B₁, C, D, dt', hT'⟩ := consistent_cases hT
  · rw [hT'] at hTg; cases hTg
  have hd : dt' = none := by rw [hT'] at hTd; exact hTd
  subst hd
  have h0 : (1 - ruleW dt r • A).det ≠ 0 := ruleW_det hdt fun s hs => by
    obtain ⟨M, hM⟩ := hreg s hs
    exact hasTF_det hT' hM
  obtain ⟨S, h1, h2, -⟩ := (discretize_lft_ok (N := N) (E := B) (G := bareState T) (dt := dt) (method := method) (pw := pw) (q := q)
    (rule_args hr hpw T) (fun ht hdt => by rw [hpw (rule_tustinNames hr ht)]; positivity) hT' (rule_known hr)).2 h0 hdt
  refine ⟨S, n, A, B₁, C, D, hT', h1, ?_, by rw [h2], h0, by rw [h2]⟩
  rw [h2]
  exact ⟨⟨rfl, rfl⟩, fun _ => ⟨rfl, rfl, rfl, rfl, rfl⟩⟩

/-- **C82**: discretization of a `Transfer` by tustin, forward or backward differences. A continuous `Transfer` whose entries are not all
constant, without pole at the point that corresponds to `z = ∞`, can be discretised with every `dt > 0`. The result is a `Transfer` with
sampling period `dt`, the method is recorded, and its value at `z` is the value of `G` at the corresponding point `s`, wherever `G` has one. It is
not constant and has no pole at the point that corresponds to `s = ∞`.
`_partial`: exact arithmetic; models with nonconstant data but constant quotients are rejected (`C82_cancelled_violated`), static gains are in
`C82_gain_partial`. -/
theorem C82_discretize_partial (hbal : ∀ polys i, E.bal polys i ≠ 0) (hthr : E.lcmTol ≤ 1) (htol : ClearModel E.lcmTol E.remTol G) (hN : EigExact N)
    (hZ : ZerosExact N) (hG : Normal G p m P Q) (hc : G.dt = none) (hnc : ¬ AllConstant P Q) {r : Rule} (hr : method ∈ r.names)
    (hpw : r = .tustin → pw = 0) (hdt : 0 < dt) (hreg : RegularAt G p m (r.contAtInfinity dt)) :
    ∃ R, discretizeTransfer E N B G dt method pw q = .ok R ∧ R.g.dt = some dt ∧ R.discWith = some method ∧
      (∃ P' Q', Normal R.g p m P' Q' ∧ ¬ AllConstant P' Q') ∧ RegularAt R.g p m r.discAtInfinity ∧
      ∀ {L : Type} [Field L] [Algebra ℝ L] (s z : L) (M : Matrix (Fin p) (Fin m) L), r.Related dt s z → HasVal G p m s M → HasVal R.g p m z M := by
  obtain ⟨T, -, h2, h3, h4, h5, h6⟩ := discretizeTransfer_of (E := E) (N := N) (B := B) hbal hthr htol hN hZ hG hc hnc
  obtain ⟨S, n, A, B₁, C, D, -, hS, hSc, hSg, h0, hSa⟩ := rule_state (N := N) (B := B) (q := q) h2 h3 h4 hr hpw hdt fun s hs => by
    obtain ⟨M, hM⟩ := hreg s hs
    exact ⟨M, h5 s M hM⟩
  obtain ⟨R, P', Q', g1, g2, g3, g4, -, -, g5⟩ := h6 S hS hSc hSg fun h => absurd h (rule_not_lft hr)
  have hval : ∀ {L : Type} [Field L] [Algebra ℝ L] (s z : L) (M : Matrix (Fin p) (Fin m) L), r.Related dt s z → HasVal G p m s M → HasVal R.g p m z M :=
    fun s z M hrel hM => g5 z M (rule_hasTF hr hpw hS hrel (h5 s M hM))
  refine ⟨R, g1, g3, g4, ⟨P', Q', g2, fun hcon => hnc ?_⟩, fun x hx => ?_, hval⟩
  · choose c hcst using hcon
    refine allConstant_of_values_off hG.lead (H := Matrix.of c) ((r.contAtInfinity dt).getD 0) fun s hs hden i j => ?_
    obtain ⟨z, hz⟩ := rule_related_exists (r := r) hdt s fun x hx => by rw [hx] at hs; exact hs
    have := hval s z (Matrix.of fun i j => polyAt s (P i j) / polyAt s (Q i j)) hz ⟨P, Q, hG.num, hG.den, fun i j => ⟨hden i j, rfl⟩⟩
    exact (hasVal_const g2 hcst this i j).symm
  · obtain ⟨M, hM⟩ := hasTF_exists hSc hSg hSa (rule_disc_det hdt h0 hx)
    exact ⟨M, g5 x M hM⟩

/-- **C82** with prewarping: `Gd` at `exp(j 2π f dt)` is `G` at `j 2π f`, the other points are related by a bilinear map with a gain that
depends on `f` and `dt` only. Missing: rounded coefficients (`ClearModel` fails), constant models, poles at the point that corresponds to `z = ∞`. -/
theorem C82_prewarp_partial (hbal : ∀ polys i, E.bal polys i ≠ 0) (hthr : E.lcmTol ≤ 1) (htol : ClearModel E.lcmTol E.remTol G) (hN : EigExact N)
    (hZ : ZerosExact N) (hG : Normal G p m P Q) (hc : G.dt = none) (hnc : ¬ AllConstant P Q) (hm : method = "tustin" ∨ method = "bilinear")
    (hdt : 0 < dt) {f : ℝ} (hf : 0 < f) (hny : f < 1 / (2 * dt))
    (hreg : RegularAt G p m (some (2 * Real.pi * f / Real.tan (2 * Real.pi * f * dt / 2)))) :
    ∃ R, discretizeTransfer E N B G dt method f q = .ok R ∧ R.g.dt = some dt ∧ R.discWith = some method ∧ R.prewarp = f ∧
      ∀ M : Matrix (Fin p) (Fin m) ℂ, HasVal G p m (Complex.I * (2 * Real.pi * f : ℝ)) M →
        HasVal R.g p m (Complex.exp (Complex.I * (2 * Real.pi * f * dt : ℝ))) M := by
  obtain ⟨T, -, h2, h3, h4, h5, h6⟩ := discretizeTransfer_of (E := E) (N := N) (B := B) hbal hthr htol hN hZ hG hc hnc
  obtain ⟨a, b, c, D, dt', hT'⟩ | ⟨n, A, B₁, C, D, dt', hT'⟩ := consistent_cases h2
  · rw [hT'] at h3; cases h3
  have hd : dt' = none := by rw [hT'] at h4; exact h4
  subst hd
  obtain ⟨y, hy, hargs, hy2⟩ := tustin_args (G := bareState T) (E := B) (q := q) hm hdt hf.le hny
  have hy2 := hy2 hf.ne'
  have hk : method ∈ knownMethods := by rcases hm with rfl | rfl <;> simp [knownMethods]
  have hl := discretize_lft_ok (N := N) hargs (fun _ _ => hny.le) hT' hk
  have h0 : (1 - (y ^ 2 / 2) • A).det ≠ 0 := by
    obtain ⟨M, hM⟩ := hreg _ rfl
    have h7 := hasTF_det hT' (h5 _ M hM)
    have hw : y ^ 2 / 2 ≠ 0 := by positivity
    have e : 2 * Real.pi * f / Real.tan (2 * Real.pi * f * dt / 2) = 1 / (y ^ 2 / 2) := by
      rw [hy2]
      have := Real.pi_pos
      field_simp
    rw [e] at h7
    have : 1 - (y ^ 2 / 2) • A = (y ^ 2 / 2) • ((1 / (y ^ 2 / 2)) • (1 : Matrix (Fin n) (Fin n) ℝ) - A) := by
      rw [smul_sub, smul_smul, mul_one_div, div_self hw, one_smul]
    rw [this, det_smul]
    exact mul_ne_zero (pow_ne_zero _ hw) h7
  obtain ⟨S, h8, h9, -⟩ := hl.2 h0 hdt
  have ht : method ∈ tustinNames := by rcases hm with rfl | rfl <;> simp [tustinNames]
  obtain ⟨R, P', Q', g1, g2, g3, g4, -, g5, g6⟩ := h6 S h8 (by rw [h9]; exact ⟨⟨rfl, rfl⟩, fun _ => ⟨rfl, rfl, rfl, rfl, rfl⟩⟩) (by rw [h9])
    (by rcases hm with rfl | rfl <;> simp)
  exact ⟨R, g1, g3, g4, g5 ht, fun M hM => g6 _ M (C36_match_partial hm hf hny h8 (h5 _ M hM))⟩

/-- **C82**, user supplied interconnection `[[q11, q12], [q21, q22]]`: `1/s = q22 + q21 q12/(z - q11)`. `1/q22` must not be a pole. The matrix
is recorded. Missing: rounded coefficients (`ClearModel` fails), constant models. -/
theorem C82_lft_partial (hbal : ∀ polys i, E.bal polys i ≠ 0) (hthr : E.lcmTol ≤ 1) (htol : ClearModel E.lcmTol E.remTol G) (hN : EigExact N)
    (hZ : ZerosExact N) (hG : Normal G p m P Q) (hc : G.dt = none) (hnc : ¬ AllConstant P Q) (hdt : 0 < dt) {q11 q12 q21 q22 : ℝ}
    (hreg : RegularAt G p m (if q22 = 0 then none else some (1 / q22))) :
    ∃ R, discretizeTransfer E N B G dt "lft" pw (some (Arr.of !![q11, q12; q21, q22])) = .ok R ∧ R.g.dt = some dt ∧ R.discWith = some "lft" ∧
      R.discMat = some (Arr.of !![q11, q12; q21, q22]) ∧
      ∀ {L : Type} [Field L] [Algebra ℝ L] (s z : L) (M : Matrix (Fin p) (Fin m) L), s ≠ 0 → z ≠ algebraMap ℝ L q11 →
        1 / s = algebraMap ℝ L q22 + algebraMap ℝ L q21 * algebraMap ℝ L q12 / (z - algebraMap ℝ L q11) →
        HasVal G p m s M → HasVal R.g p m z M := by
  obtain ⟨T, -, h2, h3, h4, h5, h6⟩ := discretizeTransfer_of (E := E) (N := N) (B := B) hbal hthr htol hN hZ hG hc hnc
  obtain ⟨a, b, c, D, dt', hT'⟩ | ⟨n, A, B₁, C, D, dt', hT'⟩ := consistent_cases h2
  · rw [hT'] at h3; cases h3
  have hd : dt' = none := by rw [hT'] at h4; exact h4
  subst hd
  have hl := discretize_lft_ok (N := N) (E := B) (G := bareState T) (dt := dt) (method := "lft") (pw := pw)
    (q := some (Arr.of !![q11, q12; q21, q22])) (x := q11) (y := q12) (z := q21) (w := q22)
    (by simp [discretizeArgs, forwardNames, tustinNames, backwardNames, q2])
    (by simp [tustinNames]) hT' (by simp [knownMethods])
  have h0 : (1 - q22 • A).det ≠ 0 := by
    by_cases hw : q22 = 0
    · simp [hw]
    · rw [if_neg hw] at hreg
      obtain ⟨M, hM⟩ := hreg _ rfl
      have h7 := hasTF_det hT' (h5 _ M hM)
      have : 1 - q22 • A = q22 • ((1 / q22) • (1 : Matrix (Fin n) (Fin n) ℝ) - A) := by
        rw [smul_sub, smul_smul, mul_one_div, div_self hw, one_smul]
      rw [this, det_smul]
      exact mul_ne_zero (pow_ne_zero _ hw) h7
  obtain ⟨S, h8, h9, -⟩ := hl.2 h0 hdt
  obtain ⟨R, P', Q', g1, g2, g3, g4, g5, -, g6⟩ := h6 S h8 (by rw [h9]; exact ⟨⟨rfl, rfl⟩, fun _ => ⟨rfl, rfl, rfl, rfl, rfl⟩⟩) (by rw [h9])
    (fun _ => rfl)
  exact ⟨R, g1, g3, g4, g5 rfl, fun s z M hs hz hrel hM => g6 z M (C32_lft h8 (h5 s M hM) hs hz hrel).1⟩

open Set in
/-- **C82**, zero-order hold: the result has the transfer function of a discrete model whose state sequence contains the samples of every solution
of a realization of `G` with an input that is constant between the samples. Missing: rounded coefficients (`ClearModel` fails), constant models. -/
theorem C82_zoh_partial (hbal : ∀ polys i, E.bal polys i ≠ 0) (hthr : E.lcmTol ≤ 1) (htol : ClearModel E.lcmTol E.remTol G) (hN : EigExact N)
    (hZ : ZerosExact N) (hB : BalanceOk B) (hG : Normal G p m P Q) (hc : G.dt = none) (hnc : ¬ AllConstant P Q) (hdt : 0 < dt) :
    ∃ (R : TransferObj ℝ ℂ) (n : ℕ) (A Ad : Matrix (Fin n) (Fin n) ℝ) (B₁ Bd : Matrix (Fin n) (Fin m) ℝ) (C : Matrix (Fin p) (Fin n) ℝ)
      (D : Matrix (Fin p) (Fin m) ℝ), discretizeTransfer E N B G dt "zoh" pw q = .ok R ∧ R.g.dt = some dt ∧ R.discWith = some "zoh" ∧
      (∀ (s : ℂ) (M : Matrix (Fin p) (Fin m) ℂ), HasVal G p m s M →
        IsTF (A.map Complex.ofReal) (B₁.map Complex.ofReal) (C.map Complex.ofReal) (D.map Complex.ofReal) s M) ∧
      (∀ (z : ℂ) (M : Matrix (Fin p) (Fin m) ℂ),
        IsTF (Ad.map Complex.ofReal) (Bd.map Complex.ofReal) (C.map Complex.ofReal) (D.map Complex.ofReal) z M → HasVal R.g p m z M) ∧
      ∀ (x : ℝ → Fin n → ℝ) (u : ℝ → Fin m → ℝ) (t : ℝ), IsSolution A B₁ u x t (t + dt) →
        (∀ τ ∈ Ico t (t + dt), u τ = u t) → x (t + dt) = Ad *ᵥ x t + Bd *ᵥ u t := by
  obtain ⟨T, -, h2, h3, h4, h5, h6⟩ := discretizeTransfer_of (E := E) (N := N) (B := B) hbal hthr htol hN hZ hG hc hnc
  obtain ⟨a, b, c, D, dt', hT'⟩ | ⟨n, A, B₁, C, D, dt', hT'⟩ := consistent_cases h2
  · rw [hT'] at h3; cases h3
  have hd : dt' = none := by rw [hT'] at h4; exact h4
  subst hd
  obtain ⟨S, Ad, Bd, e1, e2, e3⟩ := C34_zoh (N := N) (G := bareState T) (pw := pw) (q := q) hB hdt hT'
  obtain ⟨R, P', Q', g1, g2, g3, g4, -, -, g6⟩ := h6 S e1 (by rw [e2]; exact ⟨⟨rfl, rfl⟩, fun _ => ⟨rfl, rfl, rfl, rfl, rfl⟩⟩) (by rw [e2])
    (fun h => by simp at h)
  refine ⟨R, n, A, Ad, B₁, Bd, C, D, g1, g3, g4, fun s M hM => ?_, fun z M hM => g6 z M ?_, e3⟩
  · have := h5 s M hM
    rw [hT'] at this
    exact hasTF_dyn rfl this
  · rw [e2]
    exact HasTF.of_dyn hM

open Set in
/-- **C82**, first-order hold: the result has the transfer function of a discrete model with the sampled outputs of every solution of a realization
of `G` with an input that is linear between the samples. Missing: rounded coefficients (`ClearModel` fails), constant models. -/
theorem C82_foh_partial (hbal : ∀ polys i, E.bal polys i ≠ 0) (hthr : E.lcmTol ≤ 1) (htol : ClearModel E.lcmTol E.remTol G) (hN : EigExact N)
    (hZ : ZerosExact N) (hB : BalanceOk B) (hG : Normal G p m P Q) (hc : G.dt = none) (hnc : ¬ AllConstant P Q) (hdt : 0 < dt) :
    ∃ (R : TransferObj ℝ ℂ) (n : ℕ) (A Ad : Matrix (Fin n) (Fin n) ℝ) (B₁ Bd : Matrix (Fin n) (Fin m) ℝ) (C Cd : Matrix (Fin p) (Fin n) ℝ)
      (D Dd : Matrix (Fin p) (Fin m) ℝ), discretizeTransfer E N B G dt "foh" pw q = .ok R ∧ R.g.dt = some dt ∧ R.discWith = some "foh" ∧
      (∀ (s : ℂ) (M : Matrix (Fin p) (Fin m) ℂ), HasVal G p m s M →
        IsTF (A.map Complex.ofReal) (B₁.map Complex.ofReal) (C.map Complex.ofReal) (D.map Complex.ofReal) s M) ∧
      (∀ (z : ℂ) (M : Matrix (Fin p) (Fin m) ℂ),
        IsTF (Ad.map Complex.ofReal) (Bd.map Complex.ofReal) (Cd.map Complex.ofReal) (Dd.map Complex.ofReal) z M → HasVal R.g p m z M) ∧
      ∀ (x : ℝ → Fin n → ℝ) (u : ℝ → Fin m → ℝ),
        (∀ k : ℕ, IsSolution A B₁ u x (k * dt) ((k + 1) * dt)) →
        (∀ k : ℕ, ∀ t ∈ Icc (k * dt) ((k + 1) * dt), u t = ramp dt k (u (k * dt)) (u ((k + 1) * dt)) t) →
        ∃ ξ : ℕ → Fin n → ℝ, ∀ k : ℕ,
          ξ (k + 1) = Ad *ᵥ ξ k + Bd *ᵥ u (k * dt) ∧
          C *ᵥ x (k * dt) + D *ᵥ u (k * dt) = Cd *ᵥ ξ k + Dd *ᵥ u (k * dt) := by
  obtain ⟨T, -, h2, h3, h4, h5, h6⟩ := discretizeTransfer_of (E := E) (N := N) (B := B) hbal hthr htol hN hZ hG hc hnc
  obtain ⟨a, b, c, D, dt', hT'⟩ | ⟨n, A, B₁, C, D, dt', hT'⟩ := consistent_cases h2
  · rw [hT'] at h3; cases h3
  have hd : dt' = none := by rw [hT'] at h4; exact h4
  subst hd
  obtain ⟨S, Ad, Bd, Cd, Dd, e1, e2, e3⟩ := C35_foh (N := N) (G := bareState T) (pw := pw) (q := q) hB hdt hT'
  obtain ⟨R, P', Q', g1, g2, g3, g4, -, -, g6⟩ := h6 S e1 (by rw [e2]; exact ⟨⟨rfl, rfl⟩, fun _ => ⟨rfl, rfl, rfl, rfl, rfl⟩⟩) (by rw [e2])
    (fun h => by simp at h)
  refine ⟨R, n, A, Ad, B₁, Bd, C, Cd, D, Dd, g1, g3, g4, fun s M hM => ?_, fun z M hM => g6 z M ?_, e3⟩
  · have := h5 s M hM
    rw [hT'] at this
    exact hasTF_dyn rfl this
  · rw [e2]
    exact HasTF.of_dyn hM

/-! ## `undiscretize` -/

/-- **C82**, the way back: a discrete `Transfer` that is not constant, without pole at the point that corresponds to `s = ∞`, is undiscretised by
tustin, forward or backward differences (the method passed, or else the recorded one, or else tustin). The result is a continuous `Transfer` whose
value at `s` is the value of `G` at the corresponding point `z`, wherever `G` has one. Missing: rounded coefficients (`ClearModel` fails), constant models (`C82_undiscretize_gain_violated`, `C82_undiscretize_cancelled_violated`). -/
theorem C82_undiscretize_partial (hbal : ∀ polys i, E.bal polys i ≠ 0) (hthr : E.lcmTol ≤ 1) {G : TransferObj ℝ ℂ} (htol : ClearModel E.lcmTol E.remTol G.g) (hN : EigExact N)
    (hZ : ZerosExact N) (hG : Normal G.g p m P Q) (hc : G.g.dt = some dt) (hnc : ¬ AllConstant P Q) {r : Rule}
    {mth : Option String} (hr : mth.getD (G.discWith.getD "tustin") ∈ r.names) (hpw : r = .tustin → pw = 0)
    (hreg : RegularAt G.g p m r.discAtInfinity) :
    ∃ R, undiscretizeTransfer E N B G mth pw q = .ok R ∧ R.dt = none ∧
      ∀ {L : Type} [Field L] [Algebra ℝ L] (s z : L) (M : Matrix (Fin p) (Fin m) L), r.Related dt s z → HasVal G.g p m z M → HasVal R p m s M := by
  have hdt : 0 < dt := hG.dt _ hc
  obtain ⟨n, A, B₁, C, D, T, hT, h1, h2⟩ := undiscretizeTransfer_of (E := E) (N := N) (B := B) hbal hthr htol hN hZ hG hc hnc
  have hq : undiscQT G (undiscMethodT G mth) q = .ok q := by
    have hl : undiscMethodT G mth ≠ "lft" := rule_not_lft (r := r) hr
    unfold undiscQT
    rw [if_neg hl]
  have hsq0 : √dt ≠ 0 := (Real.sqrt_pos.mpr hdt).ne'
  have hdet : ∀ x, r.discAtInfinity = some x → (x • (1 : Matrix (Fin n) (Fin n) ℝ) - A).det ≠ 0 := fun x hx => by
    obtain ⟨M, hM⟩ := hreg x hx
    exact hasTF_det hT (h1 x M hM)
  cases r
  · obtain rfl := hpw rfl
    have hargs : undiscretizeArgs B T dt (undiscMethodT G mth) 0 q = simpleLft (q2 (-2 / dt) (2 / √dt) (2 / √dt) (-1)) T.a T.b T.c T.d := by
      have hr' : undiscMethodT G mth ∈ Rule.tustin.names := hr
      generalize undiscMethodT G mth = method at hr'
      simp only [Rule.names, List.mem_cons, List.not_mem_nil, or_false] at hr'
      rcases hr' with rfl | rfl <;>
        simp [undiscretizeArgs, undiscTustin, untustinQ, tustinNames, Bind.bind, Except.bind]
    have h0 : (1 - (-1 : ℝ) • A).det ≠ 0 := by
      have := hdet _ rfl
      have e : (-1 : ℝ) • (1 : Matrix (Fin n) (Fin n) ℝ) - A = (-1 : ℝ) • (1 - (-1 : ℝ) • A) := by
        simp only [neg_smul, one_smul]
        abel
      rw [e, det_smul] at this
      exact right_ne_zero_of_mul this
    obtain ⟨A', B', C', D', k1, k2⟩ := undisc_lft hargs hT h0
    obtain ⟨R, P', Q', g1, -, g3, g4⟩ := h2 hq k1
    refine ⟨R, g1, g3, ?_⟩
    intro L _ _ s z M hrel hM
    have hd : algebraMap ℝ L dt ≠ 0 := by simpa using hdt.ne'
    have h2' : (2 : L) ≠ 0 := by
      have : algebraMap ℝ L (2 : ℝ) ≠ 0 := by simp
      rwa [map_ofNat] at this
    have hsq : algebraMap ℝ L (2 / √dt) * algebraMap ℝ L (2 / √dt) = 4 / algebraMap ℝ L dt := by
      rw [← map_mul, div_mul_div_comm, Real.mul_self_sqrt hdt.le, map_div₀, show (2 : ℝ) * 2 = 4 by norm_num, map_ofNat]
    have hβ : algebraMap ℝ L (-1) * (s - algebraMap ℝ L (-2 / dt)) + algebraMap ℝ L (2 / √dt) * algebraMap ℝ L (2 / √dt)
        = 2 * 2 / (algebraMap ℝ L dt * (z + 1)) := by
      have := hrel.1
      rw [hsq, hrel.2]
      simp only [map_neg, map_one, map_div₀, map_ofNat]
      field_simp
      ring
    refine g4 s M (k2 s z M ?_ ?_ (h1 z M hM))
    · rw [hβ]
      exact div_ne_zero (mul_ne_zero h2' h2') (mul_ne_zero hd hrel.1)
    · have := hrel.1
      rw [hβ, hrel.2]
      simp only [map_neg, map_div₀, map_ofNat]
      field_simp
      ring
  · have hargs : undiscretizeArgs B T dt (undiscMethodT G mth) pw q = simpleLft (q2 (-1 / dt) (1 / √dt) (1 / √dt) 0) T.a T.b T.c T.d := by
      have hr' : undiscMethodT G mth ∈ Rule.forward.names := hr
      generalize undiscMethodT G mth = method at hr'
      simp only [Rule.names, List.mem_cons, List.not_mem_nil, or_false] at hr'
      rcases hr' with rfl | rfl | rfl | rfl <;>
        simp [undiscretizeArgs, tustinNames, forwardNames]
    obtain ⟨A', B', C', D', k1, k2⟩ := undisc_lft hargs hT (by simp)
    obtain ⟨R, P', Q', g1, -, g3, g4⟩ := h2 hq k1
    refine ⟨R, g1, g3, ?_⟩
    intro L _ _ s z M hrel hM
    have hd : algebraMap ℝ L dt ≠ 0 := by simpa using hdt.ne'
    have hsq : algebraMap ℝ L (1 / √dt) * algebraMap ℝ L (1 / √dt) = 1 / algebraMap ℝ L dt := by
      rw [← map_mul, div_mul_div_comm, Real.mul_self_sqrt hdt.le, map_div₀]
      norm_num
    simp only [Rule.Related] at hrel
    refine g4 s M (k2 s z M ?_ ?_ (h1 z M hM))
    · rw [hsq]
      simpa using hdt.ne'
    · rw [hsq, hrel]
      simp only [map_neg, map_div₀, map_zero, map_one]
      field_simp
      ring
  · have hargs : undiscretizeArgs B T dt (undiscMethodT G mth) pw q = undiscBackward T dt := by
      have hr' : undiscMethodT G mth ∈ Rule.backward.names := hr
      generalize undiscMethodT G mth = method at hr'
      simp only [Rule.names, List.mem_cons, List.not_mem_nil, or_false] at hr'
      rcases hr' with rfl | rfl | rfl | rfl <;>
        simp [undiscretizeArgs, tustinNames, forwardNames, backwardNames]
    have h0 : A.det ≠ 0 := by
      have := hdet _ rfl
      rw [zero_smul, zero_sub, det_neg] at this
      exact right_ne_zero_of_mul this
    obtain ⟨A', B', C', D', k1, k2⟩ := undisc_backward hdt hT h0
    obtain ⟨R, P', Q', g1, -, g3, g4⟩ := h2 hq (hargs.trans k1)
    exact ⟨R, g1, g3, fun s z M hrel hM => g4 s M (k2 s z M hrel.1 hrel.2 (h1 z M hM))⟩

/-- **C82**, the way back with a user supplied interconnection `[[q11, q12], [q21, q22]]`, which is the argument or, if there is none, the recorded
one: the value at `s` is the value of `G` at `z`, `1/z = q22 + q21 q12/(s - q11)`. `1/q22` must not be a pole of `G`. Missing: rounded coefficients (`ClearModel` fails), constant models (`C82_undiscretize_gain_violated`, `C82_undiscretize_cancelled_violated`). -/
theorem C82_undiscretize_lft_partial (hbal : ∀ polys i, E.bal polys i ≠ 0) (hthr : E.lcmTol ≤ 1) {G : TransferObj ℝ ℂ} (htol : ClearModel E.lcmTol E.remTol G.g) (hN : EigExact N)
    (hZ : ZerosExact N) (hG : Normal G.g p m P Q) (hc : G.g.dt = some dt) (hnc : ¬ AllConstant P Q)
    {mth : Option String} (hm : mth.getD (G.discWith.getD "tustin") = "lft") {q11 q12 q21 q22 : ℝ}
    (hq : q = some (Arr.of !![q11, q12; q21, q22]) ∨ q = none ∧ G.discMat = some (Arr.of !![q11, q12; q21, q22]))
    (hreg : RegularAt G.g p m (if q22 = 0 then none else some (1 / q22))) :
    ∃ R, undiscretizeTransfer E N B G mth pw q = .ok R ∧ R.dt = none ∧
      ∀ {L : Type} [Field L] [Algebra ℝ L] (s z : L) (M : Matrix (Fin p) (Fin m) L), z ≠ 0 → s ≠ algebraMap ℝ L q11 →
        1 / z = algebraMap ℝ L q22 + algebraMap ℝ L q21 * algebraMap ℝ L q12 / (s - algebraMap ℝ L q11) →
        HasVal G.g p m z M → HasVal R p m s M := by
  obtain ⟨n, A, B₁, C, D, T, hT, h1, h2⟩ := undiscretizeTransfer_of (E := E) (N := N) (B := B) hbal hthr htol hN hZ hG hc hnc
  have hm' : undiscMethodT G mth = "lft" := hm
  have hq' : undiscQT G (undiscMethodT G mth) q = .ok (some (Arr.of !![q11, q12; q21, q22])) := by
    rcases hq with rfl | ⟨rfl, hq⟩
    · simp [undiscQT, hm']
    · simp [undiscQT, hm', hq]
  have hargs : undiscretizeArgs B T dt (undiscMethodT G mth) pw (some (Arr.of !![q11, q12; q21, q22])) = simpleLft (q2 q11 q12 q21 q22) T.a T.b T.c T.d := by
    simp [undiscretizeArgs, hm', forwardNames, tustinNames, backwardNames, q2]
  have h0 : (1 - q22 • A).det ≠ 0 := by
    by_cases hw : q22 = 0
    · simp [hw]
    · rw [if_neg hw] at hreg
      obtain ⟨M, hM⟩ := hreg _ rfl
      have h7 := hasTF_det hT (h1 _ M hM)
      have : 1 - q22 • A = q22 • ((1 / q22) • (1 : Matrix (Fin n) (Fin n) ℝ) - A) := by
        rw [smul_sub, smul_smul, mul_one_div, div_self hw, one_smul]
      rw [this, det_smul]
      exact mul_ne_zero (pow_ne_zero _ hw) h7
  obtain ⟨A', B', C', D', k1, k2⟩ := undisc_lft hargs hT h0
  obtain ⟨R, P', Q', g1, -, g3, g4⟩ := h2 hq' k1
  refine ⟨R, g1, g3, fun s z M hz hs hrel hM => g4 s M (k2 s z M ?_ ?_ (h1 z M hM))⟩
  · intro hzero
    have hs' := sub_ne_zero.mpr hs
    have : 1 / z * (s - algebraMap ℝ _ q11) = 0 := by
      rw [hrel, add_mul, div_mul_cancel₀ _ hs']
      exact hzero
    rcases mul_eq_zero.mp this with h | h
    · exact one_div_ne_zero hz h
    · exact hs' h
  · have hs' := sub_ne_zero.mpr hs
    have : 1 / z * (s - algebraMap ℝ _ q11) = algebraMap ℝ _ q22 * (s - algebraMap ℝ _ q11) + algebraMap ℝ _ q21 * algebraMap ℝ _ q12 := by
      rw [hrel, add_mul, div_mul_cancel₀ _ hs']
    rw [← this, ← mul_assoc, mul_one_div, div_self hz, one_mul]

/-- **C82**, round trip: `undiscretize(discretize(G, dt, method))` is a continuous `Transfer` with the values of `G` at all points that correspond
to a finite `z`. Missing: rounded coefficients (`ClearModel` fails), constant models (`C82_undiscretize_gain_violated`), the hold methods (`C82_hold_roundtrip_partial`). -/
theorem C82_roundtrip_partial (hbal : ∀ polys i, E.bal polys i ≠ 0) (hthr : E.lcmTol ≤ 1) (htol : ClearModel E.lcmTol E.remTol G)
    (hclr : ∀ F, discretizeTransfer E N B G dt method 0 q = .ok F → ClearModel E.lcmTol E.remTol F.g) (hN : EigExact N)
    (hZ : ZerosExact N) (hG : Normal G p m P Q) (hc : G.dt = none) (hnc : ¬ AllConstant P Q) {r : Rule} (hr : method ∈ r.names)
    (hdt : 0 < dt) (hreg : RegularAt G p m (r.contAtInfinity dt)) :
    ∃ F R, discretizeTransfer E N B G dt method 0 q = .ok F ∧ undiscretizeTransfer E N B F none 0 none = .ok R ∧ R.dt = none ∧
      ∀ {L : Type} [Field L] [Algebra ℝ L] (s : L) (M : Matrix (Fin p) (Fin m) L), (∀ x, r.contAtInfinity dt = some x → s ≠ algebraMap ℝ L x) →
        HasVal G p m s M → HasVal R p m s M := by
  obtain ⟨F, h1, h2, h3, ⟨P', Q', h4, h5⟩, h6, h7⟩ := C82_discretize_partial (B := B) (q := q) hbal hthr htol hN hZ hG hc hnc hr (fun _ => rfl) hdt hreg
  obtain ⟨R, k1, k2, k3⟩ := C82_undiscretize_partial (E := E) (N := N) (B := B) (q := none) hbal hthr (hclr F h1) hN hZ h4 h2 h5 (mth := none)
    (by simpa [h3] using hr) (fun _ => rfl) h6
  refine ⟨F, R, h1, k1, k2, ?_⟩
  intro L _ _ s M hs hM
  obtain ⟨z, hz⟩ := rule_related_exists hdt s hs
  exact k3 s z M hz (h7 s z M hz hM)

/-! ## Static gains and rejected arguments -/

/-- **C82**, static gains: the result has the same values and sampling period `dt`, whatever the method. `_partial`: scalars and gains with at least
two rows and two columns; see `C82_row_violated`. -/
theorem C82_gain_partial (hbal : ∀ polys i, E.bal polys i ≠ 0) (hthr : E.lcmTol ≤ 1)
    (hG : Normal G p m P Q) (hc : G.dt = none) (hg : G.isgain = true) (hpm : 1 < min p m ∨ (p = 1 ∧ m = 1))
    (hk : method ∈ knownMethods) (hdt : 0 < dt) :
    ∃ R, discretizeTransfer E N B G dt method pw q = .ok R ∧ R.g.dt = some dt ∧
      ∀ {L : Type} [Field L] [Algebra ℝ L] (s z : L) (M : Matrix (Fin p) (Fin m) L), HasVal G p m s M → HasVal R.g p m z M := by
  have hdt' : DtOk (some dt) := by intro t ht; cases ht; exact hdt
  obtain ⟨T, H, e1, -⟩ := t2s_parts (E := E) hbal hthr (clearModel_gain hthr hG hg) hG
  obtain ⟨X, hX, hXv⟩ := C25_to_array (L := ℝ) hG hg 0
  obtain ⟨F, hF⟩ := C28_gain_success (E := E) (N := N) (D := X) hpm hdt' (a := Arr.empty) (b := Arr.empty) (c := Arr.empty)
  simp only [stateToTransfer, if_true] at hF
  have hFdt : F.dt = some dt := (mkArr_valued hG.pos.1 hG.pos.2 hF (0 : ℝ)).2
  have hFe : ({ F with dt := some dt } : TransferM ℝ) = F := by rw [← hFdt]
  refine ⟨TransferObj.plain F, ?_, hFdt, ?_⟩
  · unfold discretizeTransfer
    simp [hk, hc, e1, Bind.bind, Except.bind, hg, hX, hF, TransferObj.set, TransferObj.assign, not_le.mpr hdt, TransferObj.plain, hFe]
  · intro L _ _ s z M hM
    obtain ⟨X', hX', hXv'⟩ := C25_to_array (L := L) hG hg s
    rw [hX] at hX'
    obtain rfl := Arr.of_inj.mp (Except.ok.inj hX')
    have e : M = X.map (algebraMap ℝ L) := by
      obtain ⟨n1, d1, a1, a2, a3⟩ := hM
      obtain ⟨n2, d2, b1, b2, b3⟩ := hXv'
      obtain rfl := Arr.of_inj.mp (a1.symm.trans b1)
      obtain rfl := Arr.of_inj.mp (a2.symm.trans b2)
      ext i j
      rw [(a3 i j).2, (b3 i j).2]
    rw [e]
    exact (mkArr_valued hG.pos.1 hG.pos.2 hF z).1.1

/-- **C82**: unknown methods, discrete models, continuous models to `undiscretize` and a missing interconnection matrix are rejected. -/
theorem C82_rejects (G : TransferM ℝ) (F : TransferObj ℝ ℂ) (mth : Option String) :
    (method ∉ knownMethods → discretizeTransfer E N B G dt method pw q = .error .value) ∧
    (G.dt.isSome → discretizeTransfer E N B G dt method pw q = .error .value) ∧
    (F.g.dt = none → undiscretizeTransfer E N B F mth pw q = .error .value) ∧
    (mth.getD (F.discWith.getD "tustin") = "lft" → F.discMat = none → undiscretizeTransfer E N B F mth pw none = .error .value) := by
  refine ⟨fun h => by simp [discretizeTransfer, h], fun h => ?_, fun h => by simp [undiscretizeTransfer, h], fun h h1 => ?_⟩
  · unfold discretizeTransfer
    split_ifs <;> rfl
  · have hm : undiscMethodT F mth = "lft" := h
    unfold undiscretizeTransfer
    cases F.g.dt with
    | none => rfl
    | some t => simp [undiscQT, hm, h1, Bind.bind, Except.bind]

/-- The code violates **C82**: a static gain cannot be undiscretised, `ValueError` is raised. -/
theorem C82_undiscretize_gain_violated (F : TransferObj ℝ ℂ) (hg : F.g.isgain = true) (mth : Option String) :
    undiscretizeTransfer E N B F mth pw q = .error .value := by
  unfold undiscretizeTransfer
  cases F.g.dt with
  | none => rfl
  | some t =>
    simp only [undiscQT]
    split_ifs <;> simp [Bind.bind, Except.bind, hg]

/-- The static gain `[[1, 2]]`. -/
def rowGainTf : TransferM ℝ := ⟨Arr.of !![[1], [2]], Arr.of !![[1], [1]], true, none⟩

theorem rowGainTf_normal : Normal rowGainTf 1 2 !![[1], [2]] !![[1], [1]] := by
  refine ⟨⟨by norm_num, by norm_num⟩, rfl, rfl, ?_, ?_, ?_, ?_, fun t ht => by cases ht⟩
  · intro i j
    fin_cases i; fin_cases j
    · exact Or.inr ⟨_, _, rfl, by norm_num⟩
    · exact Or.inr ⟨_, _, rfl, by norm_num⟩
  · intro i j
    fin_cases i; fin_cases j <;> simp
  · intro i j
    fin_cases i; fin_cases j <;> simp
  · simp only [rowGainTf, true_iff]
    intro i j
    fin_cases i; fin_cases j <;> simp

/-- The code violates **C82**: the static gain `Transfer([[1, 2]], [[1, 1]])` with two inputs cannot be discretised; the array `[[1, 2]]` is read as a
polynomial and `ValueError` is raised. -/
theorem C82_row_violated (hbal : ∀ polys i, E.bal polys i ≠ 0) (hthr : E.lcmTol ≤ 1) (hk : method ∈ knownMethods) :
    Normal rowGainTf 1 2 !![[1], [2]] !![[1], [1]] ∧ discretizeTransfer E N B rowGainTf dt method pw q = .error .value := by
  refine ⟨rowGainTf_normal, ?_⟩
  obtain ⟨T, H, e1, -⟩ := t2s_parts (E := E) hbal hthr (clearModel_gain hthr rowGainTf_normal rfl) rowGainTf_normal
  have h1 : rowGainTf.toArray = .ok (Arr.of (!![1, 2] : Matrix (Fin 1) (Fin 2) ℝ)) := by
    unfold TransferM.toArray
    have hg : rowGainTf.isgain = true := rfl
    rw [if_pos hg, rowGainTf_normal.toArray rfl]
    congr 2
    ext i j
    fin_cases i; fin_cases j <;> simp
  have h2 : mkTransfer E (.arr (Arr.of (!![1, 2] : Matrix (Fin 1) (Fin 2) ℝ))) .none (some dt) = .error .value := by
    unfold mkTransfer validateTransfer
    have hfl : (Arr.of (!![1, 2] : Matrix (Fin 1) (Fin 2) ℝ)).flatten = [1, 2] := by simp [Arr.flatten, List.finRange_succ]
    simp only [regArg, Arr.of_r, Arr.of_c, Bind.bind, Except.bind, combineArgs, hfl]
    norm_num
  unfold discretizeTransfer
  have hg : rowGainTf.isgain = true := rfl
  have hd : rowGainTf.dt = none := rfl
  simp [hk, hd, e1, Bind.bind, Except.bind, hg, h1, h2]

/-- `(s + 1)/(s + 1)`. -/
def cancelTf : TransferM ℝ := ⟨constArr 1 1 [1, 1], constArr 1 1 [1, 1], false, none⟩

theorem cancelTf_val {L : Type} [Field L] [Algebra ℝ L] {s : L} (hs : s + 1 ≠ 0) : HasVal cancelTf 1 1 s !![1] := by
  refine hasVal_of (N := Matrix.of fun _ _ => [1, 1]) (D := Matrix.of fun _ _ => [1, 1]) rfl rfl fun i j => ?_
  have e : polyAt s ([1, 1] : List ℝ) = s + 1 := by simp [polyAt, toPoly]
  simp only [of_apply, e]
  refine ⟨hs, ?_⟩
  fin_cases i; fin_cases j
  simp [hs]

/-- The code violates **C82**: `Transfer([1, 1], [1, 1])` is accepted and is not flagged as a static gain, but `discretize` fails: with `'zoh'` and
`'foh'` it raises `TypeError` (the state model without states has no number of states), with forward differences `ValueError`. -/
theorem C82_cancelled_violated (hdt : 0 < dt) :
    mkTransfer E (.vec [1, 1]) (.vec [1, 1]) none = .ok cancelTf ∧ (∀ s : ℂ, s + 1 ≠ 0 → HasVal cancelTf 1 1 s !![1]) ∧
    discretizeTransfer E N B cancelTf dt "zoh" pw q = .error .type ∧ discretizeTransfer E N B cancelTf dt "foh" pw q = .error .type ∧
    discretizeTransfer E N B cancelTf dt "forward euler" pw q = .error .value := by
  have h1 := transferToState_pair E (x := (1 : ℝ)) (y := 1) (d := 1) one_ne_zero (dt := none) dtOk_none
  rw [if_pos (by ring)] at h1
  have hT : transferToState E cancelTf = .ok ⟨Arr.empty, Arr.empty, Arr.empty, rowArr [1], none, true⟩ := h1
  have hd : cancelTf.dt = none := rfl
  have hg : cancelTf.isgain = false := rfl
  refine ⟨mkTransfer_siso_ok E dtOk_none (by simp) (by simp) (Or.inr ⟨1, _, rfl, one_ne_zero⟩) (by simp), fun s hs => cancelTf_val hs, ?_, ?_, ?_⟩
  · simp [discretizeTransfer, knownMethods, hd, hg, hT, Bind.bind, Except.bind, discretizeDynT, discArgsT]
  · simp [discretizeTransfer, knownMethods, hd, hg, hT, Bind.bind, Except.bind, discretizeDynT, discArgsT]
  · have he : (Arr.empty : Arr ℝ) = Arr.of (0 : Matrix (Fin 0) (Fin 0) ℝ) := by
      unfold Arr.empty Arr.of
      congr
      exact Subsingleton.elim _ _
    have hl : simpleLft (q2 1 (Real.sqrt dt) (Real.sqrt dt) 0) Arr.empty Arr.empty Arr.empty (rowArr [1])
        = .ok (Arr.of (0 : Matrix (Fin 0) (Fin 0) ℝ), Arr.of (0 : Matrix (Fin 0) (Fin 0) ℝ), Arr.of (0 : Matrix (Fin 0) (Fin 0) ℝ), rowArr [1]) := by
      obtain ⟨q1, q2', q3, q4, q5, q6⟩ := q2_get (1 : ℝ) (Real.sqrt dt) (Real.sqrt dt) 0
      have e1 : (Arr.eye 0 : Arr ℝ) = Arr.of (0 : Matrix (Fin 0) (Fin 0) ℝ) := by
        exact congrArg Arr.of (Subsingleton.elim (1 : Matrix (Fin 0) (Fin 0) ℝ) 0)
      have e2 : (Arr.of (0 : Matrix (Fin 0) (Fin 0) ℝ)).r = 0 := rfl
      unfold simpleLft
      rw [if_pos ⟨q1, q2'⟩, q3, q4, q5, q6, he]
      simp [naInv, lftB, lftD, e1, e2, Bind.bind, Except.bind]
    have hm : mkState (some (Arr.of (0 : Matrix (Fin 0) (Fin 0) ℝ))) (some (Arr.of (0 : Matrix (Fin 0) (Fin 0) ℝ)))
        (some (Arr.of (0 : Matrix (Fin 0) (Fin 0) ℝ))) (some (rowArr [1])) (some dt) = .error .value := by
      simp [mkState, validateState, rowArr, Arr.of, Bind.bind, Except.bind]
    simp [discretizeTransfer, knownMethods, hd, hg, hT, Bind.bind, Except.bind, discretizeDynT, discArgsT, discretizeArgs, tustinNames, forwardNames,
      hl, hm]

/-- `(z + 1) / (z + 1)` with sampling period `dt`. -/
def cancelTfD (dt : ℝ) : TransferObj ℝ ℂ := TransferObj.plain ⟨constArr 1 1 [1, 1], constArr 1 1 [1, 1], false, some dt⟩

/-- The code violates **C82**: `Transfer([1, 1], [1, 1], dt)` is accepted and has the value one, but undiscretising it with `'zoh'` or `'foh'`
raises `TypeError`. -/
theorem C82_undiscretize_cancelled_violated (hdt : 0 < dt) :
    mkTransfer E (.vec [1, 1]) (.vec [1, 1]) (some dt) = .ok (cancelTfD dt).g ∧ (∀ z : ℂ, z + 1 ≠ 0 → HasVal (cancelTfD dt).g 1 1 z !![1]) ∧
    undiscretizeTransfer E N B (cancelTfD dt) (some "zoh") pw q = .error .type ∧
    undiscretizeTransfer E N B (cancelTfD dt) (some "foh") pw q = .error .type := by
  have hok : DtOk (some dt) := fun t ht => by cases ht; exact hdt
  have h1 := transferToState_pair E (x := (1 : ℝ)) (y := 1) (d := 1) one_ne_zero (dt := some dt) hok
  rw [if_pos (by ring)] at h1
  have hT : transferToState E (cancelTfD dt).g = .ok ⟨Arr.empty, Arr.empty, Arr.empty, rowArr [1], some dt, true⟩ := h1
  have hd : (cancelTfD dt).g.dt = some dt := rfl
  have hg : (cancelTfD dt).g.isgain = false := rfl
  refine ⟨mkTransfer_siso_ok E hok (by simp) (by simp) (Or.inr ⟨1, _, rfl, one_ne_zero⟩) (by simp), fun z hz => cancelTf_val hz, ?_, ?_⟩
  · simp [undiscretizeTransfer, undiscQT, undiscMethodT, hd, hg, hT, Bind.bind, Except.bind, undiscArgsT]
  · simp [undiscretizeTransfer, undiscQT, undiscMethodT, hd, hg, hT, Bind.bind, Except.bind, undiscArgsT]

/-! ## The hypotheses can be met -/

/-- `1/(s+1)`. -/
def lagTfR : TransferM ℝ := ⟨constArr 1 1 [1], constArr 1 1 [1, 1], false, none⟩

theorem lagTfR_normal : Normal lagTfR 1 1 (Matrix.of fun _ _ => [1]) (Matrix.of fun _ _ => [1, 1]) :=
  normal_siso ⟨fun _ _ => 1, 0, 0⟩ (by simp) (Or.inr ⟨1, [], rfl, one_ne_zero⟩) (by simp) dtOk_none

theorem lagTfR_val (s : ℝ) (hs : s + 1 ≠ 0) : HasVal lagTfR 1 1 s !![1 / (s + 1)] := by
  refine hasVal_of (N := Matrix.of fun _ _ => [1]) (D := Matrix.of fun _ _ => [1, 1]) rfl rfl fun i j => ?_
  have e : polyAt s ([1, 1] : List ℝ) = s + 1 := by simp [polyAt, toPoly]
  have e1 : polyAt s ([1] : List ℝ) = 1 := by simp [polyAt, toPoly]
  simp only [of_apply, e, e1]
  refine ⟨hs, ?_⟩
  fin_cases i; fin_cases j
  simp

theorem lagTfR_nonconstant :
    ¬ AllConstant (Matrix.of fun (_ : Fin 1) (_ : Fin 1) => ([1] : List ℝ)) (Matrix.of fun (_ : Fin 1) (_ : Fin 1) => [1, 1]) := by
  intro h
  obtain ⟨c, hc⟩ := h 0 0
  have h1 := congrArg (eval 0) hc
  have h2 := congrArg (eval 1) hc
  simp [toPoly] at h1 h2
  rw [← h1] at h2
  norm_num at h2

/-- Non-vacuity of `C82_discretize_partial` and `C82_roundtrip_partial`: `1/(s+1)` with `dt = 1`; the tustin equivalent is `G(1) = 1/2` at `z = 3`. -/
example : ∃ (N : Numerics ℝ ℂ) (F : TransferObj ℝ ℂ) (R : TransferM ℝ), discretizeTransfer ⟨fun _ _ => 1, 0, 0⟩ N plainDNum lagTfR 1 "tustin" 0 none = .ok F ∧
    HasVal F.g 1 1 (3 : ℝ) !![1 / 2] ∧ undiscretizeTransfer ⟨fun _ _ => 1, 0, 0⟩ N plainDNum F none 0 none = .ok R ∧ HasVal R 1 1 (0 : ℝ) !![1] := by
  obtain ⟨N, hN, hZ⟩ := exists_exact_numerics
  have hreg : RegularAt lagTfR 1 1 (Rule.tustin.contAtInfinity 1) := fun s hs => by
    obtain rfl := Option.some.inj hs
    exact ⟨_, lagTfR_val _ (by norm_num)⟩
  obtain ⟨F, h1, -, -, -, -, h2⟩ := C82_discretize_partial (E := ⟨fun _ _ => 1, 0, 0⟩) (N := N) (B := plainDNum) (q := none) (pw := 0) (dt := 1)
    (method := "tustin") (r := .tustin) (fun _ _ => one_ne_zero) zero_le_one (clearModel_nonpos le_rfl le_rfl _) hN hZ lagTfR_normal rfl lagTfR_nonconstant (by simp [Rule.names])
    (fun _ => rfl) one_pos hreg
  obtain ⟨F', R, h3, h4, -, h5⟩ := C82_roundtrip_partial (E := ⟨fun _ _ => 1, 0, 0⟩) (N := N) (B := plainDNum) (q := none) (dt := 1)
    (method := "tustin") (r := .tustin) (fun _ _ => one_ne_zero) zero_le_one (clearModel_nonpos le_rfl le_rfl _) (fun _ _ => clearModel_nonpos le_rfl le_rfl _) hN hZ lagTfR_normal rfl lagTfR_nonconstant (by simp [Rule.names])
    one_pos hreg
  rw [h1] at h3
  obtain rfl := Except.ok.inj h3
  refine ⟨N, F, R, h1, ?_, h4, ?_⟩
  · have := h2 (1 : ℝ) 3 _ ⟨by norm_num, by norm_num⟩ (lagTfR_val 1 (by norm_num))
    rwa [show (1 : ℝ) + 1 = 2 by norm_num] at this
  · have := h5 (0 : ℝ) _ (fun x hx => by obtain rfl := Option.some.inj hx; norm_num) (lagTfR_val 0 (by norm_num))
    simpa using this

/-- Non-vacuity of `C82_prewarp_partial`: `1/(s+1)`, `dt = 1`, `f = 1/4`. -/
example : RegularAt lagTfR 1 1 (some (2 * Real.pi * (1 / 4) / Real.tan (2 * Real.pi * (1 / 4) * 1 / 2))) ∧ (1 / 4 : ℝ) < 1 / (2 * 1) ∧
    ∃ M, HasVal lagTfR 1 1 (Complex.I * (2 * Real.pi * (1 / 4) : ℝ)) M := by
  refine ⟨fun s hs => ?_, by norm_num, ?_⟩
  · obtain rfl := Option.some.inj hs
    refine ⟨_, lagTfR_val _ ?_⟩
    rw [show 2 * Real.pi * (1 / 4) * 1 / 2 = Real.pi / 4 by ring, Real.tan_pi_div_four]
    positivity
  · refine ⟨_, hasVal_of (N := Matrix.of fun _ _ => [1]) (D := Matrix.of fun _ _ => [1, 1]) (M := Matrix.of fun _ _ =>
      1 / (Complex.I * (2 * Real.pi * (1 / 4) : ℝ) + 1)) rfl rfl fun i j => ?_⟩
    have e : polyAt (Complex.I * (2 * Real.pi * (1 / 4) : ℝ)) ([1, 1] : List ℝ) = Complex.I * (2 * Real.pi * (1 / 4) : ℝ) + 1 := by
      simp [polyAt, toPoly]
    have e1 : polyAt (Complex.I * (2 * Real.pi * (1 / 4) : ℝ)) ([1] : List ℝ) = 1 := by simp [polyAt, toPoly]
    simp only [of_apply, e, e1]
    refine ⟨fun h => ?_, trivial⟩
    have := congrArg Complex.re h
    simp at this

/-- Non-vacuity of `C82_lft_partial`: `1/(s+1)`, `dt = 1`, `q = [[1, 2], [3, 4]]`; `s = 1/10` and `z = 2` are related. -/
example : RegularAt lagTfR 1 1 (if (4 : ℝ) = 0 then none else some (1 / 4)) ∧ (1 : ℝ) / (1 / 10) = 4 + 3 * 2 / (2 - 1) ∧
    HasVal lagTfR 1 1 (1 / 10 : ℝ) !![1 / (1 / 10 + 1)] := by
  refine ⟨fun s hs => ?_, by norm_num, lagTfR_val _ (by norm_num)⟩
  rw [if_neg (by norm_num)] at hs
  obtain rfl := Option.some.inj hs
  exact ⟨_, lagTfR_val _ (by norm_num)⟩

/-- With the thresholds of the code `1/(s+1)` is converted without rounding. -/
example : ClearModel (1 / 10 ^ 9) (1 / 10 ^ 14) lagTfR :=
  clearModel_int (by norm_num) (by norm_num) lagTfR_normal.num lagTfR_normal.den (fun _ _ => [1]) (fun _ _ => [1, 1]) (by simp) (by simp) (by simp)

/-- Non-vacuity of `C82_zoh_partial` and `C82_foh_partial`: `1/(s+1)`, `dt = 1`. -/
example : ∃ (N : Numerics ℝ ℂ), EigExact N ∧ ZerosExact N ∧ BalanceOk plainDNum ∧ Normal lagTfR 1 1 (Matrix.of fun _ _ => [1]) (Matrix.of fun _ _ => [1, 1]) ∧
    lagTfR.dt = none :=
  let ⟨N, hN, hZ⟩ := exists_exact_numerics
  ⟨N, hN, hZ, plainDNum_ok, lagTfR_normal, rfl⟩

/-- Non-vacuity of `C82_gain_partial`: the static gain `2`. -/
example : Normal (⟨constArr 1 1 [2], constArr 1 1 [1], true, none⟩ : TransferM ℝ) 1 1 (Matrix.of fun _ _ => [2]) (Matrix.of fun _ _ => [1]) ∧
    "zoh" ∈ knownMethods :=
  ⟨normal_siso ⟨fun _ _ => 1, 0, 0⟩ (by simp) (Or.inr ⟨2, [], rfl, two_ne_zero⟩) (by simp) dtOk_none, by simp [knownMethods]⟩

/-- `1/(z+1)` with sampling period 1. -/
def lagDisc : TransferM ℝ := { lagTfR with dt := some 1 }

/-- Non-vacuity of `C82_undiscretize_lft_partial`: `1/(z+1)`, `q = [[1, 2], [3, 4]]`; `s = 2` and `z = 1/10` are related. -/
example : RegularAt lagDisc 1 1 (if (4 : ℝ) = 0 then none else some (1 / 4)) ∧ (1 : ℝ) / (1 / 10) = 4 + 3 * 2 / (2 - 1) ∧
    HasVal lagDisc 1 1 (1 / 10 : ℝ) !![1 / (1 / 10 + 1)] ∧ (∃ P Q, Normal (TransferObj.plain lagDisc).g 1 1 P Q ∧ ¬ AllConstant P Q) := by
  refine ⟨fun s hs => ?_, by norm_num, ?_, _, _, ?_, lagTfR_nonconstant⟩
  · rw [if_neg (by norm_num)] at hs
    obtain rfl := Option.some.inj hs
    exact ⟨_, lagTfR_val _ (by norm_num)⟩
  · exact lagTfR_val _ (by norm_num)
  · exact { lagTfR_normal with
      dt := fun t ht => by
        obtain rfl := Option.some.inj ht
        exact one_pos }

end Harold
