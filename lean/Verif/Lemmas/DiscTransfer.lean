import Verif.Model.DiscTransfer
import Verif.Spec.DiscTransfer
import Verif.Lemmas.FeedbackTransfer
import Verif.Props.Discrete
import Verif.Props.ToTransfer
import Verif.Props.Transfer

/-!
# Lemmas on the discretization of `Transfer` models
-/

namespace Harold

open Matrix Spec

variable {E : TNum ℝ} {N : Numerics ℝ ℂ} {B : DNum} {dt pw : ℝ} {method : String} {q : Option (Arr ℝ)} {n p m : ℕ}

/-- A `State` instance with the data `T`. -/
def bareState (T : StateM ℝ) : StateObj ℝ ℂ := ⟨T, (T.p, T.m), none, none, 0, [], [], true⟩

/-- Lines 116-131 return when `_discretize` does and the result can be converted. -/
theorem discretizeDynT_of {T g : StateM ℝ} {r : Arr ℝ × Arr ℝ × Arr ℝ × Arr ℝ} (hT : T.isgain = false)
    (h : discretizeArgs B T dt method pw q = .ok r)
    (hg : mkState (some r.1) (some r.2.1) (some r.2.2.1) (some r.2.2.2) (some dt) = .ok g)
    (hdt : 0 < dt) (hm : method ∈ knownMethods) (hpw : method ∈ tustinNames → pw ≤ 1 / (2 * dt))
    (hq : method = "lft" → (q.getD Arr.empty).shape = (2, 2)) {F : TransferM ℝ}
    (hF : stateToTransfer E N g = .ok F) (hFdt : F.dt = some dt) :
    ∃ R, discretizeDynT E N B T dt method pw q = .ok R ∧ R.g = F ∧ R.discWith = some method ∧
      (method = "lft" → R.discMat = some (q.getD Arr.empty)) ∧ (method ∈ tustinNames → R.prewarp = pw) := by
  obtain ⟨num, den, g, d⟩ := F
  simp only at hFdt
  subst hFdt
  unfold discretizeDynT
  simp only [discArgsT, hT, Bool.false_eq_true, false_and, if_false, h, Bind.bind, Except.bind, hg, hF, TransferObj.plain,
    TransferObj.set, TransferObj.assign, if_pos hm, Option.isNone_some]
  by_cases h1 : method = "lft"
  · simp [recordArgsT, h1, TransferObj.set, TransferObj.assign, not_le.mpr hdt, tustinNames, hq h1]
  · by_cases h2 : method ∈ tustinNames
    · simp [recordArgsT, h1, h2, TransferObj.set, TransferObj.assign, not_le.mpr hdt, if_neg (not_lt.mpr (hpw h2)), gt_iff_lt, -one_div]
    · simp [recordArgsT, h1, h2, TransferObj.set, TransferObj.assign, not_le.mpr hdt]

/-- What `_discretize` returned when `discretize` returned a `State`. -/
theorem discretize_args {P : Type} {N : Numerics ℝ P} {S G : StateObj ℝ P} (h : discretize N B G dt method pw q = .ok S) (hg : G.g.isgain = false) :
    ∃ r, discretizeArgs B G.g dt method pw q = .ok r ∧
      mkState (some r.1) (some r.2.1) (some r.2.2.1) (some r.2.2.2) (some dt) = .ok S.g ∧
      (method ∈ tustinNames → pw ≤ 1 / (2 * dt)) := by
  obtain ⟨hm, hdt0, hdt⟩ := discretize_pre h
  have e : discretize N B G dt method pw q = discretizeDyn N B G dt method pw q := by
    simp [discretize, hm, hdt0, hg]
  rw [e] at h
  unfold discretizeDyn at h
  obtain ⟨r, h1, h⟩ := bind_ok h
  refine ⟨r, h1, ?_⟩
  have hdt' : ¬ dt ≤ 0 := not_le.mpr hdt
  cases h2 : mkState (some r.1) (some r.2.1) (some r.2.2.1) (some r.2.2.2) (some dt) with
  | error e => simp [StateObj.init, h2, Bind.bind, Except.bind] at h
  | ok g =>
    have hgdt : g.dt = some dt := by
      unfold mkState at h2
      obtain ⟨v, -, h2⟩ := bind_ok h2
      obtain ⟨t, ht, h2⟩ := bind_ok h2
      simp only [checkDt, hdt', if_false, Except.ok.injEq] at ht
      simp only [Except.ok.injEq] at h2
      rw [← h2, ← ht]
    simp only [StateObj.init, h2, Bind.bind, Except.bind, StateObj.set, StateObj.assign, StateObj.recalc, if_pos hm, hgdt, Option.isNone_some,
      Bool.false_eq_true, if_false] at h
    have hg' : ({ g with dt := some dt } : StateM ℝ) = g := by rw [← hgdt]
    by_cases hl : method = "lft"
    · simp only [recordArgs, hl, if_true, StateObj.set, StateObj.assign, hdt', if_false, Except.ok.injEq] at h
      refine ⟨?_, by simp [hl, tustinNames]⟩
      rw [← h]
      simp [hg']
    · by_cases ht : method ∈ tustinNames
      · by_cases hw : pw ≤ 1 / (2 * dt)
        · refine ⟨?_, fun _ => hw⟩
          simp only [recordArgs, hl, ht, if_true, if_false, StateObj.set, StateObj.assign, Option.getD_some, hgdt, gt_iff_lt, not_lt.mpr hw, hdt',
            Except.ok.injEq] at h
          rw [← h]
          simp [hg']
        · simp [recordArgs, hl, ht, StateObj.set, StateObj.assign, hgdt, not_le.mp hw, -one_div] at h
      · simp only [recordArgs, hl, ht, if_false, hdt', Except.ok.injEq] at h
        refine ⟨?_, fun h => absurd h ht⟩
        rw [← h]
        simp [hg']

theorem allConstant_of_gain {G : TransferM ℝ} {P Q : Matrix (Fin p) (Fin m) (List ℝ)} (hG : Normal G p m P Q) (h : G.isgain = true) :
    AllConstant P Q := by
  intro i j
  obtain ⟨h1, h2, h3⟩ := hG.gain_entry h i j
  generalize (P i j).getD 0 0 = a at *
  generalize (Q i j).getD 0 0 = b at *
  refine ⟨a / b, ?_⟩
  rw [h1, h2]
  simp [toPoly]
  rw [← Polynomial.C_mul, div_mul_cancel₀ _ h3]

/-- A model that is not constant: `discretize` is `state_to_transfer` of the discretised `State` model. -/
theorem discretizeTransfer_of (hbal : ∀ polys i, E.bal polys i ≠ 0) (hthr : E.lcmTol ≤ 1) {G : TransferM ℝ} (htol : ClearModel E.lcmTol E.remTol G) (hN : EigExact N) (hZ : ZerosExact N)
    {P Q : Matrix (Fin p) (Fin m) (List ℝ)} (hG : Normal G p m P Q) (hc : G.dt = none) (hnc : ¬ AllConstant P Q) :
    ∃ T, transferToState E G = .ok T ∧ Consistent T p m ∧ T.isgain = false ∧ T.dt = none ∧
      (∀ {L : Type} [Field L] [Algebra ℝ L] (s : L) (M : Matrix (Fin p) (Fin m) L), HasVal G p m s M → HasTF T p m s M) ∧
      ∀ {dt pw : ℝ} {method : String} {q : Option (Arr ℝ)} (S : StateObj ℝ ℂ), discretize N B (bareState T) dt method pw q = .ok S →
        Consistent S.g p m → S.g.isgain = false →
        (method = "lft" → (q.getD Arr.empty).shape = (2, 2)) →
        ∃ R P' Q', discretizeTransfer E N B G dt method pw q = .ok R ∧ Normal R.g p m P' Q' ∧ R.g.dt = some dt ∧
          R.discWith = some method ∧ (method = "lft" → R.discMat = some (q.getD Arr.empty)) ∧ (method ∈ tustinNames → R.prewarp = pw) ∧
          ∀ {L : Type} [Field L] [Algebra ℝ L] (ζ : L) (M : Matrix (Fin p) (Fin m) L), HasTF S.g p m ζ M → HasVal R.g p m ζ M := by
  obtain ⟨T, H, e1, e2, e3, e4, e5, e6, e7⟩ := t2s_parts (E := E) hbal hthr htol hG
  have hTg : T.isgain = false := by
    by_contra h
    exact hnc (e6 (by simpa using h))
  have hGg : G.isgain = false := by
    by_contra h
    exact hnc (allConstant_of_gain hG (by simpa using h))
  refine ⟨T, e1, e5, hTg, e2.trans hc, e7, ?_⟩
  intro dt pw method q S hS hSc hSg hq
  obtain ⟨hm, -, hdt⟩ := discretize_pre hS
  obtain ⟨r, h1, h2, h3⟩ := discretize_args hS hTg
  have hSdt : S.g.dt = some dt := by
    unfold mkState at h2
    obtain ⟨v, -, h2⟩ := bind_ok h2
    obtain ⟨t, ht, h2⟩ := bind_ok h2
    simp only [checkDt, not_le.mpr hdt, if_false, Except.ok.injEq] at ht
    simp only [Except.ok.injEq] at h2
    rw [← h2, ← ht]
  obtain ⟨F, P', Q', f1, f2, f3, f4⟩ := stateToTransfer_dynamic (E := E) (N := N) hbal hthr hN hZ hSc hSg
    (by rw [hSdt]; intro t ht; cases ht; exact hdt) hG.pos.1 hG.pos.2
  obtain ⟨R, g1, g2, g3, g4, g5⟩ := discretizeDynT_of (E := E) (N := N) hTg h1 h2 hdt hm h3 hq f1 (f3.trans hSdt)
  refine ⟨R, P', Q', ?_, by rwa [g2], by rw [g2, f3, hSdt], g3, g4, g5, fun ζ M h => by rw [g2]; exact (f4 ζ M h).1⟩
  unfold discretizeTransfer
  simp [hm, hc, e1, Bind.bind, Except.bind, hGg, g1]

/-! ## `undiscretize` -/

/-- The methods of `_undiscretize` that are star products. -/
theorem undisc_lft {T : StateM ℝ} {x y z w : ℝ}
    (hargs : undiscretizeArgs B T dt method pw q = simpleLft (q2 x y z w) T.a T.b T.c T.d) {A : Matrix (Fin n) (Fin n) ℝ}
    {B₁ : Matrix (Fin n) (Fin m) ℝ} {C : Matrix (Fin p) (Fin n) ℝ} {D : Matrix (Fin p) (Fin m) ℝ} {d : Option ℝ}
    (hT : T = ⟨Arr.of A, Arr.of B₁, Arr.of C, Arr.of D, d, false⟩) (h0 : (1 - w • A).det ≠ 0) :
    ∃ (A' : Matrix (Fin n) (Fin n) ℝ) (B' : Matrix (Fin n) (Fin m) ℝ) (C' : Matrix (Fin p) (Fin n) ℝ) (D' : Matrix (Fin p) (Fin m) ℝ),
      undiscretizeArgs B T dt method pw q = .ok (Arr.of A', Arr.of B', Arr.of C', Arr.of D') ∧
      ∀ {L : Type} [Field L] [Algebra ℝ L] (s ζ : L) (M : Matrix (Fin p) (Fin m) L),
        algebraMap ℝ L w * (s - algebraMap ℝ L x) + algebraMap ℝ L z * algebraMap ℝ L y ≠ 0 →
        ζ * (algebraMap ℝ L w * (s - algebraMap ℝ L x) + algebraMap ℝ L z * algebraMap ℝ L y) = s - algebraMap ℝ L x →
        HasTF T p m ζ M → IsTF (A'.map (algebraMap ℝ L)) (B'.map (algebraMap ℝ L)) (C'.map (algebraMap ℝ L)) (D'.map (algebraMap ℝ L)) s M := by
  subst hT
  simp only at hargs
  refine ⟨_, _, _, _, hargs.trans (simpleLft_of x y z w A B₁ C D h0), ?_⟩
  intro L _ _ s ζ M hβ hs hM
  rcases hM with ⟨h, -⟩ | ⟨-, n', A', B', C', D', e1, e2, e3, e4, hT⟩
  · cases h
  simp only at e1 e2 e3 e4
  have hnn : n' = n := (congrArg Arr.r e1).symm
  subst hnn
  rw [Arr.of_inj] at e1 e2 e3 e4
  subst e1 e2 e3 e4
  have hN : ((1 - w • A)⁻¹).map (algebraMap ℝ L) * (1 - algebraMap ℝ L w • A.map (algebraMap ℝ L)) = 1 := by
    have e1 : (1 - w • A)⁻¹ * (1 - w • A) = 1 := nonsing_inv_mul _ (Ne.isUnit h0)
    have e2 := congrArg (fun X => X.map (algebraMap ℝ L)) e1
    simp only [map_mul', map_sub', map_smul'] at e2
    simpa using e2
  have := IsTF.lft hT hN hβ hs
  convert this using 1 <;> simp [map_add', map_smul', map_mul']

/-- Backward differences. -/
theorem undisc_backward {T : StateM ℝ} (hdt : 0 < dt) {A : Matrix (Fin n) (Fin n) ℝ}
    {B₁ : Matrix (Fin n) (Fin m) ℝ} {C : Matrix (Fin p) (Fin n) ℝ} {D : Matrix (Fin p) (Fin m) ℝ} {d : Option ℝ}
    (hT : T = ⟨Arr.of A, Arr.of B₁, Arr.of C, Arr.of D, d, false⟩) (h0 : A.det ≠ 0) :
    ∃ (A' : Matrix (Fin n) (Fin n) ℝ) (B' : Matrix (Fin n) (Fin m) ℝ) (C' : Matrix (Fin p) (Fin n) ℝ) (D' : Matrix (Fin p) (Fin m) ℝ),
      undiscBackward T dt = .ok (Arr.of A', Arr.of B', Arr.of C', Arr.of D') ∧
      ∀ {L : Type} [Field L] [Algebra ℝ L] (s ζ : L) (M : Matrix (Fin p) (Fin m) L), ζ ≠ 0 → s = (ζ - 1) / (algebraMap ℝ L dt * ζ) →
        HasTF T p m ζ M → IsTF (A'.map (algebraMap ℝ L)) (B'.map (algebraMap ℝ L)) (C'.map (algebraMap ℝ L)) (D'.map (algebraMap ℝ L)) s M := by
  subst hT
  have e1 : ∀ k, (Arr.eye k : Arr ℝ) = Arr.of 1 := fun _ => rfl
  have hinv : undiscInv (Arr.of A) = .ok (Arr.of A⁻¹) := by
    unfold undiscInv
    simp only [Arr.of_r, e1]
    rw [Arr.solve_of, if_neg h0, Matrix.mul_one]
  refine ⟨(1 / dt) • (1 - A⁻¹), (1 / √dt) • (A⁻¹ * B₁), (1 / √dt) • (C * A⁻¹), D - C * A⁻¹ * B₁, ?_, ?_⟩
  · unfold undiscBackward
    simp only [hinv, Bind.bind, Except.bind, StateM.n, Arr.of_r, e1, Arr.sub_of, Arr.matmul_of, Arr.smul_of]
  intro L _ _ s ζ M hζ hs hM
  rcases hM with ⟨h, -⟩ | ⟨-, n', A', B', C', D', e1, e2, e3, e4, hT⟩
  · cases h
  simp only at e1 e2 e3 e4
  have hnn : n' = n := (congrArg Arr.r e1).symm
  subst hnn
  rw [Arr.of_inj] at e1 e2 e3 e4
  subst e1 e2 e3 e4
  obtain ⟨hd, X, hX, rfl⟩ := isTF_iff_sol.mp hT
  set φ := algebraMap ℝ L with hφ
  have hd0 : φ dt ≠ 0 := by simpa using hdt.ne'
  have hsq : φ (√dt) * φ (√dt) = φ dt := by rw [← map_mul, Real.mul_self_sqrt hdt.le]
  have hsq0 : φ (√dt) ≠ 0 := by
    intro h; rw [h, zero_mul] at hsq; exact hd0 hsq.symm
  have hi : (A⁻¹).map φ * A.map φ = 1 := by
    have := congrArg (fun X => X.map φ) (nonsing_inv_mul A (Ne.isUnit h0))
    simpa using this
  have hid : ((A⁻¹).map φ).det ≠ 0 := by
    intro h
    have := congrArg det hi
    rw [det_mul, h, zero_mul, det_one] at this
    exact zero_ne_one this
  have key : s • (1 : Matrix (Fin n') (Fin n') L) - ((1 / dt) • (1 - A⁻¹)).map φ
      = (1 / (φ dt * ζ)) • ((A⁻¹).map φ * (ζ • (1 : Matrix (Fin n') (Fin n') L) - A.map φ)) := by
    rw [mul_sub, hi, Matrix.mul_smul, Matrix.mul_one, map_smul', map_sub', hs, ← hφ]
    have e : (1 : Matrix (Fin n') (Fin n') ℝ).map φ = 1 := by simp
    rw [e]
    ext i j
    simp only [Matrix.sub_apply, Matrix.smul_apply, smul_eq_mul, Matrix.map_apply, map_div₀, map_one]
    field_simp
    ring
  refine isTF_iff_sol.mpr ⟨?_, (φ (√dt) * ζ) • X, ?_, ?_⟩
  · rw [key, det_smul, det_mul]
    exact mul_ne_zero (pow_ne_zero _ (one_div_ne_zero (mul_ne_zero hd0 hζ))) (mul_ne_zero hid hd)
  · rw [key, smul_mul, Matrix.mul_smul, Matrix.mul_assoc, hX, smul_smul, map_smul', map_mul', ← hφ]
    congr 1
    rw [map_div₀, map_one, ← hsq]
    field_simp
  · have hAX : A.map φ * X = ζ • X - B₁.map φ := by
      rw [← hX, Matrix.sub_mul, smul_mul, Matrix.one_mul, sub_sub_cancel]
    have h2 : X = (A⁻¹).map φ * (ζ • X - B₁.map φ) := by
      rw [← hAX, ← Matrix.mul_assoc, hi, Matrix.one_mul]
    conv_lhs => rw [h2]
    rw [map_smul', map_sub', map_mul', map_mul', map_mul', smul_mul, Matrix.mul_smul, smul_smul, Matrix.mul_sub, Matrix.mul_smul, Matrix.mul_sub,
      Matrix.mul_smul, ← hφ, map_div₀, map_one]
    have e : 1 / φ (√dt) * (φ (√dt) * ζ) = ζ := by field_simp
    rw [e]
    simp only [Matrix.mul_assoc]
    abel

/-- A discrete model that is not constant: `undiscretize` is `state_to_transfer` of the undiscretised `State` model. -/
theorem undiscretizeTransfer_of (hbal : ∀ polys i, E.bal polys i ≠ 0) (hthr : E.lcmTol ≤ 1) {G : TransferObj ℝ ℂ} (htol : ClearModel E.lcmTol E.remTol G.g) (hN : EigExact N)
    (hZ : ZerosExact N) {P Q : Matrix (Fin p) (Fin m) (List ℝ)} (hG : Normal G.g p m P Q) (hc : G.g.dt = some dt)
    (hnc : ¬ AllConstant P Q) :
    ∃ (n : ℕ) (A : Matrix (Fin n) (Fin n) ℝ) (B₁ : Matrix (Fin n) (Fin m) ℝ) (C : Matrix (Fin p) (Fin n) ℝ) (D : Matrix (Fin p) (Fin m) ℝ) (T : StateM ℝ),
      T = ⟨Arr.of A, Arr.of B₁, Arr.of C, Arr.of D, some dt, false⟩ ∧
      (∀ {L : Type} [Field L] [Algebra ℝ L] (s : L) (M : Matrix (Fin p) (Fin m) L), HasVal G.g p m s M → HasTF T p m s M) ∧
      ∀ {mth : Option String} {pw : ℝ} {q q' : Option (Arr ℝ)} {A' : Matrix (Fin n) (Fin n) ℝ} {B' : Matrix (Fin n) (Fin m) ℝ} {C' : Matrix (Fin p) (Fin n) ℝ}
        {D' : Matrix (Fin p) (Fin m) ℝ}, undiscQT G (undiscMethodT G mth) q = .ok q' →
        undiscretizeArgs B T dt (undiscMethodT G mth) pw q' = .ok (Arr.of A', Arr.of B', Arr.of C', Arr.of D') →
        ∃ R P' Q', undiscretizeTransfer E N B G mth pw q = .ok R ∧ Normal R p m P' Q' ∧ R.dt = none ∧
          ∀ {L : Type} [Field L] [Algebra ℝ L] (s : L) (M : Matrix (Fin p) (Fin m) L),
            IsTF (A'.map (algebraMap ℝ L)) (B'.map (algebraMap ℝ L)) (C'.map (algebraMap ℝ L)) (D'.map (algebraMap ℝ L)) s M → HasVal R p m s M := by
  obtain ⟨T, H, e1, e2, e3, e4, e5, e6, e7⟩ := t2s_parts (E := E) hbal hthr htol hG
  have hTg : T.isgain = false := by
    by_contra h
    exact hnc (e6 (by simpa using h))
  have hGg : G.g.isgain = false := by
    by_contra h
    exact hnc (allConstant_of_gain hG (by simpa using h))
  obtain ⟨a, b, c, D, dt', hT⟩ | ⟨n, A, B₁, C, D, dt', hT⟩ := consistent_cases e5
  · rw [hT] at hTg; cases hTg
  have hdt' : dt' = some dt := by rw [hT] at e2; exact e2.trans hc
  subst hdt'
  refine ⟨n, A, B₁, C, D, T, hT, e7, ?_⟩
  intro mth pw q q' A' B' C' D' hq hargs
  obtain ⟨F, P', Q', f1, f2, f3, f4⟩ := stateToTransfer_dynamic (E := E) (N := N) hbal hthr hN hZ
    (G := ⟨Arr.of A', Arr.of B', Arr.of C', Arr.of D', none, false⟩) (p := p) (m := m) ⟨⟨rfl, rfl⟩, fun _ => ⟨rfl, rfl, rfl, rfl, rfl⟩⟩ rfl dtOk_none
    hG.pos.1 hG.pos.2
  refine ⟨F, P', Q', ?_, f2, f3, fun s M h => (f4 s M (HasTF.of_dyn h)).1⟩
  unfold undiscretizeTransfer
  rw [hc]
  simp only [hq, Bind.bind, Except.bind, hGg, Bool.false_eq_true, if_false, e1, undiscArgsT, hTg, false_and, hargs, mkState_of dtOk_none, f1]

end Harold
