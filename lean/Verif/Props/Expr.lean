import Verif.Spec.Expr
import Verif.Props.StateInverse
import Verif.Props.Feedback

/-!
# C88: formulas over `State` models
-/

namespace Harold

open Matrix Spec

variable {K L : Type} [Field K] [LinearOrder K] [IsStrictOrderedRing K] [Field L] [Algebra K L]
variable {p q m : ℕ} {s : L}

local notation "φ" => algebraMap K L

/-- A sum that returns has the value of the sum. -/
theorem add_value {G H R : StateM K} {M N : Matrix (Fin p) (Fin m) L} {fuel : ℕ} (h : HasTF G p m s M) (h' : HasTF H p m s N) (hdt : DtOk G.dt)
    (e : G.add (fuel + 3) H = .ok R) : HasTF R p m s (M + N) ∧ DtOk R.dt := by
  by_cases he : G.dt = H.dt
  swap
  · rw [C16_mismatch_rejected he (fuel + 2) |>.1] at e
    cases e
  by_cases hs : G.isgain = H.isgain ∨ ¬ (p = 1 ∧ m = 1)
  · obtain ⟨R', e', h1, h2⟩ := add_hasTF h h' hdt he hs (fuel + 1)
    obtain rfl : R' = R := by rw [e'] at e; cases e; rfl
    refine ⟨h1, ?_⟩
    rw [h2]
    split_ifs
    · exact dtOk_none
    · exact hdt
  · push Not at hs
    obtain ⟨hne, rfl, rfl⟩ := hs
    exfalso
    cases hg : G.isgain <;> cases hg' : H.isgain
    · exact hne (hg.trans hg'.symm)
    · obtain ⟨D, hD, -⟩ := gain_elim h' hg'
      rw [StateM.add] at e
      simp only [he, ne_eq, not_true_eq_false, if_false, hg, hg', Bool.false_and, Bool.false_eq_true, if_true, hD] at e
      have := C15_one_by_one_array_violated h hdt hg D (fuel + 2)
      simp only [StateM.addGain, Gain.regular] at this
      rw [this] at e
      cases e
    · obtain ⟨D, hD, -⟩ := gain_elim h hg
      rw [StateM.add] at e
      simp only [he, ne_eq, not_true_eq_false, if_false, hg, hg', Bool.and_false, Bool.false_eq_true, if_true, hD] at e
      have := C15_one_by_one_array_violated h' (he ▸ hdt) hg' D (fuel + 2)
      simp only [StateM.addGain, Gain.regular] at this
      rw [this] at e
      cases e
    · exact hne (hg.trans hg'.symm)

/-- A product that returns has the value of the product. -/
theorem mul_value {G H R : StateM K} {M : Matrix (Fin p) (Fin q) L} {N : Matrix (Fin q) (Fin m) L} {fuel : ℕ} (h : HasTF G p q s M) (h' : HasTF H q m s N)
    (hdt : DtOk G.dt) (e : G.matmul (fuel + 3) H = .ok R) : HasTF R p m s (M * N) ∧ DtOk R.dt := by
  by_cases he : G.dt = H.dt
  swap
  · rw [C16_mismatch_rejected he (fuel + 2) |>.2] at e
    cases e
  obtain ⟨R', e', h1, h2, -⟩ := C17_matmul h h' hdt he (fuel + 2)
  obtain rfl : R' = R := by rw [e'] at e; cases e; rfl
  exact ⟨h1, h2 ▸ hdt⟩

/-- An inverse that returns has the inverse value. -/
theorem inv_value {G R : StateM K} {M : Matrix (Fin m) (Fin m) L} (h : HasTF G m m s M) (hdt : DtOk G.dt) (hu : M.det ≠ 0)
    (e : StateM.rtruedivGain (.scalar 1) G = .ok R) : HasTF R m m s M⁻¹ ∧ DtOk R.dt := by
  obtain ⟨D, hD⟩ : ∃ D : Matrix (Fin m) (Fin m) K, G.d = Arr.of D := by
    rcases h with ⟨-, D, hD, -⟩ | ⟨-, n, A, B, C, D, -, -, -, hD, -⟩ <;> exact ⟨D, hD⟩
  by_cases hsv : HasSVBelow spacing1 D
  · exfalso
    obtain ⟨a, b, c, d, dt, g⟩ := G
    simp only at hD
    subst hD
    have : HasSVBelow spacing1 (D.submatrix id (Fin.cast (rfl : m = m))) := by simpa using hsv
    simp [StateM.rtruedivGain, StateM.invert, bind, Except.bind, hsv] at e
  · obtain ⟨R', e', h1, h2⟩ := C19_defined hD hdt hsv h hu
    obtain rfl : R' = R := by rw [e'] at e; cases e; rfl
    exact ⟨h2, h1 ▸ hdt⟩

/-- A loop that returns has the value of the loop. -/
theorem loop_value {G H R : StateM K} {M : Matrix (Fin p) (Fin m) L} {N : Matrix (Fin m) (Fin p) L} {negative : Bool} (h : HasTF G p m s M) (h' : HasTF H m p s N)
    (hdt : DtOk G.dt) (hn : negative = true → ∀ (D : Matrix (Fin p) (Fin m) K) (N : Matrix (Fin m) (Fin p) K), G.d = Arr.of D → H.d = Arr.of N → N * D = 0)
    (hw : (1 - (if negative then -1 else 1 : L) • (N * M)).det ≠ 0) (e : feedback (.state G) (.state H) negative = .ok R) :
    HasTF R p m s (M * (1 - (if negative then -1 else 1 : L) • (N * M))⁻¹) ∧ DtOk R.dt := by
  by_cases he : G.dt = H.dt
  swap
  · simp [feedback, checkFeedbackIc, he, bind, Except.bind] at e
  obtain ⟨D, hD⟩ : ∃ D : Matrix (Fin p) (Fin m) K, G.d = Arr.of D := by
    rcases h with ⟨-, D, hD, -⟩ | ⟨-, n, A, B, C, D, -, -, -, hD, -⟩ <;> exact ⟨D, hD⟩
  obtain ⟨E, hE⟩ : ∃ D : Matrix (Fin m) (Fin p) K, H.d = Arr.of D := by
    rcases h' with ⟨-, D, hD, -⟩ | ⟨-, n, A, B, C, D, -, -, -, hD, -⟩ <;> exact ⟨D, hD⟩
  have ered : feedback (.state G) (.state H) negative = closeLoop G H negative := by
    have e1 : ¬ (G.p ≠ H.m ∨ G.m ≠ H.p) := by simp [StateM.p, StateM.m, hD, hE]
    simp only [feedback, checkFeedbackIc, he, ne_eq, not_true_eq_false, if_false, bind, Except.bind]
    rw [if_neg e1]
  by_cases hwp : HasSVAtMost (m * spacing10 : K) (1 - E * D)
  · rw [ered, closeLoop_ill G H D E hD hE hwp] at e
    cases e
  have hσ : negative = false ∨ E * D = 0 := by
    cases negative
    · exact Or.inl rfl
    · exact Or.inr (hn rfl D E hD hE)
  have hz : G.isgain = true → H.isgain = true → D ≠ 0 ∧ E ≠ 0 := by
    intro hg hg'
    rw [ered, closeLoop_of G H D E hD hE hwp] at e
    by_contra hc
    have : ¬ ((G.d.any && H.d.any) = true) := by
      intro h2
      rw [Bool.and_eq_true, hD, hE, Arr.any_iff, Arr.any_iff] at h2
      obtain ⟨⟨i, j, h3⟩, i', j', h4⟩ := h2
      exact hc ⟨fun h => h3 (by rw [h]; rfl), fun h => h4 (by rw [h]; rfl)⟩
    simp only [closeBody, hg, hg', Bool.and_self, if_true] at e
    rw [if_neg this] at e
    cases e
  obtain ⟨R', e', h1, h2⟩ := C30_feedback_partial h h' hdt he negative D E hD hE hσ hz hwp hw
  obtain rfl : R' = R := by rw [e'] at e; cases e; rfl
  exact ⟨h1, h2 ▸ hdt⟩

theorem value_aux (fuel : ℕ) : ∀ {p m : ℕ} (e : SExpr K p m), AllModels (fun _ _ G => DtOk G.dt) e → NoDirectLoop fuel e →
    ∀ (M : Matrix (Fin p) (Fin m) L) (R : StateM K), Value s e M → e.eval fuel = .ok R → HasTF R p m s M ∧ DtOk R.dt := by
  intro p m e
  induction e with
  | model G =>
    intro hm hn M R hv he
    cases he
    exact ⟨hv, hm⟩
  | neg e ih =>
    intro hm hn M R ⟨E, hE, hM⟩ he
    obtain ⟨G, hG, he⟩ := bind_ok he
    obtain ⟨h1, h2⟩ := ih hm hn E G hE hG
    obtain ⟨R', e', h3, h4⟩ := C15_neg h1 h2
    obtain rfl : R' = R := by rw [e'] at he; cases he; rfl
    exact ⟨hM ▸ h3, h4 ▸ h2⟩
  | add e f ih ih' =>
    intro hm hn M R ⟨E, F, hE, hF, hM⟩ he
    obtain ⟨G, hG, he⟩ := bind_ok he
    obtain ⟨H, hH, he⟩ := bind_ok he
    obtain ⟨h1, h2⟩ := ih hm.1 hn.1 E G hE hG
    obtain ⟨h3, h4⟩ := ih' hm.2 hn.2 F H hF hH
    exact hM ▸ add_value h1 h3 h2 he
  | sub e f ih ih' =>
    intro hm hn M R ⟨E, F, hE, hF, hM⟩ he
    obtain ⟨G, hG, he⟩ := bind_ok he
    obtain ⟨H, hH, he⟩ := bind_ok he
    obtain ⟨h1, h2⟩ := ih hm.1 hn.1 E G hE hG
    obtain ⟨h3, h4⟩ := ih' hm.2 hn.2 F H hF hH
    obtain ⟨H', hH', he⟩ := bind_ok he
    obtain ⟨R', e', h5, h6⟩ := C15_neg h3 h4
    obtain rfl : R' = H' := by rw [e'] at hH'; cases hH'; rfl
    rw [hM, sub_eq_add_neg]
    exact add_value h1 h5 h2 he
  | mul e f ih ih' =>
    intro hm hn M R ⟨E, F, hE, hF, hM⟩ he
    obtain ⟨G, hG, he⟩ := bind_ok he
    obtain ⟨H, hH, he⟩ := bind_ok he
    obtain ⟨h1, h2⟩ := ih hm.1 hn.1 E G hE hG
    obtain ⟨h3, h4⟩ := ih' hm.2 hn.2 F H hF hH
    exact hM ▸ mul_value h1 h3 h2 he
  | scale k e ih =>
    intro hm hn M R ⟨E, hE, hM⟩ he
    obtain ⟨G, hG, he⟩ := bind_ok he
    obtain ⟨h1, h2⟩ := ih hm hn E G hE hG
    obtain ⟨R', e', h3, h4⟩ := C18_scalar_left h1 h2 k
    obtain rfl : R' = R := by rw [StateM.rmulGain, e'] at he; cases he; rfl
    exact ⟨hM ▸ h3, h4 ▸ h2⟩
  | shift e k ih =>
    intro hm hn M R ⟨E, hE, hM⟩ he
    obtain ⟨G, hG, he⟩ := bind_ok he
    obtain ⟨h1, h2⟩ := ih hm hn E G hE hG
    obtain ⟨⟨R', e', h3, h4⟩, -⟩ := C15_add_scalar h1 h2 k (fuel + 2)
    obtain rfl : R' = R := by rw [e'] at he; cases he; rfl
    exact ⟨hM ▸ h3, h4 ▸ h2⟩
  | inv e ih =>
    intro hm hn M R ⟨E, hE, hd, hM⟩ he
    obtain ⟨G, hG, he⟩ := bind_ok he
    obtain ⟨h1, h2⟩ := ih hm hn E G hE hG
    exact hM ▸ inv_value h1 h2 hd he
  | loop negative e f ih ih' =>
    intro hm hn M R ⟨E, F, hE, hF, hw, hM⟩ he
    obtain ⟨G, hG, he⟩ := bind_ok he
    obtain ⟨H, hH, he⟩ := bind_ok he
    obtain ⟨h1, h2⟩ := ih hm.1 hn.1 E G hE hG
    obtain ⟨h3, h4⟩ := ih' hm.2 hn.2.1 F H hF hH
    exact hM ▸ loop_value h1 h3 h2 (fun hg D N hD hN => hn.2.2 hg G H D N hG hH hD hN) hw he

/-- **C88**: whatever formula is built from `State` models with `-`, `+`, `@`, scalar factors and summands, `1 /` and `feedback`, and however deeply it is nested: if the evaluation returns a model, the transfer matrix of that model is the same formula over the transfer matrices of the given models, at every point at which the formula is defined. Missing from the full claim: negative feedback with a direct feedthrough around the loop (`C30_negative_violated`). -/
theorem C88_value_partial (fuel : ℕ) (e : SExpr K p m) (hdt : AllModels (fun _ _ G => DtOk G.dt) e) (hn : NoDirectLoop fuel e)
    {M : Matrix (Fin p) (Fin m) L} {R : StateM K} (hv : Value s e M) (he : e.eval fuel = .ok R) : HasTF R p m s M :=
  (value_aux fuel e hdt hn M R hv he).1

/-! ## When a formula returns -/

/-- A dynamic model with `n` states, feedthrough `D` and sampling period `T`. -/
def DynWith (R : StateM K) (T : Option K) (n : ℕ) (D : Matrix (Fin p) (Fin m) K) : Prop :=
  ∃ (A : Matrix (Fin n) (Fin n) K) (B : Matrix (Fin n) (Fin m) K) (C : Matrix (Fin p) (Fin n) K),
    R = ⟨Arr.of A, Arr.of B, Arr.of C, Arr.of D, T, false⟩

theorem dynWith_of_consistent {G : StateM K} (h : Consistent G p m) (hg : G.isgain = false) {D : Matrix (Fin p) (Fin m) K} (hD : G.d = Arr.of D) :
    DynWith G G.dt G.a.r D := by
  obtain ⟨h1, h2, h3, h4, h5⟩ := h.2 hg
  obtain ⟨A, hA⟩ := Arr.exists_of rfl h1.symm
  obtain ⟨B, hB⟩ := Arr.exists_of h2 h3
  obtain ⟨C, hC⟩ := Arr.exists_of h4 h5
  refine ⟨A, B, C, ?_⟩
  obtain ⟨a, b, c, d, dt, g⟩ := G
  simp_all

theorem DynWith.consistent {R : StateM K} {T : Option K} {n : ℕ} {D : Matrix (Fin p) (Fin m) K} (h : DynWith R T n D) : Consistent R p m := by
  obtain ⟨A, B, C, rfl⟩ := h
  exact ⟨⟨rfl, rfl⟩, fun _ => ⟨rfl, rfl, rfl, rfl, rfl⟩⟩

variable {T : Option K} {G H : StateM K} {n n' : ℕ}

theorem DynWith.neg {D : Matrix (Fin p) (Fin m) K} (h : DynWith G T n D) (hT : DtOk T) : ∃ R, G.neg = .ok R ∧ DynWith R T n (-D) := by
  obtain ⟨A, B, C, rfl⟩ := h
  refine ⟨_, ?_, A, B, -C, rfl⟩
  simp only [StateM.neg, Bool.false_eq_true, if_false, Arr.neg_of]
  exact mkState_of hT _ _ _ _

theorem DynWith.add {D E : Matrix (Fin p) (Fin m) K} (h : DynWith G T n D) (h' : DynWith H T n' E) (fuel : ℕ) :
    ∃ R, G.add (fuel + 1) H = .ok R ∧ DynWith R none (n + n') (D + E) := by
  obtain ⟨A, B, C, rfl⟩ := h
  obtain ⟨A', B', C', rfl⟩ := h'
  have key : StateM.parallel (⟨Arr.of A, Arr.of B, Arr.of C, Arr.of D, T, false⟩ : StateM K) ⟨Arr.of A', Arr.of B', Arr.of C', Arr.of E, T, false⟩ =
      .ok ⟨Arr.of (blk A 0 0 A'), Arr.of (vcat B B'), Arr.of (hcat C C'), Arr.of (D + E), none, false⟩ := by
    simp only [StateM.parallel, Arr.vstack_of, Arr.hstack_of, Arr.add_of, Arr.blockDiag_of, bind, Except.bind]
    exact mkState_of dtOk_none _ _ _ _
  refine ⟨_, ?_, blk A 0 0 A', vcat B B', hcat C C', rfl⟩
  rw [StateM.add]
  by_cases hs : p = 1 ∧ m = 1
  · simp only [ne_eq, not_true_eq_false, if_false, Bool.and_self, Bool.false_eq_true, isSISO_of, hs, and_self, decide_true, if_true]
    exact key
  · simp only [ne_eq, not_true_eq_false, if_false, Bool.and_self, Bool.false_eq_true, isSISO_of, hs, decide_false, Bool.not_false, if_true, StateM.p, StateM.m, Arr.of_r, Arr.of_c, or_self]
    exact key

theorem DynWith.mul {D : Matrix (Fin p) (Fin q) K} {E : Matrix (Fin q) (Fin m) K} (h : DynWith G T n D) (h' : DynWith H T n' E) (hT : DtOk T) (fuel : ℕ) :
    ∃ R, G.matmul (fuel + 1) H = .ok R ∧ DynWith R T (n + n') (D * E) := by
  obtain ⟨A, B, C, rfl⟩ := h
  obtain ⟨A', B', C', rfl⟩ := h'
  have z : (Arr.zeros n' n : Arr K) = Arr.of 0 := rfl
  have key : StateM.series (⟨Arr.of A, Arr.of B, Arr.of C, Arr.of D, T, false⟩ : StateM K) ⟨Arr.of A', Arr.of B', Arr.of C', Arr.of E, T, false⟩ =
      .ok ⟨Arr.of (vcat (hcat A (B * C')) (hcat 0 A')), Arr.of (vcat (B * E) B'), Arr.of (hcat C (D * C')), Arr.of (D * E), T, false⟩ := by
    simp only [StateM.series, Arr.vstack_of, Arr.hstack_of, Arr.matmul_of, Arr.of_r, Arr.of_c, z, bind, Except.bind]
    exact mkState_of hT _ _ _ _
  refine ⟨_, ?_, vcat (hcat A (B * C')) (hcat 0 A'), vcat (B * E) B', hcat C (D * C'), rfl⟩
  rw [StateM.matmul]
  simp only [ne_eq, not_true_eq_false, if_false, Bool.and_self, Bool.false_eq_true, StateM.p, StateM.m, Arr.of_r, Arr.of_c, decide_false, Bool.and_false]
  exact key

theorem DynWith.scale {D : Matrix (Fin p) (Fin m) K} (h : DynWith G T n D) (hT : DtOk T) {k : K} (hk : k ≠ 0) :
    ∃ R, StateM.rmulGain (.scalar k) G = .ok R ∧ DynWith R T n (k • D) := by
  obtain ⟨A, B, C, rfl⟩ := h
  refine ⟨_, ?_, A, B, k • C, rfl⟩
  simp only [StateM.rmulGain, StateM.rmatmulGain, Bool.false_eq_true, if_false, hk, ite_self, Arr.smul_of]
  exact mkState_of hT _ _ _ _

theorem DynWith.shift {D : Matrix (Fin p) (Fin m) K} (h : DynWith G T n D) (hT : DtOk T) (k : K) (fuel : ℕ) :
    ∃ R, G.addGain (fuel + 1) (.scalar k) = .ok R ∧ DynWith R T n (Matrix.of fun i j => D i j + k) := by
  obtain ⟨A, B, C, rfl⟩ := h
  refine ⟨_, ?_, A, B, C, rfl⟩
  simp only [StateM.addGain, Gain.regular]
  rw [StateM.addSA]
  simp only [Bool.false_eq_true, if_false, ite_self, addScalar_of]
  exact mkState_of hT _ _ _ _

theorem DynWith.inv {D : Matrix (Fin m) (Fin m) K} (h : DynWith G T n D) (hT : DtOk T) (hsv : ¬ HasSVBelow spacing1 D) :
    ∃ R, StateM.rtruedivGain (.scalar 1) G = .ok R ∧ DynWith R T n D⁻¹ := by
  obtain ⟨A, B, C, rfl⟩ := h
  obtain ⟨R0, e0, d0, g0, dd0, hR0⟩ := invert_hasTF (G := ⟨Arr.of A, Arr.of B, Arr.of C, Arr.of D, T, false⟩) hT rfl hsv (.inr ⟨n, A, B, C, rfl, rfl, rfl⟩)
  obtain ⟨ha, hb, hc⟩ := hR0 n A B C rfl rfl rfl rfl
  refine ⟨_, ?_, A - B * (D⁻¹ * C), B * D⁻¹, -(D⁻¹ * C), rfl⟩
  simp only [StateM.rtruedivGain, e0, bind, Except.bind, StateM.rmatmulGain, g0, Bool.false_eq_true, if_false, one_ne_zero, ite_self,
    ha, hb, hc, dd0, d0, Arr.smul_of, one_smul]
  exact mkState_of hT _ _ _ _

theorem DynWith.inv_ill {D : Matrix (Fin m) (Fin m) K} (h : DynWith G T n D) (hsv : HasSVBelow spacing1 D) :
    StateM.rtruedivGain (.scalar 1) G = .error .linAlg := by
  obtain ⟨A, B, C, rfl⟩ := h
  have : HasSVBelow spacing1 (D.submatrix id (Fin.cast (rfl : m = m))) := by simpa using hsv
  simp [StateM.rtruedivGain, StateM.invert, bind, Except.bind, hsv]

theorem DynWith.fb_eq {D : Matrix (Fin p) (Fin m) K} {E : Matrix (Fin m) (Fin p) K} (h : DynWith G T n D) (h' : DynWith H T n' E) (negative : Bool) :
    feedback (.state G) (.state H) negative = closeLoop G H negative := by
  obtain ⟨A, B, C, rfl⟩ := h
  obtain ⟨A', B', C', rfl⟩ := h'
  simp [feedback, checkFeedbackIc, bind, Except.bind, StateM.p, StateM.m]

theorem DynWith.loop {D : Matrix (Fin p) (Fin m) K} {E : Matrix (Fin m) (Fin p) K} (h : DynWith G T n D) (h' : DynWith H T n' E) (hT : DtOk T) (negative : Bool)
    (hn : negative = true → E * D = 0) (hwp : ¬ HasSVAtMost (m * spacing10 : K) (1 - E * D)) :
    ∃ R, feedback (.state G) (.state H) negative = .ok R ∧ DynWith R T (n + n') (D * (1 - (if negative then -1 else 1 : K) • (E * D))⁻¹) := by
  rw [h.fb_eq h']
  have hdet : (1 - E * D).det ≠ 0 := det_ne_zero_of_not_sv hwp
  have hval : D + (fbSign negative : K) • D * ((1 - E * D)⁻¹ * (E * D)) = D * (1 - (if negative then -1 else 1 : K) • (E * D))⁻¹ := by
    cases negative
    · have h1 : (1 - E * D)⁻¹ * (1 - E * D) = 1 := Matrix.nonsing_inv_mul _ (isUnit_iff_ne_zero.mpr hdet)
      have h2 : (1 - E * D)⁻¹ * (E * D) = (1 - E * D)⁻¹ - 1 := by
        rw [Matrix.mul_sub, Matrix.mul_one] at h1
        exact eq_sub_of_add_eq' (sub_eq_iff_eq_add.mp h1).symm
      simp only [fbSign, Bool.false_eq_true, if_false, one_smul]
      rw [h2, Matrix.mul_sub, Matrix.mul_one]
      abel
    · simp [hn rfl]
  rw [← hval]
  obtain ⟨A, B, C, rfl⟩ := h
  obtain ⟨A', B', C', rfl⟩ := h'
  rw [closeLoop_of _ _ D E rfl rfl hwp, closeBody_dd hT _ _ _ _ _ _ _ _ _ _ hdet]
  exact ⟨_, rfl, _, _, _, rfl⟩

theorem valueInf_unique : ∀ {p m : ℕ} (e : SExpr K p m) {D E : Matrix (Fin p) (Fin m) K}, ValueInf e D → ValueInf e E → D = E := by
  intro p m e
  induction e with
  | model G => intro D E h h'; exact Arr.of_inj.mp (h.symm.trans h')
  | neg e ih | scale k e ih | shift e k ih | inv e ih =>
    rintro D E ⟨D', h1, rfl⟩ ⟨E', h2, rfl⟩
    rw [ih h1 h2]
  | add e f ih ih' | sub e f ih ih' | mul e f ih ih' | loop negative e f ih ih' =>
    rintro D E ⟨D', F', h1, h2, rfl⟩ ⟨E', H', h3, h4, rfl⟩
    rw [ih h1 h3, ih' h2 h4]

/-- What the induction over formulas carries. -/
def Good (fuel : ℕ) (T : Option K) {p m : ℕ} (e : SExpr K p m) : Prop :=
  ∃ D, ValueInf e D ∧ ((Regular e → ∃ R, e.eval fuel = .ok R ∧ DynWith R T (totalStates e) D) ∧ (¬ Regular e → ∃ err, e.eval fuel = .error err))

theorem good_unary {fuel : ℕ} {T T' : Option K} {p m p' m' : ℕ} {e : SExpr K p m} {f : SExpr K p' m'} (op : StateM K → Res (StateM K)) (g : Matrix (Fin p) (Fin m) K → Matrix (Fin p') (Fin m') K)
    (he : f.eval fuel = (e.eval fuel).bind op) (hr : Regular f ↔ Regular e) (hs : totalStates f = totalStates e)
    (ha : ∀ D, ValueInf e D → ValueInf f (g D)) (hop : ∀ G D, DynWith G T (totalStates e) D → ∃ R, op G = .ok R ∧ DynWith R T' (totalStates e) (g D))
    (h : Good fuel T e) : Good fuel T' f := by
  obtain ⟨D, hD, h1, h2⟩ := h
  refine ⟨g D, ha D hD, fun h => ?_, fun h => ?_⟩
  · obtain ⟨G, hG, hd⟩ := h1 (hr.mp h)
    obtain ⟨R, hR, hd'⟩ := hop G D hd
    exact ⟨R, by rw [he, hG]; exact hR, by rw [hs]; exact hd'⟩
  · obtain ⟨err, h3⟩ := h2 (fun h' => h (hr.mpr h'))
    exact ⟨err, by rw [he, h3]; rfl⟩

theorem good_binary {fuel : ℕ} {T T' : Option K} {p m p' m' p'' m'' : ℕ} {e : SExpr K p m} {f : SExpr K p' m'} {c : SExpr K p'' m''} (op : StateM K → StateM K → Res (StateM K))
    (g : Matrix (Fin p) (Fin m) K → Matrix (Fin p') (Fin m') K → Matrix (Fin p'') (Fin m'') K)
    (he : c.eval fuel = (e.eval fuel).bind fun G => (f.eval fuel).bind (op G)) (hr : Regular c ↔ Regular e ∧ Regular f)
    (hs : totalStates c = totalStates e + totalStates f)
    (ha : ∀ D E, ValueInf e D → ValueInf f E → ValueInf c (g D E))
    (hop : ∀ G H D E, DynWith G T (totalStates e) D → DynWith H T (totalStates f) E → ∃ R, op G H = .ok R ∧ DynWith R T' (totalStates e + totalStates f) (g D E))
    (h : Good fuel T e) (h' : Good fuel T f) : Good fuel T' c := by
  obtain ⟨D, hD, h1, h2⟩ := h
  obtain ⟨E, hE, h3, h4⟩ := h'
  refine ⟨g D E, ha D E hD hE, fun h => ?_, fun h => ?_⟩
  · obtain ⟨G, hG, hd⟩ := h1 (hr.mp h).1
    obtain ⟨H, hH, hd'⟩ := h3 (hr.mp h).2
    obtain ⟨R, hR, hd'⟩ := hop G H D E hd hd'
    exact ⟨R, by rw [he, hG, hH]; exact hR, by rw [hs]; exact hd'⟩
  · by_cases hre : Regular e
    · obtain ⟨G, hG, hd⟩ := h1 hre
      obtain ⟨err, h5⟩ := h4 (fun h' => h (hr.mpr ⟨hre, h'⟩))
      exact ⟨err, by rw [he, hG, h5]; rfl⟩
    · obtain ⟨err, h5⟩ := h2 hre
      exact ⟨err, by rw [he, h5]; rfl⟩

theorem good_aux (fuel : ℕ) {T : Option K} (hT : DtOk T) : ∀ {p m : ℕ} (e : SExpr K p m),
    AllModels (fun p m G => Consistent G p m ∧ G.isgain = false ∧ G.dt = T) e → NonzeroFactors e → NoDirectLoop fuel e → (T = none ∨ NoSum e) → Good fuel T e := by
  intro p m e
  induction e with
  | model G =>
    intro ⟨h1, h2, h3⟩ _ _ _
    obtain ⟨D, hD⟩ := Arr.exists_of h1.1.1 h1.1.2
    refine ⟨D, hD, fun _ => ⟨G, rfl, ?_⟩, fun h => absurd trivial h⟩
    rw [← h3]
    exact dynWith_of_consistent h1 h2 hD
  | neg e ih =>
    intro h1 h2 h3 h4
    exact good_unary StateM.neg (fun D => -D) rfl Iff.rfl rfl (fun D hD => ⟨D, hD, rfl⟩) (fun G D h => h.neg hT) (ih h1 h2 h3 h4)
  | scale k e ih =>
    intro h1 h2 h3 h4
    exact good_unary (StateM.rmulGain (.scalar k)) (fun D => k • D) rfl Iff.rfl rfl (fun D hD => ⟨D, hD, rfl⟩) (fun G D h => h.scale hT h2.1) (ih h1 h2.2 h3 h4)
  | shift e k ih =>
    intro h1 h2 h3 h4
    exact good_unary (fun G => G.addGain (fuel + 3) (.scalar k)) (fun D => Matrix.of fun i j => D i j + k) rfl Iff.rfl rfl (fun D hD => ⟨D, hD, rfl⟩)
      (fun G D h => h.shift hT k (fuel + 2)) (ih h1 h2 h3 h4)
  | add e f ih ih' =>
    intro h1 h2 h3 h4
    rcases h4 with rfl | h4
    · exact good_binary (StateM.add (fuel + 3)) (fun D E => D + E) rfl Iff.rfl rfl (fun D E hD hE => ⟨D, E, hD, hE, rfl⟩) (fun G H D E h h' => h.add h' (fuel + 2))
        (ih h1.1 h2.1 h3.1 (.inl rfl)) (ih' h1.2 h2.2 h3.2 (.inl rfl))
    · exact h4.elim
  | sub e f ih ih' =>
    intro h1 h2 h3 h4
    rcases h4 with rfl | h4
    · refine good_binary (StateM.sub (fuel + 3)) (fun D E => D - E) rfl Iff.rfl rfl (fun D E hD hE => ⟨D, E, hD, hE, rfl⟩) (fun G H D E h h' => ?_)
        (ih h1.1 h2.1 h3.1 (.inl rfl)) (ih' h1.2 h2.2 h3.2 (.inl rfl))
      obtain ⟨H', e1, h5⟩ := h'.neg hT
      obtain ⟨R, e2, h6⟩ := h.add h5 (fuel + 2)
      exact ⟨R, by simp only [StateM.sub, e1, e2, bind, Except.bind], by rw [sub_eq_add_neg]; exact h6⟩
    · exact h4.elim
  | mul e f ih ih' =>
    intro h1 h2 h3 h4
    exact good_binary (StateM.matmul (fuel + 3)) (fun D E => D * E) rfl Iff.rfl rfl (fun D E hD hE => ⟨D, E, hD, hE, rfl⟩) (fun G H D E h h' => h.mul h' hT (fuel + 2))
      (ih h1.1 h2.1 h3.1 (h4.imp_right And.left)) (ih' h1.2 h2.2 h3.2 (h4.imp_right And.right))
  | inv e ih =>
    intro h1 h2 h3 h4
    obtain ⟨D, hD, h5, h6⟩ := ih h1 h2 h3 h4
    refine ⟨D⁻¹, ⟨D, hD, rfl⟩, fun h => ?_, fun h => ?_⟩
    · obtain ⟨G, hG, hd⟩ := h5 h.1
      obtain ⟨R, hR, hd'⟩ := hd.inv hT (h.2 D hD)
      exact ⟨R, by simp only [SExpr.eval, hG, bind, Except.bind, hR], hd'⟩
    · by_cases hr : Regular e
      · obtain ⟨G, hG, hd⟩ := h5 hr
        have hsv : HasSVBelow spacing1 D := by
          by_contra hc
          exact h ⟨hr, fun E hE => by rw [valueInf_unique e hE hD]; exact hc⟩
        exact ⟨_, by simp only [SExpr.eval, hG, bind, Except.bind]; exact hd.inv_ill hsv⟩
      · obtain ⟨err, h7⟩ := h6 hr
        exact ⟨err, by simp only [SExpr.eval, h7, bind, Except.bind]⟩
  | @loop p m negative e f ih ih' =>
    intro h1 h2 h3 h4
    obtain ⟨D, hD, h5, h6⟩ := ih h1.1 h2.1 h3.1 (h4.imp_right And.left)
    obtain ⟨E, hE, h7, h8⟩ := ih' h1.2 h2.2 h3.2.1 (h4.imp_right And.right)
    refine ⟨_, ⟨D, E, hD, hE, rfl⟩, fun h => ?_, fun h => ?_⟩
    · obtain ⟨G, hG, hd⟩ := h5 h.1
      obtain ⟨H, hH, hd'⟩ := h7 h.2.1
      have hn : negative = true → E * D = 0 := fun hneg => h3.2.2 hneg G H D E hG hH (by obtain ⟨A, B, C, rfl⟩ := hd; rfl) (by obtain ⟨A, B, C, rfl⟩ := hd'; rfl)
      obtain ⟨R, hR, hd''⟩ := hd.loop hd' hT negative hn (h.2.2 D E hD hE)
      exact ⟨R, by simp only [SExpr.eval, hG, hH, bind, Except.bind, hR], hd''⟩
    · by_cases hr : Regular e
      swap
      · obtain ⟨err, h9⟩ := h6 hr
        exact ⟨err, by simp only [SExpr.eval, h9, bind, Except.bind]⟩
      obtain ⟨G, hG, hd⟩ := h5 hr
      by_cases hr' : Regular f
      swap
      · obtain ⟨err, h9⟩ := h8 hr'
        exact ⟨err, by simp only [SExpr.eval, hG, h9, bind, Except.bind]⟩
      obtain ⟨H, hH, hd'⟩ := h7 hr'
      have hwp : HasSVAtMost (m * spacing10 : K) (1 - E * D) := by
        by_contra hc
        exact h ⟨hr, hr', fun D' E' hD' hE' => by rw [valueInf_unique e hD' hD, valueInf_unique f hE' hE]; exact hc⟩
      refine ⟨.value, ?_⟩
      simp only [SExpr.eval, hG, hH, bind, Except.bind]
      rw [hd.fb_eq hd']
      exact closeLoop_ill G H D E (by obtain ⟨A, B, C, rfl⟩ := hd; rfl) (by obtain ⟨A, B, C, rfl⟩ := hd'; rfl) hwp negative

/-- **C88**, when the evaluation returns: a formula over dynamic continuous-time models with nonzero scalar factors returns a model exactly if no inverse and no loop in it is numerically singular at `s = ∞`. The model that is returned is dynamic, is continuous-time again, has as many states as the given models together, and takes the value of the formula at `s = ∞`. For discrete-time models the same holds for formulas without sums (`C88_discrete_violated`). -/
theorem C88_returns_partial (fuel : ℕ) {T : Option K} (hT : DtOk T) (e : SExpr K p m)
    (hm : AllModels (fun p m G => Consistent G p m ∧ G.isgain = false ∧ G.dt = T) e) (hk : NonzeroFactors e) (hn : NoDirectLoop fuel e) (hd : T = none ∨ NoSum e) :
    ((∃ R, e.eval fuel = .ok R) ↔ Regular e) ∧
    ∀ R, e.eval fuel = .ok R → Consistent R p m ∧ R.isgain = false ∧ R.dt = T ∧ R.a.r = totalStates e ∧ ∃ D, ValueInf e D ∧ R.d = Arr.of D := by
  obtain ⟨D, hD, h1, h2⟩ := good_aux fuel hT e hm hk hn hd
  have hiff : (∃ R, e.eval fuel = .ok R) ↔ Regular e := by
    constructor
    · rintro ⟨R, hR⟩
      by_contra hc
      obtain ⟨err, h3⟩ := h2 hc
      rw [hR] at h3
      cases h3
    · intro hr
      obtain ⟨R, hR, -⟩ := h1 hr
      exact ⟨R, hR⟩
  refine ⟨hiff, fun R hR => ?_⟩
  obtain ⟨R', hR', hd'⟩ := h1 (hiff.mp ⟨R, hR⟩)
  obtain rfl : R' = R := by rw [hR'] at hR; cases hR; rfl
  refine ⟨hd'.consistent, ?_⟩
  obtain ⟨A, B, C, rfl⟩ := hd'
  exact ⟨rfl, rfl, rfl, D, hD, rfl⟩

/-! ## A formula that meets the hypotheses -/

/-- `feedback((G + G) @ (1 / (G + 1)), G)` for `G = 1/(s + 1)`. -/
def sampleExpr : SExpr ℚ 1 1 := .loop true (.mul (.add (.model lag) (.model lag)) (.inv (.shift (.model lag) 1))) (.model lag)

theorem lag_consistent : Consistent lag 1 1 ∧ lag.isgain = false ∧ lag.dt = none := ⟨⟨⟨rfl, rfl⟩, fun _ => ⟨rfl, rfl, rfl, rfl, rfl⟩⟩, rfl, rfl⟩

theorem sample_noDirect (fuel : ℕ) : NoDirectLoop fuel sampleExpr := by
  refine ⟨⟨⟨trivial, trivial⟩, trivial⟩, trivial, fun _ G H D N _ hH _ hN => ?_⟩
  cases hH
  obtain rfl : N = !![0] := (Arr.of_inj.mp (show Arr.of !![0] = Arr.of N from hN)).symm
  ext i j
  fin_cases i; fin_cases j
  simp [Matrix.mul_apply]

theorem sample_regular : Regular sampleExpr := by
  refine ⟨⟨⟨trivial, trivial⟩, trivial, ?_⟩, trivial, ?_⟩
  · rintro E ⟨D, hD, rfl⟩
    obtain rfl : D = !![0] := (Arr.of_inj.mp (show Arr.of !![0] = Arr.of D from hD)).symm
    rintro ⟨x, hx, h⟩
    simp [Matrix.mulVec, dotProduct] at h
    nlinarith [mul_self_nonneg (x 0)]
  · rintro E F - hF
    obtain rfl : F = !![0] := (Arr.of_inj.mp (show Arr.of !![0] = Arr.of F from hF)).symm
    have : (1 - (!![0] : Matrix (Fin 1) (Fin 1) ℚ) * E) = !![1] := by
      ext i j
      fin_cases i; fin_cases j
      simp [Matrix.vecMul, dotProduct]
    rw [this]
    exact not_sv_scalar (by norm_num)

/-- The hypotheses of `C88_returns_partial` and `C88_value_partial` hold for the formula, so it returns a model with four states, with the value `1/2` at `s = 1`. -/
example (fuel : ℕ) : ∃ R, sampleExpr.eval fuel = .ok R ∧ R.a.r = 4 ∧ HasTF R 1 1 (1 : ℚ) !![1 / 2] := by
  have hm : AllModels (fun p m G => Consistent G p m ∧ G.isgain = false ∧ G.dt = none) sampleExpr :=
    ⟨⟨⟨lag_consistent, lag_consistent⟩, lag_consistent⟩, lag_consistent⟩
  obtain ⟨h1, h2⟩ := C88_returns_partial fuel dtOk_none sampleExpr hm ⟨⟨⟨trivial, trivial⟩, trivial⟩, trivial⟩ (sample_noDirect fuel) (.inl rfl)
  obtain ⟨R, hR⟩ := h1.mpr sample_regular
  refine ⟨R, hR, (h2 R hR).2.2.2.1, C88_value_partial fuel sampleExpr ⟨⟨⟨dtOk_none, dtOk_none⟩, dtOk_none⟩, dtOk_none⟩ (sample_noDirect fuel) ?_ hR⟩
  refine ⟨!![2 / 3], !![1 / 2], ⟨!![1], !![2 / 3], ⟨!![1 / 2], !![1 / 2], lag_hasTF, lag_hasTF, ?_⟩, ⟨!![3 / 2], ⟨!![1 / 2], lag_hasTF, ?_⟩, ?_, ?_⟩, ?_⟩, lag_hasTF, ?_, ?_⟩
  · ext i j; fin_cases i; fin_cases j; simp; norm_num
  · ext i j; fin_cases i; fin_cases j; simp; norm_num
  · simp
  · ext i j; fin_cases i; fin_cases j; simp [Matrix.inv_def, adjugate_fin_one, Ring.inverse_eq_inv']
  · ext i j; fin_cases i; fin_cases j; simp
  · simp; norm_num
  · have e : (1 - (if true then -1 else 1 : ℚ) • ((!![1 / 2] : Matrix (Fin 1) (Fin 1) ℚ) * !![2 / 3])) = !![4 / 3] := by
      ext i j; fin_cases i; fin_cases j; simp; norm_num
    rw [e]
    ext i j; fin_cases i; fin_cases j; simp [Matrix.inv_def, adjugate_fin_one, Ring.inverse_eq_inv']; norm_num

/-- **C88** fails for discrete-time models: with `G = State(-1, 1, 1, 0, dt=0.1)` the formula `(G + G) @ G` raises `ValueError`, because the sum forgets the sampling period (`C16_sum_drops_dt_violated`). -/
theorem C88_discrete_violated (fuel : ℕ) :
    (SExpr.mul (q := 1) (.add (.model lagDt) (.model lagDt)) (.model lagDt) : SExpr ℚ 1 1).eval fuel = .error .value := by
  obtain ⟨R, h1, h2, h3⟩ := C16_sum_drops_dt_violated (t := 1 / 10) lagDt_hasTF lagDt_hasTF rfl rfl (by norm_num) rfl rfl (fuel + 1)
  simp only [SExpr.eval, bind, Except.bind, h1]
  exact (C16_mismatch_rejected h3 (fuel + 2)).2

end Harold
