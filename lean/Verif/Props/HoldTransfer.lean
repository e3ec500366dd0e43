import Verif.Lemmas.HoldTransfer

/-!
# C82, C83: `undiscretize` with the hold methods, when it returns and what it returns for `Transfer` models
-/

namespace Harold

open Matrix Harold.Spec NormedSpace Filter Polynomial

variable {E : TNum ℝ} {N : Numerics ℝ ℂ} {B : DNum} {dt pw : ℝ} {name : String} {q : Option (Arr ℝ)} {n n' m p : ℕ}

/-! ## `State` models -/

/-- **C83**: `undiscretize(S, method='zoh' | 'foh')` returns exactly when the test for poles near the origin passes and no pole of `S` is on the closed
negative real axis; otherwise it raises `ValueError`. -/
theorem C83_returns {X : Type} {N : Numerics ℝ X} {S : StateObj ℝ X} (hE : BalanceOk B) (hL : LogmOk B) (hS : Consistent S.g p m)
    (hg : S.g.isgain = false) (hd : S.g.dt = some dt) (hdt : 0 < dt) (hn : name = "zoh" ∨ name = "foh") :
    ((∃ R, undiscretize N B S (some name) pw q = .ok R) ↔
      B.nearZero S.g.a = false ∧ ∃ (n : ℕ) (A : Matrix (Fin n) (Fin n) ℝ), S.g.a = Arr.of A ∧ ∀ x : ℝ, x ≤ 0 → ¬ IsEig A (x : ℂ)) ∧
    ((¬ ∃ R, undiscretize N B S (some name) pw q = .ok R) → undiscretize N B S (some name) pw q = .error .value) := by
  obtain ⟨a, b, c, D, dt', hS'⟩ | ⟨n, A, B₁, C, D, dt', hS'⟩ := consistent_cases hS
  · rw [hS'] at hg; cases hg
  rw [hS'] at hd
  simp only at hd
  subst hd
  have hoff : OffNegAxis A ↔ ∀ x : ℝ, x ≤ 0 → ¬ IsEig A (x : ℂ) := by
    constructor
    · intro h x hx he
      have := Complex.mem_slitPlane_iff.mp (h _ he)
      simp at this
      linarith
    · intro h z hz
      rw [Complex.mem_slitPlane_iff]
      by_contra hc
      push Not at hc
      have e : z = (z.re : ℂ) := by apply Complex.ext <;> simp [hc.2]
      exact h z.re hc.1 (by rwa [← e])
  obtain ⟨h1, h2, h3, h4⟩ := undiscArgs_hold (E := B) (A := A) (B := B₁) (C := C) (D := D) (pw := pw) (q := q) hE hL hn hdt
  have he : ∀ {e : Err}, undiscretizeArgs B ⟨Arr.of A, Arr.of B₁, Arr.of C, Arr.of D, some dt, false⟩ dt name pw q = .error e →
      undiscretize N B S (some name) pw q = .error e := by
    intro e he
    rw [undisc_hold (dt := dt) hn rfl (by rw [hS']) hg, hS', he]
    rfl
  have hok : B.nearZero (Arr.of A) = false → OffNegAxis A → ∃ R, undiscretize N B S (some name) pw q = .ok R := by
    intro hz hA
    obtain ⟨r, hr⟩ := h2 hz hA
    obtain ⟨A', B', D', rfl, -⟩ := h4 r hr
    obtain ⟨R, e1, -⟩ := init_of (N := N) (dt' := none) dtOk_none A' B' C D'
    exact ⟨R, by rw [undisc_hold (dt := dt) hn rfl (by rw [hS']) hg, hS', hr]; exact e1⟩
  have hfail : B.nearZero (Arr.of A) = true ∨ ¬ OffNegAxis A → undiscretize N B S (some name) pw q = .error .value := by
    rintro (h | h)
    · exact he (h1 h)
    · exact he (h3 h)
  refine ⟨⟨fun ⟨R, hR⟩ => ?_, fun ⟨hz, k, A', hA', hx⟩ => ?_⟩, fun hno => hfail ?_⟩
  · by_contra hc
    rw [hS'] at hc
    have : B.nearZero (Arr.of A) = true ∨ ¬ OffNegAxis A := by
      by_contra h
      push Not at h
      exact hc ⟨by simpa using h.1, n, A, rfl, hoff.mp h.2⟩
    rw [hfail this] at hR
    cases hR
  · rw [hS'] at hz hA'
    obtain rfl : n = k := congrArg Arr.r hA'
    obtain rfl := Arr.of_inj.mp hA'
    exact hok hz (hoff.mpr hx)
  · by_contra h
    push Not at h
    exact hno (hok (by simpa using h.1) h.2)

/-- A model with transfer function `(A, B, C, D)`. -/
theorem hasTF_of_dyn {T : StateM ℝ} {A : Matrix (Fin n) (Fin n) ℝ} {B₁ : Matrix (Fin n) (Fin m) ℝ} {C : Matrix (Fin p) (Fin n) ℝ}
    {D : Matrix (Fin p) (Fin m) ℝ} {d : Option ℝ} (hT : T = ⟨Arr.of A, Arr.of B₁, Arr.of C, Arr.of D, d, false⟩) {s : ℝ} {M : Matrix (Fin p) (Fin m) ℝ} :
    HasTF T p m s M ↔ (s • (1 : Matrix (Fin n) (Fin n) ℝ) - A).det ≠ 0 ∧ M = tfReal A B₁ C D s := by
  constructor
  · intro h
    exact isTF_real.mp (hasTF_dyn hT h)
  · intro h
    rw [hT]
    exact HasTF.of_dyn (isTF_real.mpr h)

/-- **C83**: what `undiscretize` with a hold method returns depends on the transfer function only: if two `State` models with sampling period `dt` have
the same transfer function, so have the results. -/
theorem C83_same_tf {X : Type} {N : Numerics ℝ X} {S S' R R' : StateObj ℝ X} (hE : BalanceOk B) (hL : LogmOk B) (hS : Consistent S.g p m)
    (hS' : Consistent S'.g p m) (hd : S.g.dt = some dt) (hd' : S'.g.dt = some dt) (hdt : 0 < dt) (hn : name = "zoh" ∨ name = "foh")
    (h : undiscretize N B S (some name) pw q = .ok R) (h' : undiscretize N B S' (some name) pw q = .ok R') (htf : SameTF S.g S'.g p m) :
    SameTF R.g R'.g p m := by
  have key : ∀ {S R : StateObj ℝ X}, Consistent S.g p m → S.g.dt = some dt → undiscretize N B S (some name) pw q = .ok R →
      ∃ (n : ℕ) (A : Matrix (Fin n) (Fin n) ℝ) (B₁ : Matrix (Fin n) (Fin m) ℝ) (C : Matrix (Fin p) (Fin n) ℝ) (D : Matrix (Fin p) (Fin m) ℝ)
        (A' : Matrix (Fin n) (Fin n) ℝ) (B' : Matrix (Fin n) (Fin m) ℝ) (D' : Matrix (Fin p) (Fin m) ℝ),
        S.g = ⟨Arr.of A, Arr.of B₁, Arr.of C, Arr.of D, some dt, false⟩ ∧ R.g = ⟨Arr.of A', Arr.of B', Arr.of C, Arr.of D', none, false⟩ ∧
        ImBelow (Real.pi / dt) A' ∧ HoldOf name dt A' B' C D' A B₁ D := by
    intro S R hS hd h
    obtain ⟨t, -, hg⟩ := undisc_pre h
    obtain ⟨a, b, c, D, dt', hS'⟩ | ⟨n, A, B₁, C, D, dt', hS'⟩ := consistent_cases hS
    · rw [hS'] at hg; cases hg
    rw [hS'] at hd
    simp only at hd
    subst hd
    rw [undisc_hold (dt := dt) hn rfl (by rw [hS']) hg, hS'] at h
    obtain ⟨r, h1, h2⟩ := bind_ok h
    obtain ⟨-, -, -, h4⟩ := undiscArgs_hold (E := B) (A := A) (B := B₁) (C := C) (D := D) (pw := pw) (q := q) hE hL hn hdt
    obtain ⟨A', B', D', rfl, h5, h6⟩ := h4 r h1
    obtain ⟨R', e1, e2⟩ := init_of (N := N) (dt' := none) dtOk_none A' B' C D'
    simp only at h2
    rw [e1] at h2
    cases h2
    exact ⟨n, A, B₁, C, D, A', B', D', hS', e2, h5, h6⟩
  obtain ⟨n, A, B₁, C, D, A1, B1, D1, e1, e2, e3, e4⟩ := key hS hd h
  obtain ⟨n', A', B₁', C', D', A1', B1', D1', e1', e2', e3', e4'⟩ := key hS' hd' h'
  have hm : ∀ k, markov A B₁ C D k = markov A' B₁' C' D' k := fun k => markov_of_tf k (by
    filter_upwards [htf, eventually_det A, eventually_det A'] with s h1 h2 h3
    exact h1 _ _ ((hasTF_of_dyn e1).mpr ⟨h2, rfl⟩) ((hasTF_of_dyn e1').mpr ⟨h3, rfl⟩))
  have hm' := e4.markov_inj e4' hdt e3 e3' hm
  refine Eventually.of_forall fun s M M' hM hM' => ?_
  obtain ⟨h1, rfl⟩ := (hasTF_of_dyn e2).mp hM
  obtain ⟨h2, rfl⟩ := (hasTF_of_dyn e2').mp hM'
  exact tf_of_markov hm' h1 h2

/-! ## Realizations of `Transfer` models -/

/-- `(A, B, C, D)` has the values of `G` at all large real arguments. -/
def TfRealizes (G : TransferM ℝ) (A : Matrix (Fin n) (Fin n) ℝ) (B₁ : Matrix (Fin n) (Fin m) ℝ) (C : Matrix (Fin p) (Fin n) ℝ)
    (D : Matrix (Fin p) (Fin m) ℝ) : Prop := ∀ᶠ s : ℝ in atTop, HasVal G p m s (tfReal A B₁ C D s)

theorem hasVal_unique {K L : Type} [Field K] [Field L] [Algebra K L] {G : TransferM K} {s : L} {M M' : Matrix (Fin p) (Fin m) L} (h : HasVal G p m s M) (h' : HasVal G p m s M') : M = M' := by
  obtain ⟨num, den, h1, h2, h3⟩ := h
  obtain ⟨num', den', h1', h2', h3'⟩ := h'
  obtain rfl := Arr.of_inj.mp (h1.symm.trans h1')
  obtain rfl := Arr.of_inj.mp (h2.symm.trans h2')
  ext i j
  rw [(h3 i j).2, (h3' i j).2]

section
variable {G F : TransferM ℝ} {P Q P' Q' : Matrix (Fin p) (Fin m) (List ℝ)}
  {A : Matrix (Fin n) (Fin n) ℝ} {B₁ : Matrix (Fin n) (Fin m) ℝ} {C₁ : Matrix (Fin p) (Fin n) ℝ} {D : Matrix (Fin p) (Fin m) ℝ}
  {A' : Matrix (Fin n') (Fin n') ℝ} {B' : Matrix (Fin n') (Fin m) ℝ} {C' : Matrix (Fin p) (Fin n') ℝ} {D' : Matrix (Fin p) (Fin m) ℝ}

theorem TfRealizes.markov_eq (h : TfRealizes G A B₁ C₁ D) (h' : TfRealizes G A' B' C' D') (k : ℕ) : markov A B₁ C₁ D k = markov A' B' C' D' k :=
  markov_of_tf k (by filter_upwards [h, h'] with s h1 h2; exact hasVal_unique h1 h2)

theorem tfRealizes_of_isTF (h : ∀ (s : ℝ) (M : Matrix (Fin p) (Fin m) ℝ),
    IsTF (A.map (algebraMap ℝ ℝ)) (B₁.map (algebraMap ℝ ℝ)) (C₁.map (algebraMap ℝ ℝ)) (D.map (algebraMap ℝ ℝ)) s M → HasVal G p m s M) : TfRealizes G A B₁ C₁ D := by
  filter_upwards [eventually_det A] with s hs
  exact h s _ (isTF_real.mpr ⟨hs, rfl⟩)

theorem tfRealizes_of_hasVal (hG : Normal G p m P Q) (h : ∀ (s : ℝ) (M : Matrix (Fin p) (Fin m) ℝ), HasVal G p m s M →
    IsTF (A.map (algebraMap ℝ ℝ)) (B₁.map (algebraMap ℝ ℝ)) (C₁.map (algebraMap ℝ ℝ)) (D.map (algebraMap ℝ ℝ)) s M) : TfRealizes G A B₁ C₁ D := by
  filter_upwards [eventually_hasVal hG] with s hs
  rw [← (isTF_real.mp (h s _ hs.2)).2]
  exact hs.2

theorem hasVal_iff {L : Type} [Field L] [Algebra ℝ L] (hG : Normal G p m P Q) {s : L} {M : Matrix (Fin p) (Fin m) L} :
    HasVal G p m s M ↔ ∀ i j, polyAt s (Q i j) ≠ 0 ∧ M i j = polyAt s (P i j) / polyAt s (Q i j) := by
  constructor
  · rintro ⟨num, den, h1, h2, h3⟩
    obtain rfl := Arr.of_inj.mp (hG.num.symm.trans h1)
    obtain rfl := Arr.of_inj.mp (hG.den.symm.trans h2)
    exact h3
  · intro h
    exact ⟨P, Q, hG.num, hG.den, h⟩

theorem sameValues_of_eventually (hG : Normal G p m P Q) (hF : Normal F p m P' Q')
    (h : ∀ᶠ s : ℝ in atTop, ∃ M : Matrix (Fin p) (Fin m) ℝ, HasVal G p m s M ∧ HasVal F p m s M) : SameValues G F p m := by
  have key : ∀ i j, toPoly (P i j) * toPoly (Q' i j) = toPoly (P' i j) * toPoly (Q i j) := by
    intro i j
    by_contra hne
    obtain ⟨s, hs, M, h1, h2⟩ := ((Polynomial.eventually_no_roots _ (sub_ne_zero.mpr hne)).and h).exists
    rw [hasVal_iff hG] at h1
    rw [hasVal_iff hF] at h2
    obtain ⟨a1, a2⟩ := h1 i j
    obtain ⟨b1, b2⟩ := h2 i j
    rw [a2, div_eq_div_iff a1 b1] at b2
    apply hs
    simp only [polyAt_real] at b2
    rw [IsRoot.def, eval_sub, eval_mul, eval_mul, b2, sub_self]
  intro L _ _ s M M' h1 h2
  rw [hasVal_iff hG] at h1
  rw [hasVal_iff hF] at h2
  ext i j
  obtain ⟨a1, a2⟩ := h1 i j
  obtain ⟨b1, b2⟩ := h2 i j
  rw [a2, b2, div_eq_div_iff a1 b1]
  have := congrArg (aeval s) (key i j)
  simpa [polyAt] using this

theorem TfRealizes.sameValues (hG : Normal G p m P Q) (hF : Normal F p m P' Q') (h : TfRealizes G A B₁ C₁ D) (h' : TfRealizes F A' B' C' D')
    (hm : ∀ k, markov A B₁ C₁ D k = markov A' B' C' D' k) : SameValues G F p m := by
  refine sameValues_of_eventually hG hF ?_
  filter_upwards [h, h', eventually_det A, eventually_det A'] with s h1 h2 h3 h4
  exact ⟨_, h1, by rwa [tf_of_markov hm h3 h4]⟩

theorem tfReal_zero (c : Matrix (Fin p) (Fin m) ℝ) (s : ℝ) : tfReal (0 : Matrix (Fin 0) (Fin 0) ℝ) (0 : Matrix (Fin 0) (Fin m) ℝ) (0 : Matrix (Fin p) (Fin 0) ℝ) c s = c := by
  simp [tfReal]

theorem allConstant_iff (hG : Normal G p m P Q) :
    AllConstant P Q ↔ ∃ c : Matrix (Fin p) (Fin m) ℝ, TfRealizes G (0 : Matrix (Fin 0) (Fin 0) ℝ) (0 : Matrix (Fin 0) (Fin m) ℝ) (0 : Matrix (Fin p) (Fin 0) ℝ) c := by
  constructor
  · intro h
    choose c hc using h
    refine ⟨Matrix.of c, ?_⟩
    filter_upwards [eventually_hasVal hG] with s hs
    rw [tfReal_zero, hasVal_iff hG]
    intro i j
    refine ⟨hs.1 i j, ?_⟩
    exact (hasVal_const hG hc hs.2 i j).symm
  · rintro ⟨c, hc⟩ i j
    refine ⟨c i j, ?_⟩
    by_contra hne
    obtain ⟨s, hs, h1⟩ := ((Polynomial.eventually_no_roots _ (sub_ne_zero.mpr hne)).and hc).exists
    rw [tfReal_zero, hasVal_iff hG] at h1
    obtain ⟨a1, a2⟩ := h1 i j
    rw [eq_div_iff a1] at a2
    apply hs
    simp only [polyAt_real] at a2
    rw [IsRoot.def, eval_sub, eval_mul, eval_C, a2, sub_self]

theorem TfRealizes.const (h : TfRealizes G A B₁ C₁ D) (hm : ∀ k, markov A B₁ C₁ D k = markov A' B' C' D' k) : TfRealizes G A' B' C' D' := by
  filter_upwards [h, eventually_det A, eventually_det A'] with s h1 h2 h3
  rwa [← tf_of_markov hm h2 h3]

theorem holdOf_zero (hn : name = "zoh" ∨ name = "foh") (c : Matrix (Fin p) (Fin m) ℝ) :
    ∃ Φ Γ, HoldOf name dt (0 : Matrix (Fin 0) (Fin 0) ℝ) (0 : Matrix (Fin 0) (Fin m) ℝ) (0 : Matrix (Fin p) (Fin 0) ℝ) c Φ Γ c := by
  rcases hn with rfl | rfl
  · exact ⟨_, _, rfl, .inl ⟨rfl, rfl, rfl⟩⟩
  · obtain ⟨g, hg1, -⟩ := gam_foh (dt • (0 : Matrix (Fin 0) (Fin 0) ℝ)) (dt • (0 : Matrix (Fin 0) (Fin m) ℝ))
    exact ⟨_, _, rfl, .inr ⟨rfl, g, hg1, rfl, by simp⟩⟩

theorem zero_subsingleton (Φ : Matrix (Fin 0) (Fin 0) ℝ) (Γ : Matrix (Fin 0) (Fin m) ℝ) (C : Matrix (Fin p) (Fin 0) ℝ) : Φ = 0 ∧ Γ = 0 ∧ C = 0 :=
  ⟨Subsingleton.elim _ _, Subsingleton.elim _ _, by ext i j; exact j.elim0⟩

/-- The conversions inside `undiscretize(G)`. -/
theorem undiscT_eq (hbal : ∀ polys i, E.bal polys i ≠ 0) (hthr : E.lcmTol ≤ 1) {G : TransferObj ℝ ℂ} (htol : ClearModel E.lcmTol E.remTol G.g) (hN : EigExact N) (hZ : ZerosExact N)
    (hG : Normal G.g p m P Q) (hc : G.g.dt = some dt) (hnc : ¬ AllConstant P Q) {mth : Option String}
    (hm : mth.getD (G.discWith.getD "tustin") = name) (hn : name = "zoh" ∨ name = "foh") :
    ∃ (n : ℕ) (A : Matrix (Fin n) (Fin n) ℝ) (B₁ : Matrix (Fin n) (Fin m) ℝ) (C : Matrix (Fin p) (Fin n) ℝ) (D : Matrix (Fin p) (Fin m) ℝ),
      transferToState E G.g = .ok ⟨Arr.of A, Arr.of B₁, Arr.of C, Arr.of D, some dt, false⟩ ∧
      (∀ {L : Type} [Field L] [Algebra ℝ L] (s : L) (M : Matrix (Fin p) (Fin m) L), HasVal G.g p m s M →
        IsTF (A.map (algebraMap ℝ L)) (B₁.map (algebraMap ℝ L)) (C.map (algebraMap ℝ L)) (D.map (algebraMap ℝ L)) s M) ∧
      undiscretizeTransfer E N B G mth pw q = ((undiscretizeArgs B ⟨Arr.of A, Arr.of B₁, Arr.of C, Arr.of D, some dt, false⟩ dt name pw q).bind fun r =>
        (mkState (some r.1) (some r.2.1) (some r.2.2.1) (some r.2.2.2) none).bind fun g => stateToTransfer E N g) := by
  obtain ⟨T, H, e1, e2, e3, e4, e5, e6, e7⟩ := t2s_parts (E := E) hbal hthr htol hG
  have hTg : T.isgain = false := by
    by_contra h
    exact hnc (e6 (by simpa using h))
  have hGg : G.g.isgain = false := by
    by_contra h
    exact hnc (allConstant_of_gain hG (by simpa using h))
  obtain ⟨a, b, c, D, dt', hT⟩ | ⟨n, A, B₁, C, D, dt', hT⟩ := consistent_cases e5
  · rw [hT] at hTg; cases hTg
  have hdt' : dt' = some dt := by rw [hT] at e2; exact e2.trans hc
  subst hdt'
  refine ⟨n, A, B₁, C, D, by rw [e1, hT], fun s M h => hasTF_dyn hT (e7 s M h), ?_⟩
  have hm' : undiscMethodT G mth = name := hm
  have hq : undiscQT G name q = .ok q := by rcases hn with rfl | rfl <;> simp [undiscQT]
  unfold undiscretizeTransfer
  rw [hc]
  simp only [hm', hq, Bind.bind, Except.bind, hGg, Bool.false_eq_true, if_false, e1, undiscArgsT, hTg, false_and, hT]

theorem s2t_dyn (hbal : ∀ polys i, E.bal polys i ≠ 0) (hthr : E.lcmTol ≤ 1) (hN : EigExact N) (hZ : ZerosExact N)
    (hp : 0 < p) (hm : 0 < m) (A : Matrix (Fin n) (Fin n) ℝ) (B₁ : Matrix (Fin n) (Fin m) ℝ) (C : Matrix (Fin p) (Fin n) ℝ) (D : Matrix (Fin p) (Fin m) ℝ) :
    ∃ F P' Q', (mkState (some (Arr.of A)) (some (Arr.of B₁)) (some (Arr.of C)) (some (Arr.of D)) none).bind (fun g => stateToTransfer E N g) = .ok F ∧
      Normal F p m P' Q' ∧ F.dt = none ∧
      ∀ {L : Type} [Field L] [Algebra ℝ L] (s : L) (M : Matrix (Fin p) (Fin m) L),
        IsTF (A.map (algebraMap ℝ L)) (B₁.map (algebraMap ℝ L)) (C.map (algebraMap ℝ L)) (D.map (algebraMap ℝ L)) s M → HasVal F p m s M := by
  obtain ⟨F, P', Q', f1, f2, f3, f4⟩ := stateToTransfer_dynamic (E := E) (N := N) hbal hthr hN hZ
    (G := ⟨Arr.of A, Arr.of B₁, Arr.of C, Arr.of D, none, false⟩) (p := p) (m := m) ⟨⟨rfl, rfl⟩, fun _ => ⟨rfl, rfl, rfl, rfl, rfl⟩⟩ rfl dtOk_none
    hp hm
  exact ⟨F, P', Q', by simp only [mkState_of dtOk_none, Except.bind, f1], f2, f3, fun s M h => (f4 s M (HasTF.of_dyn h)).1⟩

/-- Not an eigenvalue where the transfer function is defined. -/
theorem not_isEig_of_isTF {z : ℂ} {M : Matrix (Fin p) (Fin m) ℂ}
    (h : IsTF (A.map (algebraMap ℝ ℂ)) (B₁.map (algebraMap ℝ ℂ)) (C₁.map (algebraMap ℝ ℂ)) (D.map (algebraMap ℝ ℂ)) z M) : ¬ IsEig A z :=
  fun he => h.1 he

theorem exists_isTF {z : ℂ} (h : ¬ IsEig A z) : ∃ M : Matrix (Fin p) (Fin m) ℂ,
    IsTF (A.map (algebraMap ℝ ℂ)) (B₁.map (algebraMap ℝ ℂ)) (C₁.map (algebraMap ℝ ℂ)) (D.map (algebraMap ℝ ℂ)) z M :=
  ⟨_, h, rfl⟩

end

/-! ## `Transfer` models -/

variable {P Q : Matrix (Fin p) (Fin m) (List ℝ)}

/-- **C82**, `undiscretize` with a hold method returns for every discrete model that is not constant and has no pole on the closed negative real axis,
unless the test for poles near the origin refuses the realization of the model. Missing: poles on the negative real axis (there is no real logarithm, see C83), rounded coefficients (`ClearModel` fails). -/
theorem C82_undiscretize_hold_partial (hbal : ∀ polys i, E.bal polys i ≠ 0) (hthr : E.lcmTol ≤ 1) {G : TransferObj ℝ ℂ} (htol : ClearModel E.lcmTol E.remTol G.g) (hN : EigExact N)
    (hZ : ZerosExact N) (hB : BalanceOk B) (hL : LogmOk B) (hG : Normal G.g p m P Q) (hc : G.g.dt = some dt)
    (hnc : ¬ AllConstant P Q) {mth : Option String} (hm : mth.getD (G.discWith.getD "tustin") = name) (hn : name = "zoh" ∨ name = "foh")
    (hreg : ∀ x : ℝ, x ≤ 0 → ∃ M : Matrix (Fin p) (Fin m) ℝ, HasVal G.g p m x M)
    (hz : ∀ T, transferToState E G.g = .ok T → B.nearZero T.a = false) :
    ∃ R, undiscretizeTransfer E N B G mth pw q = .ok R := by
  have hdt : 0 < dt := hG.dt _ hc
  obtain ⟨n, A, B₁, C, D, e1, e2, e3⟩ := undiscT_eq (B := B) (pw := pw) (q := q) hbal hthr htol hN hZ hG hc hnc hm hn
  have hA : OffNegAxis A := by
    intro z hz
    rw [Complex.mem_slitPlane_iff]
    by_contra hcon
    push Not at hcon
    obtain ⟨M, hM⟩ := hreg z.re hcon.1
    obtain ⟨h1, -⟩ := isTF_real.mp (e2 z.re M hM)
    have e : z = (z.re : ℂ) := by apply Complex.ext <;> simp [hcon.2]
    rw [e] at hz
    apply h1
    unfold IsEig at hz
    have : ((z.re • (1 : Matrix (Fin n) (Fin n) ℝ) - A).map (algebraMap ℝ ℂ)).det = 0 := by
      rw [← hz, map_sub', map_smul']
      simp
    rw [← RingHom.mapMatrix_apply, ← RingHom.map_det] at this
    simpa using this
  obtain ⟨h1, h2, h3, h4⟩ := undiscArgs_hold (E := B) (A := A) (B := B₁) (C := C) (D := D) (pw := pw) (q := q) hB hL hn hdt
  obtain ⟨r, hr⟩ := h2 (hz _ e1) hA
  obtain ⟨A', B', D', rfl, -⟩ := h4 r hr
  obtain ⟨F, P', Q', f1, -⟩ := s2t_dyn (E := E) (N := N) hbal hthr hN hZ hG.pos.1 hG.pos.2 A' B' C D'
  rw [e3, hr]
  exact ⟨F, f1⟩

/-- **C82**, the values of `undiscretize` with a hold method: whenever it returns, the result `R` is continuous, is defined at every point beyond the
Nyquist frequency, and `discretize(R, dt, method)` returns a model with the values of `G`. Models with these two properties have the same values
(`C82_hold_roundtrip_partial`). `_partial`: exact arithmetic, no rounded coefficients (`ClearModel`), `G` is not constant. -/
theorem C82_undiscretize_hold_values_partial (hbal : ∀ polys i, E.bal polys i ≠ 0) (hthr : E.lcmTol ≤ 1) {G : TransferObj ℝ ℂ} (htol : ClearModel E.lcmTol E.remTol G.g) (hN : EigExact N)
    (hZ : ZerosExact N) (hB : BalanceOk B) (hL : LogmOk B) (hG : Normal G.g p m P Q) (hc : G.g.dt = some dt)
    (hnc : ¬ AllConstant P Q) {mth : Option String} (hm : mth.getD (G.discWith.getD "tustin") = name) (hn : name = "zoh" ∨ name = "foh")
    {R : TransferM ℝ} (h : undiscretizeTransfer E N B G mth pw q = .ok R) (hclr : ClearModel E.lcmTol E.remTol R) (pw' : ℝ) (q' : Option (Arr ℝ)) :
    R.dt = none ∧ (∃ P' Q', Normal R p m P' Q' ∧ ¬ AllConstant P' Q') ∧
      (∀ z : ℂ, Real.pi / dt ≤ |z.im| → ∃ M : Matrix (Fin p) (Fin m) ℂ, HasVal R p m z M) ∧
      ∃ F, discretizeTransfer E N B R dt name pw' q' = .ok F ∧ F.g.dt = some dt ∧ SameValues F.g G.g p m := by
  have hdt : 0 < dt := hG.dt _ hc
  obtain ⟨n, A, B₁, C, D, e1, e2, e3⟩ := undiscT_eq (B := B) (pw := pw) (q := q) hbal hthr htol hN hZ hG hc hnc hm hn
  obtain ⟨-, -, -, h4⟩ := undiscArgs_hold (E := B) (A := A) (B := B₁) (C := C) (D := D) (pw := pw) (q := q) hB hL hn hdt
  rw [e3] at h
  obtain ⟨r, hr, h⟩ := bind_ok h
  obtain ⟨A1, B1, D1, rfl, g1, g2⟩ := h4 r hr
  obtain ⟨R', P', Q', f1, f2, f3, f4⟩ := s2t_dyn (E := E) (N := N) hbal hthr hN hZ hG.pos.1 hG.pos.2 A1 B1 C D1
  have hRR : R' = R := Except.ok.inj (f1.symm.trans h)
  subst hRR
  have hreal : TfRealizes R' A1 B1 C D1 := tfRealizes_of_isTF fun s M => f4 s M
  have hrealG : TfRealizes G.g A B₁ C D := tfRealizes_of_hasVal hG fun s M => e2 s M
  have hnc' : ¬ AllConstant P' Q' := by
    intro hcon
    obtain ⟨c, hc'⟩ := (allConstant_iff f2).mp hcon
    obtain ⟨Φ, Γ, hz⟩ := holdOf_zero (dt := dt) hn c
    have hk := g2.markov_eq hz hdt.ne' (hreal.markov_eq hc')
    have h1 := hrealG.const hk
    rw [(zero_subsingleton Φ Γ (0 : Matrix (Fin p) (Fin 0) ℝ)).1, (zero_subsingleton Φ Γ (0 : Matrix (Fin p) (Fin 0) ℝ)).2.1] at h1
    exact hnc ((allConstant_iff hG).mpr ⟨c, h1⟩)
  refine ⟨f3, ⟨P', Q', f2, hnc'⟩, fun z hz => ?_, ?_⟩
  · have hne : ¬ IsEig A1 z := fun he => absurd (g1 z he) (not_lt.mpr hz)
    obtain ⟨M, hM⟩ := exists_isTF (A := A1) (B₁ := B1) (C₁ := C) (D := D1) hne
    exact ⟨M, f4 z M hM⟩
  · obtain ⟨T, -, k2, k3, k4, k5, k6⟩ := discretizeTransfer_of (E := E) (N := N) (B := B) hbal hthr hclr hN hZ f2 f3 hnc'
    obtain ⟨a, b, c, D', dt', hT'⟩ | ⟨n', A2, B2, C2, D2, dt', hT'⟩ := consistent_cases k2
    · rw [hT'] at k3; cases k3
    have hd : dt' = none := by rw [hT'] at k4; exact k4
    subst hd
    obtain ⟨S, Φ, Γ, F', s1, s2, s3, s4⟩ := discretize_holdOf (N := N) (G := bareState T) (E := B) (pw := pw') (q := q') hB hn hdt hT'
    obtain ⟨F, P2, Q2, l1, l2, l3, -, -, -, l4⟩ := k6 S s1 (by rw [s2]; exact ⟨⟨rfl, rfl⟩, fun _ => ⟨rfl, rfl, rfl, rfl, rfl⟩⟩) (by rw [s2])
      (fun h => by subst h; rcases hn with hn | hn <;> exact absurd hn (by decide))
    have hrealT : TfRealizes R' A2 B2 C2 D2 := tfRealizes_of_hasVal f2 fun s M h => hasTF_dyn hT' (k5 s M h)
    have hrealF : TfRealizes F.g Φ Γ C2 F' := tfRealizes_of_isTF fun s M h => l4 s M (by rw [s2]; exact HasTF.of_dyn h)
    exact ⟨F, l1, l3, hrealF.sameValues l2 hG hrealG (s4.markov_eq g2 hdt.ne' (hrealT.markov_eq hreal))⟩

/-- **C82**, round trip of the hold methods: if all poles of the continuous model `G` are below the Nyquist frequency, `discretize(G, dt, method)` returns,
and `undiscretize` of the result returns a model with the values of `G`, unless the test for poles near the origin refuses the realization of the
discretized model. `_partial`: exact arithmetic, no rounded coefficients (`ClearModel`), `G` is not constant. -/
theorem C82_hold_roundtrip_partial (hbal : ∀ polys i, E.bal polys i ≠ 0) (hthr : E.lcmTol ≤ 1) {G : TransferM ℝ} (htol : ClearModel E.lcmTol E.remTol G) (hN : EigExact N)
    (hZ : ZerosExact N) (hB : BalanceOk B) (hL : LogmOk B) (hG : Normal G p m P Q) (hc : G.dt = none)
    (hnc : ¬ AllConstant P Q) (hn : name = "zoh" ∨ name = "foh") (hdt : 0 < dt)
    (hny : ∀ z : ℂ, Real.pi / dt ≤ |z.im| → ∃ M : Matrix (Fin p) (Fin m) ℂ, HasVal G p m z M) :
    ∃ F, discretizeTransfer E N B G dt name pw q = .ok F ∧ F.g.dt = some dt ∧ F.discWith = some name ∧
      ((∀ T, transferToState E F.g = .ok T → B.nearZero T.a = false) → ClearModel E.lcmTol E.remTol F.g →
        ∀ pw' q', ∃ R, undiscretizeTransfer E N B F none pw' q' = .ok R ∧ R.dt = none ∧ SameValues R G p m) := by
  obtain ⟨T, -, k2, k3, k4, k5, k6⟩ := discretizeTransfer_of (E := E) (N := N) (B := B) hbal hthr htol hN hZ hG hc hnc
  obtain ⟨a, b, c, D', dt', hT'⟩ | ⟨n, A, B₁, C, D, dt', hT'⟩ := consistent_cases k2
  · rw [hT'] at k3; cases k3
  have hd : dt' = none := by rw [hT'] at k4; exact k4
  subst hd
  obtain ⟨S, Φ, Γ, F', s1, s2, s3, s4⟩ := discretize_holdOf (N := N) (G := bareState T) (E := B) (pw := pw) (q := q) hB hn hdt hT'
  obtain ⟨F, P', Q', l1, l2, l3, l5, -, -, l4⟩ := k6 S s1 (by rw [s2]; exact ⟨⟨rfl, rfl⟩, fun _ => ⟨rfl, rfl, rfl, rfl, rfl⟩⟩) (by rw [s2])
    (fun h => by subst h; rcases hn with hn | hn <;> exact absurd hn (by decide))
  refine ⟨F, l1, l3, l5, fun hz hclr pw' q' => ?_⟩
  have hAb : ImBelow (Real.pi / dt) A := by
    intro z hz
    by_contra hcon
    obtain ⟨M, hM⟩ := hny z (not_lt.mp hcon)
    exact not_isEig_of_isTF (hasTF_dyn hT' (k5 z M hM)) hz
  have hrealG : TfRealizes G A B₁ C D := tfRealizes_of_hasVal hG fun s M h => hasTF_dyn hT' (k5 s M h)
  have hFv : ∀ {L : Type} [Field L] [Algebra ℝ L] (s : L) (M : Matrix (Fin p) (Fin m) L),
      IsTF (Φ.map (algebraMap ℝ L)) (Γ.map (algebraMap ℝ L)) (C.map (algebraMap ℝ L)) (F'.map (algebraMap ℝ L)) s M → HasVal F.g p m s M :=
    fun s M h => l4 s M (by rw [s2]; exact HasTF.of_dyn h)
  have hrealF : TfRealizes F.g Φ Γ C F' := tfRealizes_of_isTF fun s M => hFv s M
  have hncF : ¬ AllConstant P' Q' := by
    intro hcon
    obtain ⟨c, hc'⟩ := (allConstant_iff l2).mp hcon
    obtain ⟨Φ0, Γ0, h0⟩ := holdOf_zero (dt := dt) hn c
    have hk := s4.markov_inj h0 hdt hAb (fun z hz => absurd hz (by unfold IsEig; simp)) (fun k => by
      rw [hrealF.markov_eq hc' k, (zero_subsingleton Φ0 Γ0 (0 : Matrix (Fin p) (Fin 0) ℝ)).1, (zero_subsingleton Φ0 Γ0 (0 : Matrix (Fin p) (Fin 0) ℝ)).2.1])
    exact hnc ((allConstant_iff hG).mpr ⟨c, hrealG.const hk⟩)
  obtain ⟨n', A', B', C', D', e1, e2, e3⟩ := undiscT_eq (B := B) (pw := pw') (q := q') (mth := none) hbal hthr hclr hN hZ l2 l3 hncF (by simp [l5]) hn
  have hΦ : OffNegAxis Φ := principalLog_iff.mp ⟨dt • A, s4.1.symm, (imBelow_smul hdt).mpr hAb⟩
  have hA' : OffNegAxis A' := by
    intro z hz
    by_contra hcon
    have hne : ¬ IsEig Φ z := fun he => hcon (hΦ z he)
    obtain ⟨M, hM⟩ := exists_isTF (A := Φ) (B₁ := Γ) (C₁ := C) (D := F') hne
    exact not_isEig_of_isTF (e2 z M (hFv z M hM)) hz
  obtain ⟨-, h2, -, h4⟩ := undiscArgs_hold (E := B) (A := A') (B := B') (C := C') (D := D') (pw := pw') (q := q') hB hL hn hdt
  obtain ⟨r, hr⟩ := h2 (hz _ e1) hA'
  obtain ⟨A1, B1, D1, rfl, g1, g2⟩ := h4 r hr
  obtain ⟨R, P2, Q2, f1, f2, f3, f4⟩ := s2t_dyn (E := E) (N := N) hbal hthr hN hZ hG.pos.1 hG.pos.2 A1 B1 C' D1
  refine ⟨R, by rw [e3, hr]; exact f1, f3, ?_⟩
  have hreal : TfRealizes R A1 B1 C' D1 := tfRealizes_of_isTF fun s M => f4 s M
  have hrealF' : TfRealizes F.g A' B' C' D' := tfRealizes_of_hasVal l2 fun s M => e2 s M
  exact hreal.sameValues f2 hG hrealG (g2.markov_inj s4 hdt g1 hAb (hrealF'.markov_eq hrealF))

/-! ## Non-vacuity -/

theorem nearZero_exact (M : Arr ℝ) : exactDNum.nearZero M = false := rfl

/-- The lag `1 / (s + 1)` meets the hypotheses of the round trip, with both methods and every sampling period. -/
example (hn : name = "zoh" ∨ name = "foh") (hdt : 0 < dt) : ∃ N F R,
    discretizeTransfer ⟨fun _ _ => 1, 0, 0⟩ N exactDNum lagTfR dt name 0 none = .ok F ∧
    undiscretizeTransfer ⟨fun _ _ => 1, 0, 0⟩ N exactDNum F none 0 none = .ok R ∧ SameValues R lagTfR 1 1 := by
  obtain ⟨N, hN, hZ⟩ := exists_exact_numerics
  obtain ⟨F, f1, -, -, f2⟩ := C82_hold_roundtrip_partial (E := ⟨fun _ _ => 1, 0, 0⟩) (N := N) (pw := 0) (q := none) (fun _ _ => one_ne_zero) zero_le_one (clearModel_nonpos le_rfl le_rfl _) hN hZ
    exactDNum_ok.1 exactDNum_ok.2 lagTfR_normal rfl lagTfR_nonconstant hn hdt (fun z hz => ⟨_, (hasVal_iff lagTfR_normal).mpr fun i j => ⟨fun hz1 => by
      have h1 : z + 1 = 0 := by simpa [polyAt, toPoly] using hz1
      have : z = -1 := by linear_combination h1
      rw [this] at hz
      simp only [Complex.neg_im, Complex.one_im, neg_zero, abs_zero] at hz
      exact absurd hz (not_le.mpr (div_pos Real.pi_pos hdt)), by exact Matrix.of_apply (f := fun i j => _) i j⟩⟩)
  obtain ⟨R, r1, -, r2⟩ := f2 (fun _ _ => rfl) (clearModel_nonpos le_rfl le_rfl _) 0 none
  exact ⟨N, F, R, f1, r1, r2⟩

/-- `1 / (z - 1/2)` with sampling period 1. -/
noncomputable def halfTf : TransferObj ℝ ℂ := TransferObj.plain ⟨constArr 1 1 [1], constArr 1 1 [1, -1/2], false, some 1⟩

theorem halfTf_normal : Normal halfTf.g 1 1 (Matrix.of fun _ _ => [1]) (Matrix.of fun _ _ => [1, -1/2]) :=
  normal_siso ⟨fun _ _ => 1, 0, 0⟩ (by simp) (Or.inr ⟨1, [], rfl, one_ne_zero⟩) (by simp) (fun t ht => by cases ht; exact one_pos)

/-- It meets the hypotheses of `C82_undiscretize_hold_partial` and therefore those of `C82_undiscretize_hold_values_partial`. -/
example (hn : name = "zoh" ∨ name = "foh") : ∃ N R, undiscretizeTransfer ⟨fun _ _ => 1, 0, 0⟩ N exactDNum halfTf (some name) 0 none = .ok R := by
  obtain ⟨N, hN, hZ⟩ := exists_exact_numerics
  obtain ⟨R, hR⟩ := C82_undiscretize_hold_partial (E := ⟨fun _ _ => 1, 0, 0⟩) (N := N) (pw := 0) (q := none) (dt := 1) (fun _ _ => one_ne_zero) zero_le_one (clearModel_nonpos le_rfl le_rfl _) hN hZ
    exactDNum_ok.1 exactDNum_ok.2 halfTf_normal rfl (by
      intro h
      obtain ⟨c, hc⟩ := h 0 0
      have h1 := congrArg (eval 0) hc
      have h2 := congrArg (eval 1) hc
      simp [toPoly] at h1 h2
      linarith) (mth := some name) rfl hn (fun x hx => ⟨_, (hasVal_iff halfTf_normal).mpr fun i j => ⟨fun h => by
        have h1 : x + -1/2 = 0 := by simpa [polyAt, toPoly] using h
        linarith, by exact Matrix.of_apply (f := fun i j => _) i j⟩⟩) (fun _ _ => rfl)
  exact ⟨N, R, hR⟩

/-- `1 / (z - 1/2)` as a `State` model meets the conditions of `C83_returns`, `1 / (z + 1/2)` does not. -/
example : (∀ x : ℝ, x ≤ 0 → ¬ IsEig (!![1/2] : Matrix (Fin 1) (Fin 1) ℝ) (x : ℂ)) ∧ ¬ ∀ x : ℝ, x ≤ 0 → ¬ IsEig (!![-1/2] : Matrix (Fin 1) (Fin 1) ℝ) (x : ℂ) := by
  have h : ∀ (a x : ℝ), IsEig (!![a] : Matrix (Fin 1) (Fin 1) ℝ) (x : ℂ) ↔ x = a := by
    intro a x
    unfold IsEig
    rw [det_fin_one]
    simp only [Matrix.sub_apply, Matrix.smul_apply, Matrix.one_apply_eq, smul_eq_mul, mul_one, Matrix.map_apply, of_apply, cons_val', cons_val_fin_one]
    rw [sub_eq_zero]
    exact Complex.ofReal_inj
  refine ⟨fun x hx hc => ?_, fun hc => ?_⟩
  · rw [h] at hc; linarith
  · exact hc (-1/2) (by norm_num) ((h _ _).mpr rfl)

end Harold
