import Verif.Spec.DiscExpr
import Verif.Spec.DiscTransfer
import Verif.Props.Expr
import Verif.Props.Discrete

/-!
# C111: discretization by substitution commutes with formulas over models
-/

namespace Harold

open Matrix Spec

variable {L : Type} [Field L] [Algebra ℝ L] {s z : L} {dt : ℝ} {method : String} {r : Rule} {p m : ℕ}

/-- The three substitutions for the record of a model. -/
theorem disc_value (hm : method ∈ r.names) (hr : r.Related dt s z) {G S : StateM ℝ} (h : DiscOf method dt G S) {M : Matrix (Fin p) (Fin m) L} (hG : HasTF G p m s M) :
    HasTF S p m z M ∧ S.dt = some dt ∧ 0 < dt := by
  obtain ⟨P, N, E, o, o', q, rfl, h1, rfl⟩ := h
  have hpos := (discretize_pre h1).2.2
  cases r with
  | tustin =>
    obtain ⟨h2, h3⟩ := C32_tustin (by simpa [Rule.names] using hm) h1 hG hr.1 hr.2
    exact ⟨h2, h3, hpos⟩
  | forward =>
    obtain ⟨h2, h3⟩ := C32_forward (by simp [Rule.names, forwardNames] at hm ⊢; tauto) h1 hG hr
    exact ⟨h2, h3, hpos⟩
  | backward =>
    obtain ⟨h2, h3⟩ := C32_backward (by simp [Rule.names, backwardNames] at hm ⊢; tauto) h1 hG hr.1 hr.2
    exact ⟨h2, h3, hpos⟩

theorem value_replaced (hm : method ∈ r.names) (hr : r.Related dt s z) {e e' : SExpr ℝ p m} (h : Replaced (DiscOf method dt) e e') :
    ∀ M : Matrix (Fin p) (Fin m) L, Value s e M → Value z e' M := by
  induction h with
  | model h => exact fun M hM => (disc_value hm hr h hM).1
  | neg _ ih => exact fun M ⟨E, h1, h2⟩ => ⟨E, ih E h1, h2⟩
  | add _ _ ih ih' => exact fun M ⟨E, F, h1, h2, h3⟩ => ⟨E, F, ih E h1, ih' F h2, h3⟩
  | sub _ _ ih ih' => exact fun M ⟨E, F, h1, h2, h3⟩ => ⟨E, F, ih E h1, ih' F h2, h3⟩
  | mul _ _ ih ih' => exact fun M ⟨E, F, h1, h2, h3⟩ => ⟨E, F, ih E h1, ih' F h2, h3⟩
  | scale k _ ih => exact fun M ⟨E, h1, h2⟩ => ⟨E, ih E h1, h2⟩
  | shift k _ ih => exact fun M ⟨E, h1, h2⟩ => ⟨E, ih E h1, h2⟩
  | inv _ ih => exact fun M ⟨E, h1, h2, h3⟩ => ⟨E, ih E h1, h2, h3⟩
  | loop negative _ _ ih ih' => exact fun M ⟨E, F, h1, h2, h3, h4⟩ => ⟨E, F, ih E h1, ih' F h2, h3, h4⟩

/-- **C111**: discretizing the result of a formula over continuous `State` models by tustin, forward or backward differences and evaluating the formula over the discretized models
give models with the same transfer matrix: that of the formula at the point `s` that belongs to `z`. `_partial`: no direct feedthrough around negative loops
(`C30_negative_violated`). -/
theorem C111_commutes_partial (fuel : ℕ) (hm : method ∈ r.names) (hr : r.Related dt s z) {e e' : SExpr ℝ p m} (h : Replaced (DiscOf method dt) e e') {R Rd R' : StateM ℝ}
    (hdt : AllModels (fun _ _ G => DtOk G.dt) e) (hdt' : AllModels (fun _ _ G => DtOk G.dt) e') (hn : NoDirectLoop fuel e) (hn' : NoDirectLoop fuel e')
    (hR : e.eval fuel = .ok R) (hd : DiscOf method dt R Rd) (hR' : e'.eval fuel = .ok R') {M : Matrix (Fin p) (Fin m) L} (hv : Value s e M) :
    HasTF Rd p m z M ∧ HasTF R' p m z M :=
  ⟨(disc_value hm hr hd (C88_value_partial fuel e hdt hn hv hR)).1, C88_value_partial fuel e' hdt' hn' (value_replaced hm hr h M hv) hR'⟩

/-- Forward differences are defined for every continuous model with states. -/
theorem forward_ok {G : StateM ℝ} (hG : Consistent G p m) (hg : G.isgain = false) (hc : G.dt = none) (hdt : 0 < dt) (E : DNum) :
    ∃ S, DiscOf "forward euler" dt G S ∧ Consistent S p m ∧ S.isgain = false ∧ S.dt = some dt := by
  rcases consistent_cases hG with ⟨a, b, c, D, t, rfl⟩ | ⟨n, A, B, C, D, t, rfl⟩
  · cases hg
  · cases hc
    obtain ⟨S, h1, h2, -⟩ := (discretize_lft_ok (N := ⟨fun _ => [], fun _ _ _ _ => [], fun _ => true, fun _ => true⟩) (E := E) (P := Unit)
      (G := ⟨⟨Arr.of A, Arr.of B, Arr.of C, Arr.of D, none, false⟩, (p, m), none, none, 0, [], [], true⟩) (dt := dt) (method := "forward euler") (pw := 0) (q := none)
      (x := 1) (y := √dt) (z := √dt) (w := 0) (by simp [discretizeArgs, tustinNames, forwardNames]) (fun h0 _ => by simp [tustinNames] at h0) rfl (by simp [knownMethods])).2
      (by simp) hdt
    refine ⟨_, ⟨Unit, _, E, _, S, none, rfl, h1, h2⟩, ⟨⟨rfl, rfl⟩, fun _ => ⟨rfl, rfl, rfl, rfl, rfl⟩⟩, rfl, rfl⟩

/-- `G @ G` and its discretization with `G = 1/(s+1)`, at `z = 1`. -/
example (fuel : ℕ) (E : DNum) : ∃ (S R Rd R' : StateM ℝ), DiscOf "forward euler" 1 (lagObj ℂ).g S ∧
    (SExpr.mul (q := 1) (.model (lagObj ℂ).g) (.model (lagObj ℂ).g) : SExpr ℝ 1 1).eval fuel = .ok R ∧ DiscOf "forward euler" 1 R Rd ∧
    (SExpr.mul (q := 1) (.model S) (.model S) : SExpr ℝ 1 1).eval fuel = .ok R' ∧ HasTF Rd 1 1 (1 : ℝ) (!![1] * !![1]) ∧ HasTF R' 1 1 (1 : ℝ) (!![1] * !![1]) := by
  have hl : Consistent (lagObj ℂ).g 1 1 := ⟨⟨rfl, rfl⟩, fun _ => ⟨rfl, rfl, rfl, rfl, rfl⟩⟩
  obtain ⟨S, h1, h2, h3, h4⟩ := forward_ok (dt := 1) hl rfl rfl one_pos E
  obtain ⟨i1, i2⟩ := C88_returns_partial fuel dtOk_none (SExpr.mul (q := 1) (.model (lagObj ℂ).g) (.model (lagObj ℂ).g) : SExpr ℝ 1 1) ⟨⟨hl, rfl, rfl⟩, hl, rfl, rfl⟩
    ⟨trivial, trivial⟩ ⟨trivial, trivial⟩ (.inl rfl)
  obtain ⟨R, hR⟩ := i1.mpr ⟨trivial, trivial⟩
  obtain ⟨c1, c2, c3, -⟩ := i2 R hR
  obtain ⟨Rd, h5, -⟩ := forward_ok (dt := 1) c1 c2 c3 one_pos E
  have hT : DtOk (some (1 : ℝ)) := fun t ht => by cases ht; exact one_pos
  obtain ⟨j1, -⟩ := C88_returns_partial fuel hT (SExpr.mul (q := 1) (.model S) (.model S) : SExpr ℝ 1 1) ⟨⟨h2, h3, h4⟩, h2, h3, h4⟩
    ⟨trivial, trivial⟩ ⟨trivial, trivial⟩ (.inr ⟨trivial, trivial⟩)
  obtain ⟨R', hR'⟩ := j1.mpr ⟨trivial, trivial⟩
  have hS : DtOk S.dt := by rw [h4]; exact hT
  have hv : HasTF (lagObj ℂ).g 1 1 (0 : ℝ) !![1] := by simpa using lagObj_hasTF (P := ℂ) 0 (by norm_num)
  refine ⟨S, R, Rd, R', h1, hR, h5, hR', ?_⟩
  exact C111_commutes_partial (p := 1) (m := 1) fuel (r := .forward) (e := .mul (q := 1) (.model (lagObj ℂ).g) (.model (lagObj ℂ).g)) (e' := .mul (q := 1) (.model S) (.model S)) (s := (0 : ℝ)) (by simp [Rule.names]) (by simp [Rule.Related]) (.mul (.model h1) (.model h1)) ⟨dtOk_none, dtOk_none⟩ ⟨hS, hS⟩
    ⟨trivial, trivial⟩ ⟨trivial, trivial⟩ hR h5 hR' ⟨_, _, hv, hv, rfl⟩

end Harold
