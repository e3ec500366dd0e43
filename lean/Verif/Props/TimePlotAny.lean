import Verif.Spec.TimePlotAny
import Verif.Props.TimePlot
import Verif.Props.SimTransfer
import Verif.Props.Hess

/-!
# C78: the time domain plots of `Transfer` models
-/

namespace Harold

open Harold.Spec Filter

variable {P : Type} {E : TNum ℝ} {Nm : Numerics ℝ P} {B : DNum}

theorem sysCurves_eq (S : StateM ℝ) (yout : SimOut) (t : List ℝ) (sty : Option ℕ) : sysCurves S yout t sty = modelCurves S.isSISO S.dt.isSome yout t sty := rfl

/-- Two models that a plot does not tell apart. -/
structure SameInPlot (r : PlotModel P → Res (SimOut × List ℝ)) (r' : StateObj ℝ P → Res (SimOut × List ℝ)) (x : PlotModel P) (S : StateObj ℝ P) : Prop where
  resp : ∀ q, r x = .ok q ↔ r' S = .ok q
  shape : x.shape = (S.g.p, S.g.m)
  siso : x.isSISO = S.g.isSISO
  disc : x.isDiscrete = S.g.dt.isSome

theorem modelLoop_iff {r : PlotModel P → Res (SimOut × List ℝ)} {r' : StateObj ℝ P → Res (SimOut × List ℝ)} {R C : ℕ} :
    ∀ {l : List (PlotModel P × Option ℕ)} {l' : List (StateObj ℝ P × Option ℕ)}, List.Forall₂ (fun x S => SameInPlot r r' x.1 S.1 ∧ x.2 = S.2) l l' →
      ∀ (lim : Option ℝ) q, modelLoop r R C l lim = .ok q ↔ timeLoop r' R C l' lim = .ok q := by
  intro l l' h
  induction h with
  | nil => exact fun lim q => Iff.rfl
  | @cons x S l l' hx _ ih =>
    intro lim q
    obtain ⟨x, sty⟩ := x
    obtain ⟨S, sty'⟩ := S
    obtain ⟨hx, h2⟩ := hx
    dsimp only at hx h2
    subst h2
    have key : ∀ v, r x = .ok v → r' S = .ok v → (modelLoop r R C ((x, sty) :: l) lim = .ok q ↔ timeLoop r' R C ((S, sty) :: l') lim = .ok q) := by
      rintro ⟨yout, t⟩ h3 h4
      simp only [modelLoop, timeLoop, h3, h4, Bind.bind, Except.bind, sysCurves_eq, hx.siso, hx.disc]
      cases t.getLast? with
      | none => exact Iff.rfl
      | some tl =>
        dsimp only
        cases (modelCurves S.g.isSISO S.g.dt.isSome yout t sty).mapM (drawTime R C) with
        | error e => exact Iff.rfl
        | ok cs =>
          dsimp only
          cases h5 : modelLoop r R C l (some (lim.elim tl fun x => min tl x)) with
          | ok v => rw [(ih _ v).mp h5]
          | error e =>
            cases h6 : timeLoop r' R C l' (some (lim.elim tl fun x => min tl x)) with
            | ok v =>
              rw [(ih _ v).mpr h6] at h5
              cases h5
            | error e' => simp
    cases h3 : r x with
    | ok v => exact key v h3 ((hx.resp v).mp h3)
    | error e =>
      cases h4 : r' S with
      | ok v => exact key v ((hx.resp v).mpr h4) h4
      | error e' => simp [modelLoop, timeLoop, h3, h4, Bind.bind, Except.bind]

theorem modelPlot_iff {r : PlotModel P → Res (SimOut × List ℝ)} {r' : StateObj ℝ P → Res (SimOut × List ℝ)} {sys : List (PlotModel P)} {sys' : List (StateObj ℝ P)}
    {l : List (PlotModel P × Option ℕ)} {l' : List (StateObj ℝ P × Option ℕ)} (h : List.Forall₂ (SameInPlot r r') sys sys')
    (hl : List.Forall₂ (fun x S => SameInPlot r r' x.1 S.1 ∧ x.2 = S.2) l l') (q : List TimeCurve × ℝ) :
    modelPlot r sys l = .ok q ↔ timePlot r' sys' l' = .ok q := by
  have hs : modelShape sys = maxShape sys' := by
    unfold modelShape maxShape
    have h0 : sys = [] ↔ sys' = [] := by
      rw [← List.length_eq_zero_iff, ← List.length_eq_zero_iff, h.length_eq]
    have h1 : (sys.map fun S => S.shape.1) = sys'.map fun S => S.g.p := by
      clear hl h0
      induction h with
      | nil => rfl
      | cons hx _ ih => rw [List.map_cons, List.map_cons, ih, hx.shape]
    have h2 : (sys.map fun S => S.shape.2) = sys'.map fun S => S.g.m := by
      clear hl h0 h1
      induction h with
      | nil => rfl
      | cons hx _ ih => rw [List.map_cons, List.map_cons, ih, hx.shape]
    rw [h1, h2]
    by_cases h3 : sys = []
    · rw [if_pos h3, if_pos (h0.mp h3)]
    · rw [if_neg h3, if_neg (fun h4 => h3 (h0.mpr h4))]
  unfold modelPlot timePlot
  rw [hs]
  cases maxShape sys' with
  | error e => exact Iff.rfl
  | ok v =>
    simp only [Bind.bind, Except.bind]
    cases h5 : modelLoop r v.1 v.2 l none with
    | ok w =>
      rw [(modelLoop_iff hl _ w).mp h5]
      exact Iff.rfl
    | error e =>
      cases h6 : timeLoop r' v.1 v.2 l' none with
      | ok w =>
        rw [(modelLoop_iff hl _ w).mpr h6] at h5
        cases h5
      | error e' => simp

theorem forall₂_zip {α β γ : Type} {R : α → β → Prop} {l : List α} {l' : List β} (h : List.Forall₂ R l l') : ∀ s : List γ,
    List.Forall₂ (fun x y => R x.1 y.1 ∧ x.2 = y.2) (l.zip s) (l'.zip s) := by
  induction h with
  | nil => exact fun s => by simp
  | cons hx _ ih =>
    intro s
    cases s with
    | nil => simp
    | cons a s => exact List.Forall₂.cons ⟨hx, rfl⟩ (ih s)

theorem forall₂_pair {α β γ : Type} {R : α → β → Prop} {l : List α} {l' : List β} (h : List.Forall₂ R l l') (c : γ) :
    List.Forall₂ (fun x y => R x.1 y.1 ∧ x.2 = y.2) (l.map fun x => (x, c)) (l'.map fun x => (x, c)) := by
  induction h with
  | nil => exact List.Forall₂.nil
  | cons hx _ ih => exact List.Forall₂.cons ⟨hx, rfl⟩ ih

/-- A `Transfer` model in normal form (what the constructor returns, C10). -/
def PlotNormal : PlotModel P → Prop
  | .state _ => True
  | .transfer G => ∃ A D, Normal G G.p G.m A D

/-- The conversion of a `Transfer` model meets no nonzero coefficients below the thresholds. -/
def PlotClear (τl τr : ℝ) : PlotModel P → Prop
  | .state _ => True
  | .transfer G => ClearModel τl τr G

theorem sameInPlot {auto : StateObj ℝ P → ℝ × ℝ} {t : List ℝ} (hbal : ∀ polys i, E.bal polys i ≠ 0) (hthr : E.lcmTol ≤ 1) (hE : BalanceOk B)
    {x : PlotModel P} (htol : PlotClear E.lcmTol E.remTol x) {S : StateObj ℝ P} (hx : PlotNormal x) (hS : StandsFor S x) :
    SameInPlot (stepOf E Nm B auto (some t)) (fun S => stepResponse Nm B S (auto S) (some t)) x S ∧
    SameInPlot (impulseOf E Nm B auto (some t)) (fun S => impulseResponse Nm B S (auto S) (some t)) x S := by
  cases x with
  | state S' =>
    obtain rfl : S = S' := hS
    exact ⟨⟨fun q => Iff.rfl, rfl, rfl, rfl⟩, ⟨fun q => Iff.rfl, rfl, rfl, rfl⟩⟩
  | transfer G =>
    obtain ⟨A, D, hG⟩ := hx
    obtain ⟨h1, h2, h3⟩ := hS
    have hp : S.g.p = G.p := h1.1.1
    have hm : S.g.m = G.m := h1.1.2
    have hshape : (PlotModel.transfer G : PlotModel P).shape = (S.g.p, S.g.m) := by rw [hp, hm]; rfl
    have hsiso : (PlotModel.transfer G : PlotModel P).isSISO = S.g.isSISO := by
      have hp' : S.g.d.r = G.num.r := hp
      have hm' : S.g.d.c = G.num.c := hm
      unfold PlotModel.isSISO TransferM.isSISO StateM.isSISO
      rw [hp', hm']
    have hdisc : (PlotModel.transfer G : PlotModel P).isDiscrete = S.g.dt.isSome := by rw [h2]; rfl
    exact ⟨⟨fun q => (C84_responses_partial hbal hthr htol hE hG h1 h2 h3).1, hshape, hsiso, hdisc⟩,
      ⟨fun q => (C84_responses_partial hbal hthr htol hE hG h1 h2 h3).2, hshape, hsiso, hdisc⟩⟩

/-- **C78** for lists with `Transfer` models and a given time array: both plots show what they show for `State` models with the same values and sampling periods in the same
order (to which `C78_step_partial` and `C78_impulse_partial` apply). Missing from the full claim: rounded coefficients (`PlotClear` fails,
`C27_rounding_violated`), and the automatic time grid, which depends on the realization. -/
theorem C78_transfer_partial {auto : StateObj ℝ P → ℝ × ℝ} {t : List ℝ} {styles : ℕ} (hbal : ∀ polys i, E.bal polys i ≠ 0) (hthr : E.lcmTol ≤ 1) (hE : BalanceOk B)
    {sys : List (PlotModel P)} {sys' : List (StateObj ℝ P)} (hcl : ∀ x ∈ sys, PlotClear E.lcmTol E.remTol x) (hn : ∀ x ∈ sys, PlotNormal x) (hs : List.Forall₂ (fun x S => StandsFor S x) sys sys') (q : List TimeCurve × ℝ) :
    (stepPlotAny E Nm B auto sys (some t) styles = .ok q ↔ stepPlot Nm B auto sys' (some t) styles = .ok q) ∧
    (impulsePlotAny E Nm B auto sys (some t) styles = .ok q ↔ impulsePlot Nm B auto sys' (some t) styles = .ok q) := by
  have h : List.Forall₂ (fun x S => SameInPlot (stepOf E Nm B auto (some t)) (fun S => stepResponse Nm B S (auto S) (some t)) x S ∧
      SameInPlot (impulseOf E Nm B auto (some t)) (fun S => impulseResponse Nm B S (auto S) (some t)) x S) sys sys' := by
    clear q
    induction hs with
    | nil => exact List.Forall₂.nil
    | cons hx _ ih => exact List.Forall₂.cons (sameInPlot hbal hthr hE (hcl _ (by simp)) (hn _ (by simp)) hx) (ih (fun x hx => hcl x (by simp [hx])) fun x hx => hn x (by simp [hx]))
  have h1 := h.imp fun _ _ h => h.1
  have h2 := h.imp fun _ _ h => h.2
  exact ⟨modelPlot_iff h1 (forall₂_zip h1 _) q, modelPlot_iff h2 (forall₂_pair h2 none) q⟩

/-- **C78**: lists of `State` models only are drawn as described by `C78_step_partial` and `C78_impulse_partial`, for given and automatic time grids. -/
theorem C78_states {auto : StateObj ℝ P → ℝ × ℝ} {t : Option (List ℝ)} {styles : ℕ} (sys : List (StateObj ℝ P)) (q : List TimeCurve × ℝ) :
    (stepPlotAny E Nm B auto (sys.map .state) t styles = .ok q ↔ stepPlot Nm B auto sys t styles = .ok q) ∧
    (impulsePlotAny E Nm B auto (sys.map .state) t styles = .ok q ↔ impulsePlot Nm B auto sys t styles = .ok q) := by
  have h : ∀ (r : PlotModel P → Res (SimOut × List ℝ)) (r' : StateObj ℝ P → Res (SimOut × List ℝ)), (∀ S, r (.state S) = r' S) → List.Forall₂ (SameInPlot r r') (sys.map .state) sys := by
    intro r r' hr
    rw [List.forall₂_map_left_iff, List.forall₂_same]
    exact fun S _ => ⟨fun q => by rw [hr], rfl, rfl, rfl⟩
  exact ⟨modelPlot_iff (h _ _ fun _ => rfl) (forall₂_zip (h _ _ fun _ => rfl) _) q, modelPlot_iff (h _ _ fun _ => rfl) (forall₂_pair (h _ _ fun _ => rfl) none) q⟩

/-- Every model in normal form is represented by some `State` model: the hypotheses of `C78_transfer_partial` can be met for every list of such models. -/
theorem standsFor_exists :
    ∀ {sys : List (PlotModel P)}, (∀ x ∈ sys, PlotNormal x) → ∃ sys' : List (StateObj ℝ P), List.Forall₂ (fun x S => StandsFor S x) sys sys' := by
  intro sys
  induction sys with
  | nil => exact fun _ => ⟨[], List.Forall₂.nil⟩
  | cons x sys ih =>
    intro h
    obtain ⟨sys', h1⟩ := ih fun x hx => h x (by simp [hx])
    have hx := h x (by simp)
    cases x with
    | state S => exact ⟨S :: sys', List.Forall₂.cons rfl h1⟩
    | transfer G =>
      obtain ⟨A, D, hG⟩ := hx
      obtain ⟨T, H, e1, e2, -, -, e5, -, e7⟩ := t2s_parts (E := ⟨fun _ _ => 1, 0, 0⟩) (fun _ _ => one_ne_zero) zero_le_one (clearModel_nonpos le_rfl le_rfl _) hG
      refine ⟨StateObj.plain T :: sys', List.Forall₂.cons ⟨e5, e2, Eventually.of_forall fun s M M' hM hM' => ?_⟩ h1⟩
      exact HasTF_unique (e7 s M hM) hM'

-- A list with a `Transfer` and a `State` model.
example (S : StateObj ℝ P) : ∃ sys' : List (StateObj ℝ P), List.Forall₂ (fun x S => StandsFor S x) [.transfer lagDisc, .state S] sys' := by
  refine standsFor_exists fun x hx => ?_
  simp only [List.mem_cons, List.not_mem_nil, or_false] at hx
  rcases hx with rfl | rfl
  · exact ⟨_, _, lagDisc_normal⟩
  · trivial

end Harold
