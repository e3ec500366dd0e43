import Verif.Lemmas.FeedbackTransfer
import Verif.Props.Feedback
import Verif.Props.ToTransfer
import Verif.Props.TransferInv

/-!
# C81: `feedback` with operands of every class
-/

namespace Harold

open Matrix Spec Polynomial

variable {E : TNum ℝ} {N : Numerics ℝ ℂ} {p m : ℕ}

/-- One operand as a `State` model. -/
noncomputable def opState (E : TNum ℝ) (G : FbOp) (dt : Option ℝ) : Res (StateM ℝ) :=
  match G with
  | .state G => .ok G
  | .transfer G => transferToState E G
  | .gain g => gainState g dt

theorem opHas_gain {L : Type} [Field L] [Algebra ℝ L] {g : Gain ℝ} {s : L} {M : Matrix (Fin p) (Fin m) L} {D : Matrix (Fin p) (Fin m) ℝ}
    (h : OpHas (.gain g) p m s M D) : g.toArr = Arr.of D ∧ M = D.map (algebraMap ℝ L) := by
  cases g with
  | scalar k =>
    obtain ⟨rfl, rfl, rfl, h⟩ := h
    exact ⟨rfl, h⟩
  | vec v =>
    obtain ⟨rfl, rfl, rfl, h⟩ := h
    exact ⟨rfl, h⟩
  | arr x => exact h

theorem opState_ok (hbal : ∀ polys i, E.bal polys i ≠ 0) (hthr : E.lcmTol ≤ 1)
    {L : Type} [Field L] [Algebra ℝ L] {G : FbOp} (htol : OpClear E.lcmTol E.remTol G) {s : L} {M : Matrix (Fin p) (Fin m) L} {D : Matrix (Fin p) (Fin m) ℝ}
    (h : OpHas G p m s M D) {dt : Option ℝ} (hdt : DtOk dt) (hs : ∀ S, G = .state S → S.dt = dt) (ht : ∀ F, G = .transfer F → F.dt = dt) :
    ∃ S, opState E G dt = .ok S ∧ HasTF S p m s M ∧ S.d = Arr.of D ∧ S.dt = dt ∧ (S.isgain = true → OpStatic G) := by
  cases G with
  | state S => exact ⟨S, rfl, h.1, h.2.1, hs S rfl, fun h => h⟩
  | transfer F =>
    obtain ⟨A, B, h1, h2, h3⟩ := h
    obtain ⟨S, H, e1, e2, e3, e4, -, e5, e6⟩ := t2s_parts (E := E) hbal hthr htol h1
    obtain rfl := atInfinity_unique h3 e4
    exact ⟨S, e1, e6 s M h2, e3, e2.trans (ht F rfl), fun h => ⟨p, m, A, B, h1, e5 h⟩⟩
  | gain g =>
    obtain ⟨h1, rfl⟩ := opHas_gain h
    refine ⟨⟨Arr.empty, Arr.empty, Arr.empty, g.toArr, dt, true⟩, gainState_eq g hdt, ?_, h1, rfl, fun _ => trivial⟩
    rw [h1]
    exact HasTF.of_gain

/-- The operands are converted one by one. -/
theorem fbOperands_ok {G H : FbOp} {dt : Option ℝ} (hd : LoopDt G H dt) {g h : StateM ℝ} (hg : opState E G dt = .ok g)
    (hh : opState E H dt = .ok h) :
    ∃ conv, fbOperands E G H = .ok (g, h, conv) ∧ (conv = true ↔ WantsTransfer G H) := by
  obtain ⟨d1, d2, d3⟩ := hd
  cases G <;> cases H <;> simp only [opState] at hg hh
  case state.state A B =>
    obtain rfl := Except.ok.inj hg
    obtain rfl := Except.ok.inj hh
    have e : A.dt = B.dt := (d1 A (Or.inl rfl)).trans (d1 B (Or.inr rfl)).symm
    exact ⟨false, by simp [fbOperands, e], by simp [WantsTransfer]⟩
  case state.transfer A B =>
    obtain rfl := Except.ok.inj hg
    have e : A.dt = B.dt := (d1 A (Or.inl rfl)).trans (d2 B (Or.inr rfl)).symm
    exact ⟨false, by simp [fbOperands, e, hh, Bind.bind, Except.bind], by simp [WantsTransfer]⟩
  case state.gain A B =>
    obtain rfl := Except.ok.inj hg
    have e : A.dt = dt := d1 A (Or.inl rfl)
    exact ⟨false, by simp [fbOperands, e, hh, Bind.bind, Except.bind], by simp [WantsTransfer]⟩
  case transfer.state A B =>
    obtain rfl := Except.ok.inj hh
    have e : A.dt = B.dt := (d2 A (Or.inl rfl)).trans (d1 B (Or.inr rfl)).symm
    exact ⟨false, by simp [fbOperands, e, hg, Bind.bind, Except.bind], by simp [WantsTransfer]⟩
  case transfer.transfer A B =>
    have e : A.dt = B.dt := (d2 A (Or.inl rfl)).trans (d2 B (Or.inr rfl)).symm
    exact ⟨true, by simp [fbOperands, e, hg, hh, Bind.bind, Except.bind], by simp [WantsTransfer]⟩
  case transfer.gain A B =>
    have e : A.dt = dt := d2 A (Or.inl rfl)
    exact ⟨true, by simp [fbOperands, e, hg, hh, Bind.bind, Except.bind], by simp [WantsTransfer]⟩
  case gain.state A B =>
    obtain rfl := Except.ok.inj hh
    have e : B.dt = dt := d1 B (Or.inr rfl)
    exact ⟨false, by simp [fbOperands, e, hg, Bind.bind, Except.bind], by simp [WantsTransfer]⟩
  case gain.transfer A B =>
    have e : B.dt = dt := d2 B (Or.inr rfl)
    exact ⟨true, by simp [fbOperands, e, hg, hh, Bind.bind, Except.bind], by simp [WantsTransfer]⟩
  case gain.gain A B =>
    obtain rfl : dt = none := d3 ⟨A, B, rfl, rfl⟩
    exact ⟨false, by simp [fbOperands, hg, hh, Bind.bind, Except.bind], by simp [WantsTransfer]⟩

theorem loopDt_ok {L : Type} [Field L] [Algebra ℝ L] {G H : FbOp} {p' m' : ℕ} {s s' : L} {M : Matrix (Fin p) (Fin m) L}
    {M' : Matrix (Fin p') (Fin m') L} {D : Matrix (Fin p) (Fin m) ℝ} {D' : Matrix (Fin p') (Fin m') ℝ}
    (hG : OpHas G p m s M D) (hH : OpHas H p' m' s' M' D') {dt : Option ℝ} (hd : LoopDt G H dt) : DtOk dt := by
  obtain ⟨d1, d2, d3⟩ := hd
  cases G with
  | state A => rw [← d1 A (Or.inl rfl)]; exact hG.2.2
  | transfer A =>
    obtain ⟨_, _, h, -⟩ := hG
    rw [← d2 A (Or.inl rfl)]
    exact h.dt
  | gain g =>
    cases H with
    | state A => rw [← d1 A (Or.inr rfl)]; exact hH.2.2
    | transfer A =>
      obtain ⟨_, _, h, -⟩ := hH
      rw [← d2 A (Or.inr rfl)]
      exact h.dt
    | gain h => rw [d3 ⟨g, h, rfl, rfl⟩]; exact dtOk_none

theorem wantsTransfer_pos {L : Type} [Field L] [Algebra ℝ L] {G H : FbOp} {s s' : L} {M : Matrix (Fin p) (Fin m) L}
    {M' : Matrix (Fin m) (Fin p) L} {D : Matrix (Fin p) (Fin m) ℝ} {D' : Matrix (Fin m) (Fin p) ℝ}
    (hG : OpHas G p m s M D) (hH : OpHas H m p s' M' D') (hw : WantsTransfer G H) : 0 < p ∧ 0 < m := by
  rcases hw.1 with ⟨F, rfl⟩ | ⟨F, rfl⟩
  · obtain ⟨_, _, h, -⟩ := hG
    exact h.pos
  · obtain ⟨_, _, h, -⟩ := hH
    exact h.pos.symm

/-- Lines 49-129 with operands of matching shapes. -/
theorem feedbackAny_of {G H : FbOp} {g h : StateM ℝ} {conv : Bool} (e : fbOperands E G H = .ok (g, h, conv)) (h1 : g.p = h.m) (h2 : g.m = h.p)
    (neg : Bool) : feedbackAny E N G H neg = (closeLoop g h neg).bind (fbResult E N conv) := by
  unfold feedbackAny
  simp only [e, Bind.bind, Except.bind, h1, h2, ne_eq, not_true_eq_false, or_self, if_false]

theorem closeLoop_gain {g h R : StateM ℝ} {neg : Bool} (hR : closeLoop g h neg = .ok R) (hc : Consistent g p m) (hc' : Consistent h m p)
    (hdt : DtOk g.dt) (hg : R.isgain = true) : g.isgain = true ∧ h.isgain = true := by
  obtain ⟨D, hD⟩ := Arr.exists_of hc.1.1 hc.1.2
  obtain ⟨D', hD'⟩ := Arr.exists_of hc'.1.1 hc'.1.2
  by_cases hwp : HasSVAtMost (m * spacing10 : ℝ) (1 - D' * D)
  · rw [closeLoop_ill g h D D' hD hD' hwp] at hR
    cases hR
  have hΔ := det_ne_zero_of_not_sv hwp
  rw [closeLoop_of g h D D' hD hD' hwp] at hR
  rcases consistent_cases hc with ⟨a, b, c, D₁, dt, rfl⟩ | ⟨n, A, B, C, D₁, dt, rfl⟩ <;>
  rcases consistent_cases hc' with ⟨a', b', c', N₁, dt', rfl⟩ | ⟨n', A', B', C', N₁, dt', rfl⟩
  · exact ⟨rfl, rfl⟩
  · rw [closeBody_sd hdt _ _ _ _ _ _ _ _ _ _ hΔ] at hR
    obtain rfl := Except.ok.inj hR
    cases hg
  · rw [closeBody_ds hdt _ _ _ _ _ _ _ _ _ _ hΔ] at hR
    obtain rfl := Except.ok.inj hR
    cases hg
  · rw [closeBody_dd hdt _ _ _ _ _ _ _ _ _ _ hΔ] at hR
    obtain rfl := Except.ok.inj hR
    cases hg

/-- **C81**: `feedback(G, H, negative)` is `G(s) (I ∓ H(s) G(s))⁻¹` for operands of every class and has the sampling period of the models;
the result is a `Transfer` if one operand is a `Transfer` and none is a `State`. `D`, `W` are the feedthrough matrices (limits for large
arguments). Missing: conversions that round coefficients (`OpClear`), negative feedback with `W D ≠ 0` (`C81_negative_violated`), two static operands one of which is zero
(`C31_zero_gain_violated`) and two static operands with a result of one row or one column (`C81_row_violated`). -/
theorem C81_loop_partial (hbal : ∀ polys i, E.bal polys i ≠ 0) (hthr : E.lcmTol ≤ 1) (hN : EigExact N) (hZ : ZerosExact N)
    {L : Type} [Field L] [Algebra ℝ L] {G H : FbOp} (hcG : OpClear E.lcmTol E.remTol G) (hcH : OpClear E.lcmTol E.remTol H) {s : L} {Gs : Matrix (Fin p) (Fin m) L} {Hs : Matrix (Fin m) (Fin p) L}
    {D : Matrix (Fin p) (Fin m) ℝ} {W : Matrix (Fin m) (Fin p) ℝ} (hG : OpHas G p m s Gs D) (hH : OpHas H m p s Hs W) {dt : Option ℝ}
    (hd : LoopDt G H dt) (neg : Bool) (hσ : neg = false ∨ W * D = 0)
    (hz : OpStatic G → OpStatic H → D ≠ 0 ∧ W ≠ 0 ∧ (WantsTransfer G H → 1 < min p m ∨ (p = 1 ∧ m = 1)))
    (hwp : ¬ HasSVAtMost (m * spacing10 : ℝ) (1 - W * D))
    (hw : (1 - (if neg then -1 else 1 : L) • (Hs * Gs)).det ≠ 0) :
    ∃ R, feedbackAny E N G H neg = .ok R ∧ ResHas G H R p m s (Gs * (1 - (if neg then -1 else 1 : L) • (Hs * Gs))⁻¹) dt := by
  have hdt := loopDt_ok hG hH hd
  obtain ⟨g, g1, g2, g3, g4, g5⟩ := opState_ok (E := E) hbal hthr hcG hG hdt (fun S h => hd.1 S (Or.inl h)) (fun F h => hd.2.1 F (Or.inl h))
  obtain ⟨h, h1, h2, h3, h4, h5⟩ := opState_ok (E := E) hbal hthr hcH hH hdt (fun S h => hd.1 S (Or.inr h)) (fun F h => hd.2.1 F (Or.inr h))
  obtain ⟨conv, e1, e2⟩ := fbOperands_ok hd g1 h1
  obtain ⟨R, r1, r2, r3⟩ := closeLoop_hasTF g2 h2 (by rw [g4]; exact hdt) neg D W g3 h3 hσ
    (fun a b => ⟨(hz (g5 a) (h5 b)).1, (hz (g5 a) (h5 b)).2.1⟩) hwp hw
  rw [feedbackAny_of e1 (by simp [StateM.p, StateM.m, g3, h3]) (by simp [StateM.p, StateM.m, g3, h3]), r1]
  simp only [Except.bind, fbResult]
  cases hc : conv with
  | false =>
    refine ⟨.state R, rfl, Or.inr ⟨fun h => ?_, R, rfl, r2, r3.trans g4⟩⟩
    rw [← e2, hc] at h
    cases h
  | true =>
    have hwt := e2.mp hc
    obtain ⟨hp, hm⟩ := wantsTransfer_pos hG hH hwt
    have hR := hasTF_consistent r2
    have hRdt : DtOk R.dt := by rw [r3, g4]; exact hdt
    suffices h : ∃ F, stateToTransfer E N R = .ok F ∧ F.dt = R.dt ∧
        HasVal F p m s (Gs * (1 - (if neg then -1 else 1 : L) • (Hs * Gs))⁻¹) by
      obtain ⟨F, f1, f2, f3⟩ := h
      exact ⟨.transfer F, by simp [f1, Functor.map, Except.map], Or.inl ⟨hwt, F, rfl, f3, f2.trans (r3.trans g4)⟩⟩
    cases hg : R.isgain with
    | false =>
      obtain ⟨F, f1, f2, f3⟩ := C28_dynamic_partial hbal hthr hN hZ hR hg hRdt hp hm
      exact ⟨F, f1, f2, f3 s _ r2⟩
    | true =>
      obtain ⟨i1, i2⟩ := closeLoop_gain r1 (hasTF_consistent g2) (hasTF_consistent h2) (by rw [g4]; exact hdt) hg
      obtain ⟨DR, hDR⟩ := Arr.exists_of hR.1.1 hR.1.2
      obtain ⟨F, f1⟩ : ∃ F, stateToTransfer E N R = .ok F := by
        obtain ⟨a, b, c, d, dt', i⟩ := R
        simp only at hDR hg hRdt
        subst hDR hg
        exact C28_gain_success ((hz (g5 i1) (h5 i2)).2.2 hwt) hRdt
      obtain ⟨f2, f3⟩ := C28_gain hR hg hp hm f1 s _ r2
      exact ⟨F, f1, f3, f2⟩

/-- **C81**, errors: models with different sampling periods, operands whose shapes do not fit and loops with (numerically) singular `I - W D`
are rejected with `ValueError`, whatever the classes of the operands. -/
theorem C81_rejects (hbal : ∀ polys i, E.bal polys i ≠ 0) (hthr : E.lcmTol ≤ 1) (neg : Bool) :
    (∀ G H : StateM ℝ, G.dt ≠ H.dt → feedbackAny E N (.state G) (.state H) neg = .error .value) ∧
    (∀ (G : StateM ℝ) (H : TransferM ℝ), G.dt ≠ H.dt → feedbackAny E N (.state G) (.transfer H) neg = .error .value) ∧
    (∀ (G : TransferM ℝ) (H : StateM ℝ), G.dt ≠ H.dt → feedbackAny E N (.transfer G) (.state H) neg = .error .value) ∧
    (∀ G H : TransferM ℝ, G.dt ≠ H.dt → feedbackAny E N (.transfer G) (.transfer H) neg = .error .value) ∧
    (∀ {L : Type} [Field L] [Algebra ℝ L] {G H : FbOp} {p' m' : ℕ} {s : L} {Gs : Matrix (Fin p) (Fin m) L} {Hs : Matrix (Fin p') (Fin m') L}
      {D : Matrix (Fin p) (Fin m) ℝ} {W : Matrix (Fin p') (Fin m') ℝ} {dt : Option ℝ}, OpClear E.lcmTol E.remTol G → OpClear E.lcmTol E.remTol H →
      OpHas G p m s Gs D → OpHas H p' m' s Hs W →
      LoopDt G H dt → p ≠ m' ∨ m ≠ p' → feedbackAny E N G H neg = .error .value) ∧
    (∀ {L : Type} [Field L] [Algebra ℝ L] {G H : FbOp} {s : L} {Gs : Matrix (Fin p) (Fin m) L} {Hs : Matrix (Fin m) (Fin p) L}
      {D : Matrix (Fin p) (Fin m) ℝ} {W : Matrix (Fin m) (Fin p) ℝ} {dt : Option ℝ}, OpClear E.lcmTol E.remTol G → OpClear E.lcmTol E.remTol H →
      OpHas G p m s Gs D → OpHas H m p s Hs W →
      LoopDt G H dt → HasSVAtMost (m * spacing10 : ℝ) (1 - W * D) → feedbackAny E N G H neg = .error .value) := by
  refine ⟨fun G H h => ?_, fun G H h => ?_, fun G H h => ?_, fun G H h => ?_, ?_, ?_⟩
  · simp [feedbackAny, fbOperands, h, Bind.bind, Except.bind]
  · simp [feedbackAny, fbOperands, h, Bind.bind, Except.bind]
  · simp [feedbackAny, fbOperands, h, Bind.bind, Except.bind]
  · simp [feedbackAny, fbOperands, h, Bind.bind, Except.bind]
  · intro L _ _ G H p' m' s Gs Hs D W dt hcG hcH hG hH hd hne
    have hdt := loopDt_ok hG hH hd
    obtain ⟨g, g1, g2, g3, g4, g5⟩ := opState_ok (E := E) hbal hthr hcG hG hdt (fun S h => hd.1 S (Or.inl h)) (fun F h => hd.2.1 F (Or.inl h))
    obtain ⟨h, h1, h2, h3, h4, h5⟩ := opState_ok (E := E) hbal hthr hcH hH hdt (fun S h => hd.1 S (Or.inr h)) (fun F h => hd.2.1 F (Or.inr h))
    obtain ⟨conv, e1, e2⟩ := fbOperands_ok hd g1 h1
    unfold feedbackAny
    simp only [e1, Bind.bind, Except.bind, StateM.p, StateM.m, g3, h3, Arr.of_r, Arr.of_c, ne_eq]
    rw [if_pos hne]
  · intro L _ _ G H s Gs Hs D W dt hcG hcH hG hH hd hsv
    have hdt := loopDt_ok hG hH hd
    obtain ⟨g, g1, g2, g3, g4, g5⟩ := opState_ok (E := E) hbal hthr hcG hG hdt (fun S h => hd.1 S (Or.inl h)) (fun F h => hd.2.1 F (Or.inl h))
    obtain ⟨h, h1, h2, h3, h4, h5⟩ := opState_ok (E := E) hbal hthr hcH hH hdt (fun S h => hd.1 S (Or.inr h)) (fun F h => hd.2.1 F (Or.inr h))
    obtain ⟨conv, e1, e2⟩ := fbOperands_ok hd g1 h1
    rw [feedbackAny_of e1 (by simp [StateM.p, StateM.m, g3, h3]) (by simp [StateM.p, StateM.m, g3, h3]),
      closeLoop_ill g h D W g3 h3 hsv]
    rfl

/-- The static `Transfer` model with the gain `D`. -/
def constTf (D : Matrix (Fin p) (Fin m) ℝ) : TransferM ℝ :=
  ⟨Arr.of (Matrix.of fun i j => [D i j]), Arr.of (Matrix.of fun (_ : Fin p) (_ : Fin m) => [1]), true, none⟩

theorem constTf_has (hp : 0 < p) (hm : 0 < m) (D : Matrix (Fin p) (Fin m) ℝ) {L : Type} [Field L] [Algebra ℝ L] (s : L) :
    OpHas (.transfer (constTf D)) p m s (D.map (algebraMap ℝ L)) D := by
  refine ⟨Matrix.of fun i j => [D i j], Matrix.of fun _ _ => [1], ⟨⟨hp, hm⟩, rfl, rfl, fun i j => ?_, by simp, by simp, by simp [constTf],
    dtOk_none⟩, ⟨_, _, rfl, rfl, fun i j => ⟨?_, ?_⟩⟩, fun i j => ?_⟩
  · by_cases h : D i j = 0
    · exact Or.inl (by simp [h])
    · exact Or.inr ⟨D i j, [], rfl, h⟩
  · simp [polyAt, toPoly]
  · simp [polyAt, toPoly]
  · simp [polyAt, toPoly]

theorem constTf_clear (hp : 0 < p) (hm : 0 < m) {τl τr : ℝ} (hl : τl ≤ 1) (D : Matrix (Fin p) (Fin m) ℝ) :
    OpClear τl τr (.transfer (constTf D)) := by
  obtain ⟨A, B, h, -⟩ := constTf_has (L := ℝ) hp hm D 0
  exact clearModel_gain hl h rfl

/-- **C81** fails for negative feedback with feedthrough: `feedback(Transfer(1), Transfer(1))` is `1/2` but is rejected. -/
theorem C81_negative_violated (hbal : ∀ polys i, E.bal polys i ≠ 0) (hthr : E.lcmTol ≤ 1) (s : ℂ) :
    OpHas (.transfer (constTf !![1])) 1 1 s !![1] !![1] ∧ (1 - (-1 : ℂ) • (!![1] * !![1] : Matrix (Fin 1) (Fin 1) ℂ)).det ≠ 0 ∧
    feedbackAny E N (.transfer (constTf !![1])) (.transfer (constTf !![1])) true = .error .value := by
  have h : OpHas (.transfer (constTf !![1])) 1 1 s !![1] !![1] := by
    have := constTf_has one_pos one_pos !![1] s
    have e : (!![1] : Matrix (Fin 1) (Fin 1) ℝ).map (algebraMap ℝ ℂ) = !![1] := by
      ext i j; fin_cases i; fin_cases j; simp
    rwa [e] at this
  refine ⟨h, by simp [Matrix.det_fin_one], ?_⟩
  refine (C81_rejects (N := N) hbal hthr true).2.2.2.2.2 (constTf_clear one_pos one_pos hthr _) (constTf_clear one_pos one_pos hthr _) h h (dt := none) ⟨by simp, by simp [constTf], by simp⟩ ?_
  refine ⟨fun _ => 1, fun h => by simpa using congrFun h 0, ?_⟩
  simp [mulVec, dotProduct]
  positivity

/-- **C81** fails for static operands with a result of one row: the loop of `Transfer([[1, 1]])` (with two inputs) and `[[1], [1]]` with positive
feedback is `[[-1, -1]]`; the code reads this as the coefficients of a polynomial and raises `ValueError`. -/
theorem C81_row_violated (hbal : ∀ polys i, E.bal polys i ≠ 0) (hthr : E.lcmTol ≤ 1) (s : ℂ) :
    OpHas (.transfer (constTf !![1, 1])) 1 2 s !![1, 1] !![1, 1] ∧ OpHas (.gain (.arr (Arr.of !![1; 1]))) 2 1 s !![1; 1] !![1; 1] ∧
    (1 - (!![1; 1] : Matrix (Fin 2) (Fin 1) ℂ) * (!![1, 1] : Matrix (Fin 1) (Fin 2) ℂ)).det ≠ 0 ∧
    feedbackAny E N (.transfer (constTf !![1, 1])) (.gain (.arr (Arr.of !![1; 1]))) false = .error .value := by
  have h1 : OpHas (.transfer (constTf !![1, 1])) 1 2 s !![1, 1] !![1, 1] := by
    have := constTf_has one_pos two_pos !![1, 1] s
    have e : (!![1, 1] : Matrix (Fin 1) (Fin 2) ℝ).map (algebraMap ℝ ℂ) = !![1, 1] := by
      ext i j; fin_cases i; fin_cases j <;> simp
    rwa [e] at this
  have h2 : OpHas (.gain (.arr (Arr.of !![1; 1]))) 2 1 s !![1; 1] !![1; 1] :=
    ⟨rfl, by ext i j; fin_cases i <;> fin_cases j <;> simp⟩
  refine ⟨h1, h2, by simp [Matrix.det_fin_two], ?_⟩
  have hd : LoopDt (.transfer (constTf !![1, 1])) (.gain (.arr (Arr.of !![1; 1]))) none := ⟨by simp, by simp [constTf], by simp⟩
  obtain ⟨g, g1, g2, g3, g4, g5⟩ := opState_ok (E := E) hbal hthr (constTf_clear one_pos two_pos hthr _) h1 dtOk_none (fun S h => hd.1 S (Or.inl h)) (fun F h => hd.2.1 F (Or.inl h))
  obtain ⟨h, i1, i2, i3, i4, i5⟩ := opState_ok (E := E) hbal hthr (G := .gain _) trivial h2 dtOk_none (fun S h => hd.1 S (Or.inr h)) (fun F h => hd.2.1 F (Or.inr h))
  obtain ⟨conv, e1, e2⟩ := fbOperands_ok hd g1 i1
  have hconv : conv = true := e2.mpr (by simp [WantsTransfer])
  subst hconv
  rw [feedbackAny_of e1 (by simp [StateM.p, StateM.m, g3, i3]) (by simp [StateM.p, StateM.m, g3, i3])]
  have hΔ : (1 - (!![1; 1] : Matrix (Fin 2) (Fin 1) ℝ) * (!![1, 1] : Matrix (Fin 1) (Fin 2) ℝ)) = !![0, -1; -1, 0] := by
    ext i j; fin_cases i <;> fin_cases j <;> simp
  have hwp : ¬ HasSVAtMost ((2 : ℕ) * spacing10 : ℝ) (1 - (!![1; 1] : Matrix (Fin 2) (Fin 1) ℝ) * (!![1, 1] : Matrix (Fin 1) (Fin 2) ℝ)) := by
    rw [hΔ]
    rintro ⟨x, hx, h⟩
    simp only [mulVec, dotProduct, Fin.sum_univ_two, Matrix.of_apply, Matrix.cons_val', Matrix.cons_val_zero, Matrix.cons_val_one,
      Matrix.cons_val_fin_one] at h
    have hx' : 0 < x 0 * x 0 + x 1 * x 1 := by
      rcases eq_or_ne (x 0) 0 with h0 | h0
      · have : x 1 ≠ 0 := fun h1 => hx (by ext i; fin_cases i <;> simpa)
        nlinarith [mul_self_pos.mpr this, mul_self_nonneg (x 0)]
      · nlinarith [mul_self_pos.mpr h0, mul_self_nonneg (x 1)]
    norm_num [spacing10] at h
    nlinarith
  rw [closeLoop_of g h _ _ g3 i3 hwp]
  have hg : g.isgain = true ∧ g.dt = none := by
    refine ⟨?_, g4⟩
    unfold opState transferToState t2sData at g1
    simp only [constTf, if_true, Bind.bind, Except.bind] at g1
    rw [gainArr_of (by simp) (by simp)] at g1
    simp only [mkGain_of dtOk_none] at g1
    rw [← Except.ok.inj g1]
  have hh : h.isgain = true ∧ h.dt = none := by
    unfold opState at i1
    simp only [gainState, mkGain_of dtOk_none] at i1
    rw [← Except.ok.inj i1]
    exact ⟨rfl, rfl⟩
  obtain ⟨a, b, c, d, dt, i⟩ := g
  obtain ⟨a', b', c', d', dt', i'⟩ := h
  simp only at g3 i3 hg hh
  obtain ⟨rfl, rfl⟩ := hg
  obtain ⟨rfl, rfl⟩ := hh
  subst g3 i3
  rw [closeBody_ss dtOk_none _ _ _ _ _ _ _ _ (fun h => by simpa using congrFun (congrFun h 0) 0)
    (fun h => by simpa using congrFun (congrFun h 0) 0) _ _ (det_ne_zero_of_not_sv hwp)]
  have hinv : (1 - (!![1; 1] : Matrix (Fin 2) (Fin 1) ℝ) * (!![1, 1] : Matrix (Fin 1) (Fin 2) ℝ))⁻¹ = !![0, -1; -1, 0] := by
    rw [hΔ]
    apply Matrix.inv_eq_left_inv
    ext i j; fin_cases i <;> fin_cases j <;> simp
  have hres : (!![1, 1] + (fbSign false : ℝ) • ((!![1, 1] : Matrix (Fin 1) (Fin 2) ℝ) * ((1 - (!![1; 1] : Matrix (Fin 2) (Fin 1) ℝ) * (!![1, 1] : Matrix (Fin 1) (Fin 2) ℝ))⁻¹ *
      ((!![1; 1] : Matrix (Fin 2) (Fin 1) ℝ) * (!![1, 1] : Matrix (Fin 1) (Fin 2) ℝ)))) : Matrix (Fin 1) (Fin 2) ℝ) = !![-1, -1] := by
    rw [hinv]
    ext i j
    fin_cases i; fin_cases j <;> simp [fbSign] <;> norm_num
  rw [hres]
  simp only [Except.bind, fbResult, if_true]
  have : stateToTransfer E N ⟨Arr.empty, Arr.empty, Arr.empty, Arr.of !![-1, -1], none, true⟩ = .error .value := by
    unfold stateToTransfer mkTransfer validateTransfer
    have hfl : (Arr.of (!![-1, -1] : Matrix (Fin 1) (Fin 2) ℝ)).flatten = [-1, -1] := by simp [Arr.flatten, List.finRange_succ]
    simp only [if_true, regArg, Arr.of_r, Arr.of_c, Bind.bind, Except.bind, combineArgs, hfl]
    norm_num
  rw [this]
  rfl

/-- The hypotheses of `C81_loop_partial` hold for the negative unit feedback of `Transfer(1, [1, 1])` at `0`. -/
example : ∃ (G : TransferM ℝ) (D : Matrix (Fin 1) (Fin 1) ℝ), OpClear (1 / 10 ^ 9) (1 / 10 ^ 14) (.transfer G) ∧ OpHas (.transfer G) 1 1 (0 : ℂ) !![1] D ∧
    OpHas (.gain (.scalar 1)) 1 1 (0 : ℂ) !![1] !![1] ∧ LoopDt (.transfer G) (.gain (.scalar 1)) none ∧ !![1] * D = 0 ∧
    (OpStatic (.transfer G) → OpStatic (.gain (.scalar 1)) → D ≠ 0 ∧ (!![1] : Matrix (Fin 1) (Fin 1) ℝ) ≠ 0 ∧
      (WantsTransfer (.transfer G) (.gain (.scalar 1)) → 1 < min 1 1 ∨ ((1 : ℕ) = 1 ∧ (1 : ℕ) = 1))) ∧
    ¬ HasSVAtMost ((1 : ℕ) * spacing10 : ℝ) (1 - !![1] * D) ∧ (1 - (-1 : ℂ) • (!![1] * !![1] : Matrix (Fin 1) (Fin 1) ℂ)).det ≠ 0 := by
  have hn : Normal (⟨Arr.of (Matrix.of fun (_ _ : Fin 1) => [1]), Arr.of (Matrix.of fun (_ _ : Fin 1) => [1, 1]), false, none⟩ : TransferM ℝ) 1 1
      (Matrix.of fun _ _ => [1]) (Matrix.of fun _ _ => [1, 1]) :=
    ⟨⟨one_pos, one_pos⟩, rfl, rfl, fun _ _ => Or.inr ⟨1, [], rfl, one_ne_zero⟩, by simp, by simp, by simp, dtOk_none⟩
  refine ⟨_, !![0], clearModel_int (by norm_num) (by norm_num) hn.num hn.den (fun _ _ => [1]) (fun _ _ => [1, 1]) (by simp) (by simp) (by simp),
    ⟨_, _, hn, ⟨_, _, rfl, rfl, fun i j => ⟨?_, ?_⟩⟩, fun i j => ?_⟩, ⟨rfl, rfl, ?_, ?_⟩, ⟨by simp, by simp, by simp⟩, ?_, ?_, ?_, ?_⟩
  · simp [polyAt, toPoly]
  · fin_cases i; fin_cases j; simp [polyAt, toPoly]
  · have h : Filter.Tendsto (fun s : ℝ => 1 / (s + 1)) Filter.atTop (nhds 0) :=
      Filter.Tendsto.const_div_atTop (Filter.tendsto_atTop_add_const_right _ _ Filter.tendsto_id) 1
    fin_cases i; fin_cases j
    simpa [polyAt, toPoly] using h
  · ext i j; fin_cases i; fin_cases j; rfl
  · ext i j; fin_cases i; fin_cases j; simp
  · ext i j; fin_cases i; fin_cases j; simp
  · rintro ⟨p, m, A, B, hAB, hc⟩ -
    exfalso
    have e1 := congrArg Arr.r hAB.num
    have e2 := congrArg Arr.c hAB.num
    simp only [Arr.of_r, Arr.of_c] at e1 e2
    subst e1 e2
    obtain ⟨c, hc⟩ := hc 0 0
    rw [← Arr.of_inj.mp hAB.num, ← Arr.of_inj.mp hAB.den] at hc
    have h0 := congrArg (Polynomial.eval 0) hc
    have h1 := congrArg (Polynomial.eval 1) hc
    simp [toPoly] at h0 h1
    linarith
  · rintro ⟨x, hx, h⟩
    have hx0 : x 0 ≠ 0 := fun h0 => hx (by ext i; fin_cases i; exact h0)
    have := mul_self_pos.mpr hx0
    simp [mulVec, dotProduct, spacing10] at h
    nlinarith
  · simp [Matrix.det_fin_one]

end Harold
