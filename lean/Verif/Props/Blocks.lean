import Verif.Lemmas.Expand
import Verif.Spec.Blocks
import Verif.Props.Expr
import Verif.Props.SimTransfer
import Verif.Props.Hess

/-!
# C94: simulating a formula over discrete models is simulating its block diagram
-/

namespace Harold

open Matrix Filter Topology Harold.Spec

variable {P : Type} {Nm : Numerics ℝ P} {B : DNum} {N p q m n : ℕ}

/-! ## Convolutions -/

/-- The samples of a signal, as columns. -/
def sig (U : Matrix (Fin N) (Fin m) ℝ) (k : ℕ) : Matrix (Fin m) (Fin 1) ℝ := Matrix.of fun j _ => sampleSeq U j k

theorem convOut_iff {w : ℕ → Matrix (Fin p) (Fin m) ℝ} {U : Matrix (Fin N) (Fin m) ℝ} {Y : Matrix (Fin N) (Fin p) ℝ} :
    Y = convOut w U ↔ ∀ k < N, sig Y k = cauchy w (sig U) k := by
  have h1 : ∀ (k : Fin N) i, convOut w U k i = cauchy w (sig U) k i 0 := by
    intro k i
    rw [convOut_apply, cauchy_sum, Matrix.sum_apply, Finset.sum_comm]
    rfl
  have h2 : ∀ (k : Fin N) i, sig Y k i 0 = Y k i := by
    intro k i
    simp [sig, sampleSeq]
  constructor
  · rintro rfl k hk
    ext i j
    obtain rfl : j = 0 := Subsingleton.elim _ _
    exact (h2 ⟨k, hk⟩ i).trans (h1 ⟨k, hk⟩ i)
  · intro h
    ext k i
    rw [h1, ← h k k.2, h2]

theorem convOut_comp {w : ℕ → Matrix (Fin p) (Fin q) ℝ} {v x} (h : ∀ k, x k = cauchy w v k) (U : Matrix (Fin N) (Fin m) ℝ) : convOut x U = convOut w (convOut v U) := by
  have h1 := convOut_iff.mp (rfl : convOut v U = _)
  refine convOut_iff.mpr fun k hk => ?_
  rw [convOut_iff.mp (rfl : convOut x U = _) k hk, funext h, cauchy_assoc]
  exact cauchy_congr (fun _ _ => rfl) fun i hi => (h1 i (by omega)).symm

theorem convOut_add {w v x : ℕ → Matrix (Fin p) (Fin m) ℝ} (h : ∀ k, x k = w k + v k) (U : Matrix (Fin N) (Fin m) ℝ) : convOut x U = convOut w U + convOut v U := by
  ext i j
  simp only [convOut, h, Matrix.add_mulVec, Finset.sum_add_distrib, Matrix.of_apply, Matrix.add_apply, Pi.add_apply]

theorem convOut_smul {w x : ℕ → Matrix (Fin p) (Fin m) ℝ} {c : ℝ} (h : ∀ k, x k = c • w k) (U : Matrix (Fin N) (Fin m) ℝ) : convOut x U = c • convOut w U := by
  ext i j
  simp only [convOut, h, Matrix.smul_mulVec, ← Finset.smul_sum, Matrix.of_apply, Matrix.smul_apply, Pi.smul_apply]

theorem convOut_lin {w : ℕ → Matrix (Fin p) (Fin m) ℝ} (c : ℝ) (U V : Matrix (Fin N) (Fin m) ℝ) : convOut w (U + c • V) = convOut w U + c • convOut w V := by
  have e : ∀ j : Fin N, (U + c • V) j = U j + c • V j := fun j => rfl
  ext i j
  simp only [convOut, e, Matrix.mulVec_add, Matrix.mulVec_smul, ← Finset.smul_sum, Finset.sum_add_distrib, Matrix.of_apply, Matrix.smul_apply, Matrix.add_apply, Pi.add_apply, Pi.smul_apply]

theorem convOut_unit {w : ℕ → Matrix (Fin m) (Fin m) ℝ} (h : ∀ k, w k = unitSeq m k) (U : Matrix (Fin N) (Fin m) ℝ) : convOut w U = U := by
  rw [conv_gain h, Matrix.transpose_one, Matrix.mul_one]

/-- `Y = w * U + x * Y` has only one solution if `1 - x 0` is invertible. -/
theorem convOut_unique {x : ℕ → Matrix (Fin p) (Fin p) ℝ} (hx : (1 - x 0).det ≠ 0) {Y Y' Z : Matrix (Fin N) (Fin p) ℝ} (h : Y = Z + convOut x Y) (h' : Y' = Z + convOut x Y') : Y = Y' := by
  have e : ∀ {Y : Matrix (Fin N) (Fin p) ℝ}, Y = Z + convOut x Y → convOut (fun k => unitSeq p k + (-1 : ℝ) • x k) Y = Z := by
    intro Y h
    rw [convOut_add (fun _ => rfl), convOut_smul (fun _ => rfl), convOut_unit (fun _ => rfl)]
    rw [neg_one_smul, ← sub_eq_add_neg]
    exact sub_eq_iff_eq_add.mpr h
  have h1 := convOut_iff.mp (e h).symm
  have h2 := convOut_iff.mp (e h').symm
  ext i j
  have h3 := cauchy_cancel (K := i) (v := sig Y) (v' := sig Y') (by simpa [unitSeq, ← sub_eq_add_neg] using hx) (fun k hk => (h1 k (by omega)).symm.trans (h2 k (by omega))) i le_rfl
  have h4 := congrFun (congrFun h3 j) 0
  simpa [sig, sampleSeq] using h4

/-! ## Sampling periods -/

section Period

variable {L : Type} [Field L] [Algebra ℝ L] {s : L} {G H R : StateM ℝ} {fuel : ℕ} {h : ℝ}

theorem add_period {M M' : Matrix (Fin p) (Fin m) L} (h1 : HasTF G p m s M) (h2 : HasTF H p m s M') (hdt : DtOk G.dt) (e : G.add (fuel + 3) H = .ok R) (hR : R.dt = some h) :
    G.dt = some h ∧ H.dt = some h := by
  by_cases he : G.dt = H.dt
  swap
  · rw [C16_mismatch_rejected he (fuel + 2) |>.1] at e
    cases e
  by_cases hs : G.isgain = H.isgain ∨ ¬ (p = 1 ∧ m = 1)
  · obtain ⟨R', e', -, h3⟩ := add_hasTF h1 h2 hdt he hs (fuel + 1)
    obtain rfl : R' = R := by rw [e'] at e; cases e; rfl
    rw [h3] at hR
    split_ifs at hR
    exact ⟨hR, he ▸ hR⟩
  · push Not at hs
    obtain ⟨hne, rfl, rfl⟩ := hs
    exfalso
    cases hg : G.isgain <;> cases hg' : H.isgain
    · exact hne (hg.trans hg'.symm)
    · obtain ⟨D, hD, -⟩ := gain_elim h2 hg'
      rw [StateM.add] at e
      simp only [he, ne_eq, not_true_eq_false, if_false, hg, hg', Bool.false_and, Bool.false_eq_true, if_true, hD] at e
      have := C15_one_by_one_array_violated h1 hdt hg D (fuel + 2)
      simp only [StateM.addGain, Gain.regular] at this
      rw [this] at e
      cases e
    · obtain ⟨D, hD, -⟩ := gain_elim h1 hg
      rw [StateM.add] at e
      simp only [he, ne_eq, not_true_eq_false, if_false, hg, hg', Bool.and_false, Bool.false_eq_true, if_true, hD] at e
      have := C15_one_by_one_array_violated h2 (he ▸ hdt) hg' D (fuel + 2)
      simp only [StateM.addGain, Gain.regular] at this
      rw [this] at e
      cases e
    · exact hne (hg.trans hg'.symm)

theorem mul_period {M : Matrix (Fin p) (Fin q) L} {M' : Matrix (Fin q) (Fin m) L} (h1 : HasTF G p q s M) (h2 : HasTF H q m s M') (hdt : DtOk G.dt)
    (e : G.matmul (fuel + 3) H = .ok R) (hR : R.dt = some h) : G.dt = some h ∧ H.dt = some h := by
  by_cases he : G.dt = H.dt
  swap
  · rw [C16_mismatch_rejected he (fuel + 2) |>.2] at e
    cases e
  obtain ⟨R', e', -, h3, -⟩ := C17_matmul h1 h2 hdt he (fuel + 2)
  obtain rfl : R' = R := by rw [e'] at e; cases e; rfl
  rw [h3] at hR
  exact ⟨hR, he ▸ hR⟩

theorem inv_regular {D : Matrix (Fin m) (Fin m) ℝ} (hD : G.d = Arr.of D) (e : StateM.rtruedivGain (.scalar 1) G = .ok R) : ¬ HasSVBelow spacing1 D := by
  intro hsv
  obtain ⟨a, b, c, d, dt, g⟩ := G
  simp only at hD
  subst hD
  have : HasSVBelow spacing1 (D.submatrix id (Fin.cast (rfl : m = m))) := by simpa using hsv
  simp [StateM.rtruedivGain, StateM.invert, Bind.bind, Except.bind, hsv] at e

theorem loop_regular {D : Matrix (Fin p) (Fin m) ℝ} {E : Matrix (Fin m) (Fin p) ℝ} {negative : Bool} (hD : G.d = Arr.of D) (hE : H.d = Arr.of E)
    (e : feedback (.state G) (.state H) negative = .ok R) :
    G.dt = H.dt ∧ (G.isgain = true → H.isgain = true → D ≠ 0 ∧ E ≠ 0) ∧ ¬ HasSVAtMost (m * spacing10 : ℝ) (1 - E * D) := by
  by_cases he : G.dt = H.dt
  swap
  · simp [feedback, checkFeedbackIc, he, Bind.bind, Except.bind] at e
  have ered : feedback (.state G) (.state H) negative = closeLoop G H negative := by
    have e1 : ¬ (G.p ≠ H.m ∨ G.m ≠ H.p) := by simp [StateM.p, StateM.m, hD, hE]
    simp only [feedback, checkFeedbackIc, he, ne_eq, not_true_eq_false, if_false, Bind.bind, Except.bind]
    rw [if_neg e1]
  by_cases hwp : HasSVAtMost (m * spacing10 : ℝ) (1 - E * D)
  · rw [ered, closeLoop_ill G H D E hD hE hwp] at e
    cases e
  refine ⟨he, fun hg hg' => ?_, hwp⟩
  rw [ered, closeLoop_of G H D E hD hE hwp] at e
  by_contra hc
  have : ¬ ((G.d.any && H.d.any) = true) := by
    intro h2
    rw [Bool.and_eq_true, hD, hE, Arr.any_iff, Arr.any_iff] at h2
    obtain ⟨⟨i, j, h3⟩, i', j', h4⟩ := h2
    exact hc ⟨fun h => h3 (by rw [h]; rfl), fun h => h4 (by rw [h]; rfl)⟩
  simp only [closeBody, hg, hg', Bool.and_self, if_true] at e
  rw [if_neg this] at e
  cases e

end Period

/-! ## Impulse responses of models -/

/-- `f` is the transfer function of the model at large arguments and `w` its impulse response. -/
def Weighs (g : StateM ℝ) (f : ℝ → Matrix (Fin p) (Fin m) ℝ) (w : ℕ → Matrix (Fin p) (Fin m) ℝ) : Prop :=
  (∀ᶠ s : ℝ in atTop, HasTF g p m s (f s)) ∧ ∀ K, Expand K f w

theorem hasTF_real {A : Matrix (Fin n) (Fin n) ℝ} {B : Matrix (Fin n) (Fin m) ℝ} {C : Matrix (Fin p) (Fin n) ℝ} {D : Matrix (Fin p) (Fin m) ℝ} {dt : Option ℝ} {s : ℝ}
    (hs : (s • (1 : Matrix (Fin n) (Fin n) ℝ) - A).det ≠ 0) : HasTF ⟨Arr.of A, Arr.of B, Arr.of C, Arr.of D, dt, false⟩ p m s (tfReal A B C D s) :=
  .inr ⟨rfl, n, A, B, C, D, rfl, rfl, rfl, rfl, isTF_real.mpr ⟨hs, rfl⟩⟩

theorem exists_weights {g : StateM ℝ} (hG : Consistent g p m) : ∃ f w, Weighs (p := p) (m := m) g f w ∧ g.d = Arr.of (w 0) := by
  obtain ⟨a, b, c, D, dt, rfl⟩ | ⟨n, A, B, C, D, dt, rfl⟩ := consistent_cases hG
  · exact ⟨fun _ => D, fun k => if k = 0 then D else 0, ⟨Eventually.of_forall fun s => .inl ⟨rfl, D, rfl, by simp⟩, fun K => Expand.const D⟩, rfl⟩
  · refine ⟨tfReal A B C D, markov A B C D, ⟨?_, expand_markov A B C D⟩, rfl⟩
    filter_upwards [eventually_det A] with s hs
    exact hasTF_real hs

theorem Weighs.unique {g : StateM ℝ} {f f' : ℝ → Matrix (Fin p) (Fin m) ℝ} {w w' : ℕ → Matrix (Fin p) (Fin m) ℝ} (h : Weighs g f w) (h' : Weighs g f' w') (k : ℕ) : w k = w' k := by
  refine Expand.unique ((h.2 k).congr ?_) (h'.2 k) k le_rfl
  filter_upwards [h.1, h'.1] with s h1 h2
  exact HasTF_unique h1 h2

theorem Weighs.d {g : StateM ℝ} {f : ℝ → Matrix (Fin p) (Fin m) ℝ} {w : ℕ → Matrix (Fin p) (Fin m) ℝ} (h : Weighs g f w) : g.d = Arr.of (w 0) := by
  obtain ⟨s, hs⟩ := h.1.exists
  obtain ⟨f', w', h1, h2⟩ := exists_weights (hasTF_consistent hs)
  rw [h2, h.unique h1]

theorem Weighs.simulated {g : StateM ℝ} {f : ℝ → Matrix (Fin p) (Fin m) ℝ} {w : ℕ → Matrix (Fin p) (Fin m) ℝ} (hw : Weighs g f w) (hE : BalanceOk B) (hm : 1 ≤ m)
    (hdt : DtOk g.dt) {h : ℝ} (hd : g.dt = some h) (hN : 2 ≤ N) {targ : Option (List ℝ)} {t : List ℝ} (ht : TimesOk N h targ t) (U : Matrix (Fin N) (Fin m) ℝ) :
    Simulated Nm B targ t p m g U (convOut w U) := by
  rintro S rfl
  obtain ⟨s, hs⟩ := hw.1.exists
  obtain ⟨n, A, B₁, C, D, h1, h2⟩ := weights_of (Nm := Nm) (S := S) hE (hasTF_consistent hs) hdt
  have hta : timeArray S.g.dt (some (Arr.of U)) targ = .ok t ∧ t.length = N := by
    rw [hd]
    rcases ht with ⟨rfl, rfl⟩ | ⟨rfl, h3, h4, h5⟩
    · exact ⟨timeArray_none U, by simp⟩
    · exact ⟨by unfold timeArray; exact checkT_ok h3 h4, h5⟩
  have hW : Weighs S.g (tfReal A B₁ C D) (markov A B₁ C D) := by
    refine ⟨?_, expand_markov A B₁ C D⟩
    filter_upwards [eventually_det A] with s hs
    exact (h1 s _ hs).mpr rfl
  have e : weights S.g.dt t A B₁ C D = w := by
    rw [hd]
    exact funext fun k => hW.unique hw k
  rw [h2 false hN hm hta.1 hta.2, e]
  simp [convResult]

theorem Weighs.simulated_iff {g : StateM ℝ} {f : ℝ → Matrix (Fin p) (Fin m) ℝ} {w : ℕ → Matrix (Fin p) (Fin m) ℝ} (hw : Weighs g f w) (hE : BalanceOk B) (hm : 1 ≤ m)
    (hdt : DtOk g.dt) {h : ℝ} (hd : g.dt = some h) (hN : 2 ≤ N) {targ : Option (List ℝ)} {t : List ℝ} (ht : TimesOk N h targ t) (U : Matrix (Fin N) (Fin m) ℝ)
    (Y : Matrix (Fin N) (Fin p) ℝ) : Simulated Nm B targ t p m g U Y ↔ Y = convOut w U := by
  have h1 := hw.simulated (Nm := Nm) hE hm hdt hd hN ht U
  constructor
  · intro h2
    have h3 := (h2 ⟨g, (0, 0), none, none, 0, [], [], false⟩ rfl).symm.trans (h1 ⟨g, (0, 0), none, none, 0, [], [], false⟩ rfl)
    simp only [Except.ok.injEq, Prod.mk.injEq, SimOut.flat.injEq, Arr.of_inj, and_true] at h3
    exact h3
  · rintro rfl
    exact h1

/-! ## Formulas -/

/-- What the induction over formulas shows. -/
def Diagram (Nm : Numerics ℝ P) (B : DNum) (N : ℕ) (h : ℝ) (targ : Option (List ℝ)) (t : List ℝ) {p m : ℕ} (e : SExpr ℝ p m) (R : StateM ℝ) : Prop :=
  1 ≤ p ∧ 1 ≤ m ∧ DtOk R.dt ∧ ∃ f w, Weighs (p := p) (m := m) R f w ∧ (∀ᶠ s : ℝ in atTop, Value s e (f s)) ∧
    (R.dt = some h → ∀ (U : Matrix (Fin N) (Fin m) ℝ) Y, Signals (Simulated Nm B targ t) e U Y ↔ Y = convOut w U)

theorem diagram_of {h : ℝ} {targ : Option (List ℝ)} {t : List ℝ} {fuel : ℕ} {e : SExpr ℝ p m} {R : StateM ℝ} (hm : AllModels (fun _ _ G => DtOk G.dt) e) (hn : NoDirectLoop fuel e)
    (he : e.eval fuel = .ok R) (h1 : 1 ≤ p) (h2 : 1 ≤ m) (f : ℝ → Matrix (Fin p) (Fin m) ℝ) (hv : ∀ᶠ s : ℝ in atTop, Value s e (f s))
    (H : ∀ w, Weighs R f w → R.dt = some h → ∀ (U : Matrix (Fin N) (Fin m) ℝ) Y, Signals (Simulated Nm B targ t) e U Y ↔ Y = convOut w U) :
    Diagram Nm B N h targ t e R := by
  have h3 : ∀ᶠ s : ℝ in atTop, HasTF R p m s (f s) := hv.mono fun s hs => (value_aux fuel e hm hn _ R hs he).1
  obtain ⟨s, hs⟩ := hv.exists
  obtain ⟨h4, h5⟩ := value_aux fuel e hm hn _ R hs he
  obtain ⟨f', w, h6, -⟩ := exists_weights (hasTF_consistent h4)
  have h7 : Weighs R f w := by
    refine ⟨h3, fun K => (h6.2 K).congr ?_⟩
    filter_upwards [h3, h6.1] with s a b
    exact HasTF_unique b a
  exact ⟨h1, h2, h5, f, w, h7, hv, H w h7⟩

theorem allModels_mono {Q Q' : ℕ → ℕ → StateM ℝ → Prop} (hQ : ∀ p m G, Q p m G → Q' p m G) : ∀ {p m : ℕ} (e : SExpr ℝ p m), AllModels Q e → AllModels Q' e := by
  intro p m e
  induction e with
  | model G => exact hQ _ _ G
  | neg e ih | scale k e ih | shift e k ih | inv e ih => exact ih
  | add e f ih ih' | sub e f ih ih' | mul e f ih ih' | loop negative e f ih ih' => exact fun h => ⟨ih h.1, ih' h.2⟩

theorem Expand.det {f : ℝ → Matrix (Fin m) (Fin m) ℝ} {w : ℕ → Matrix (Fin m) (Fin m) ℝ} (h : Tendsto f atTop (𝓝 (w 0))) (hd : (w 0).det ≠ 0) : ∀ᶠ s in atTop, (f s).det ≠ 0 := by
  have hc : Continuous fun X : Matrix (Fin m) (Fin m) ℝ => X.det := by fun_prop
  exact ((hc.tendsto _).comp h).eventually_ne hd

theorem diagram_aux (hE : BalanceOk B) (fuel : ℕ) {h : ℝ} {targ : Option (List ℝ)} {t : List ℝ} (hN : 2 ≤ N) (ht : TimesOk N h targ t) : ∀ {p m : ℕ} (e : SExpr ℝ p m),
    AllModels (fun p m G => 1 ≤ p ∧ 1 ≤ m ∧ Consistent G p m ∧ DtOk G.dt) e → NoDirectLoop fuel e → ∀ R, e.eval fuel = .ok R → Diagram Nm B N h targ t e R := by
  have mono : ∀ {p m : ℕ} (e : SExpr ℝ p m), AllModels (fun p m G => 1 ≤ p ∧ 1 ≤ m ∧ Consistent G p m ∧ DtOk G.dt) e → AllModels (fun _ _ G => DtOk G.dt) e :=
    fun e => allModels_mono (fun p m G h => h.2.2.2) e
  intro p m e
  induction e with
  | model G =>
    intro ⟨h1, h2, h3, h4⟩ hn R he
    cases he
    obtain ⟨f, w, hw, -⟩ := exists_weights h3
    exact ⟨h1, h2, h4, f, w, hw, hw.1, fun hd U Y => hw.simulated_iff hE h2 h4 hd hN ht U Y⟩
  | neg e ih =>
    intro hm hn R he
    obtain ⟨G, hG, he'⟩ := bind_ok he
    obtain ⟨h1, h2, h3, f, w, hw, hv, hs⟩ := ih hm hn G hG
    refine diagram_of (mono _ hm) hn he h1 h2 (fun s => -f s) (hv.mono fun s hs => ⟨f s, hs, rfl⟩) fun w' hw' hd U Y => ?_
    obtain ⟨s, hs'⟩ := hw.1.exists
    obtain ⟨R', e', -, h4⟩ := C15_neg hs' h3
    obtain rfl : R' = R := by rw [e'] at he'; cases he'; rfl
    have e1 : ∀ k, w' k = (-1 : ℝ) • w k := fun k =>
      Expand.unique (hw'.2 k) (((hw.2 k).smul (-1)).congr (Eventually.of_forall fun s => neg_one_smul ℝ _)) k le_rfl
    rw [convOut_smul e1, neg_one_smul]
    constructor
    · rintro ⟨V, hV, rfl⟩
      rw [(hs (h4 ▸ hd) U V).mp hV]
    · intro hY
      exact ⟨_, (hs (h4 ▸ hd) U _).mpr rfl, hY⟩
  | scale k e ih =>
    intro hm hn R he
    obtain ⟨G, hG, he'⟩ := bind_ok he
    obtain ⟨h1, h2, h3, f, w, hw, hv, hs⟩ := ih hm hn G hG
    refine diagram_of (mono _ hm) hn he h1 h2 (fun s => k • f s) (hv.mono fun s hs => ⟨f s, hs, rfl⟩) fun w' hw' hd U Y => ?_
    obtain ⟨s, hs'⟩ := hw.1.exists
    obtain ⟨R', e', -, h4⟩ := C18_scalar_left hs' h3 k
    obtain rfl : R' = R := by rw [StateM.rmulGain, e'] at he'; cases he'; rfl
    have e1 : ∀ i, w' i = k • w i := fun i => Expand.unique (hw'.2 i) ((hw.2 i).smul k) i le_rfl
    rw [convOut_smul e1]
    constructor
    · rintro ⟨V, hV, rfl⟩
      rw [(hs (h4 ▸ hd) U V).mp hV]
    · intro hY
      exact ⟨_, (hs (h4 ▸ hd) U _).mpr rfl, hY⟩
  | @shift p m e k ih =>
    intro hm hn R he
    obtain ⟨G, hG, he'⟩ := bind_ok he
    obtain ⟨h1, h2, h3, f, w, hw, hv, hs⟩ := ih hm hn G hG
    refine diagram_of (mono _ hm) hn he h1 h2 (fun s => f s + Matrix.of fun _ _ => k) (hv.mono fun s hs => ⟨f s, hs, by ext; simp⟩) fun w' hw' hd U Y => ?_
    obtain ⟨s, hs'⟩ := hw.1.exists
    obtain ⟨⟨R', e', -, h4⟩, -⟩ := C15_add_scalar hs' h3 k (fuel + 2)
    obtain rfl : R' = R := by rw [e'] at he'; cases he'; rfl
    have e1 : ∀ i, w' i = w i + if i = 0 then Matrix.of fun _ _ => k else 0 := fun i => Expand.unique (hw'.2 i) ((hw.2 i).add (Expand.const _)) i le_rfl
    rw [convOut_add e1, conv_gain (fun _ => rfl)]
    have e2 : U * (Matrix.of fun (_ : Fin p) (_ : Fin m) => k)ᵀ = Matrix.of fun i _ => k * ∑ j, U i j := by
      ext i j
      simp [Matrix.mul_apply, Finset.mul_sum, mul_comm]
    rw [e2]
    constructor
    · rintro ⟨V, hV, rfl⟩
      rw [(hs (h4 ▸ hd) U V).mp hV]
    · intro hY
      exact ⟨_, (hs (h4 ▸ hd) U _).mpr rfl, hY⟩
  | add e f ih ih' =>
    intro hm hn R he
    obtain ⟨G, hG, he'⟩ := bind_ok he
    obtain ⟨H, hH, he'⟩ := bind_ok he'
    obtain ⟨h1, h2, h3, f₁, w₁, hw₁, hv₁, hs₁⟩ := ih hm.1 hn.1 G hG
    obtain ⟨-, -, -, f₂, w₂, hw₂, hv₂, hs₂⟩ := ih' hm.2 hn.2 H hH
    refine diagram_of (mono _ hm) hn he h1 h2 (fun s => f₁ s + f₂ s) (by filter_upwards [hv₁, hv₂] with s a b using ⟨_, _, a, b, rfl⟩) fun w hw hd U Y => ?_
    obtain ⟨s, a, b⟩ := (hw₁.1.and hw₂.1).exists
    obtain ⟨h4, h5⟩ := add_period a b h3 he' hd
    have e1 : ∀ k, w k = w₁ k + w₂ k := fun k => Expand.unique (hw.2 k) ((hw₁.2 k).add (hw₂.2 k)) k le_rfl
    rw [convOut_add e1]
    constructor
    · rintro ⟨V, W, hV, hW, rfl⟩
      rw [(hs₁ h4 U V).mp hV, (hs₂ h5 U W).mp hW]
    · intro hY
      exact ⟨_, _, (hs₁ h4 U _).mpr rfl, (hs₂ h5 U _).mpr rfl, hY⟩
  | sub e f ih ih' =>
    intro hm hn R he
    obtain ⟨G, hG, he'⟩ := bind_ok he
    obtain ⟨H, hH, he'⟩ := bind_ok he'
    obtain ⟨h1, h2, h3, f₁, w₁, hw₁, hv₁, hs₁⟩ := ih hm.1 hn.1 G hG
    obtain ⟨-, -, h3', f₂, w₂, hw₂, hv₂, hs₂⟩ := ih' hm.2 hn.2 H hH
    refine diagram_of (mono _ hm) hn he h1 h2 (fun s => f₁ s - f₂ s) (by filter_upwards [hv₁, hv₂] with s a b using ⟨_, _, a, b, rfl⟩) fun w hw hd U Y => ?_
    obtain ⟨s, a, b⟩ := (hw₁.1.and hw₂.1).exists
    obtain ⟨H', hH', he'⟩ := bind_ok he'
    obtain ⟨R', e', h6, h7⟩ := C15_neg b h3'
    obtain rfl : R' = H' := by rw [e'] at hH'; cases hH'; rfl
    obtain ⟨h4, h5⟩ := add_period a h6 h3 he' hd
    rw [h7] at h5
    have e1 : ∀ k, w k = w₁ k + (-1 : ℝ) • w₂ k := fun k => Expand.unique (hw.2 k) (((hw₁.2 k).add ((hw₂.2 k).smul (-1))).congr
      (Eventually.of_forall fun s => by rw [neg_one_smul, sub_eq_add_neg])) k le_rfl
    rw [convOut_add e1, convOut_smul (fun _ => rfl), neg_one_smul, ← sub_eq_add_neg]
    constructor
    · rintro ⟨V, W, hV, hW, rfl⟩
      rw [(hs₁ h4 U V).mp hV, (hs₂ h5 U W).mp hW]
    · intro hY
      exact ⟨_, _, (hs₁ h4 U _).mpr rfl, (hs₂ h5 U _).mpr rfl, hY⟩
  | mul e f ih ih' =>
    intro hm hn R he
    obtain ⟨G, hG, he'⟩ := bind_ok he
    obtain ⟨H, hH, he'⟩ := bind_ok he'
    obtain ⟨h1, -, h3, f₁, w₁, hw₁, hv₁, hs₁⟩ := ih hm.1 hn.1 G hG
    obtain ⟨-, h2, -, f₂, w₂, hw₂, hv₂, hs₂⟩ := ih' hm.2 hn.2 H hH
    refine diagram_of (mono _ hm) hn he h1 h2 (fun s => f₁ s * f₂ s) (by filter_upwards [hv₁, hv₂] with s a b using ⟨_, _, a, b, rfl⟩) fun w hw hd U Y => ?_
    obtain ⟨s, a, b⟩ := (hw₁.1.and hw₂.1).exists
    obtain ⟨h4, h5⟩ := mul_period a b h3 he' hd
    have e1 : ∀ k, w k = cauchy w₁ w₂ k := fun k => Expand.unique (hw.2 k) ((hw₁.2 k).mul (hw₂.2 k)) k le_rfl
    rw [convOut_comp e1]
    constructor
    · rintro ⟨V, hV, hY⟩
      rw [(hs₁ h4 V Y).mp hY, (hs₂ h5 U V).mp hV]
    · intro hY
      exact ⟨_, (hs₂ h5 U _).mpr rfl, (hs₁ h4 _ Y).mpr hY⟩
  | inv e ih =>
    intro hm hn R he
    obtain ⟨G, hG, he'⟩ := bind_ok he
    obtain ⟨h1, h2, h3, f, w, hw, hv, hs⟩ := ih hm hn G hG
    have hsv := inv_regular hw.d he'
    have hdet : (w 0).det ≠ 0 := det_ne_zero_of_not_svBelow (by simp [spacing1]) hsv
    have hdf := Expand.det (hw.2 0) hdet
    refine diagram_of (mono _ hm) hn he h1 h2 (fun s => (f s)⁻¹) (by filter_upwards [hv, hdf] with s a b using ⟨f s, a, b, rfl⟩) fun w' hw' hd U Y => ?_
    obtain ⟨s, a, b⟩ := (hw.1.and hdf).exists
    obtain ⟨R', e', h4, -⟩ := C19_defined hw.d h3 hsv a b
    obtain rfl : R' = R := by rw [e'] at he'; cases he'; rfl
    have e1 : ∀ k, unitSeq _ k = cauchy w w' k := fun k => Expand.unique (Expand.const 1) (((hw.2 k).mul (hw'.2 k)).congr (by
      filter_upwards [hdf] with s hs using Matrix.mul_nonsing_inv _ (isUnit_iff_ne_zero.mpr hs))) k le_rfl
    have e2 : ∀ k, unitSeq _ k = cauchy w' w k := fun k => Expand.unique (Expand.const 1) (((hw'.2 k).mul (hw.2 k)).congr (by
      filter_upwards [hdf] with s hs using Matrix.nonsing_inv_mul _ (isUnit_iff_ne_zero.mpr hs))) k le_rfl
    refine (hs (h4 ▸ hd) Y U).trans ⟨?_, ?_⟩
    · rintro rfl
      rw [← convOut_comp e2, convOut_unit fun _ => rfl]
    · rintro rfl
      rw [← convOut_comp e1, convOut_unit fun _ => rfl]
  | @loop p m negative e f ih ih' =>
    intro hm hn R he
    obtain ⟨G, hG, he'⟩ := bind_ok he
    obtain ⟨H, hH, he'⟩ := bind_ok he'
    obtain ⟨h1, h2, h3, f₁, w₁, hw₁, hv₁, hs₁⟩ := ih hm.1 hn.1 G hG
    obtain ⟨-, -, -, f₂, w₂, hw₂, hv₂, hs₂⟩ := ih' hm.2 hn.2.1 H hH
    obtain ⟨hdd, hz, hreg⟩ := loop_regular hw₁.d hw₂.d he'
    have hn0 : negative = true → w₂ 0 * w₁ 0 = 0 := fun hneg => hn.2.2 hneg G H _ _ hG hH hw₁.d hw₂.d
    generalize hc : (if negative = true then -1 else 1 : ℝ) = c
    have hdet : (1 - c • (w₂ 0 * w₁ 0)).det ≠ 0 := by
      cases negative
      · obtain rfl : 1 = c := by simpa using hc
        rw [one_smul]
        exact det_ne_zero_of_not_sv hreg
      · rw [hn0 rfl]; simp
    have hT : Tendsto (fun s => 1 - c • (f₂ s * f₁ s)) atTop (𝓝 (1 - c • (w₂ 0 * w₁ 0))) :=
      tendsto_const_nhds.sub ((((hw₂.2 0).mul (hw₁.2 0)).lim).const_smul c)
    have hdf : ∀ᶠ s in atTop, (1 - c • (f₂ s * f₁ s)).det ≠ 0 := Expand.det (w := fun _ => 1 - c • (w₂ 0 * w₁ 0)) hT hdet
    refine diagram_of (mono _ hm) hn he h1 h2 (fun s => f₁ s * (1 - c • (f₂ s * f₁ s))⁻¹)
      (by filter_upwards [hv₁, hv₂, hdf] with s a b d using ⟨_, _, a, b, by rw [hc]; exact d, by rw [hc]⟩) fun w hw hd U Y => ?_
    obtain ⟨s, ⟨a, b⟩, d⟩ := ((hw₁.1.and hw₂.1).and hdf).exists
    have hσ : negative = false ∨ w₂ 0 * w₁ 0 = 0 := by
      cases negative
      · exact Or.inl rfl
      · exact Or.inr (hn0 rfl)
    obtain ⟨R', e', -, h4⟩ := C30_feedback_partial a b h3 hdd negative (w₁ 0) (w₂ 0) hw₁.d hw₂.d hσ hz hreg (by rw [hc]; exact d)
    obtain rfl : R' = R := by rw [e'] at he'; cases he'; rfl
    rw [h4] at hd
    have e1 : ∀ k, w k = w₁ k + c • cauchy (cauchy w₁ w₂) w k := fun k => Expand.unique (hw.2 k) (((hw₁.2 k).add ((((hw₁.2 k).mul (hw₂.2 k)).mul (hw.2 k)).smul c)).congr (by
      filter_upwards [hdf] with s hs
      have h5 : (1 - c • (f₂ s * f₁ s)) * (1 - c • (f₂ s * f₁ s))⁻¹ = 1 := Matrix.mul_nonsing_inv _ (isUnit_iff_ne_zero.mpr hs)
      generalize (1 - c • (f₂ s * f₁ s))⁻¹ = X at h5 ⊢
      have h6 : X = 1 + c • (f₂ s * f₁ s * X) := by
        rw [Matrix.sub_mul, Matrix.one_mul, Matrix.smul_mul] at h5
        exact sub_eq_iff_eq_add.mp h5
      conv_rhs => rw [h6]
      rw [Matrix.mul_add, Matrix.mul_one, Matrix.mul_smul]
      simp only [Matrix.mul_assoc])) k le_rfl
    have e2 : ∀ U : Matrix (Fin N) (Fin m) ℝ, convOut w U = convOut w₁ U + convOut (fun k => c • cauchy w₁ w₂ k) (convOut w U) := by
      intro U
      rw [convOut_smul (w := cauchy w₁ w₂) (fun _ => rfl), ← convOut_comp (x := cauchy (cauchy w₁ w₂) w) (fun _ => rfl)]
      conv_lhs => rw [convOut_add e1, convOut_smul (w := cauchy (cauchy w₁ w₂) w) (fun _ => rfl)]
    have e3 : ∀ (U : Matrix (Fin N) (Fin m) ℝ) Y, convOut w₁ (U + c • convOut w₂ Y) = convOut w₁ U + convOut (fun k => c • cauchy w₁ w₂ k) Y := by
      intro U Y
      rw [convOut_lin, convOut_smul (fun _ => rfl), convOut_comp (fun _ => rfl)]
    have hdet' : (1 - c • (w₁ 0 * w₂ 0)).det ≠ 0 := by
      have := Matrix.det_one_sub_mul_comm (c • w₁ 0) (w₂ 0)
      rw [Matrix.smul_mul, Matrix.mul_smul] at this
      rwa [this]
    show (∃ V, Signals _ f Y V ∧ Signals _ e (U + (if negative = true then -1 else 1 : ℝ) • V) Y) ↔ _
    rw [hc]
    constructor
    · rintro ⟨V, hV, hY⟩
      rw [(hs₂ (hdd ▸ hd) Y V).mp hV] at hY
      have h5 := (hs₁ hd _ Y).mp hY
      rw [e3] at h5
      exact convOut_unique (x := fun k => c • cauchy w₁ w₂ k) hdet' h5 (e2 U)
    · intro hY
      refine ⟨_, (hs₂ (hdd ▸ hd) Y _).mpr rfl, (hs₁ hd _ Y).mpr ?_⟩
      rw [e3, hY]
      exact e2 U

/-- **C94**: simulating the model that a formula over discrete-time `State` models evaluates to is simulating the block diagram of the formula: the simulation returns samples `Y`, and `Y` is the only signal that fits the block diagram when every block answers its own input as its own simulation says. In the block diagram signals are added and scaled, the output of one block is the input of the next, inverses exchange input and output, and loops are closed, algebraic loops included. Missing from the full claim: sums and differences of two dynamic models, which drop the sampling period (`C94_sum_violated`), negative feedback with a direct feedthrough around the loop (`C30_negative_violated`), and inputs of a single sample (`C39_single_sample_violated`). -/
theorem C94_diagram_partial (hE : BalanceOk B) (fuel : ℕ) (e : SExpr ℝ p m) (hm : AllModels (fun p m G => 1 ≤ p ∧ 1 ≤ m ∧ Consistent G p m ∧ DtOk G.dt) e)
    (hn : NoDirectLoop fuel e) {R : StateM ℝ} (he : e.eval fuel = .ok R) {h : ℝ} (hd : R.dt = some h) (hN : 2 ≤ N) {targ : Option (List ℝ)} {t : List ℝ}
    (ht : TimesOk N h targ t) (U : Matrix (Fin N) (Fin m) ℝ) :
    ∃ Y : Matrix (Fin N) (Fin p) ℝ, (∀ S : StateObj ℝ P, S.g = R → simulate Nm B S (Arr.of U) targ none false = .ok (.flat (Arr.of Y), t)) ∧
      ∀ Y', Signals (Simulated Nm B targ t) e U Y' ↔ Y' = Y := by
  obtain ⟨h1, h2, h3, f, w, hw, -, hs⟩ := diagram_aux (Nm := Nm) hE fuel hN ht e hm hn R he
  exact ⟨convOut w U, hw.simulated hE h2 h3 hd hN ht U, hs hd U⟩

/-- **C94** fails for sums of dynamic discrete models of the same shape and sampling period: the block diagram has a solution, but the sum forgets the sampling period (`C16_sum_drops_dt_violated`) and its simulation with the same arguments raises. -/
theorem C94_sum_violated (hE : BalanceOk B) (fuel : ℕ) {G H : StateM ℝ} (h1 : 1 ≤ p) (h2 : 1 ≤ m) (hG : Consistent G p m) (hH : Consistent H p m) (hg : G.isgain = false) (hg' : H.isgain = false)
    {h : ℝ} (hh : 0 < h) (hd : G.dt = some h) (hd' : H.dt = some h) (hN : 2 ≤ N) (U : Matrix (Fin N) (Fin m) ℝ) :
    ∃ R, (SExpr.add (.model G) (.model H) : SExpr ℝ p m).eval fuel = .ok R ∧
      (∃ Y, Signals (Simulated Nm B none ((List.range N).map fun k : ℕ => (k : ℝ) * h)) (SExpr.add (.model G) (.model H) : SExpr ℝ p m) U Y) ∧
      ∀ S : StateObj ℝ P, S.g = R → simulate Nm B S (Arr.of U) none none false = .error .value := by
  have hk : DtOk (some h) := by rintro x ⟨⟩; exact hh
  obtain ⟨D, hD⟩ := Arr.exists_of hG.1.1 hG.1.2
  obtain ⟨D', hD'⟩ := Arr.exists_of hH.1.1 hH.1.2
  have a := dynWith_of_consistent hG hg hD
  have b := dynWith_of_consistent hH hg' hD'
  rw [hd] at a
  rw [hd'] at b
  obtain ⟨R, hR, hRd⟩ := a.add b (fuel + 2)
  obtain ⟨f₁, w₁, hw₁, -⟩ := exists_weights hG
  obtain ⟨f₂, w₂, hw₂, -⟩ := exists_weights hH
  refine ⟨R, hR, ⟨_, convOut w₁ U, convOut w₂ U, hw₁.simulated hE h2 (hd ▸ hk) hd hN (.inl ⟨rfl, rfl⟩) U, hw₂.simulated hE h2 (hd' ▸ hk) hd' hN (.inl ⟨rfl, rfl⟩) U, rfl⟩, ?_⟩
  rintro S rfl
  have e1 : S.g.dt = none := by obtain ⟨A, B, C, hS⟩ := hRd; rw [hS]
  simp only [simulate, checkX0, checkUT, timeArray, e1, Bind.bind, Except.bind]

/-! ## Continuous models -/

/-- `v` are the weights of the simulation with step `d` of a continuous model with Markov parameters `w`. -/
def Held (d : ℝ) (w v : ℕ → Matrix (Fin p) (Fin m) ℝ) : Prop :=
  v 0 = w 0 ∧ ∀ (k : ℕ) i j, HasSum (fun r : ℕ => (r.factorial : ℝ)⁻¹ * ((k * d) ^ r * if r = 0 then 0 else w r i j)) (∑ l ∈ Finset.range k, v (l + 1) i j)

theorem held_markov (d : ℝ) (A : Matrix (Fin n) (Fin n) ℝ) (B : Matrix (Fin n) (Fin m) ℝ) (C : Matrix (Fin p) (Fin n) ℝ) (D : Matrix (Fin p) (Fin m) ℝ) :
    Held d (markov A B C D) (markov (NormedSpace.exp (d • A)) (gam (d • A) (d • B) 0) C D) := by
  refine ⟨rfl, fun k i j => ?_⟩
  have h1 := hasSum_hold A B C d k i j
  rw [Matrix.sum_apply] at h1
  have e : (fun r : ℕ => (r.factorial : ℝ)⁻¹ * ((k * d) ^ r * markov A B C 0 r i j)) = fun r : ℕ => (r.factorial : ℝ)⁻¹ * ((k * d) ^ r * if r = 0 then 0 else markov A B C D r i j) := by
    funext r
    cases r <;> simp [markov]
  rw [e] at h1
  exact h1

theorem held_const (d : ℝ) (D : Matrix (Fin p) (Fin m) ℝ) : Held d (fun k => if k = 0 then D else 0) (fun k => if k = 0 then D else 0) := by
  refine ⟨rfl, fun k i j => ?_⟩
  have e : (fun r : ℕ => (r.factorial : ℝ)⁻¹ * (((k : ℝ) * d) ^ r * if r = 0 then 0 else (if r = 0 then D else 0) i j)) = fun _ => 0 := by
    funext r
    by_cases hr : r = 0 <;> simp [hr]
  rw [e]
  simpa using hasSum_zero

theorem Held.add {d : ℝ} {w v w' v' : ℕ → Matrix (Fin p) (Fin m) ℝ} (h : Held d w v) (h' : Held d w' v') : Held d (fun k => w k + w' k) (fun k => v k + v' k) := by
  refine ⟨congrArg₂ _ h.1 h'.1, fun k i j => ?_⟩
  simp only [Matrix.add_apply, Finset.sum_add_distrib]
  convert (h.2 k i j).add (h'.2 k i j) using 1
  funext r
  split_ifs <;> ring

theorem Held.smul {d : ℝ} {w v : ℕ → Matrix (Fin p) (Fin m) ℝ} (c : ℝ) (h : Held d w v) : Held d (fun k => c • w k) (fun k => c • v k) := by
  refine ⟨congrArg _ h.1, fun k i j => ?_⟩
  simp only [Matrix.smul_apply, smul_eq_mul, ← Finset.mul_sum]
  have e : (fun r : ℕ => (r.factorial : ℝ)⁻¹ * ((k * d) ^ r * if r = 0 then 0 else c * w r i j)) = fun r : ℕ => c * ((r.factorial : ℝ)⁻¹ * ((k * d) ^ r * if r = 0 then 0 else w r i j)) := by
    funext r
    split_ifs <;> ring
  rw [e]
  exact (h.2 k i j).mul_left c

theorem Held.unique {d : ℝ} {w v v' : ℕ → Matrix (Fin p) (Fin m) ℝ} (h : Held d w v) (h' : Held d w v') (k : ℕ) : v k = v' k := by
  cases k with
  | zero => rw [h.1, h'.1]
  | succ k =>
    ext i j
    have h1 := (h.2 (k + 1) i j).unique (h'.2 (k + 1) i j)
    have h2 := (h.2 k i j).unique (h'.2 k i j)
    rw [Finset.sum_range_succ, Finset.sum_range_succ, h2] at h1
    exact add_left_cancel h1

theorem Weighs.held {g : StateM ℝ} {f : ℝ → Matrix (Fin p) (Fin m) ℝ} {w : ℕ → Matrix (Fin p) (Fin m) ℝ} (hw : Weighs g f w) (d : ℝ) : ∃ v, Held d w v := by
  obtain ⟨s, hs⟩ := hw.1.exists
  obtain ⟨a, b, c, D, dt, rfl⟩ | ⟨n, A, B, C, D, dt, rfl⟩ := consistent_cases (hasTF_consistent hs)
  · have h1 : Weighs (⟨a, b, c, Arr.of D, dt, true⟩ : StateM ℝ) (fun _ => D) (fun k => if k = 0 then D else 0) :=
      ⟨Eventually.of_forall fun s => .inl ⟨rfl, D, rfl, by simp⟩, fun K => Expand.const D⟩
    rw [funext fun k => hw.unique h1 k]
    exact ⟨_, held_const d D⟩
  · have h1 : Weighs (⟨Arr.of A, Arr.of B, Arr.of C, Arr.of D, dt, false⟩ : StateM ℝ) (tfReal A B C D) (markov A B C D) := by
      refine ⟨?_, expand_markov A B C D⟩
      filter_upwards [eventually_det A] with s hs
      exact hasTF_real hs
    rw [funext fun k => hw.unique h1 k]
    exact ⟨_, held_markov d A B C D⟩

theorem Weighs.simulated_held {g : StateM ℝ} {f : ℝ → Matrix (Fin p) (Fin m) ℝ} {w v : ℕ → Matrix (Fin p) (Fin m) ℝ} (hw : Weighs g f w) (hE : BalanceOk B) (hm : 1 ≤ m)
    (hd : g.dt = none) (hN : 2 ≤ N) {t : List ℝ} (ht : GridOk t) (hl : t.length = N) (hv : Held (t.getD 1 0 - t.getD 0 0) w v) (U : Matrix (Fin N) (Fin m) ℝ) :
    Simulated Nm B (some t) t p m g U (convOut v U) := by
  rintro S rfl
  obtain ⟨s, hs⟩ := hw.1.exists
  obtain ⟨n, A, B₁, C, D, h1, h2⟩ := weights_of (Nm := Nm) (S := S) hE (hasTF_consistent hs) (by rw [hd]; exact dtOk_none)
  have hta : timeArray S.g.dt (some (Arr.of U)) (some t) = .ok t := by
    rw [hd]
    unfold timeArray
    exact checkT_ok ht (fun h hh => by cases hh)
  have hW : Weighs S.g (tfReal A B₁ C D) (markov A B₁ C D) := by
    refine ⟨?_, expand_markov A B₁ C D⟩
    filter_upwards [eventually_det A] with s hs
    exact (h1 s _ hs).mpr rfl
  have e : weights S.g.dt t A B₁ C D = v := by
    rw [hd]
    refine funext fun k => Held.unique (held_markov _ A B₁ C D) ?_ k
    rw [funext fun k => hW.unique hw k]
    exact hv
  rw [h2 false hN hm hta hl, e]
  simp [convResult]

theorem Weighs.simulated_held_iff {g : StateM ℝ} {f : ℝ → Matrix (Fin p) (Fin m) ℝ} {w v : ℕ → Matrix (Fin p) (Fin m) ℝ} (hw : Weighs g f w) (hE : BalanceOk B) (hm : 1 ≤ m)
    (hd : g.dt = none) (hN : 2 ≤ N) {t : List ℝ} (ht : GridOk t) (hl : t.length = N) (hv : Held (t.getD 1 0 - t.getD 0 0) w v) (U : Matrix (Fin N) (Fin m) ℝ)
    (Y : Matrix (Fin N) (Fin p) ℝ) : Simulated Nm B (some t) t p m g U Y ↔ Y = convOut v U := by
  have h1 := hw.simulated_held (Nm := Nm) hE hm hd hN ht hl hv U
  constructor
  · intro h2
    have h3 := (h2 ⟨g, (0, 0), none, none, 0, [], [], false⟩ rfl).symm.trans (h1 ⟨g, (0, 0), none, none, 0, [], [], false⟩ rfl)
    simp only [Except.ok.injEq, Prod.mk.injEq, SimOut.flat.injEq, Arr.of_inj, and_true] at h3
    exact h3
  · rintro rfl
    exact h1

/-- What the induction over superpositions shows. -/
def Superposed (Nm : Numerics ℝ P) (B : DNum) (N : ℕ) (t : List ℝ) {p m : ℕ} (e : SExpr ℝ p m) (R : StateM ℝ) : Prop :=
  1 ≤ m ∧ R.dt = none ∧ ∃ f w v, Weighs (p := p) (m := m) R f w ∧ Held (t.getD 1 0 - t.getD 0 0) w v ∧
    ∀ (U : Matrix (Fin N) (Fin m) ℝ) Y, Signals (Simulated Nm B (some t) t) e U Y ↔ Y = convOut v U

theorem superposed_aux (hE : BalanceOk B) (fuel : ℕ) {t : List ℝ} (hN : 2 ≤ N) (ht : GridOk t) (hl : t.length = N) : ∀ {p m : ℕ} (e : SExpr ℝ p m), Superposition e →
    AllModels (fun p m G => 1 ≤ m ∧ Consistent G p m ∧ G.dt = none) e → ∀ R, e.eval fuel = .ok R → Superposed Nm B N t e R := by
  intro p m e
  induction e with
  | model G =>
    intro _ ⟨h2, h5, h4⟩ R he
    cases he
    obtain ⟨f, w, hw, -⟩ := exists_weights h5
    obtain ⟨v, hv⟩ := hw.held (t.getD 1 0 - t.getD 0 0)
    exact ⟨h2, h4, f, w, v, hw, hv, fun U Y => hw.simulated_held_iff hE h2 h4 hN ht hl hv U Y⟩
  | neg e ih =>
    intro hp hm R he
    obtain ⟨G, hG, he'⟩ := bind_ok he
    obtain ⟨h2, h3, f, w, v, hw, hv, hs⟩ := ih hp hm G hG
    have key : ∀ s, HasTF G _ _ s (f s) → HasTF R _ _ s (-f s) ∧ R.dt = none := by
      intro s hs'
      obtain ⟨R', e', h5, h4⟩ := C15_neg hs' (h3 ▸ dtOk_none)
      obtain rfl : R' = R := by rw [e'] at he'; cases he'; rfl
      exact ⟨h5, h4.trans h3⟩
    obtain ⟨s, hs'⟩ := hw.1.exists
    refine ⟨h2, (key s hs').2, fun s => (-1 : ℝ) • f s, fun k => (-1 : ℝ) • w k, fun k => (-1 : ℝ) • v k, ⟨hw.1.mono fun s hs => ?_, fun K => (hw.2 K).smul (-1)⟩, hv.smul (-1), fun U Y => ?_⟩
    · have h4 := (key s hs).1
      rwa [← neg_one_smul ℝ (f s)] at h4
    rw [convOut_smul (w := v) (fun _ => rfl), neg_one_smul]
    constructor
    · rintro ⟨V, hV, rfl⟩
      rw [(hs U V).mp hV]
    · intro hY
      exact ⟨_, (hs U _).mpr rfl, hY⟩
  | scale k e ih =>
    intro hp hm R he
    obtain ⟨G, hG, he'⟩ := bind_ok he
    obtain ⟨h2, h3, f, w, v, hw, hv, hs⟩ := ih hp hm G hG
    have key : ∀ s, HasTF G _ _ s (f s) → HasTF R _ _ s (k • f s) ∧ R.dt = none := by
      intro s hs'
      obtain ⟨R', e', h5, h4⟩ := C18_scalar_left hs' (h3 ▸ dtOk_none) k
      obtain rfl : R' = R := by rw [StateM.rmulGain, e'] at he'; cases he'; rfl
      exact ⟨h5, h4.trans h3⟩
    obtain ⟨s, hs'⟩ := hw.1.exists
    refine ⟨h2, (key s hs').2, fun s => k • f s, fun i => k • w i, fun i => k • v i, ⟨hw.1.mono fun s hs => (key s hs).1, fun K => (hw.2 K).smul k⟩, hv.smul k, fun U Y => ?_⟩
    rw [convOut_smul (w := v) (fun _ => rfl)]
    constructor
    · rintro ⟨V, hV, rfl⟩
      rw [(hs U V).mp hV]
    · intro hY
      exact ⟨_, (hs U _).mpr rfl, hY⟩
  | @shift p m e k ih =>
    intro hp hm R he
    obtain ⟨G, hG, he'⟩ := bind_ok he
    obtain ⟨h2, h3, f, w, v, hw, hv, hs⟩ := ih hp hm G hG
    have key : ∀ s, HasTF G _ _ s (f s) → HasTF R _ _ s (f s + Matrix.of fun _ _ => k) ∧ R.dt = none := by
      intro s hs'
      obtain ⟨⟨R', e', h5, h4⟩, -⟩ := C15_add_scalar hs' (h3 ▸ dtOk_none) k (fuel + 2)
      obtain rfl : R' = R := by rw [e'] at he'; cases he'; rfl
      exact ⟨h5, h4.trans h3⟩
    obtain ⟨s, hs'⟩ := hw.1.exists
    refine ⟨h2, (key s hs').2, fun s => f s + Matrix.of fun _ _ => k, _, _, ⟨hw.1.mono fun s hs => (key s hs).1, fun K => (hw.2 K).add (Expand.const _)⟩, hv.add (held_const _ _), fun U Y => ?_⟩
    rw [convOut_add (w := v) (v := fun i => if i = 0 then Matrix.of fun _ _ => k else 0) (fun _ => rfl), conv_gain (fun _ => rfl)]
    have e2 : U * (Matrix.of fun (_ : Fin p) (_ : Fin m) => k)ᵀ = Matrix.of fun i _ => k * ∑ j, U i j := by
      ext i j
      simp [Matrix.mul_apply, Finset.mul_sum, mul_comm]
    rw [e2]
    constructor
    · rintro ⟨V, hV, rfl⟩
      rw [(hs U V).mp hV]
    · intro hY
      exact ⟨_, (hs U _).mpr rfl, hY⟩
  | add e f ih ih' =>
    intro hp hm R he
    obtain ⟨G, hG, he'⟩ := bind_ok he
    obtain ⟨H, hH, he'⟩ := bind_ok he'
    obtain ⟨h2, h3, f₁, w₁, v₁, hw₁, hv₁, hs₁⟩ := ih hp.1 hm.1 G hG
    obtain ⟨-, h4, f₂, w₂, v₂, hw₂, hv₂, hs₂⟩ := ih' hp.2 hm.2 H hH
    have hR : R.dt = none := by
      obtain ⟨s, a, b⟩ := (hw₁.1.and hw₂.1).exists
      cases hR : R.dt with
      | none => rfl
      | some h => exact absurd ((add_period a b (h3 ▸ dtOk_none) he' hR).1.symm.trans h3) (by simp)
    refine ⟨h2, hR, fun s => f₁ s + f₂ s, _, _, ⟨?_, fun K => (hw₁.2 K).add (hw₂.2 K)⟩, hv₁.add hv₂, fun U Y => ?_⟩
    · filter_upwards [hw₁.1, hw₂.1] with s a b
      exact (add_value a b (h3 ▸ dtOk_none) he').1
    rw [convOut_add (w := v₁) (v := v₂) (fun _ => rfl)]
    constructor
    · rintro ⟨V, W, hV, hW, rfl⟩
      rw [(hs₁ U V).mp hV, (hs₂ U W).mp hW]
    · intro hY
      exact ⟨_, _, (hs₁ U _).mpr rfl, (hs₂ U _).mpr rfl, hY⟩
  | sub e f ih ih' =>
    intro hp hm R he
    obtain ⟨G, hG, he'⟩ := bind_ok he
    obtain ⟨H, hH, he'⟩ := bind_ok he'
    obtain ⟨h2, h3, f₁, w₁, v₁, hw₁, hv₁, hs₁⟩ := ih hp.1 hm.1 G hG
    obtain ⟨-, h4, f₂, w₂, v₂, hw₂, hv₂, hs₂⟩ := ih' hp.2 hm.2 H hH
    obtain ⟨H', hH', he'⟩ := bind_ok he'
    have key : ∀ s, HasTF H _ _ s (f₂ s) → HasTF H' _ _ s (-f₂ s) := by
      intro s hs'
      obtain ⟨R', e', h5, -⟩ := C15_neg hs' (h4 ▸ dtOk_none)
      obtain rfl : R' = H' := by rw [e'] at hH'; cases hH'; rfl
      exact h5
    have hR : R.dt = none := by
      obtain ⟨s, a, b⟩ := (hw₁.1.and hw₂.1).exists
      cases hR : R.dt with
      | none => rfl
      | some h => exact absurd ((add_period a (key s b) (h3 ▸ dtOk_none) he' hR).1.symm.trans h3) (by simp)
    refine ⟨h2, hR, fun s => f₁ s + (-1 : ℝ) • f₂ s, _, _, ⟨?_, fun K => (hw₁.2 K).add ((hw₂.2 K).smul (-1))⟩, hv₁.add (hv₂.smul (-1)), fun U Y => ?_⟩
    · filter_upwards [hw₁.1, hw₂.1] with s a b
      rw [neg_one_smul]
      exact (add_value a (key s b) (h3 ▸ dtOk_none) he').1
    rw [convOut_add (w := v₁) (v := fun k => (-1 : ℝ) • v₂ k) (fun _ => rfl), convOut_smul (w := v₂) (fun _ => rfl), neg_one_smul, ← sub_eq_add_neg]
    constructor
    · rintro ⟨V, W, hV, hW, rfl⟩
      rw [(hs₁ U V).mp hV, (hs₂ U W).mp hW]
    · intro hY
      exact ⟨_, _, (hs₁ U _).mpr rfl, (hs₂ U _).mpr rfl, hY⟩
  | mul e f ih ih' => intro hp; exact hp.elim
  | inv e ih => intro hp; exact hp.elim
  | loop negative e f ih ih' => intro hp; exact hp.elim

/-- **C94**, continuous time: simulating a model that is a superposition (signs, sums, differences, scalar factors and summands) of continuous-time models is superposing the simulations of these models with the same time array. Products, inverses and loops of continuous models are not included: the simulation holds the input constant between the samples, and the signals inside a continuous diagram are not piecewise constant. -/
theorem C94_superposition (hE : BalanceOk B) (fuel : ℕ) (e : SExpr ℝ p m) (hs : Superposition e) (hm : AllModels (fun p m G => 1 ≤ m ∧ Consistent G p m ∧ G.dt = none) e)
    {R : StateM ℝ} (he : e.eval fuel = .ok R) (hN : 2 ≤ N) {t : List ℝ} (ht : GridOk t) (hl : t.length = N) (U : Matrix (Fin N) (Fin m) ℝ) :
    ∃ Y : Matrix (Fin N) (Fin p) ℝ, (∀ S : StateObj ℝ P, S.g = R → simulate Nm B S (Arr.of U) (some t) none false = .ok (.flat (Arr.of Y), t)) ∧
      ∀ Y', Signals (Simulated Nm B (some t) t) e U Y' ↔ Y' = Y := by
  obtain ⟨h2, h3, f, w, v, hw, hv, hs⟩ := superposed_aux (Nm := Nm) hE fuel hN ht hl e hs hm R he
  exact ⟨convOut v U, hw.simulated_held hE h2 h3 hN ht hl hv U, hs U⟩

/-! ## Non-vacuity -/

/-- The delay `1/z` with sampling period 1. -/
noncomputable def delayM : StateM ℝ := ⟨Arr.of !![0], Arr.of !![1], Arr.of !![1], Arr.of !![0], some 1, false⟩

/-- `feedback(D @ D, 2 * D)` for the delay `D`. -/
noncomputable def delayLoop : SExpr ℝ 1 1 := .loop true (.mul (q := 1) (.model delayM) (.model delayM)) (.scale 2 (.model delayM))

theorem delayM_ok : Consistent delayM 1 1 ∧ delayM.isgain = false ∧ delayM.dt = some 1 := ⟨⟨⟨rfl, rfl⟩, fun _ => ⟨rfl, rfl, rfl, rfl, rfl⟩⟩, rfl, rfl⟩

theorem dtOk_one : DtOk (some (1 : ℝ)) := by rintro x ⟨⟩; exact one_pos

theorem delay_sim (hE : BalanceOk B) (a b c d e f : ℝ) :
    Simulated Nm B none ((List.range 6).map fun k : ℕ => (k : ℝ) * 1) 1 1 delayM !![a; b; c; d; e; f] !![0; a; b; c; d; e] := by
  have hw : Weighs delayM (tfReal !![0] !![1] !![1] (!![0] : Matrix (Fin 1) (Fin 1) ℝ)) (markov (!![0] : Matrix (Fin 1) (Fin 1) ℝ) !![1] !![1] !![0]) := by
    refine ⟨?_, expand_markov _ _ _ _⟩
    filter_upwards [eventually_det (!![0] : Matrix (Fin 1) (Fin 1) ℝ)] with s hs
    exact hasTF_real hs
  have h1 := hw.simulated (Nm := Nm) (N := 6) hE le_rfl dtOk_one rfl (by norm_num) (.inl ⟨rfl, rfl⟩) !![a; b; c; d; e; f]
  convert h1 using 1
  have e0 : (!![0] : Matrix (Fin 1) (Fin 1) ℝ) = 0 := by ext i j; fin_cases i; fin_cases j; rfl
  have e1 : (!![1] : Matrix (Fin 1) (Fin 1) ℝ) = 1 := by ext i j; fin_cases i; fin_cases j; rfl
  ext k i
  rw [convOut_apply]
  fin_cases i
  fin_cases k <;> simp [Finset.sum_range_succ, markov, sampleSeq, e0, e1]

theorem delayLoop_noDirect (fuel : ℕ) : NoDirectLoop fuel delayLoop := by
  refine ⟨⟨trivial, trivial⟩, trivial, fun _ G H D N hG hH hD hN => ?_⟩
  obtain ⟨-, h1⟩ := C88_returns_partial fuel dtOk_one (.mul (q := 1) (.model delayM) (.model delayM) : SExpr ℝ 1 1) ⟨delayM_ok, delayM_ok⟩ ⟨trivial, trivial⟩ ⟨trivial, trivial⟩ (.inr ⟨trivial, trivial⟩)
  obtain ⟨-, -, -, -, D', ⟨E, F, hE, hF, rfl⟩, h3⟩ := h1 G hG
  obtain rfl := Arr.of_inj.mp (hD.symm.trans h3)
  obtain rfl : !![0] = E := Arr.of_inj.mp hE
  have e0 : (!![0] : Matrix (Fin 1) (Fin 1) ℝ) = 0 := by ext i j; fin_cases i; fin_cases j; rfl
  rw [e0, Matrix.zero_mul, Matrix.mul_zero]

/-- The response of the loop `y_k = u_(k-2) - 2 y_(k-3)` to `1, 0, 0, ...`. -/
example (hE : BalanceOk B) (fuel : ℕ) : ∃ R, delayLoop.eval fuel = .ok R ∧
    ∀ S : StateObj ℝ P, S.g = R → simulate Nm B S (Arr.of !![1; 0; 0; 0; 0; 0]) none none false = .ok (.flat (Arr.of !![0; 0; 1; 0; 0; -2]), (List.range 6).map fun k : ℕ => (k : ℝ) * 1) := by
  obtain ⟨h1, h2⟩ := C88_returns_partial fuel dtOk_one delayLoop ⟨⟨delayM_ok, delayM_ok⟩, delayM_ok⟩ ⟨⟨trivial, trivial⟩, two_ne_zero, trivial⟩ (delayLoop_noDirect fuel) (.inr ⟨⟨trivial, trivial⟩, trivial⟩)
  obtain ⟨R, hR⟩ := h1.mpr (by
    refine ⟨⟨trivial, trivial⟩, trivial, ?_⟩
    rintro E F ⟨E₁, E₂, a, b, rfl⟩ ⟨F', c, rfl⟩ ⟨x, hx, hx'⟩
    obtain rfl : !![0] = E₁ := Arr.of_inj.mp a
    obtain ⟨x0, rfl⟩ : ∃ x0, x = ![x0] := ⟨x 0, by ext i; fin_cases i; rfl⟩
    have hx0 : x0 ≠ 0 := by rintro rfl; exact hx (by ext i; fin_cases i; rfl)
    have e0 : (!![0] : Matrix (Fin 1) (Fin 1) ℝ) = 0 := by ext i j; fin_cases i; fin_cases j; rfl
    rw [e0] at hx'
    simp at hx'
    have := mul_self_pos.mpr hx0
    norm_num at hx'
    nlinarith)
  refine ⟨R, hR, ?_⟩
  have ok1 : 1 ≤ 1 ∧ 1 ≤ 1 ∧ Consistent delayM 1 1 ∧ DtOk delayM.dt := ⟨le_rfl, le_rfl, delayM_ok.1, dtOk_one⟩
  obtain ⟨Y, h3, h4⟩ := C94_diagram_partial (Nm := Nm) hE fuel delayLoop ⟨⟨ok1, ok1⟩, ok1⟩ (delayLoop_noDirect fuel) hR (h2 R hR).2.2.1 (N := 6) (by norm_num) (.inl ⟨rfl, rfl⟩) !![1; 0; 0; 0; 0; 0]
  have h5 : Signals (Simulated Nm B none ((List.range 6).map fun k : ℕ => (k : ℝ) * 1)) delayLoop !![1; 0; 0; 0; 0; 0] !![0; 0; 1; 0; 0; -2] := by
    refine ⟨!![0; 0; 0; 2; 0; 0], ⟨!![0; 0; 0; 1; 0; 0], delay_sim hE 0 0 1 0 0 (-2), ?_⟩, !![0; 1; 0; 0; -2; 0], ?_, delay_sim hE 0 1 0 0 (-2) 0⟩
    · ext i j; fin_cases j; fin_cases i <;> simp
    · have e1 : (!![1; 0; 0; 0; 0; 0] : Matrix (Fin 6) (Fin 1) ℝ) + (if true = true then -1 else 1 : ℝ) • !![0; 0; 0; 2; 0; 0] = !![1; 0; 0; -2; 0; 0] := by
        ext i j; fin_cases j; fin_cases i <;> simp
      rw [e1]
      exact delay_sim hE 1 0 0 (-2) 0 0
  rw [(h4 _).mp h5]
  exact h3

/-- The superposition `1/(s+1) + (3/(s+2) + 1)`. -/
noncomputable def twoLags : SExpr ℝ 1 1 :=
  .add (.model ⟨Arr.of !![-1], Arr.of !![1], Arr.of !![1], Arr.of !![0], none, false⟩) (.shift (.model ⟨Arr.of !![-2], Arr.of !![1], Arr.of !![3], Arr.of !![0], none, false⟩) 1)

example (hE : BalanceOk B) (fuel : ℕ) (U : Matrix (Fin 3) (Fin 1) ℝ) : ∃ R Y, twoLags.eval fuel = .ok R ∧
    (∀ S : StateObj ℝ P, S.g = R → simulate Nm B S (Arr.of U) (some [0, 1, 2]) none false = .ok (.flat (Arr.of Y), [0, 1, 2])) ∧
    Signals (Simulated Nm B (some [0, 1, 2]) [0, 1, 2]) twoLags U Y := by
  have hm : AllModels (fun p m G => Consistent G p m ∧ G.isgain = false ∧ G.dt = none) twoLags :=
    ⟨⟨⟨⟨rfl, rfl⟩, fun _ => ⟨rfl, rfl, rfl, rfl, rfl⟩⟩, rfl, rfl⟩, ⟨⟨⟨rfl, rfl⟩, fun _ => ⟨rfl, rfl, rfl, rfl, rfl⟩⟩, rfl, rfl⟩⟩
  obtain ⟨R, hR⟩ := (C88_returns_partial fuel dtOk_none twoLags hm ⟨trivial, trivial⟩ ⟨trivial, trivial⟩ (.inl rfl)).1.mpr ⟨trivial, trivial⟩
  have hg : GridOk [0, 1, 2] := by
    refine ⟨by norm_num, by norm_num, fun i hi => ?_⟩
    have hi' : i < 2 := Nat.lt_of_succ_lt_succ hi
    interval_cases i <;> norm_num
  obtain ⟨Y, h1, h2⟩ := C94_superposition (Nm := Nm) hE fuel twoLags ⟨trivial, trivial⟩ ⟨⟨le_rfl, hm.1.1, hm.1.2.2⟩, ⟨le_rfl, hm.2.1, hm.2.2.2⟩⟩ hR (N := 3) (by norm_num) hg rfl U
  exact ⟨R, Y, hR, h1, (h2 Y).mpr rfl⟩

example (hE : BalanceOk B) (fuel : ℕ) : ∃ R, (SExpr.add (.model delayM) (.model delayM) : SExpr ℝ 1 1).eval fuel = .ok R ∧
    ∀ S : StateObj ℝ P, S.g = R → simulate Nm B S (Arr.of !![1; 0; 0]) none none false = .error .value := by
  obtain ⟨R, h1, -, h2⟩ := C94_sum_violated (Nm := Nm) hE fuel (p := 1) (m := 1) le_rfl le_rfl delayM_ok.1 delayM_ok.1 rfl rfl one_pos rfl rfl (N := 3) (by norm_num) !![1; 0; 0]
  exact ⟨R, h1, h2⟩

end Harold
