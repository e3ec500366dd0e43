import Verif.Props.Blocks
import Verif.Props.TExpr
import Verif.Spec.TBlocks

/-!
# C94 for `Transfer` models
-/

namespace Harold

open Matrix Filter Topology Harold.Spec

variable {P : Type} {Nm : Numerics ℝ P} {B : DNum} {E : TNum ℝ} {N p q m n : ℕ}

/-! ## Entries -/

/-- The sequence of the entries `(i, j)`. -/
def entrySeq (w : ℕ → Matrix (Fin p) (Fin m) ℝ) (i : Fin p) (j : Fin m) : ℕ → Matrix (Fin 1) (Fin 1) ℝ := fun k => Matrix.of fun _ _ => w k i j

theorem expand_entry {f : ℝ → Matrix (Fin p) (Fin m) ℝ} {w : ℕ → Matrix (Fin p) (Fin m) ℝ} {K : ℕ} (h : Expand K f w) (i : Fin p) (j : Fin m) :
    Expand K (fun s => Matrix.of fun (_ : Fin 1) (_ : Fin 1) => f s i j) (entrySeq w i j) := by
  have hc : Continuous fun X : Matrix (Fin p) (Fin m) ℝ => Matrix.of fun (_ : Fin 1) (_ : Fin 1) => X i j := by
    refine continuous_matrix fun _ _ => ?_
    exact (continuous_apply j).comp (continuous_apply i)
  induction K generalizing f w with
  | zero => exact (hc.tendsto _).comp h
  | succ K ih =>
    refine ⟨(hc.tendsto _).comp h.1, (ih h.2).congr (Eventually.of_forall fun s => ?_)⟩
    ext a b
    simp [entrySeq]

theorem expand_of_entries {f : ℝ → Matrix (Fin p) (Fin m) ℝ} {w : ℕ → Matrix (Fin p) (Fin m) ℝ} {K : ℕ}
    (h : ∀ i j, Expand K (fun s => Matrix.of fun (_ : Fin 1) (_ : Fin 1) => f s i j) (entrySeq w i j)) : Expand K f w := by
  have hl : ∀ {f : ℝ → Matrix (Fin p) (Fin m) ℝ} {A : Matrix (Fin p) (Fin m) ℝ},
      (∀ i j, Tendsto (fun s => (Matrix.of fun (_ : Fin 1) (_ : Fin 1) => f s i j)) atTop (𝓝 (Matrix.of fun (_ : Fin 1) (_ : Fin 1) => A i j))) → Tendsto f atTop (𝓝 A) := by
    intro f A h
    refine tendsto_pi_nhds.mpr fun i => tendsto_pi_nhds.mpr fun j => ?_
    exact tendsto_pi_nhds.mp (tendsto_pi_nhds.mp (h i j) 0) 0
  induction K generalizing f w with
  | zero => exact hl h
  | succ K ih =>
    refine ⟨hl fun i j => (h i j).1, ih fun i j => (h i j).2.congr (Eventually.of_forall fun s => ?_)⟩
    ext a b
    simp [entrySeq]

/-- Output `i` is the sum of the responses of the entries `(i, j)` to input `j`. -/
theorem convOut_entries (w : ℕ → Matrix (Fin p) (Fin m) ℝ) (U : Matrix (Fin N) (Fin m) ℝ) (k : Fin N) (i : Fin p) :
    convOut w U k i = ∑ j, convOut (entrySeq w i j) (chan U j) k 0 := by
  rw [convOut_apply]
  refine Finset.sum_congr rfl fun j _ => ?_
  rw [convOut_apply]
  simp [entrySeq, sampleSeq, chan]

theorem convOut_place (w : ℕ → Matrix (Fin p) (Fin m) ℝ) (j : Fin m) (V : Matrix (Fin N) (Fin 1) ℝ) (i : Fin p) :
    chan (convOut w (place j V)) i = convOut (entrySeq w i j) V := by
  ext k a
  obtain rfl : a = 0 := Subsingleton.elim _ _
  show convOut w (place j V) k i = _
  rw [convOut_entries, Finset.sum_eq_single j]
  · congr 2
    ext a b
    obtain rfl : b = 0 := Subsingleton.elim _ _
    simp [chan, place]
  · intro l _ hl
    have e : chan (place j V) l = 0 := by
      ext a b
      simp [chan, place, hl]
    rw [e, convOut_apply]
    simp [sampleSeq]
  · simp

/-- A SISO block in every channel. -/
def scalSeq (p : ℕ) (w : ℕ → Matrix (Fin 1) (Fin 1) ℝ) : ℕ → Matrix (Fin p) (Fin p) ℝ := fun k => w k 0 0 • (1 : Matrix (Fin p) (Fin p) ℝ)

theorem expand_scal {f : ℝ → Matrix (Fin 1) (Fin 1) ℝ} {w : ℕ → Matrix (Fin 1) (Fin 1) ℝ} {K : ℕ} (h : Expand K f w) :
    Expand K (fun s => f s 0 0 • (1 : Matrix (Fin p) (Fin p) ℝ)) (scalSeq p w) := by
  have hc : Continuous fun X : Matrix (Fin 1) (Fin 1) ℝ => X 0 0 • (1 : Matrix (Fin p) (Fin p) ℝ) :=
    (continuous_id.matrix_elem 0 0).smul continuous_const
  induction K generalizing f w with
  | zero => exact (hc.tendsto _).comp h
  | succ K ih =>
    refine ⟨(hc.tendsto _).comp h.1, (ih h.2).congr (Eventually.of_forall fun s => ?_)⟩
    simp only [scalSeq, Matrix.smul_apply, Matrix.sub_apply, smul_eq_mul]
    rw [← sub_smul, smul_smul]

theorem convOut_scal (w : ℕ → Matrix (Fin 1) (Fin 1) ℝ) (V : Matrix (Fin N) (Fin p) ℝ) (i : Fin p) : chan (convOut (scalSeq p w) V) i = convOut w (chan V i) := by
  ext k a
  obtain rfl : a = 0 := Subsingleton.elim _ _
  show convOut (scalSeq p w) V k i = _
  rw [convOut_entries, Finset.sum_eq_single i]
  · congr 2
    funext k
    ext a b
    obtain rfl : a = 0 := Subsingleton.elim _ _
    obtain rfl : b = 0 := Subsingleton.elim _ _
    simp [entrySeq, scalSeq]
  · intro l _ hl
    rw [convOut_apply]
    simp [entrySeq, scalSeq, Matrix.one_apply_ne (Ne.symm hl)]
  · simp

theorem chan_ext {Y Y' : Matrix (Fin N) (Fin p) ℝ} (h : ∀ i, chan Y i = chan Y' i) : Y = Y' := by
  ext k i
  exact congrFun (congrFun (h i) k) 0

/-! ## Models -/

theorem HasVal.unique {G : TransferM ℝ} {s : ℝ} {M M' : Matrix (Fin p) (Fin m) ℝ} (h : HasVal G p m s M) (h' : HasVal G p m s M') : M = M' := by
  obtain ⟨A, D, e1, e2, e3⟩ := h
  obtain ⟨A', D', f1, f2, f3⟩ := h'
  obtain rfl := Arr.of_inj.mp (e1.symm.trans f1)
  obtain rfl := Arr.of_inj.mp (e2.symm.trans f2)
  ext i j
  rw [(e3 i j).2, (f3 i j).2]

/-- The simulation of a discrete `Transfer` model is the convolution with the expansion of its values. -/
theorem tmodel_weights (hbal : ∀ polys i, E.bal polys i ≠ 0) (hthr : E.lcmTol ≤ 1) (hE : BalanceOk B) {G : TransferM ℝ} (htol : ClearModel E.lcmTol E.remTol G)
    {A D : Matrix (Fin p) (Fin m) (List ℝ)} (hG : Normal G p m A D) {h : ℝ} (hd : G.dt = some h) (hN : 2 ≤ N) {targ : Option (List ℝ)} {t : List ℝ} (ht : TimesOk N h targ t) :
    ∃ f w, (∀ᶠ s : ℝ in atTop, HasVal G p m s (f s)) ∧ (∀ K, Expand K f w) ∧ ∀ U : Matrix (Fin N) (Fin m) ℝ, TSimulated E Nm B targ t p m G U (convOut w U) := by
  obtain ⟨T, e1, e2, e3, -, n, A₁, B₁, C₁, D₁, h1, h2⟩ := t2s_same (Nm := Nm) (B := B) hbal hthr htol hE hG
  refine ⟨tfReal A₁ B₁ C₁ D₁, markov A₁ B₁ C₁ D₁, ?_, expand_markov A₁ B₁ C₁ D₁, fun U => ?_⟩
  · filter_upwards [h1, eventually_hasVal hG] with s a b
    have : tfReal A₁ B₁ C₁ D₁ s = Matrix.of fun i j => polyAt s (A i j) / polyAt s (D i j) := by
      ext i j
      exact eq_div_of_mul_eq (b.1 i j) (a i j)
    rw [this]
    exact b.2
  · have hta : timeArray G.dt (some (Arr.of U)) targ = .ok t ∧ t.length = N := by
      rw [hd]
      rcases ht with ⟨rfl, rfl⟩ | ⟨rfl, h3, h4, h5⟩
      · exact ⟨timeArray_none U, by simp⟩
      · exact ⟨by unfold timeArray; exact checkT_ok h3 h4, h5⟩
    have hw : weights G.dt t A₁ B₁ C₁ D₁ = markov A₁ B₁ C₁ D₁ := by rw [hd]; rfl
    simp only [TSimulated, simulateTransfer, e1, Bind.bind, Except.bind]
    rw [h2 false hN hta.1 hta.2, hw]
    simp [convResult]

theorem tsimulated_iff {targ : Option (List ℝ)} {t : List ℝ} {G : TransferM ℝ} {U : Matrix (Fin N) (Fin m) ℝ} {Y₀ Y : Matrix (Fin N) (Fin p) ℝ} (h : TSimulated E Nm B targ t p m G U Y₀) :
    TSimulated E Nm B targ t p m G U Y ↔ Y = Y₀ := by
  constructor
  · intro h2
    have h3 := h2.symm.trans h
    simp only [Except.ok.injEq, Prod.mk.injEq, SimOut.flat.injEq, Arr.of_inj, and_true] at h3
    exact h3
  · rintro rfl
    exact h

/-! ## Formulas -/

theorem tdiagram_aux (hbal : ∀ polys i, E.bal polys i ≠ 0) (hthr : E.lcmTol ≤ 1) (hE : BalanceOk B) {h : ℝ} (hN : 2 ≤ N) {targ : Option (List ℝ)} {t : List ℝ} (ht : TimesOk N h targ t) :
    ∀ {p m : ℕ} (e : TExpr ℝ p m), TAllModels (fun p m G => ClearModel E.lcmTol E.remTol G ∧ G.dt = some h ∧ ∃ A D, Normal G p m A D) e →
      ∃ f w, (∀ᶠ s : ℝ in atTop, TValue s e (f s)) ∧ (∀ K, Expand K f w) ∧ ∀ (U : Matrix (Fin N) (Fin m) ℝ) Y, TSignals (TSimulated E Nm B targ t) e U Y ↔ Y = convOut w U := by
  intro p m e
  induction e with
  | model G =>
    rintro ⟨h1, h2, A, D, h3⟩
    obtain ⟨f, w, a, b, c⟩ := tmodel_weights (Nm := Nm) hbal hthr hE h1 h3 h2 hN ht
    exact ⟨f, w, a, b, fun U Y => tsimulated_iff (c U)⟩
  | neg e ih =>
    intro hm
    obtain ⟨f, w, a, b, c⟩ := ih hm
    refine ⟨fun s => (-1 : ℝ) • f s, fun k => (-1 : ℝ) • w k, a.mono fun s hs => ⟨f s, hs, neg_one_smul ℝ _⟩, fun K => (b K).smul (-1), fun U Y => ?_⟩
    rw [convOut_smul (w := w) (fun _ => rfl), neg_one_smul]
    constructor
    · rintro ⟨V, hV, rfl⟩
      rw [(c U V).mp hV]
    · intro hY
      exact ⟨_, (c U _).mpr rfl, hY⟩
  | scale k e ih =>
    intro hm
    obtain ⟨f, w, a, b, c⟩ := ih hm
    refine ⟨fun s => k • f s, fun i => k • w i, a.mono fun s hs => ⟨f s, hs, rfl⟩, fun K => (b K).smul k, fun U Y => ?_⟩
    rw [convOut_smul (w := w) (fun _ => rfl)]
    constructor
    · rintro ⟨V, hV, rfl⟩
      rw [(c U V).mp hV]
    · intro hY
      exact ⟨_, (c U _).mpr rfl, hY⟩
  | @shift p m e k ih =>
    intro hm
    obtain ⟨f, w, a, b, c⟩ := ih hm
    refine ⟨fun s => f s + Matrix.of fun _ _ => k, _, a.mono fun s hs => ⟨f s, hs, by ext; simp⟩, fun K => (b K).add (Expand.const _), fun U Y => ?_⟩
    rw [convOut_add (w := w) (v := fun i => if i = 0 then Matrix.of fun _ _ => k else 0) (fun _ => rfl), conv_gain (fun _ => rfl)]
    have e2 : U * (Matrix.of fun (_ : Fin p) (_ : Fin m) => k)ᵀ = Matrix.of fun i _ => k * ∑ j, U i j := by
      ext i j
      simp [Matrix.mul_apply, Finset.mul_sum, mul_comm]
    rw [e2]
    constructor
    · rintro ⟨V, hV, rfl⟩
      rw [(c U V).mp hV]
    · intro hY
      exact ⟨_, (c U _).mpr rfl, hY⟩
  | add e f ih ih' =>
    intro hm
    obtain ⟨f₁, w₁, a, b, c⟩ := ih hm.1
    obtain ⟨f₂, w₂, a', b', c'⟩ := ih' hm.2
    refine ⟨fun s => f₁ s + f₂ s, _, by filter_upwards [a, a'] with s x y using ⟨_, _, x, y, rfl⟩, fun K => (b K).add (b' K), fun U Y => ?_⟩
    rw [convOut_add (w := w₁) (v := w₂) (fun _ => rfl)]
    constructor
    · rintro ⟨V, W, hV, hW, rfl⟩
      rw [(c U V).mp hV, (c' U W).mp hW]
    · intro hY
      exact ⟨_, _, (c U _).mpr rfl, (c' U _).mpr rfl, hY⟩
  | sub e f ih ih' =>
    intro hm
    obtain ⟨f₁, w₁, a, b, c⟩ := ih hm.1
    obtain ⟨f₂, w₂, a', b', c'⟩ := ih' hm.2
    refine ⟨fun s => f₁ s + (-1 : ℝ) • f₂ s, _, by filter_upwards [a, a'] with s x y using ⟨_, _, x, y, by rw [neg_one_smul, sub_eq_add_neg]⟩,
      fun K => (b K).add ((b' K).smul (-1)), fun U Y => ?_⟩
    rw [convOut_add (w := w₁) (v := fun k => (-1 : ℝ) • w₂ k) (fun _ => rfl), convOut_smul (w := w₂) (fun _ => rfl), neg_one_smul, ← sub_eq_add_neg]
    constructor
    · rintro ⟨V, W, hV, hW, rfl⟩
      rw [(c U V).mp hV, (c' U W).mp hW]
    · intro hY
      exact ⟨_, _, (c U _).mpr rfl, (c' U _).mpr rfl, hY⟩
  | mul e f ih ih' =>
    intro hm
    obtain ⟨f₁, w₁, a, b, c⟩ := ih hm.1
    obtain ⟨f₂, w₂, a', b', c'⟩ := ih' hm.2
    refine ⟨fun s => f₁ s * f₂ s, _, by filter_upwards [a, a'] with s x y using ⟨_, _, x, y, rfl⟩, fun K => (b K).mul (b' K), fun U Y => ?_⟩
    rw [convOut_comp (w := w₁) (v := w₂) (fun _ => rfl)]
    constructor
    · rintro ⟨V, hV, hY⟩
      rw [(c V Y).mp hY, (c' U V).mp hV]
    · intro hY
      exact ⟨_, (c' U _).mpr rfl, (c _ Y).mpr hY⟩
  | @left p m e f ih ih' =>
    intro hm
    obtain ⟨f₁, w₁, a, b, c⟩ := ih hm.1
    obtain ⟨f₂, w₂, a', b', c'⟩ := ih' hm.2
    refine ⟨fun s => (f₁ s 0 0 • (1 : Matrix (Fin p) (Fin p) ℝ)) * f₂ s, _, ?_, fun K => (expand_scal (b K)).mul (b' K), fun U Y => ?_⟩
    · filter_upwards [a, a'] with s x y
      refine ⟨_, _, x, y, ?_⟩
      rw [Matrix.smul_mul, Matrix.one_mul]
      rfl
    rw [convOut_comp (w := scalSeq p w₁) (v := w₂) (fun _ => rfl)]
    constructor
    · rintro ⟨V, hV, hY⟩
      refine chan_ext fun i => ?_
      rw [convOut_scal, ← (c' U V).mp hV]
      exact (c _ _).mp (hY i)
    · intro hY
      refine ⟨_, (c' U _).mpr rfl, fun i => (c _ _).mpr ?_⟩
      rw [hY, convOut_scal]
  | @right p m e f ih ih' =>
    intro hm
    obtain ⟨f₁, w₁, a, b, c⟩ := ih hm.1
    obtain ⟨f₂, w₂, a', b', c'⟩ := ih' hm.2
    refine ⟨fun s => f₁ s * (f₂ s 0 0 • (1 : Matrix (Fin m) (Fin m) ℝ)), _, ?_, fun K => (b K).mul (expand_scal (b' K)), fun U Y => ?_⟩
    · filter_upwards [a, a'] with s x y
      refine ⟨_, _, x, y, ?_⟩
      rw [Matrix.mul_smul, Matrix.mul_one]
      ext i j
      simp [mul_comm]
    rw [convOut_comp (w := w₁) (v := scalSeq m w₂) (fun _ => rfl)]
    constructor
    · rintro ⟨V, hV, hY⟩
      have e1 : V = convOut (scalSeq m w₂) U := chan_ext fun i => by
        rw [convOut_scal]
        exact (c' _ _).mp (hV i)
      rw [← e1]
      exact (c _ _).mp hY
    · intro hY
      refine ⟨_, fun i => (c' _ _).mpr ?_, (c _ Y).mpr hY⟩
      rw [convOut_scal]
  | @times p m e f ih ih' =>
    intro hm
    obtain ⟨f₁, w₁, a, b, c⟩ := ih hm.1
    obtain ⟨f₂, w₂, a', b', c'⟩ := ih' hm.2
    set w : ℕ → Matrix (Fin p) (Fin m) ℝ := fun k => Matrix.of fun i j => cauchy (entrySeq w₁ i j) (entrySeq w₂ i j) k 0 0 with hw
    have e1 : ∀ i j k, entrySeq w i j k = cauchy (entrySeq w₁ i j) (entrySeq w₂ i j) k := by
      intro i j k
      ext x y
      obtain rfl : x = 0 := Subsingleton.elim _ _
      obtain rfl : y = 0 := Subsingleton.elim _ _
      rfl
    refine ⟨fun s => Matrix.of fun i j => f₁ s i j * f₂ s i j, w, by filter_upwards [a, a'] with s x y using ⟨_, _, x, y, rfl⟩, fun K => ?_, fun U Y => ?_⟩
    · refine expand_of_entries fun i j => ?_
      rw [funext (e1 i j)]
      refine ((expand_entry (b K) i j).mul (expand_entry (b' K) i j)).congr (Eventually.of_forall fun s => ?_)
      ext x y
      simp [Matrix.mul_apply]
    have e2 : ∀ (U : Matrix (Fin N) (Fin m) ℝ) (i : Fin p) (j : Fin m) (k : Fin N),
        convOut w₁ (place j (chan (convOut w₂ (place j (chan U j))) i)) k i = convOut (entrySeq w i j) (chan U j) k 0 := by
      intro U i j k
      have h1 : convOut w₁ (place j (chan (convOut w₂ (place j (chan U j))) i)) k i = chan (convOut w₁ (place j (chan (convOut w₂ (place j (chan U j))) i))) i k 0 := rfl
      rw [h1, convOut_place, convOut_place, ← convOut_comp (e1 i j)]
    constructor
    · rintro ⟨V, W, hV, hW, rfl⟩
      ext k i
      rw [convOut_entries]
      simp only [Matrix.of_apply]
      refine Finset.sum_congr rfl fun j _ => ?_
      rw [(c _ _).mp (hW i j), (c' _ _).mp (hV j), e2]
    · intro hY
      refine ⟨fun j => convOut w₂ (place j (chan U j)), fun i j => convOut w₁ (place j (chan (convOut w₂ (place j (chan U j))) i)), fun j => (c' _ _).mpr rfl, fun i j => (c _ _).mpr rfl, ?_⟩
      rw [hY]
      ext k i
      rw [convOut_entries]
      simp only [Matrix.of_apply]
      exact Finset.sum_congr rfl fun j _ => (e2 U i j k).symm

theorem tallModels_mono {Q Q' : ℕ → ℕ → TransferM ℝ → Prop} (hQ : ∀ p m G, Q p m G → Q' p m G) : ∀ {p m : ℕ} (e : TExpr ℝ p m), TAllModels Q e → TAllModels Q' e := by
  intro p m e
  induction e with
  | model G => exact hQ _ _ G
  | neg e ih | scale k e ih | shift e k ih => exact ih
  | add e f ih ih' | sub e f ih ih' | mul e f ih ih' | times e f ih ih' | left e f ih ih' | right e f ih ih' => exact fun h => ⟨ih h.1, ih' h.2⟩

theorem tallModels_and {Q₁ Q₂ Q : ℕ → ℕ → TransferM ℝ → Prop} (hQ : ∀ p m G, Q₁ p m G → Q₂ p m G → Q p m G) : ∀ {p m : ℕ} (e : TExpr ℝ p m), TAllModels Q₁ e → TAllModels Q₂ e → TAllModels Q e := by
  intro p m e
  induction e with
  | model G => exact hQ _ _ G
  | neg e ih | scale k e ih | shift e k ih => exact ih
  | add e f ih ih' | sub e f ih ih' | mul e f ih ih' | times e f ih ih' | left e f ih ih' | right e f ih ih' => exact fun h h' => ⟨ih h.1 h'.1, ih' h.2 h'.2⟩

/-- **C94** for `Transfer` models: simulating the model that a formula over discrete-time `Transfer` models evaluates to is simulating the block diagram of the formula. Sums and differences are included (`Transfer` sums keep the sampling period). Missing from the full claim: formulas that the code rejects (`C22_cancel_violated`), models with denominators that are not monic or with coefficients that are rounded to zero, results with superfluous leading zeros in a numerator, and inputs of a single sample. -/
theorem C94_transfer_partial (hbal : ∀ polys i, E.bal polys i ≠ 0) {S : Set (Polynomial ℝ)} (hS : CoarseClass E.lcmTol S) (hE : BalanceOk B) (e : TExpr ℝ p m)
    (hm : TAllModels (fun p m G => NormalIn S p m G ∧ ClearModel E.lcmTol E.remTol G) e) {R : TransferM ℝ} (he : e.eval E = .ok R)
    {A D : Matrix (Fin p) (Fin m) (List ℝ)} (hR : Normal R p m A D) (hR' : ClearModel E.lcmTol E.remTol R) {h : ℝ} (hd : R.dt = some h) (hN : 2 ≤ N)
    {targ : Option (List ℝ)} {t : List ℝ} (ht : TimesOk N h targ t) (U : Matrix (Fin N) (Fin m) ℝ) :
    ∃ Y : Matrix (Fin N) (Fin p) ℝ, simulateTransfer E Nm B R (Arr.of U) targ none false = .ok (.flat (Arr.of Y), t) ∧
      ∀ Y', TSignals (TSimulated E Nm B targ t) e U Y' ↔ Y' = Y := by
  have hthr := CoarseClass.le_one hS
  have hn : TAllModels (NormalIn S) e := tallModels_mono (fun _ _ _ h => h.1) e hm
  have hdt := C89_dt_partial hbal hS e hn he
  obtain ⟨f, w, a, b, c⟩ := tdiagram_aux (Nm := Nm) (B := B) hbal hthr hE hN ht e
    (tallModels_and (fun p m G (h1 : NormalIn S p m G ∧ ClearModel E.lcmTol E.remTol G) h2 => ⟨h1.2, h2.trans hd, by
      obtain ⟨A, D, h3, -⟩ := h1.1
      exact ⟨A, D, h3⟩⟩) e hm hdt)
  obtain ⟨f', w', a', b', c'⟩ := tmodel_weights (Nm := Nm) (B := B) hbal hthr hE hR' hR hd hN ht
  have hf : ∀ᶠ s in atTop, f' s = f s := by
    filter_upwards [a, a'] with s x y using HasVal.unique y (C89_value_partial hbal hS e hn he x)
  have hw : w' = w := funext fun k => (b' k).unique ((b k).congr (hf.mono fun s h => h.symm)) k le_rfl
  subst hw
  exact ⟨_, c' U, c U⟩

/-! ### Integer data -/

open Polynomial in
/-- A quotient of an integer polynomial and a monic integer polynomial. -/
def IntRat (x : RatFunc ℝ) : Prop := ∃ A D : ℤ[X], D.Monic ∧ x * algebraMap ℝ[X] (RatFunc ℝ) (D.map (Int.castRingHom ℝ)) = algebraMap ℝ[X] (RatFunc ℝ) (A.map (Int.castRingHom ℝ))

theorem IntRat.add {x y : RatFunc ℝ} (hx : IntRat x) (hy : IntRat y) : IntRat (x + y) := by
  obtain ⟨A, D, h1, h2⟩ := hx
  obtain ⟨A', D', h3, h4⟩ := hy
  refine ⟨A * D' + A' * D, D * D', h1.mul h3, ?_⟩
  simp only [Polynomial.map_mul, Polynomial.map_add, _root_.map_mul, _root_.map_add]
  rw [← h2, ← h4]
  ring

theorem IntRat.mul {x y : RatFunc ℝ} (hx : IntRat x) (hy : IntRat y) : IntRat (x * y) := by
  obtain ⟨A, D, h1, h2⟩ := hx
  obtain ⟨A', D', h3, h4⟩ := hy
  refine ⟨A * A', D * D', h1.mul h3, ?_⟩
  simp only [Polynomial.map_mul, _root_.map_mul]
  rw [← h2, ← h4]
  ring

theorem intRat_int (k : ℤ) : IntRat (algebraMap ℝ (RatFunc ℝ) (k : ℝ)) := by
  refine ⟨Polynomial.C k, 1, Polynomial.monic_one, ?_⟩
  simp

theorem IntRat.neg {x : RatFunc ℝ} (hx : IntRat x) : IntRat (-x) := by
  have h := (intRat_int (-1)).mul hx
  simpa using h

theorem intRat_sum {ι : Type} (s : Finset ι) {x : ι → RatFunc ℝ} (h : ∀ i, IntRat (x i)) : IntRat (∑ i ∈ s, x i) := by
  classical
  induction s using Finset.induction_on with
  | empty => simpa using intRat_int 0
  | insert a s ha ih =>
    rw [Finset.sum_insert ha]
    exact (h a).add ih

/-- Numerators over monic integer denominators are integer polynomials. -/
theorem IntRat.num {x : RatFunc ℝ} (hx : IntRat x) {A D : Polynomial ℝ} (hD : D ∈ monicInt ℝ) (h : x = algebraMap _ (RatFunc ℝ) A / algebraMap _ (RatFunc ℝ) D) :
    ∃ A' : Polynomial ℤ, A = A'.map (Int.castRingHom ℝ) := by
  obtain ⟨A₁, D₁, h1, h2⟩ := hx
  obtain ⟨D', h3, rfl⟩ := hD
  have h4 : algebraMap (Polynomial ℝ) (RatFunc ℝ) (D'.map (Int.castRingHom ℝ)) ≠ 0 := RatFunc.algebraMap_ne_zero (h3.map _).ne_zero
  have h5 : A * D₁.map (Int.castRingHom ℝ) = A₁.map (Int.castRingHom ℝ) * D'.map (Int.castRingHom ℝ) := by
    apply RatFunc.algebraMap_injective ℝ
    rw [_root_.map_mul, _root_.map_mul, ← h2, h]
    field_simp
  refine ⟨(A₁ * D') /ₘ D₁, ?_⟩
  rw [Polynomial.map_divByMonic _ h1, Polynomial.map_mul, ← h5, mul_comm]
  exact (Polynomial.mul_divByMonic_cancel_left _ (h1.map _)).symm

theorem tvalue_int (e : TExpr ℝ p m) (ha : TAllModels IntegerData e) (hf : TFactors (fun x : ℝ => ∃ z : ℤ, x = z) e) {M : Matrix (Fin p) (Fin m) (RatFunc ℝ)}
    (hM : TValue (RatFunc.X : RatFunc ℝ) e M) : ∀ i j, IntRat (M i j) := by
  induction e with
  | model G =>
    obtain ⟨A, D, h1, h2⟩ := ha
    obtain ⟨A', D', e1, e2, e3⟩ := hM
    obtain rfl := Arr.of_inj.mp (h1.num.symm.trans e1)
    obtain rfl := Arr.of_inj.mp (h1.den.symm.trans e2)
    intro i j
    obtain ⟨t, ht⟩ := h2 i j
    refine ⟨toPoly (A i j), toPoly (D i j), by rw [ht]; exact toPoly_int_monic, ?_⟩
    obtain ⟨e4, e5⟩ := e3 i j
    simp only [Matrix.of_apply, polyAt, toPoly_cast, RatFunc.aeval_X_left_eq_algebraMap] at e4 e5
    rw [e5, div_mul_cancel₀ _ e4]
  | neg e ih =>
    obtain ⟨A, hA, rfl⟩ := hM
    exact fun i j => (ih ha hf hA i j).neg
  | add e f ih ih' =>
    obtain ⟨A, A', hA, hA', rfl⟩ := hM
    exact fun i j => (ih ha.1 hf.1 hA i j).add (ih' ha.2 hf.2 hA' i j)
  | sub e f ih ih' =>
    obtain ⟨A, A', hA, hA', rfl⟩ := hM
    intro i j
    rw [Matrix.sub_apply, sub_eq_add_neg]
    exact (ih ha.1 hf.1 hA i j).add (ih' ha.2 hf.2 hA' i j).neg
  | times e f ih ih' =>
    obtain ⟨A, A', hA, hA', rfl⟩ := hM
    exact fun i j => (ih ha.1 hf.1 hA i j).mul (ih' ha.2 hf.2 hA' i j)
  | left e f ih ih' =>
    obtain ⟨A, A', hA, hA', rfl⟩ := hM
    exact fun i j => (ih ha.1 hf.1 hA 0 0).mul (ih' ha.2 hf.2 hA' i j)
  | right e f ih ih' =>
    obtain ⟨A, A', hA, hA', rfl⟩ := hM
    exact fun i j => (ih ha.1 hf.1 hA i j).mul (ih' ha.2 hf.2 hA' 0 0)
  | mul e f ih ih' =>
    obtain ⟨A, A', hA, hA', rfl⟩ := hM
    intro i j
    rw [Matrix.mul_apply]
    exact intRat_sum _ fun l => (ih ha.1 hf.1 hA i l).mul (ih' ha.2 hf.2 hA' l j)
  | scale k e ih =>
    obtain ⟨A, hA, rfl⟩ := hM
    obtain ⟨⟨z, rfl⟩, hf⟩ := hf
    exact fun i j => (intRat_int z).mul (ih ha hf hA i j)
  | shift e k ih =>
    obtain ⟨A, hA, rfl⟩ := hM
    obtain ⟨⟨z, rfl⟩, hf⟩ := hf
    exact fun i j => (ih ha hf hA i j).add (intRat_int z)

theorem list_int {l : List ℝ} {A : Polynomial ℤ} (h : toPoly l = A.map (Int.castRingHom ℝ)) : ∃ l' : List ℤ, l = l'.map fun x : ℤ => (x : ℝ) := by
  have h1 : ∀ k, ∃ z : ℤ, (toPoly l).coeff k = z := fun k => ⟨A.coeff k, by rw [h, Polynomial.coeff_map]; rfl⟩
  clear h
  induction l with
  | nil => exact ⟨[], rfl⟩
  | cons a t ih =>
    have hdeg : ∀ k, t.length ≤ k → (toPoly t).coeff k = 0 := fun k hk => Polynomial.coeff_eq_zero_of_degree_lt ((degree_toPoly_lt t).trans_le (by exact_mod_cast hk))
    have h2 : ∀ k, (toPoly (a :: t)).coeff k = (if k = t.length then a else 0) + (toPoly t).coeff k := fun k => by
      rw [toPoly_cons, Polynomial.coeff_add, Polynomial.coeff_C_mul, Polynomial.coeff_X_pow]
      split_ifs <;> simp
    obtain ⟨z, hz⟩ := h1 t.length
    rw [h2, if_pos rfl, hdeg _ le_rfl, add_zero] at hz
    obtain ⟨t', ht'⟩ := ih fun k => by
      by_cases hk : k < t.length
      · obtain ⟨z, hz⟩ := h1 k
        rw [h2, if_neg (by omega), zero_add] at hz
        exact ⟨z, hz⟩
      · exact ⟨0, by rw [hdeg k (by omega)]; simp⟩
    exact ⟨z :: t', by simp [← ht', hz]⟩

theorem PositiveInteger.positiveIn {dt : Option ℝ} {p m : ℕ} {G : TransferM ℝ} (h : PositiveInteger dt p m G) : PositiveIn (monicInt ℝ) dt p m G := by
  obtain ⟨⟨A, D, h1, h2⟩, h3, h4⟩ := h
  refine ⟨h3, _, _, h1, fun i j => ?_, fun i j => ?_⟩
  · obtain ⟨t, ht⟩ := h2 i j
    exact ⟨toPoly (D i j), by rw [ht]; exact toPoly_int_monic, toPoly_cast _⟩
  · have := h4 i j
    rw [h1.num, entry_of] at this
    exact this

theorem IntegerData.clear {p m : ℕ} {G : TransferM ℝ} (h : IntegerData p m G) {τl τr : ℝ} (hl : τl ≤ 1) (hr : τr ≤ 1) : ClearModel τl τr G := by
  obtain ⟨A, D, h1, h2⟩ := h
  exact clearModel_int hl hr h1.num h1.den A D (fun _ _ => rfl) (fun _ _ => rfl) h2

/-- **C94** for sums, products of both kinds and positive multiples of discrete-time `Transfer` models with integer coefficients, with the thresholds of the code: the formula evaluates and its simulation is that of the block diagram. Missing: as in `C94_transfer_partial`. -/
theorem C94_integer_partial (hbal : ∀ polys i, E.bal polys i ≠ 0) (hthr : E.lcmTol ≤ 1) (hthr' : E.remTol ≤ 1) (hE : BalanceOk B) {h : ℝ} (e : TExpr ℝ p m) (hp : TPositive e)
    (hf : TFactors (fun x : ℝ => ∃ z : ℤ, x = z) e) (hm : TAllModels (PositiveInteger (some h)) e) (hN : 2 ≤ N)
    {targ : Option (List ℝ)} {t : List ℝ} (ht : TimesOk N h targ t) (U : Matrix (Fin N) (Fin m) ℝ) :
    ∃ R Y, e.eval E = .ok R ∧ simulateTransfer E Nm B R (Arr.of U) targ none false = .ok (.flat (Arr.of Y), t) ∧
      ∀ Y' : Matrix (Fin N) (Fin p) ℝ, TSignals (TSimulated E Nm B targ t) e U Y' ↔ Y' = Y := by
  have hS := coarseClass_int (K := ℝ) hthr
  have ha : TAllModels (PositiveIn (monicInt ℝ) (some h)) e := tallModels_mono (fun _ _ _ h => PositiveInteger.positiveIn h) e hm
  have hn : TAllModels (NormalIn (monicInt ℝ)) e := positive_normalIn e ha
  obtain ⟨R, M, h1, h2, -⟩ := positive_aux hbal hS e hp ha
  obtain ⟨A, D, hR⟩ := h2.normal
  obtain ⟨M', hM'⟩ := tvalue_ratFunc hS.monic e hn
  have hi := tvalue_int e (tallModels_mono (fun _ _ _ h => h.1) e hm) hf hM'
  obtain ⟨A', D', e1, e2, e3⟩ := C89_value_partial hbal hS e hn h1 hM'
  obtain rfl := Arr.of_inj.mp (hR.num.symm.trans e1)
  obtain rfl := Arr.of_inj.mp (hR.den.symm.trans e2)
  obtain ⟨D', e4, e5⟩ := h2.cls.den
  obtain rfl := Arr.of_inj.mp (hR.den.symm.trans e4)
  have hA : ∀ i j, ∃ l : List ℤ, A i j = l.map fun x : ℤ => (x : ℝ) := fun i j => by
    obtain ⟨A', hA'⟩ := (hi i j).num (e5 i j).2 (by rw [(e3 i j).2, polyAt, polyAt, RatFunc.aeval_X_left_eq_algebraMap, RatFunc.aeval_X_left_eq_algebraMap])
    exact list_int hA'
  have hD : ∀ i j, ∃ l : List ℤ, D i j = l.map fun x : ℤ => (x : ℝ) := fun i j => by
    obtain ⟨D', -, h⟩ := (e5 i j).2
    exact list_int h
  choose A₁ hA₁ using hA
  choose D₁ hD₁ using hD
  have hR' : ClearModel E.lcmTol E.remTol R := by
    refine clearModel_int hthr hthr' hR.num hR.den A₁ D₁ hA₁ hD₁ fun i j => ?_
    have h3 := hS.monic _ (e5 i j).2
    have h4 := (e5 i j).1
    rw [hD₁ i j] at h3 h4
    cases hl : D₁ i j with
    | nil => simp [hl] at h4
    | cons a t =>
      rw [hl] at h3 h4
      have h5 : (a : ℝ) ≠ 0 := by simpa using h4
      have h6 : (toPoly (((a :: t).map fun x : ℤ => (x : ℝ)))).leadingCoeff = a := leadingCoeff_toPoly_cons h5 _
      rw [h3.leadingCoeff] at h6
      exact ⟨t, by rw [← Int.cast_one (R := ℝ)] at h6; rw [Int.cast_injective h6]⟩
  obtain ⟨Y, h3, h4⟩ := C94_transfer_partial (Nm := Nm) hbal hS hE e (tallModels_and (fun p m G (a : NormalIn (monicInt ℝ) p m G) (b : PositiveInteger (some h) p m G) => ⟨a, IntegerData.clear b.1 hthr hthr'⟩) e hn hm) h1 hR hR' h2.dt hN ht U
  exact ⟨R, Y, h1, h3, h4⟩

noncomputable def lagFormula : TExpr ℝ 1 1 := .mul (q := 1) (.add (.scale 2 (.model lagDisc)) (.times (.model lagDisc) (.model lagDisc))) (.model lagDisc)

/-- The formula `(2 G + G * G) @ G` over `1/(z+1)`: the two samples `1, 0`. -/
example : ∃ R Y, TExpr.eval ⟨fun _ _ => 1, 1 / 10 ^ 9, 1 / 10 ^ 14⟩ lagFormula = .ok R ∧
    simulateTransfer ⟨fun _ _ => 1, 1 / 10 ^ 9, 1 / 10 ^ 14⟩ Nm plainDNum R (Arr.of (!![1; 0] : Matrix (Fin 2) (Fin 1) ℝ)) none none false = .ok (.flat (Arr.of (Y : Matrix (Fin 2) (Fin 1) ℝ)), [0, 1]) := by
  have hg : PositiveInteger (some 1) 1 1 lagDisc := by
    refine ⟨⟨Matrix.of fun _ _ => [1], Matrix.of fun _ _ => [1, 1], ?_, fun _ _ => ⟨[1], rfl⟩⟩, rfl, fun i j => ?_⟩
    · simpa using lagDisc_normal
    · rw [lagDisc_normal.num, entry_of]
      simp
  obtain ⟨R, Y, h1, h2, -⟩ := C94_integer_partial (E := ⟨fun _ _ => 1, 1 / 10 ^ 9, 1 / 10 ^ 14⟩) (Nm := Nm) (B := plainDNum) (fun _ _ => one_ne_zero) (by norm_num) (by norm_num) plainDNum_ok
    lagFormula (by simp [TPositive, lagFormula])
    (h := 1) (by unfold lagFormula; exact ⟨⟨⟨⟨2, by norm_num⟩, trivial⟩, trivial, trivial⟩, trivial⟩) (by unfold lagFormula; exact ⟨⟨hg, hg, hg⟩, hg⟩) (le_refl 2) (.inl ⟨rfl, rfl⟩) !![1; 0]
  refine ⟨R, Y, h1, h2.trans ?_⟩
  simp [List.range_succ]

end Harold
