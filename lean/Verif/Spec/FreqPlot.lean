import Verif.Model.FreqPlot
import Verif.Spec.Freq

/-!
# Specification: what a Bode plot shows
-/

namespace Harold.Spec

/-- The contract of `np.unwrap`: multiples of `2π` are added, and consecutive results differ by `π` at most. -/
structure UnwrapOk (unwrap : List ℝ → List ℝ) : Prop where
  mod : ∀ l, List.Forall₂ (fun a b => ∃ k : ℤ, b = a + k * (2 * Real.pi)) l (unwrap l)
  step : ∀ l (q : ℕ) (a b : ℝ), (unwrap l)[q]? = some a → (unwrap l)[q + 1]? = some b → |b - a| ≤ Real.pi

/-- The angle `φ` of a plot in radians. -/
noncomputable def inRad (useDeg : Bool) (φ : ℝ) : ℝ := if useDeg then φ / 180 * Real.pi else φ

/-- The magnitude shown for the value `z`: the decimal logarithm of the modulus, or the modulus in decibels. -/
def ShowsMag (useDb : Bool) (z : ℂ) (y : ℝ) : Prop := (10 : ℝ) ^ (if useDb then y / 20 else y) = ‖z‖

/-- The angle shown for the value `z`. -/
def ShowsPhase (useDeg : Bool) (z : ℂ) (φ : ℝ) : Prop := z = ‖z‖ * Complex.exp (inRad useDeg φ * Complex.I)

/-- The frequencies the plots hand to `frequency_response`: the user's, those found by `frequency_response` itself for a single
system, and otherwise the grid computed for the first of the systems (see C47), in the unit of the plot. -/
noncomputable def plotGrid (sys : List FSys) (w : Option (List ℝ)) (useHz : Bool) : Option (List ℝ) :=
  if w.isNone ∧ 1 < sys.length then
    some (((commonGrid (sys.map FSys.grid)).headD []).map fun x => if useHz then x / (2 * Real.pi) else x)
  else w

/-- `frequency_response` answers with one `p × m` array for each frequency. -/
structure RespOk (G : FSys) (R : FreqOut) : Prop where
  length : R.resp.length = R.w.length
  shape : ∀ a ∈ R.resp, a.r = G.p ∧ a.c = G.m

/-- The answer has the value `z` at position `(i, j)` of sample `q`. -/
def SampleIs (R : FreqOut) (q i j : ℕ) (z : Option ℂ) : Prop :=
  ∃ a, R.resp[q]? = some a ∧ ∃ (hi : i < a.r) (hj : j < a.c), a.m ⟨i, hi⟩ ⟨j, hj⟩ = z

/-- The label of an artist: system, input, output and kind. -/
def plotLabel (sys input output : ℕ) (kind : String) : String := s!"sys_{sys}_in_{input}_out_{output}_{kind}"

/-- The part of the plot that belongs to a channel of a drawn system is faithful to the samples `R`. -/
structure Faithful (useDb useHz useDeg : Bool) (items : List BodeItem) (k : ℕ) (G : FSys) (R : FreqOut) (i j : ℕ) (ym yp : List (Option ℝ)) : Prop where
  mag_mem : .curve (2 * i) j (plotLabel k j i "mag") k R.w ym ∈ items
  pha_mem : .curve (2 * i + 1) j (plotLabel k j i "phase") k R.w yp ∈ items
  mag_length : ym.length = R.w.length
  pha_length : yp.length = R.w.length
  mag : ∀ q z, SampleIs R q i j (some z) → z ≠ 0 → ∃ y, ym[q]? = some (some y) ∧ ShowsMag useDb z y
  mag_zero : ∀ q, SampleIs R q i j (some 0) → ym[q]? = some none
  pha : ∀ q z, SampleIs R q i j (some z) → z ≠ 0 → ∃ φ, yp[q]? = some (some φ) ∧ ShowsPhase useDeg z φ
  pha_step : ∀ q z z' φ φ', SampleIs R q i j (some z) → z ≠ 0 → SampleIs R (q + 1) i j (some z') → z' ≠ 0 → yp[q]? = some (some φ) →
    yp[q + 1]? = some (some φ') → |inRad useDeg φ' - inRad useDeg φ| ≤ Real.pi
  nyquist : ∀ h, G.dt = some h → h ≠ 0 → ∃ x, toRad (plotUnit useHz) x = Real.pi / h ∧
    .vline (2 * i) j (plotLabel k j i "mag_nyqline") k x ∈ items ∧ .vline (2 * i + 1) j (plotLabel k j i "phase_nyqline") k x ∈ items

end Harold.Spec
