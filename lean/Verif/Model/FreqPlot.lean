import Verif.Model.Freq
import Mathlib.Analysis.SpecialFunctions.Complex.Arg

/-!
# What the frequency domain plots draw

Models the drawing loops of `bode_plot` and `nyquist_plot` (`/repo/harold/_frequency_domain_plots.py:98-270, 273-375`): the
curves handed to matplotlib, the panel each of them goes to and its label. Layout, fonts, ticks and hidden frames are not
modelled. `semilogx` raises `ValueError` for arrays of different lengths.

A system is given by its shape, sampling period and the answer of `frequency_response`. `np.unwrap` is a parameter, as is
the content of the memory returned by `np.empty_like`. A value `nan` (or infinite) is `none`.
-/

namespace Harold

/-- A system as seen by the plots. `resp w` is `frequency_response(G, w, w_unit=f_unit, output_unit=f_unit)`, or
`frequency_response(G, output_unit=f_unit)` if `w` is `None`. -/
structure FSys where
  p : ℕ
  m : ℕ
  dt : Option ℝ
  resp : Option (List ℝ) → Res FreqOut
  grid : PlotSys

/-- The frequency unit (`_frequency_domain_plots.py:145, 305`). -/
def plotUnit (useHz : Bool) : String := if useHz then "Hz" else "rad/s"

/-- A `State` in a plot. -/
noncomputable def FSys.ofState (N : HessNum ℝ) (auto : List ℝ) (G : StateM ℝ) (useHz : Bool) : FSys :=
  ⟨G.p, G.m, G.dt,
    fun w => freqState N none auto G (w.map fun l => ⟨[l.length], l⟩) none (if w.isSome then plotUnit useHz else "rad/s") (plotUnit useHz),
    ⟨auto, G.isgain, G.dt.isSome⟩⟩

/-- A `Transfer` in a plot. -/
noncomputable def FSys.ofTransfer (auto : List ℝ) (G : TransferM ℝ) (useHz : Bool) : FSys :=
  ⟨G.num.r, G.num.c, G.dt,
    fun w => freqTransfer auto G (w.map fun l => ⟨[l.length], l⟩) none (if w.isSome then plotUnit useHz else "rad/s") (plotUnit useHz),
    ⟨auto, G.isgain, G.dt.isSome⟩⟩

/-- `np.max(np.array([x.shape for x in syslist]), axis=0)` (`_frequency_domain_plots.py:149, 308`). -/
def maxShapeF (sys : List FSys) : Res (ℕ × ℕ) :=
  if sys = [] then .error .value
  else .ok ((sys.map FSys.p).foldr max 0, (sys.map FSys.m).foldr max 0)

/-- The systems with their position and, if no grid is given for several systems, the grid computed for them
(`_frequency_domain_plots.py:173-184, 332-343`); `styles` is the length of the property cycle. -/
noncomputable def plotEntries (sys : List FSys) (w : Option (List ℝ)) (styles : ℕ) : List (ℕ × FSys × Option (List ℝ)) :=
  let W := commonGrid (sys.map FSys.grid)
  ((sys.take styles).zipIdx).map fun x =>
    (x.2, x.1, if w.isNone ∧ 1 < sys.length then some (W.getD x.2 []) else none)

/-- The variable `w` after lines 180-183 (339-342). -/
noncomputable def keepGrid (useHz : Bool) (w g : Option (List ℝ)) : Option (List ℝ) :=
  match w with
  | some w => some w
  | none => g.map fun v => if useHz then v.map fun x => x / (2 * Real.pi) else v

/-- The loop over the systems (`_frequency_domain_plots.py:178-194, 337-348`). The variable `w` keeps its value. -/
noncomputable def freqLoop {α : Type} (draw : ℕ → FSys → FreqOut → Res (List α)) (useHz : Bool) :
    List (ℕ × FSys × Option (List ℝ)) → Option (List ℝ) → Res (List α)
  | [], _ => .ok []
  | (ind, G, g) :: l, w => do
    let R ← G.resp (keepGrid useHz w g)
    let cs ← draw ind G R
    let rest ← freqLoop draw useHz l (keepGrid useHz w g)
    .ok (cs ++ rest)

/-! ## Bode -/

/-- A curve, or a vertical line, of a Bode plot. -/
inductive BodeItem where
  | curve (row col : ℕ) (label : String) (style : ℕ) (x : List ℝ) (y : List (Option ℝ))
  | vline (row col : ℕ) (label : String) (style : ℕ) (x : ℝ)

/-- `fre[row, col, :]` after `fre[np.abs(fre) == 0.] = np.nan` (`_frequency_domain_plots.py:196`). -/
noncomputable def freAt (resp : List (Arr (Option ℂ))) (i j : ℕ) : List (Option ℂ) :=
  resp.map fun a => if h : i < a.r ∧ j < a.c then (a.m ⟨i, h.1⟩ ⟨j, h.2⟩).filter fun z => decide (z ≠ 0) else none

/-- `db_scale * np.log10(np.abs(fre))` (`_frequency_domain_plots.py:146, 197`). -/
noncomputable def bodeMag (useDb : Bool) (f : List (Option ℂ)) : List (Option ℝ) :=
  f.map fun z => z.map fun z => (if useDb then 20 else 1) * Real.logb 10 ‖z‖

/-- `pha[~isnan] = l` for an uninitialised array `pha` with the content `mem` (`_frequency_domain_plots.py:200-202`). -/
def scatter {α : Type} (mem : ℕ → ℝ) : ℕ → List (Option α) → List ℝ → List ℝ
  | _, [], _ => []
  | k, none :: f, l => mem k :: scatter mem (k + 1) f l
  | k, some _ :: f, l => l.headD 0 :: scatter mem (k + 1) f l.tail

/-- `fre` in C order. -/
noncomputable def allSamples (p m : ℕ) (resp : List (Arr (Option ℂ))) : List (Option ℂ) :=
  (List.range p).flatMap fun i => (List.range m).flatMap fun j => freAt resp i j

open Classical in
/-- The phase of channel `(i, j)` in radians (`_frequency_domain_plots.py:199-204`). With a `nan` anywhere, all channels are
unwrapped as one sequence in C order. -/
noncomputable def bodePhaRad (unwrap : List ℝ → List ℝ) (mem : ℕ → ℝ) (p m : ℕ) (resp : List (Arr (Option ℂ))) (i j : ℕ) : List ℝ :=
  if none ∈ allSamples p m resp then
    ((scatter mem 0 (allSamples p m resp) (unwrap (((allSamples p m resp).filterMap id).map Complex.arg))).drop
      ((i * m + j) * resp.length)).take resp.length
  else unwrap (((freAt resp i j).filterMap id).map Complex.arg)

/-- `np.rad2deg` if wanted (`_frequency_domain_plots.py:205-206`). -/
noncomputable def bodePha (useDeg : Bool) (f : List ℝ) : List (Option ℝ) :=
  f.map fun x => some (if useDeg then x * (180 / Real.pi) else x)

/-- `axs[row, col].semilogx(x, y, label, **sty)` on a figure with `R × C` panels. -/
def semilogx (R C row col : ℕ) (label : String) (style : ℕ) (x : List ℝ) (y : List (Option ℝ)) : Res BodeItem :=
  if R ≤ row ∨ C ≤ col then .error .index
  else if x.length ≠ y.length then .error .value
  else .ok (.curve row col label style x y)

/-- The Nyquist frequency in the unit of the plot (`_frequency_domain_plots.py:185-188`). -/
noncomputable def nyqFreq (useHz : Bool) (dt : ℝ) : ℝ := if useHz then 1 / (2 * dt) else Real.pi / dt

/-- `sys_<ind>_in_<col>_out_<row>_<kind>` (`_frequency_domain_plots.py:216-231`). -/
def bodeLabel (ind col row : ℕ) (kind : String) : String := s!"sys_{ind}_in_{col}_out_{row}_{kind}"

/-- The artists of one channel (`_frequency_domain_plots.py:216-235`). -/
noncomputable def bodeChannel (unwrap : List ℝ → List ℝ) (mem : ℕ → ℝ) (useDb useHz useDeg : Bool) (R C ind : ℕ) (G : FSys)
    (F : FreqOut) (row col : ℕ) : Res (List BodeItem) := do
  let a ← semilogx R C (2 * row) col (bodeLabel ind col row "mag") ind F.w (bodeMag useDb (freAt F.resp row col))
  let b ← semilogx R C (2 * row + 1) col (bodeLabel ind col row "phase") ind F.w
    (bodePha useDeg (bodePhaRad unwrap mem G.p G.m F.resp row col))
  match G.dt with
  | none => .ok [a, b]
  | some dt => .ok [a, b, .vline (2 * row) col (bodeLabel ind col row "mag_nyqline") ind (nyqFreq useHz dt),
      .vline (2 * row + 1) col (bodeLabel ind col row "phase_nyqline") ind (nyqFreq useHz dt)]

/-- The loops over the channels (`_frequency_domain_plots.py:208-241`). -/
noncomputable def bodeSys (unwrap : List ℝ → List ℝ) (mem : ℕ → ℕ → ℝ) (useDb useHz useDeg : Bool) (R C ind : ℕ) (G : FSys)
    (F : FreqOut) : Res (List BodeItem) := do
  let l ← ((List.range G.m).flatMap fun col => (List.range G.p).map fun row => (row, col)).mapM fun x =>
    bodeChannel unwrap (mem ind) useDb useHz useDeg R C ind G F x.1 x.2
  .ok l.flatten

/-- `bode_plot(sys, w, use_db, use_hz, use_degree, style)` (`_frequency_domain_plots.py:98-270`) for a list of systems; `mem ind` is
the memory found by the `ind`-th system. -/
noncomputable def bodePlot (unwrap : List ℝ → List ℝ) (mem : ℕ → ℕ → ℝ) (sys : List FSys) (w : Option (List ℝ))
    (useDb useHz useDeg : Bool) (styles : ℕ) : Res (List BodeItem) := do
  let (R, C) ← maxShapeF sys
  freqLoop (bodeSys unwrap mem useDb useHz useDeg (2 * R) C) useHz (plotEntries sys w styles) w

/-! ## Nyquist -/

/-- A curve of a Nyquist plot: the panel, the format and the points. -/
structure NyqCurve where
  row : ℕ
  col : ℕ
  fmt : String
  pts : List (Option (ℝ × ℝ))

/-- `fre[row, col, :]` as points of the plane. -/
noncomputable def nyqPts (neg : Bool) (resp : List (Arr (Option ℂ))) (i j : ℕ) : List (Option (ℝ × ℝ)) :=
  resp.map fun a => if h : i < a.r ∧ j < a.c then (a.m ⟨i, h.1⟩ ⟨j, h.2⟩).map fun z => (z.re, if neg then -z.im else z.im) else none

/-- The curves of one channel (`_frequency_domain_plots.py:365-367`). -/
noncomputable def nyqChannel (R C : ℕ) (F : FreqOut) (row col : ℕ) : Res (List NyqCurve) :=
  if R ≤ row ∨ C ≤ col then .error .index
  else .ok [⟨row, col, "-", nyqPts false F.resp row col⟩, ⟨row, col, "-.", nyqPts true F.resp row col⟩,
    ⟨row, col, "b+", [some (-1, 0)]⟩]

/-- The loops over the channels (`_frequency_domain_plots.py:353-373`). -/
noncomputable def nyqSys (R C : ℕ) (_ind : ℕ) (G : FSys) (F : FreqOut) : Res (List NyqCurve) := do
  let l ← ((List.range G.m).flatMap fun col => (List.range G.p).map fun row => (row, col)).mapM fun x => nyqChannel R C F x.1 x.2
  .ok l.flatten

/-- `nyquist_plot(sys, w, use_hz, negative_freqs, style)` (`_frequency_domain_plots.py:273-375`). -/
noncomputable def nyquistPlot (sys : List FSys) (w : Option (List ℝ)) (useHz _negativeFreqs : Bool) (styles : ℕ) : Res (List NyqCurve) := do
  let (R, C) ← maxShapeF sys
  freqLoop (nyqSys R C) useHz (plotEntries sys w styles) w

end Harold
