import Verif.Model.Hess
import Verif.Model.TransferOps
import Verif.Model.Sim
import Mathlib.Analysis.SpecialFunctions.Exp
import Mathlib.Analysis.SpecialFunctions.Trigonometric.Basic
import Mathlib.Analysis.SpecialFunctions.Log.Base
import Mathlib.Analysis.SpecialFunctions.Pow.Real

/-!
# Frequency responses

Models `frequency_response`, `_State_freq_resp` and the user grid branch of `_get_freq_grid` (`/repo/harold/_frequency_domain.py:12-225, 338-341`)
and the choice of grids in `bode_plot`, `nyquist_plot` (`/repo/harold/_frequency_domain_plots.py:36-95, 169-192, 328-348`).

Simplifications: exact arithmetic over `ℝ` and `ℂ`; a division by zero (which numpy answers with `inf` or `nan`) makes the affected
sample `none`; the automatic grid of a model with dynamics is a parameter (`auto`), as is `_minimal_realization_state` (`red`).
-/

namespace Harold

open Matrix

/-- An array-like frequency argument: shape and entries in C order. -/
structure GridArg where
  shape : List ℕ
  data : List ℝ

/-- `x.lower()`. Only compared with `'hz'` and `'rad/s'`; no character outside ASCII is mapped to one of their letters. -/
def lower (s : String) : List Char := s.toList.map Char.toLower

/-- `x.lower() in ('hz', 'rad/s')` (`_frequency_domain.py:51`). -/
def unitOk (s : String) : Bool := decide (lower s = "hz".toList) || decide (lower s = "rad/s".toList)

/-- The conversion and truncation of a user grid (`_frequency_domain.py:204-215`). `np.max` of an empty array raises `ValueError`. -/
noncomputable def userGrid (dt : Option ℝ) (w : List ℝ) (iu : String) : Res (List ℝ) :=
  let wu := if iu = "Hz" then w.map fun x => x * (2 * Real.pi) else w
  match dt with
  | none => .ok wu
  | some dt =>
    match wu.max? with
    | none => .error .value
    | some mx =>
      let wo := if Real.pi / dt < mx then wu.filter fun x => decide (x ≤ Real.pi / dt) else wu
      if wo.length < 1 then .error .value else .ok wo

/-- `np.logspace(start, stop, num)`. -/
noncomputable def logspace (start stop : ℝ) (num : ℕ) : List ℝ :=
  (List.range num).map fun k : ℕ => (10 : ℝ) ^ (start + k * ((stop - start) / ((num - 1 : ℕ) : ℝ)))

/-- The automatic grid of a static gain (`_frequency_domain.py:220-225`). -/
noncomputable def gainGrid (dt : Option ℝ) (samples : Option ℕ) : List ℝ :=
  match dt with
  | none => logspace (-2) 2 (samples.getD 2)
  | some dt => logspace (Real.logb 10 (Real.pi / dt) - 2) (Real.logb 10 (Real.pi / dt)) (samples.getD 2)

/-- `_get_freq_grid(G, w, samples, iu, 'rad/s')` (`_frequency_domain.py:190-225, 338-341`). -/
noncomputable def freqGrid (auto : List ℝ) (isgain : Bool) (dt : Option ℝ) (w : Option GridArg) (samples : Option ℕ) (iu : String) :
    Res (List ℝ) :=
  match w with
  | some g => if 1 < (g.shape.filter fun n => decide (n ≠ 1)).length then .error .value else userGrid dt g.data iu
  | none => if isgain then .ok (gainGrid dt samples) else .ok auto

/-- The returned grid (`_frequency_domain.py:114`). -/
noncomputable def outGrid (ou : String) (w : List ℝ) : List ℝ :=
  if ou = "rad/s" then w else w.map fun x => x / 2 / Real.pi

/-- The answer: one `p × m` array per sample, and the grid. (`rollaxis` and `ravel` only rearrange the storage.) -/
structure FreqOut where
  resp : List (Arr (Option ℂ))
  w : List ℝ

/-- The point `s = jw`, or `z = exp(jw dt)` (`_frequency_domain.py:98-100, 153`). -/
noncomputable def freqPoint (dt : Option ℝ) (w : ℝ) : ℂ :=
  match dt with
  | none => (w : ℂ) * Complex.I
  | some dt => Complex.exp ((dt : ℂ) * (w : ℂ) * Complex.I)

section elim
variable {L : Type} [Field L] [DecidableEq L]

/-- `U[x, x:] -= (U[x, x-1] / U[x-1, x-1]) * U[x-1, x:]` (`_frequency_domain.py:155`). -/
def elimStep (U : ℕ → ℕ → L) (x : ℕ) : Option (ℕ → ℕ → L) :=
  if U (x - 1) (x - 1) = 0 then none
  else some fun i j => if i = x ∧ x ≤ j then U x j - U x (x - 1) / U (x - 1) (x - 1) * U (x - 1) j else U i j

/-- One grid point of `_State_freq_resp` (`_frequency_domain.py:152-159`): column `c` of `r * sc`. -/
def elimSolve (n : ℕ) (U : ℕ → ℕ → L) (sc : L) (c : ℕ) : Option L :=
  match (List.range' 1 (n - 1)).foldlM elimStep U with
  | none => none
  | some V => if V (n - 1) (n - 1) = 0 then none else some (V (n - 1) (n + c) / V (n - 1) (n - 1) * sc)

end elim

/-- `block([-mA, mb])` with `s` added on the diagonal (`_frequency_domain.py:146-153`). -/
noncomputable def elimInit (a b : Arr ℝ) (s : ℂ) (i j : ℕ) : ℂ :=
  (if j < a.c then -((a.get i j : ℝ) : ℂ) else ((b.get i (j - a.c) : ℝ) : ℂ)) + if i = j then s else 0

/-- A routine that replaces a triple of matrices by a smaller one, `_minimal_realization_state` in the code. -/
abbrev Reduce (K : Type) := Arr K → Arr K → Arr K → Res (Arr K × Arr K × Arr K)

/-- `if use_minreal:` (`_frequency_domain.py:79-82`); `none` is `use_minreal=False`. -/
def freqReduce {K : Type} (red : Option (Reduce K)) (a b c : Arr K) : Res (Arr K × Arr K × Arr K) :=
  match red with
  | none => .ok (a, b, c)
  | some f => f a b c

/-- One output row of a `State` response: the Hessenberg form of `(a, b, c[[row], :])`, reduced when `use_minreal` is set
(`_frequency_domain.py:76-82`). -/
noncomputable def freqRow (N : HessNum ℝ) (red : Option (Reduce ℝ)) (G : StateM ℝ) (i : Fin G.c.r) : Res (Arr ℝ × Arr ℝ × Arr ℝ) := do
  let h ← hessMatrices N "o" true G.a G.b (Arr.of (Matrix.of fun (_ : Fin 1) (j : Fin G.c.c) => G.c.m i j))
  let r ← freqReduce red h.1 h.2.1 h.2.2.1
  if r.1.r = 0 then .error .index else .ok r

/-- `_State_freq_resp(aaa, bbb, ccc[0, -1], w, dt)` at one frequency, column `c` (`_frequency_domain.py:84-85`). -/
noncomputable def rowResp (r : Arr ℝ × Arr ℝ × Arr ℝ) (s : ℂ) (c : ℕ) : Option ℂ :=
  elimSolve r.1.r (elimInit r.1 r.2.1 s) ((r.2.2.get 0 (r.2.2.c - 1) : ℝ) : ℂ) c

/-- `fr_arr += G.d.T[None, :, :]` for nonzero `G.d` (`_frequency_domain.py:87-88`), one entry. -/
noncomputable def addD (d : Arr ℝ) (i j : ℕ) (x : Option ℂ) : Option ℂ :=
  if d.any then x.map fun v => v + ((d.get i j : ℝ) : ℂ) else x

/-- `frequency_response` of a `State` (`_frequency_domain.py:48-114`). -/
noncomputable def freqState (N : HessNum ℝ) (red : Option (Reduce ℝ)) (auto : List ℝ) (G : StateM ℝ)
    (w : Option GridArg) (samples : Option ℕ) (iu ou : String) : Res FreqOut := do
  if unitOk iu = false ∨ unitOk ou = false then .error .value else do
  let w ← freqGrid auto G.isgain G.dt w samples iu
  if G.isgain then .ok ⟨List.replicate 2 (Arr.of (Matrix.of fun i j => some ((G.d.m i j : ℝ) : ℂ))), outGrid ou w⟩
  else do
    let rows ← finM fun i : Fin G.c.r => freqRow N red G i
    .ok ⟨w.map fun x => Arr.of (Matrix.of fun (i : Fin G.c.r) (j : Fin G.b.c) => addD G.d i j (rowResp (rows i) (freqPoint G.dt x) j)),
      outGrid ou w⟩

/-- `np.polyval` (Horner). -/
noncomputable def polyval (l : List ℝ) (s : ℂ) : ℂ := l.foldl (fun (y : ℂ) (c : ℝ) => y * s + (c : ℂ)) 0

/-- `polyval(num, iw) / polyval(den, iw)`. -/
noncomputable def polyQuot (num den : List ℝ) (s : ℂ) : Option ℂ :=
  if polyval den s = 0 then none else some (polyval num s / polyval den s)

/-- Static gains of `frequency_response` for a `Transfer` (`_frequency_domain.py:57-69`): `G.num[0, 0]` is the first numerator coefficient. -/
noncomputable def gainResp (G : TransferM ℝ) : Res (List (Arr (Option ℂ))) :=
  if G.isSISO then
    match G.num.entry 0 0 with
    | [] => .error .index
    | x :: _ => .ok (List.replicate 2 (Arr.of (Matrix.of fun (_ _ : Fin 1) => some (x : ℂ))))
  else do
    let x ← G.toArray
    .ok (List.replicate 2 (Arr.of (Matrix.of fun i j => some ((x.m i j : ℝ) : ℂ))))

/-- `frequency_response` of a `Transfer` (`_frequency_domain.py:48-114`). -/
noncomputable def freqTransfer (auto : List ℝ) (G : TransferM ℝ) (w : Option GridArg) (samples : Option ℕ) (iu ou : String) : Res FreqOut := do
  if unitOk iu = false ∨ unitOk ou = false then .error .value else do
  let w ← freqGrid auto G.isgain G.dt w samples iu
  if G.isgain then do
    let r ← gainResp G
    .ok ⟨r, outGrid ou w⟩
  else
    .ok ⟨w.map fun x => Arr.of (Matrix.of fun (i : Fin G.num.r) (j : Fin G.num.c) =>
      polyQuot (G.num.entry i j) (G.den.entry i j) (freqPoint G.dt x)), outGrid ou w⟩

/-! ## Grids of the plots -/

/-- What the plots need to know about a system: its own grid (`_get_freq_grid(x, None, None, 'rad/s', 'rad/s')`, sorted), whether it is a gain
and whether it is a discrete time model. -/
structure PlotSys where
  grid : List ℝ
  isgain : Bool
  discrete : Bool

/-- `int(np.ceil(x * ppd))` with 15 points per decade, 5 points for gains (`_frequency_domain_plots.py:74-75, 85-86`). -/
noncomputable def padCount (isgain : Bool) (x : ℝ) : ℕ := if isgain then 5 else ⌈x * 15⌉₊

/-- The loop body of `_get_common_freq_grid` (`_frequency_domain_plots.py:71-93`). `w` is the original grid in both branches. -/
noncomputable def padGrid (minw maxw : ℝ) (s : PlotSys) : List ℝ :=
  let w := s.grid
  let w0 := w.headD 0
  let w1 := w.getLastD 0
  let r := if minw < w0 then
      logspace (Real.logb 10 minw) (Real.logb 10 w0) (padCount s.isgain (Real.logb 10 w0 - Real.logb 10 minw)) ++ w
    else w
  if maxw > w1 ∧ s.discrete = false then
    w ++ logspace (Real.logb 10 w1) (Real.logb 10 maxw) (padCount s.isgain (Real.logb 10 maxw - Real.logb 10 w1))
  else r

/-- `_get_common_freq_grid` (`_frequency_domain_plots.py:62-95`) for nonempty grids. -/
noncomputable def commonGrid (sys : List PlotSys) : List (List ℝ) :=
  let minw := ((sys.map fun s => s.grid.headD 0).min?).getD 0
  let maxw := ((sys.map fun s => s.grid.getLastD 0).max?).getD 0
  sys.map (padGrid minw maxw)

/-- The loop of `bode_plot` and `nyquist_plot` (`_frequency_domain_plots.py:179-194, 338-350`): the grid `w` handed to `frequency_response` for every
system in turn; `w` is a variable of the function and keeps its value from one iteration to the next. -/
noncomputable def plotLoop (useHz : Bool) (W : List (List ℝ)) (w : Option (List ℝ)) : List (Option (List ℝ)) :=
  match W with
  | [] => []
  | g :: W =>
    let w := match w with
      | none => some (if useHz then g.map fun x => x / (2 * Real.pi) else g)
      | some w => some w
    w :: plotLoop useHz W w

/-- The grids used for the curves of several systems without a user grid; `styles` is the length of the property cycle that is zipped with the
systems (`_frequency_domain_plots.py:174-183, 332-342`). -/
noncomputable def plotGrids (useHz : Bool) (styles : ℕ) (sys : List PlotSys) : List (Option (List ℝ)) :=
  plotLoop useHz ((commonGrid sys).take styles) none

end Harold
