import Verif.Model.Sim

/-!
# What the time domain plots draw

Models `/repo/harold/_time_domain_plots.py:36-217` for `State` models: the curves handed to matplotlib, the panel each
of them goes to, and the limits of the time axis. Layout, labels, fonts and grid lines are not modelled. The plot
functions `plot` and `step` raise `ValueError` for arrays of different lengths.
-/

namespace Harold

variable {P : Type}

/-- A curve: the panel `axs[row, col]`, whether it is drawn by `step(..., where='post')`, the abscissae, the
ordinates, and the number of the style taken from the property cycle (`none`: chosen by matplotlib). -/
structure TimeCurve where
  row : ℕ
  col : ℕ
  post : Bool
  t : List ℝ
  y : List ℝ
  style : Option ℕ

/-- Column `j` of a 2-D array. -/
def Arr.colList (y : Arr ℝ) (j : ℕ) : List ℝ := (List.range y.r).map fun i => y.get i j

/-- `axs[row, col].plot(t, y)` on a figure with `R × C` panels. -/
def drawTime (R C : ℕ) (c : TimeCurve) : Res TimeCurve :=
  if R ≤ c.row ∨ C ≤ c.col then .error .index
  else if c.t.length ≠ c.y.length then .error .value
  else .ok c

/-- The curves of one system (`_time_domain_plots.py:99-120, 192-211`). A 2-D argument of `plot` is drawn column by
column. The shape of an array with several inputs is `(samples, outputs, inputs)`. -/
def sysCurves (S : StateM ℝ) (yout : SimOut) (t : List ℝ) (sty : Option ℕ) : List TimeCurve :=
  if S.isSISO then
    match yout with
    | .flat y => (List.range y.c).map fun j => ⟨0, 0, S.dt.isSome, t, y.colList j, sty⟩
    | .perChannel ys => ys.flatMap fun y => (List.range y.c).map fun j => ⟨0, 0, S.dt.isSome, t, y.colList j, sty⟩
  else
    match yout with
    | .flat y => (List.range y.c).map fun row => ⟨row, 0, S.dt.isSome, t, y.colList row, sty⟩
    | .perChannel ys => (List.range ((ys.map Arr.c).headD 0)).flatMap fun row =>
        (List.range ys.length).map fun col => ⟨row, col, S.dt.isSome, t, ((ys[col]?).map fun y => y.colList row).getD [], sty⟩

/-- The loop over the systems (`_time_domain_plots.py:95-120, 188-211`). `lim` is `tmin`, `none` stands for `np.inf`. -/
noncomputable def timeLoop (resp : StateObj ℝ P → Res (SimOut × List ℝ)) (R C : ℕ) :
    List (StateObj ℝ P × Option ℕ) → Option ℝ → Res (List TimeCurve × Option ℝ)
  | [], lim => .ok ([], lim)
  | (S, sty) :: l, lim => do
    let (yout, t) ← resp S
    match t.getLast? with
    | none => .error .index
    | some tl => do
      let cs ← (sysCurves S.g yout t sty).mapM (drawTime R C)
      let (rest, lim') ← timeLoop resp R C l (some (lim.elim tl fun x => min tl x))
      .ok (cs ++ rest, lim')

/-- `np.max(np.array([x.shape for x in syslist]), axis=0)` (`_time_domain_plots.py:66, 160`). -/
def maxShape (sys : List (StateObj ℝ P)) : Res (ℕ × ℕ) :=
  if sys = [] then .error .value
  else .ok ((sys.map fun S => S.g.p).foldr max 0, (sys.map fun S => S.g.m).foldr max 0)

/-- The drawing part shared by both functions; `set_xlim(right=inf)` raises `ValueError`
(`_time_domain_plots.py:66-122, 160-212`). -/
noncomputable def timePlot (resp : StateObj ℝ P → Res (SimOut × List ℝ)) (sys : List (StateObj ℝ P))
    (styled : List (StateObj ℝ P × Option ℕ)) : Res (List TimeCurve × ℝ) := do
  let (R, C) ← maxShape sys
  let (cs, lim) ← timeLoop resp R C styled none
  match lim with
  | none => .error .value
  | some x => .ok (cs, x)

/-- `step_response_plot(sys, t, style)` (`_time_domain_plots.py:36-127`) for a list of systems; `styles` is the length of
the property cycle. The second value is the right limit of the time axis; the left limit is 0. -/
noncomputable def stepPlot (N : Numerics ℝ P) (E : DNum) (auto : StateObj ℝ P → ℝ × ℝ) (sys : List (StateObj ℝ P))
    (t : Option (List ℝ)) (styles : ℕ) : Res (List TimeCurve × ℝ) :=
  timePlot (fun S => stepResponse N E S (auto S) t) sys (sys.zip ((List.range styles).map some))

/-- `impulse_response_plot(sys, t, style)` (`_time_domain_plots.py:130-217`). -/
noncomputable def impulsePlot (N : Numerics ℝ P) (E : DNum) (auto : StateObj ℝ P → ℝ × ℝ) (sys : List (StateObj ℝ P))
    (t : Option (List ℝ)) (_styles : ℕ) : Res (List TimeCurve × ℝ) :=
  timePlot (fun S => impulseResponse N E S (auto S) t) sys (sys.map fun S => (S, none))

end Harold
