import Verif.Model.TimePlot
import Verif.Model.SimTransfer

/-!
# The time domain plots for lists of `State` and `Transfer` models

Models `/repo/harold/_time_domain_plots.py:36-217`. As in `Model/TimePlot`, layout, labels, fonts and grid lines are not modelled.
-/

namespace Harold

variable {P : Type}

/-- A model in the list handed to a plot function. -/
inductive PlotModel (P : Type)
  | state (S : StateObj ℝ P)
  | transfer (G : TransferM ℝ)

/-- `sys.shape`. -/
def PlotModel.shape : PlotModel P → ℕ × ℕ
  | .state S => (S.g.p, S.g.m)
  | .transfer G => (G.p, G.m)

/-- `sys._isSISO`. -/
def PlotModel.isSISO : PlotModel P → Bool
  | .state S => S.g.isSISO
  | .transfer G => G.isSISO

/-- `sys._isdiscrete`. -/
def PlotModel.isDiscrete : PlotModel P → Bool
  | .state S => S.g.dt.isSome
  | .transfer G => G.dt.isSome

/-- The curves of one model (`_time_domain_plots.py:99-120, 192-211`). -/
def modelCurves (siso disc : Bool) (yout : SimOut) (t : List ℝ) (sty : Option ℕ) : List TimeCurve :=
  if siso then
    match yout with
    | .flat y => (List.range y.c).map fun j => ⟨0, 0, disc, t, y.colList j, sty⟩
    | .perChannel ys => ys.flatMap fun y => (List.range y.c).map fun j => ⟨0, 0, disc, t, y.colList j, sty⟩
  else
    match yout with
    | .flat y => (List.range y.c).map fun row => ⟨row, 0, disc, t, y.colList row, sty⟩
    | .perChannel ys => (List.range ((ys.map Arr.c).headD 0)).flatMap fun row =>
        (List.range ys.length).map fun col => ⟨row, col, disc, t, ((ys[col]?).map fun y => y.colList row).getD [], sty⟩

/-- The loop over the models (`_time_domain_plots.py:95-120, 188-211`). -/
noncomputable def modelLoop (resp : PlotModel P → Res (SimOut × List ℝ)) (R C : ℕ) :
    List (PlotModel P × Option ℕ) → Option ℝ → Res (List TimeCurve × Option ℝ)
  | [], lim => .ok ([], lim)
  | (S, sty) :: l, lim => do
    let (yout, t) ← resp S
    match t.getLast? with
    | none => .error .index
    | some tl => do
      let cs ← (modelCurves S.isSISO S.isDiscrete yout t sty).mapM (drawTime R C)
      let (rest, lim') ← modelLoop resp R C l (some (lim.elim tl fun x => min tl x))
      .ok (cs ++ rest, lim')

/-- `np.max(np.array([x.shape for x in syslist]), axis=0)` (`_time_domain_plots.py:66, 160`). -/
def modelShape (sys : List (PlotModel P)) : Res (ℕ × ℕ) :=
  if sys = [] then .error .value
  else .ok ((sys.map fun S => S.shape.1).foldr max 0, (sys.map fun S => S.shape.2).foldr max 0)

/-- The drawing part shared by both functions (`_time_domain_plots.py:66-122, 160-212`). -/
noncomputable def modelPlot (resp : PlotModel P → Res (SimOut × List ℝ)) (sys : List (PlotModel P)) (styled : List (PlotModel P × Option ℕ)) : Res (List TimeCurve × ℝ) := do
  let (R, C) ← modelShape sys
  let (cs, lim) ← modelLoop resp R C styled none
  match lim with
  | none => .error .value
  | some x => .ok (cs, x)

/-- `simulate_step_response(sys, t)` (`_time_domain.py:157-203`). -/
noncomputable def stepOf (E : TNum ℝ) (N : Numerics ℝ P) (B : DNum) (auto : StateObj ℝ P → ℝ × ℝ) (t : Option (List ℝ)) : PlotModel P → Res (SimOut × List ℝ)
  | .state S => stepResponse N B S (auto S) t
  | .transfer G => stepResponseTransfer E N B G (fun T => auto (StateObj.plain T)) t

/-- `simulate_impulse_response(sys, t)` (`_time_domain.py:206-254`). -/
noncomputable def impulseOf (E : TNum ℝ) (N : Numerics ℝ P) (B : DNum) (auto : StateObj ℝ P → ℝ × ℝ) (t : Option (List ℝ)) : PlotModel P → Res (SimOut × List ℝ)
  | .state S => impulseResponse N B S (auto S) t
  | .transfer G => impulseResponseTransfer E N B G (fun T => auto (StateObj.plain T)) t

/-- `step_response_plot(sys, t, style)` (`_time_domain_plots.py:36-127`). -/
noncomputable def stepPlotAny (E : TNum ℝ) (N : Numerics ℝ P) (B : DNum) (auto : StateObj ℝ P → ℝ × ℝ) (sys : List (PlotModel P)) (t : Option (List ℝ)) (styles : ℕ) :
    Res (List TimeCurve × ℝ) :=
  modelPlot (stepOf E N B auto t) sys (sys.zip ((List.range styles).map some))

/-- `impulse_response_plot(sys, t, style)` (`_time_domain_plots.py:130-217`). -/
noncomputable def impulsePlotAny (E : TNum ℝ) (N : Numerics ℝ P) (B : DNum) (auto : StateObj ℝ P → ℝ × ℝ) (sys : List (PlotModel P)) (t : Option (List ℝ)) (_styles : ℕ) :
    Res (List TimeCurve × ℝ) :=
  modelPlot (impulseOf E N B auto t) sys (sys.map fun S => (S, none))

end Harold
