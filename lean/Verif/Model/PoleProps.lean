import Verif.Model.StateObj
import Mathlib.Analysis.SpecialFunctions.Complex.Log

/-!
# `pole_properties`

Models `_pole_properties` (`/repo/harold/_classes.py:2703-2763`) and the methods `pole_properties` of
`State` and `Transfer` (2542-2546, 1038-1054), which pass the poles and the sampling period of the
model. The poles are complex numbers; a natural frequency `inf` and a damping ratio `nan` are `none`.
-/

namespace Harold

/-- The natural frequency and the damping ratio of a pole that is not an integrator, from the
logarithm of lines 2758-2762 (`s` is the pole itself for a continuous model). -/
noncomputable def poleNums (s : ℂ) : Option ℝ × Option ℝ := (some ‖s‖, some (-s.re / ‖s‖))

/-- The row of a pole of a continuous-time model (`_classes.py:2752-2763`). -/
noncomputable def poleRowCont (p : ℂ) : ℂ × Option ℝ × Option ℝ :=
  if p = 0 then (p, some 0, none) else (p, poleNums p)

/-- The row of a pole of a discrete-time model (`_classes.py:2750-2763`). `np.log(0)` is `-inf`, its
absolute value `inf`, and `inf / inf` is `nan`. -/
noncomputable def poleRowDisc (d : ℝ) (p : ℂ) : ℂ × Option ℝ × Option ℝ :=
  if p = 1 then (p, some 0, none)
  else if p = 0 then (p, none, none)
  else (p, poleNums (Complex.log p / d))

/-- `_pole_properties(poles, dt)` (`_classes.py:2739-2763`). The outer `none` is the `None` returned
without poles. -/
noncomputable def poleProperties (poles : List ℂ) (dt : Option ℝ) :
    Option (List (ℂ × Option ℝ × Option ℝ)) :=
  if poles = [] then none
  else match dt with
    | none => some (poles.map poleRowCont)
    | some d => some (poles.map (poleRowDisc d))

/-- `G.pole_properties()` of a `State` (`_classes.py:2542-2545`). -/
noncomputable def StateObj.poleProperties (S : StateObj ℝ ℂ) :
    Option (List (ℂ × Option ℝ × Option ℝ)) :=
  Harold.poleProperties S.poles S.g.dt

end Harold
