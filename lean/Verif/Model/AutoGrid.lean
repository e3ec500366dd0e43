import Verif.Model.Sim
import Mathlib.Analysis.SpecialFunctions.Complex.Log
import Mathlib.Analysis.SpecialFunctions.Log.Basic
import Mathlib.Order.WithBot

/-!
# `_compute_tfinal_and_dt`

Models `/repo/harold/_time_domain.py:257-431` and its use in the step and impulse responses (lines 189-191, 239-241).

The eigenvalues of a discrete model and the modes of a continuous model are parameters. A horizon that is
`inf` is `⊤`, one that is `nan` is `none`.
-/

namespace Harold

open Classical

/-- `np.sqrt(np.spacing(1.))`. -/
noncomputable def sqrtEps : ℝ := (1 / 2) ^ 26

/-- `np.max` of an array; an empty array raises `ValueError`. -/
noncomputable def arrMax : List (WithTop ℝ) → Res (WithTop ℝ)
  | [] => .error .value
  | x :: xs => .ok (xs.foldl max x)

/-- `np.min` of an array of (finite) numbers. -/
noncomputable def arrMin : List ℝ → Res ℝ
  | [] => .error .value
  | x :: xs => .ok (xs.foldl min x)

/-- Division of a positive number by a nonnegative one in numpy: `x / 0` is `inf`. -/
noncomputable def tdiv (x y : ℝ) : WithTop ℝ := if y = 0 then ⊤ else ((x / y : ℝ) : WithTop ℝ)

/-- `c / l.min()`. -/
noncomputable def divMin (c : ℝ) (l : List ℝ) : Res (WithTop ℝ) := do
  let w ← arrMin l
  .ok (tdiv c w)

/-- `tfinal = max(tfinal, t_emp)` where `t_emp` is computed from the array `l` if it is not empty. -/
noncomputable def raiseTo (l : List ℂ) (temp : Res (WithTop ℝ)) (tf : WithTop ℝ) : Res (WithTop ℝ) :=
  if l = [] then .ok tf
  else do
    let t ← temp
    .ok (max tf t)

/-- `(p.real < 0) & (np.abs(p.imag) < sqrt_eps)`. -/
def negRealMask (z : ℂ) : Prop := z.re < 0 ∧ |z.im| < sqrtEps

/-- The horizon of a discrete model before rounding (`_time_domain.py:319-358`); `p` are the eigenvalues of `sys.a`. -/
noncomputable def discHorizon (p : List ℂ) (dt : ℝ) : Res (WithTop ℝ) := do
  let tf : WithTop ℝ := ((5 : ℝ) : WithTop ℝ)
  let pu := p.filter fun z => decide (1 + sqrtEps ≤ ‖z‖)
  let p := p.filter fun z => decide (¬ 1 + sqrtEps ≤ ‖z‖)
  let tf ← raiseTo pu
    (arrMax ((pu.filter fun z => decide (¬ negRealMask z)).map fun z => tdiv (Real.log 100) ‖Complex.log z / dt‖)) tf
  let p := p.filter fun z => decide (¬ ‖z‖ < sqrtEps)
  let pnr := p.filter fun z => decide (negRealMask z)
  let p := p.filter fun z => decide (¬ negRealMask z)
  let tf ← raiseTo pnr (arrMax (pnr.map fun z => tdiv (Real.log 100) |(Complex.log z / dt).re|)) tf
  let pint := p.filter fun z => decide (z.re - 1 < sqrtEps ∧ |z.im| < sqrtEps)
  let p := p.filter fun z => decide (¬ (z.re - 1 < sqrtEps ∧ |z.im| < sqrtEps))
  let pw := p.filter fun z => decide (|‖z‖ - 1| < sqrtEps)
  let p := p.filter fun z => decide (¬ |‖z‖ - 1| < sqrtEps)
  let tf ← raiseTo pw (divMin (5 * 2 * Real.pi) (pw.map fun z => ‖Complex.log z / dt‖)) tf
  let tf ← raiseTo p (divMin (Real.log 100) (p.map fun z => |(Complex.log z / dt).re|)) tf
  .ok (if pint = [] then tf else tf.map (· * 5))

/-- `tfinal` as an integer multiple of `dt` (`_time_domain.py:360-365`): `inf // dt` is `nan`. -/
noncomputable def discRound (tf : WithTop ℝ) (dt : ℝ) : Option ℝ :=
  match tf with
  | ⊤ => none
  | (t : ℝ) => some (if 75000 < ⌊t / dt⌋ then dt * 75000 else dt * ⌊t / dt⌋)

/-- A mode of a continuous model: the eigenvalue `p` of the balanced matrix after the truncation of
line 378, the product `norm(v) * norm(w) * eig_sens` of line 396, and the flag `ok` of line 392. -/
structure Mode where
  p : ℂ
  size : ℝ
  ok : Bool

/-- `dc` (`_time_domain.py:389-400`). -/
noncomputable def modeDc (isStep : Bool) (μ : Mode) : ℝ :=
  let d := if μ.ok then μ.size else 0
  let d := if ‖μ.p‖ ≠ 0 then (if isStep then d / ‖μ.p‖ else d / 1) else d
  let d := if ‖μ.p‖ = 0 then 0 else d
  if μ.p.im ≠ 0 then d * 2 else d

/-- `dc.max()`. -/
noncomputable def realMax : List ℝ → Res ℝ
  | [] => .error .value
  | x :: xs => .ok (xs.foldl max x)

/-- `(psub.imag != 0.) & (np.abs(psub.real) <= sqrt_eps)`. -/
def iwMask (z : ℂ) : Prop := z.im ≠ 0 ∧ |z.re| ≤ sqrtEps

/-- The last lines: the number of points between 100 and 10000 (`_time_domain.py:428-429`). -/
noncomputable def clampPoints (tf dt : ℝ) : ℝ × ℝ :=
  let dt := if 10000 < ⌊tf / dt⌋ then tf / 10000 else dt
  let tf := if ⌊tf / dt⌋ < 100 then dt * 100 else tf
  (tf, dt)

/-- Horizon and step of a continuous model (`_time_domain.py:386-431`) from its modes. -/
noncomputable def contGrid (isStep : Bool) (l : List Mode) : Res (ℝ × ℝ) := do
  let dmax ← realMax (l.map (modeDc isStep))
  let psub := (l.filter fun μ => decide (1 / 10 * dmax < modeDc isStep μ) || !μ.ok).map Mode.p
  let iw := psub.filter fun z => decide (iwMask z)
  let rest := psub.filter fun z => decide (¬ iwMask z ∧ ¬ ‖z‖ = 0)
  let tfs := (iw.map fun z => 5 * 2 * Real.pi / ‖z‖) ++ (rest.map fun z => Real.log 100 / |z.re|)
  let dts := (iw.map fun z => 2 * Real.pi / 25 / ‖z‖) ++
    (rest.map fun z => min (Real.log 100 / |z.re| / 50) (2 * Real.pi / 25 / ‖z‖))
  if tfs = [] then .ok (5 * 5, 5 * 5 / 100)
  else do
    let tf ← realMax tfs
    let dt ← arrMin dts
    .ok (clampPoints (tf * if ∃ μ ∈ l, ‖μ.p‖ = 0 then 5 else 1) dt)

/-- The external routines: `eigvals` and the modes (`matrix_balance`, `eig` and the lines up to 396). -/
structure AutoNum where
  eigvals : Arr ℝ → List ℂ
  modes : StateM ℝ → List Mode

/-- `_compute_tfinal_and_dt(sys, is_step)` (`_time_domain.py:257-431`). -/
noncomputable def autoGrid (A : AutoNum) (g : StateM ℝ) (isStep : Bool) : Res (Option ℝ × ℝ) :=
  if g.isgain then
    match g.dt with
    | some dt => .ok (some (dt * 20), dt)
    | none => .ok (some 5, 5 / 100)
  else
    match g.dt with
    | some dt => do
      let tf ← discHorizon (A.eigvals g.a) dt
      .ok (discRound tf dt, dt)
    | none => do
      let r ← contGrid isStep (A.modes g)
      .ok (some r.1, r.2)

variable {P : Type}

/-- `simulate_step_response(sys)` (`_time_domain.py:157-203`); `np.arange` with a `nan` raises `ValueError`. -/
noncomputable def stepAuto (A : AutoNum) (N : Numerics ℝ P) (E : DNum) (S : StateObj ℝ P) : Res (SimOut × List ℝ) := do
  match ← autoGrid A S.g true with
  | (none, _) => .error .value
  | (some tf, ts) => stepResponse N E S (tf, ts) none

/-- `simulate_impulse_response(sys)` (`_time_domain.py:206-254`). -/
noncomputable def impulseAuto (A : AutoNum) (N : Numerics ℝ P) (E : DNum) (S : StateObj ℝ P) : Res (SimOut × List ℝ) := do
  match ← autoGrid A S.g false with
  | (none, _) => .error .value
  | (some tf, ts) => impulseResponse N E S (tf, ts) none

end Harold
