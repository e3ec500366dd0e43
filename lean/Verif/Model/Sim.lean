import Verif.Model.Discrete

/-!
# Time domain simulation (`_time_domain.py`)

Inputs `u` are 2-D arrays (samples × channels; a 1-D array of `N` samples is the `N × 1` array, the
code converts between the two by `squeeze` and `[:, None]`). Time arrays and initial conditions are
1-D arrays (lists).
-/

namespace Harold

open Matrix

/-- Total entry access; all reads below are in range for the arrays of a `State` model. -/
def Arr.get (x : Arr ℝ) (i j : ℕ) : ℝ := if h : i < x.r ∧ j < x.c then x.m ⟨i, h.1⟩ ⟨j, h.2⟩ else 0

/-- `u.squeeze()` followed by `u[:, None]` for 1-D results (`_time_domain.py:85-87`). `none`: the
result is a 0-D array. -/
def squeezeU (u : Arr ℝ) : Option (Arr ℝ) :=
  if u.r = 1 ∧ u.c = 1 then none
  else if u.r = 1 then some u.T
  else some u

/-- `np.isclose(a, b)`: `|a - b| ≤ 1e-8 + 1e-5 |b|`. -/
def isClose (a b : ℝ) : Prop := |a - b| ≤ 1 / 100000000 + 1 / 100000 * |b|

/-- `np.diff(t)`. -/
def diffs (t : List ℝ) : List ℝ := List.zipWith (fun a b => b - a) t t.tail

/-- `np.linspace(0, (N-1)*dt, num=N)`. -/
def linTimes (N : ℕ) (dt : ℝ) : List ℝ := (List.range N).map fun k : ℕ => (k : ℝ) * dt

open Classical in
/-- The checks of a given time array, lines 449-462. A 1-D array of length one squeezes to a 0-D
array, an empty one has no first difference. -/
noncomputable def checkT (dt : Option ℝ) (t : List ℝ) : Res (List ℝ) :=
  if t.length = 1 then .error .value
  else match diffs t with
    | [] => .error .index
    | d :: ds =>
      if ¬ (∀ x ∈ d :: ds, isClose x d) ∨ ¬ (0 < d) then .error .value
      else match dt with
        | none => .ok t
        | some h => if ¬ isClose h d then .error .value else .ok t

/-- The time array: lines 439-462 (`len(u)` of a 0-D array raises `TypeError`). -/
noncomputable def timeArray (dt : Option ℝ) (u : Option (Arr ℝ)) (t : Option (List ℝ)) :
    Res (List ℝ) :=
  match t with
  | none =>
    match dt, u with
    | none, _ => .error .value
    | some _, none => .error .type
    | some h, some u => .ok (linTimes u.r h)
  | some t => checkT dt t

/-- `_check_u_and_t_for_simulation` (`_time_domain.py:434-474`). -/
noncomputable def checkUT (m : ℕ) (dt : Option ℝ) (u : Option (Arr ℝ)) (t : Option (List ℝ)) :
    Res (Arr ℝ × List ℝ) := do
  let t ← timeArray dt u t
  match u with
  | none => .error .type
  | some u =>
    if u.r * u.c < 1 then .error .value
    else if u.r ≠ t.length then .error .value
    else if u.c ≠ m then .error .value
    else .ok (u, t)

/-- `x0` after lines 62-78; the value is a `1 × n` row (`x0.T`). A single number squeezes to a 0-D
array, whose indexing raises `IndexError`. -/
def checkX0 (g : StateM ℝ) (x0 : Option (List ℝ)) : Res (Option (Arr ℝ)) :=
  match x0 with
  | none => .ok none
  | some v =>
    if g.isgain then .error .value
    else if v.length = 1 then .error .index
    else if g.n ≠ v.length then .error .value
    else .ok (some (Arr.of (Matrix.of fun (_ : Fin 1) (j : Fin v.length) => v.get j)))

/-- The result: a 2-D array (samples × outputs), or a 3-D array given by its slices per channel. -/
inductive SimOut where
  | flat (y : Arr ℝ)
  | perChannel (ys : List (Arr ℝ))

/-- The rows of `xout` (lines 132-136 and 145-149):
`xout[0] = x0`, `xout[row] = xout[row-1] @ a.T + Bu[row-1]`. -/
def simRow (a Bu x0 : Arr ℝ) : ℕ → ℕ → ℝ
  | 0, j => x0.get 0 j
  | k + 1, j => (∑ l ∈ Finset.range a.r, simRow a Bu x0 k l * a.get j l) + Bu.get k j

/-- `xout`. -/
def simX (a Bu x0 : Arr ℝ) (N : ℕ) : Arr ℝ :=
  Arr.of (Matrix.of fun (i : Fin N) (j : Fin a.r) => simRow a Bu x0 i j)

/-- The initial row: zero if `x0` is `None`. -/
def x0Row (n : ℕ) (x0 : Option (Arr ℝ)) : Arr ℝ := x0.getD (Arr.zeros 1 n)

/-- Column `k` of a 2-D array, as an `N × 1` array (`u[:, [k]]`). -/
def Arr.col (u : Arr ℝ) (k : ℕ) : Arr ℝ := Arr.of (Matrix.of fun (i : Fin u.r) (_ : Fin 1) => u.get i k)

/-- The combined simulation, lines 143-152. -/
def simFlat (g : StateM ℝ) (u : Arr ℝ) (x0 : Option (Arr ℝ)) : Res (Arr ℝ) := do
  let Mu ← Arr.hstack g.b.T g.d.T
  let BDu ← u.matmul Mu
  let BD := BDu.cut4 BDu.r g.n      -- `BDu[:, :n]`, `BDu[:, n:]`
  let xout := simX g.a BD.1 (x0Row g.n x0) u.r
  let y ← xout.matmul g.c.T
  y.add BD.2.1

/-- One slice of the per channel simulation, lines 128-141. -/
def simChannel (g : StateM ℝ) (u : Arr ℝ) (x0 : Option (Arr ℝ)) (k : ℕ) : Res (Arr ℝ) := do
  let Bu ← (u.col k).matmul (g.b.col k).T
  let xout := simX g.a Bu (x0Row g.n x0) u.r
  let y ← xout.matmul g.c.T
  let w ← (u.col k).matmul (g.d.col k).T
  y.add w

/-- Static gains, lines 93-105. -/
def simGain (g : StateM ℝ) (u : Arr ℝ) (perChannel : Bool) : Res SimOut :=
  if g.isSISO then .ok (.flat (u.smul (g.d.get 0 0)))
  else if perChannel && decide (g.m ≠ 1) then do
    let ys ← (List.range g.m).mapM fun k => (u.col k).matmul (g.d.col k).T
    .ok (.perChannel ys)
  else do
    let y ← u.matmul g.d.T
    .ok (.flat y)

/-- Dynamic discrete models, lines 115-152. -/
def simDyn (g : StateM ℝ) (u : Arr ℝ) (x0 : Option (Arr ℝ)) (perChannel : Bool) : Res SimOut :=
  if perChannel && decide (g.m ≠ 1) then do
    let ys ← (List.range g.m).mapM (simChannel g u x0)
    .ok (.perChannel ys)
  else do
    let y ← simFlat g u x0
    .ok (.flat y)

variable {P : Type}

/-- The model that is simulated, lines 108-111: continuous models are zoh discretised with the first
time increment. -/
noncomputable def simModel (N : Numerics ℝ P) (E : DNum) (S : StateObj ℝ P) (t : List ℝ) :
    Res (StateM ℝ) :=
  match S.g.dt with
  | some _ => .ok S.g
  | none => do
    let Sd ← discretize N E S (t.getD 1 0 - t.getD 0 0) "zoh" 0 none
    .ok Sd.g

/-- `simulate_linear_system` (`_time_domain.py:13-154`) for `State` models. -/
noncomputable def simulate (N : Numerics ℝ P) (E : DNum) (S : StateObj ℝ P) (u : Arr ℝ)
    (t : Option (List ℝ)) (x0 : Option (List ℝ)) (perChannel : Bool) : Res (SimOut × List ℝ) := do
  let x0 ← checkX0 S.g x0
  let (u, t) ← checkUT S.g.m S.g.dt (squeezeU u) t
  if S.g.isgain then do
    let y ← simGain S.g u perChannel
    .ok (y, t)
  else do
    let g ← simModel N E S t
    let y ← simDyn g u x0 perChannel
    .ok (y, t)

/-- `np.arange(0, stop, step)` for positive `step`. -/
noncomputable def arange (stop step : ℝ) : List ℝ := (List.range ⌈stop / step⌉₊).map fun k : ℕ => (k : ℝ) * step

open Classical in
/-- `_check_custom_time_input` (`_time_domain.py:477-499`). -/
noncomputable def checkCustomTime (t : List ℝ) : Res (List ℝ × ℝ) :=
  if t.length < 2 then .error .value
  else
    let dt := t.getD 1 0 - t.getD 0 0
    if dt ≤ 0 then .error .value
    else if ¬ (∀ x ∈ diffs t, isClose x dt) then .error .value
    else .ok (t, dt)

/-- The time grid of step and impulse responses (lines 189-193, 239-243); `auto` is the result of
`_compute_tfinal_and_dt`. -/
noncomputable def responseGrid (auto : ℝ × ℝ) (t : Option (List ℝ)) : Res (List ℝ × ℝ) :=
  match t with
  | none => .ok (arange (auto.1 + auto.2) auto.2, auto.2)
  | some t => checkCustomTime t

/-- `simulate_step_response` (`_time_domain.py:157-203`). -/
noncomputable def stepResponse (N : Numerics ℝ P) (E : DNum) (S : StateObj ℝ P) (auto : ℝ × ℝ)
    (t : Option (List ℝ)) : Res (SimOut × List ℝ) := do
  let (t, _) ← responseGrid auto t
  simulate N E S (Arr.ones t.length S.g.m) (some t) none true

/-- `u[0] = 1/ts`, all other samples zero. -/
noncomputable def impulseU (N m : ℕ) (ts : ℝ) : Arr ℝ :=
  Arr.of (Matrix.of fun (i : Fin N) (_ : Fin m) => if (i : ℕ) = 0 then 1 / ts else 0)

/-- `simulate_impulse_response` (`_time_domain.py:206-254`). (`u[0]` of an empty array raises
`IndexError`; grids are never empty.) -/
noncomputable def impulseResponse (N : Numerics ℝ P) (E : DNum) (S : StateObj ℝ P) (auto : ℝ × ℝ)
    (t : Option (List ℝ)) : Res (SimOut × List ℝ) := do
  let (t, ts) ← responseGrid auto t
  simulate N E S (impulseU t.length S.g.m ts) (some t) none true

end Harold
