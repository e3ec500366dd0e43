import Verif.Model.State
import Mathlib.Analysis.Normed.Algebra.MatrixExponential
import Mathlib.Analysis.SpecialFunctions.Exp

/-!
# `random_state_model`

Models `/repo/harold/_classes.py:3363-3500`.

The random generator is an arbitrary record of outcomes: nothing about probabilities is modelled. Not
modelled: the conversion of `n, p, m` by `int` and the errors raised inside `numpy.random.choice` for a
malformed `prob_dist`.
-/

namespace Harold

open Matrix

/-- The outcomes of the random generator in one call. `ptype k`, `sign k`, `r1 k`, `r2 k` are the pole
type, the sign and the two numbers drawn in pass `k` of the loop; `signL`, `rL` are the ones drawn after
the loop (`_classes.py:3488-3491`); `a1` is `rand(1)` in line 3443; `T` is `ortho_group.rvs(n)`;
`B`, `C`, `D` are the arrays of lines 3441, 3443 and 3500. -/
structure RandDraws (n p m : ℕ) where
  ptype : ℕ → ℕ
  sign : ℕ → ℝ
  r1 : ℕ → ℝ
  r2 : ℕ → ℝ
  signL : ℝ
  rL : ℝ
  a1 : ℝ
  T : Matrix (Fin n) (Fin n) ℝ
  B : Matrix (Fin n) (Fin m) ℝ
  C : Matrix (Fin p) (Fin n) ℝ
  D : Matrix (Fin p) (Fin m) ℝ

/-- `a[i, j] = v`; out of bounds is an `IndexError`. -/
def setEntry {n : ℕ} (a : Matrix (Fin n) (Fin n) ℝ) (i j : ℕ) (v : ℝ) : Res (Matrix (Fin n) (Fin n) ℝ) :=
  if i < n ∧ j < n then .ok (Matrix.of fun k l => if (k : ℕ) = i ∧ (l : ℕ) = j then v else a k l)
  else .error .index

/-- `pr = -exp(exp(rand())) if stable else ps*exp(exp(rand()))` (`_classes.py:3457, 3465, 3490`). -/
noncomputable def poleReal (stable : Bool) (ps r : ℝ) : ℝ :=
  if stable then -Real.exp (Real.exp r) else ps * Real.exp (Real.exp r)

/-- `a[[i, i, i+1, i+1], [i, i+1, i, i+1]] = [w, x, y, z]` (`_classes.py:3467-3468, 3479-3480`). -/
def setBlock2 {n : ℕ} (a : Matrix (Fin n) (Fin n) ℝ) (i : ℕ) (w x y z : ℝ) : Res (Matrix (Fin n) (Fin n) ℝ) := do
  let a ← setEntry a i i w
  let a ← setEntry a i (i + 1) x
  let a ← setEntry a (i + 1) i y
  setEntry a (i + 1) (i + 1) z

/-- The body of the loop up to the test of line 3484, `none` for `break` (`_classes.py:3454-3481`). -/
noncomputable def poleStep {n p m : ℕ} (stable : Bool) (w : RandDraws n p m) (k i : ℕ) (a : Matrix (Fin n) (Fin n) ℝ) :
    Res (Option (ℕ × Matrix (Fin n) (Fin n) ℝ)) :=
  match w.ptype k with
  | 0 => do
    let a ← setEntry a i i (poleReal stable (w.sign k) (w.r1 k))
    .ok (some (i + 1, a))
  | 1 =>
    if n ≤ i + 1 then .ok none
    else do
      let pr := poleReal stable (w.sign k) (w.r1 k)
      let pi := Real.exp (Real.exp (w.r2 k))
      let a ← setBlock2 a i pr pi (-pi) pr
      .ok (some (i + 2, a))
  | 2 => do
    let a ← setEntry a i i 0
    .ok (some (i + 1, a))
  | 3 =>
    if n ≤ i + 1 then .ok none
    else do
      let pi := Real.exp (Real.exp (w.r2 k))
      let a ← setBlock2 a i 0 pi (-pi) 0
      .ok (some (i + 2, a))
  | _ => .ok (some (i, a))

/-- The walk over the diagonal (`_classes.py:3452-3485`): `fuel` passes of `range(n)` remain, this is pass `k`. -/
noncomputable def poleLoop {n p m : ℕ} (stable : Bool) (w : RandDraws n p m) : ℕ → ℕ → ℕ → Matrix (Fin n) (Fin n) ℝ → Res (ℕ × Matrix (Fin n) (Fin n) ℝ)
  | 0, _, i, a => .ok (i, a)
  | fuel + 1, k, i, a => do
    match ← poleStep stable w k i a with
    | none => .ok (i, a)
    | some (i', a') => if i' = n then .ok (i', a') else poleLoop stable w fuel (k + 1) i' a'

/-- `if diag_i == n-1:` fill the last diagonal entry (`_classes.py:3488-3491`). -/
noncomputable def poleFill {n p m : ℕ} (stable : Bool) (w : RandDraws n p m) (i : ℕ) (a : Matrix (Fin n) (Fin n) ℝ) : Res (Matrix (Fin n) (Fin n) ℝ) :=
  if i + 1 = n then setEntry a i i (poleReal stable w.signL w.rL) else .ok a

/-- `random_state_model(n, p, m, dt=dt, stable=stable)` (`_classes.py:3427-3500`). -/
noncomputable def randomStateModel (n p m : ℕ) (dt : Option ℝ) (stable : Bool) (w : RandDraws n p m) : Res (StateM ℝ) :=
  if n = 0 then mkState (some (Arr.of w.D)) none none none dt
  else if n = 1 then
    mkState (some (Arr.scalar w.a1).neg) (some (Arr.of w.B)) (some (Arr.of w.C)) (some (Arr.of w.D)) dt
  else do
    let (i, a) ← poleLoop stable w n 0 0 0
    let a ← poleFill stable w i a
    let a := match dt with
      | none => a
      | some t => NormedSpace.exp (t • a)
    let ta ← Arr.solve (Arr.of w.T) (Arr.of a)
    let a ← ta.matmul (Arr.of w.T)
    mkState (some a) (some (Arr.of w.B)) (some (Arr.of w.C)) (some (Arr.of w.D)) dt

end Harold
