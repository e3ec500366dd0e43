import Verif.Model.TransferOps

/-!
# `Transfer.dcgain`

Models `/repo/harold/_classes.py:145-201`.
-/

namespace Harold

open Matrix

variable {K : Type} [Field K] [LinearOrder K]

/-- A float that may be infinite or not a number. The sign of infinities is not modelled. -/
inductive DcVal (K : Type) where
  | fin (x : K)
  | inf
  | nan

/-- Floating point division `x / y`. -/
def DcVal.div (x y : K) : DcVal K := if y = 0 then if x = 0 then .nan else .inf else .fin (x / y)

/-- The loop that removes common trailing zeros (`_classes.py:165-172`), `none` if it is exhausted (the `else` branch). -/
def stripZero : ℕ → List K → List K → Res (Option (List K × List K))
  | 0, _, _ => .ok none
  | k + 1, num, den =>
    match num.getLast? with
    | none => .error .index
    | some a =>
      if a = 0 then
        match den.getLast? with
        | none => .error .index
        | some b => if b = 0 then stripZero k num.dropLast den.dropLast else .ok (some (num, den))
      else .ok (some (num, den))

/-- `np.polyval(l, 0)`. -/
def polyvalZero (l : List K) : K := l.getLastD 0

/-- One entry in continuous time (`_classes.py:165-176`). -/
def dcEntryCont (num den : List K) : Res (DcVal K) := do
  match ← stripZero num.length num den with
  | none => .ok (.fin 0)
  | some (n, d) => .ok (DcVal.div (polyvalZero n) (polyvalZero d))

/-- The loop that removes common factors `z - 1` (`_classes.py:190-196`). `deconvolve` returns a list instead of an array if the first argument is shorter
than the second one; a list has no attribute `sum`. -/
def stripOne (tol : K) : ℕ → List K → List K → Res (Option (List K × List K))
  | 0, _, _ => .ok none
  | k + 1, num, den =>
    if num = [] then .error .attribute
    else if |num.sum| < tol then
      if den = [] then .error .attribute
      else if |den.sum| < tol then do
        let n ← deconvolve num [1, -1]
        let d ← deconvolve den [1, -1]
        stripOne tol k n.1 d.1
      else .ok (some (num, den))
    else if den = [] then .error .attribute
    else .ok (some (num, den))

/-- One entry in discrete time (`_classes.py:190-201`). If the loop stops because of the numerator, the missing attribute of an empty denominator is found
at the quotient instead of the comparison, with the same exception. -/
def dcEntryDisc (tol : K) (num den : List K) : Res (DcVal K) := do
  match ← stripOne tol num.length num den with
  | none => .ok (.fin 0)
  | some (n, d) => .ok (DcVal.div n.sum d.sum)

/-- `G.dcgain` (`_classes.py:145-201`); `tol` is `10 * spacing(1.)`. A SISO model gives the entry itself in the code, here a `1 × 1` array. The loop over
the entries goes column by column in the code; the order does not matter for the result. -/
noncomputable def TransferM.dcgain (tol : K) (G : TransferM K) : Res (Arr (DcVal K)) :=
  if G.isgain then do
    let x ← G.toArray
    .ok (Arr.of (x.m.map DcVal.fin))
  else do
    let e ← matM fun (i : Fin G.p) (j : Fin G.m) =>
      if G.dt.isSome then dcEntryDisc tol (G.num.entry i j) (G.den.entry i j) else dcEntryCont (G.num.entry i j) (G.den.entry i j)
    .ok (Arr.of (Matrix.of e))

end Harold
