import Verif.Base.Arr
import Mathlib.Data.List.Basic
import Mathlib.Data.List.TakeWhile
import Mathlib.Algebra.BigOperators.Group.Finset.Basic

/-!
# Polynomial operations

Models `/repo/harold/_polynomial_ops.py`. Coefficient arrays are lists in decreasing powers.
-/

namespace Harold

variable {K : Type}

section
variable [Field K] [DecidableEq K]

/-- `np.trim_zeros(x, 'f')`. -/
def trimZeros (l : List K) : List K := l.dropWhile (fun a => decide (a = 0))

/-- `np.convolve(p, x)` (mode `full`); numpy raises `ValueError` if one of the arrays is empty. -/
def convolve (p x : List K) : Res (List K) :=
  if p = [] ∨ x = [] then .error .value
  else .ok (List.ofFn fun n : Fin (p.length + x.length - 1) =>
    ∑ k ∈ Finset.range (n + 1), p.getD k 0 * x.getD (n - k) 0)

/-- The loop of `haroldpolymul` (`_polynomial_ops.py:428-432`). -/
def polymulLoop (p : List K) : List (List K) → Res (List K)
  | [] => .ok p
  | x :: xs =>
    if x.length = 0 then .ok []
    else do
      let p ← convolve p x
      polymulLoop p xs

/-- `haroldpolymul(*args, trim_zeros=True)` (`_polynomial_ops.py:421-434`). The arguments are 1-D
arrays (a list has no `flatten`). -/
def polymul (args : List (List K)) (trim : Bool := true) : Res (List K) := do
  let targs := if trim then args.map trimZeros else args
  match targs with
  | [] => .error .index
  | p :: rest => do
    let p ← polymulLoop p rest
    .ok (if p.any (fun a => decide (a ≠ 0)) then p else [0])

/-- `s[k:] += x` for `k = len(s) - len(x)`. -/
def addRight (s x : List K) : List K :=
  let k := s.length - x.length
  s.take k ++ List.zipWith (· + ·) (s.drop k) x

/-- `haroldpolyadd(*args, trim_zeros=True)` (`_polynomial_ops.py:377-387`). -/
def polyadd (args : List (List K)) (trim : Bool := true) : Res (List K) :=
  let targs := if trim then args.map trimZeros else args
  if targs = [] then .error .value   -- `max([])`
  else
    let m := (targs.map List.length).foldr max 0
    .ok (targs.foldl addRight (List.replicate m 0))

/-- The first `n` samples of the impulse response of the filter `num/den`, `scipy.signal.lfilter`
as used by `scipy.signal.deconvolve`. -/
def lfilterImp (num den : List K) : ℕ → List K
  | 0 => []
  | n + 1 =>
    let y := lfilterImp num den n
    y ++ [(num.getD n 0 - ∑ k ∈ Finset.range n, den.getD (k + 1) 0 * y.getD (n - (k + 1)) 0)
      / den.getD 0 0]

/-- `scipy.signal.deconvolve(num, den)`. -/
def deconvolve (num den : List K) : Res (List K × List K) :=
  if num.length < den.length then .ok ([], num)
  else if den.getD 0 0 = 0 then .error .value   -- lfilter: a[0] must be nonzero
  else do
    let q := lfilterImp num den (num.length - den.length + 1)
    let dq ← convolve den q
    .ok (q, List.zipWith (· - ·) num dq)

/-- `haroldpolydiv(dividend, divisor)` (`_polynomial_ops.py:470-473`). -/
def polydiv (dividend divisor : List K) : Res (List K × List K) := do
  let (q, r) ← deconvolve dividend divisor
  .ok (trimZeros q, trimZeros r)

/-- The inner loop of `haroldpoly` (`_polynomial_ops.py:340-341`): `for y in range(x, 0, -1)`. -/
def polyInner (r : K) : ℕ → (ℕ → K) → (ℕ → K)
  | 0, p => p
  | y + 1, p => polyInner r y (Function.update p (y + 1) (p (y + 1) - p y * r))

/-- The outer loop of `haroldpoly` (`_polynomial_ops.py:338-341`) over `x = k, k+1, ...` with the
remaining roots. -/
def polyOuter : ℕ → List K → (ℕ → K) → (ℕ → K)
  | _, [], p => p
  | x, r :: rs, p =>
    polyOuter (x + 1) rs (polyInner r x (Function.update p (x + 1) (-(p x) * r)))

/-- `haroldpoly(rootlist)` (`_polynomial_ops.py:323-342`). -/
def poly : List K → List K
  | [] => [1]
  | r :: rs =>
    let p0 : ℕ → K := Function.update (Function.update (fun _ => 0) 0 1) 1 (-r)
    let p := polyOuter 1 rs p0
    List.ofFn fun i : Fin ((r :: rs).length + 1) => p i

/-- `haroldcompanion(somearray)` (`_polynomial_ops.py:291-316`). `none` is the empty 1-D array
that is returned for constants. -/
def companion (l : List K) : Res (Option (Arr K)) :=
  if l = [] then .ok none
  else
    match trimZeros l with
    | [] => .error .index   -- `ta[0]`
    | a :: t =>
      let ta := ((a :: t).map (fun x => 1 / a * x)).tail.reverse.map (fun x => -x)
      let n := ta.length
      let row : Arr K := Arr.of (Matrix.of fun (_ : Fin 1) (j : Fin n) => ta.getD j 0)
      if n = 0 then .ok none
      else if n = 1 then .ok (some row)
      else do
        let top ← Arr.hstack (Arr.zeros (n - 1) 1) (Arr.eye (n - 1))
        let m ← Arr.vstack top row
        .ok (some m)

end

end Harold
