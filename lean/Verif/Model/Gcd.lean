import Verif.Model.Poly
import Mathlib.Data.Matrix.Basic
import Mathlib.Data.List.Rotate

/-!
# `haroldgcd`

Models `/repo/harold/_polynomial_ops.py:202-270`. Arithmetic is exact; `np.linalg.matrix_rank` and
`scipy.linalg.lu` are parameters. The arguments are 1-D arrays: the test for two dimensional
arguments (lines 204-208) is not modelled.
-/

namespace Harold

variable {K : Type} [Field K] [LinearOrder K]

/-- The numerical routines called by `haroldgcd`: `matrix_rank(S)` (line 249) and the factor `u` of
`lu(S)` (line 254). For an `M × N` array the factor `u` has `min(M, N)` rows. -/
structure GcdNum (K : Type) where
  rank : {M N : ℕ} → Matrix (Fin M) (Fin N) K → ℕ
  lu : {M N : ℕ} → Matrix (Fin M) (Fin N) K → Matrix (Fin (min M N)) (Fin N) K

/-- `np.roll(x, k)` for a 1-D array and `k ≥ 0`: the entries move to the right. -/
def rollRight (x : List K) (k : ℕ) : List K := x.rotate (x.length - k % x.length)

/-- `np.array([np.hstack((x, zeros))]*k)` followed by `S[rows] = np.roll(S[rows], rows)`
(lines 232-239 and 242-247), `pad` zeros and `k` rows. -/
def sylBlock (x : List K) (pad k : ℕ) : List (List K) :=
  (List.range k).map fun r => rollRight (x ++ List.replicate pad 0) r

/-- `max_degree = np.max(degree_list)` (line 211) as a number of coefficients, that is one more. -/
def gcdMaxSize (arr : List (List K)) : ℕ := (arr.map List.length).foldr max 0

/-- `second_max_degree` (lines 214-219) as a number of coefficients: the largest of the sizes below
the maximum, and the maximum itself if there is none. -/
def secondSize (arr : List (List K)) : ℕ :=
  if (arr.map List.length).filter (fun s => decide (s < gcdMaxSize arr)) = [] then gcdMaxSize arr
  else ((arr.map List.length).filter (fun s => decide (s < gcdMaxSize arr))).foldr max 0

/-- `max_degree_index = np.argmax(degree_list)` (line 212): the first position of the maximum. -/
def maxIndex (arr : List (List K)) : ℕ :=
  arr.findIdx fun x => decide (x.length = gcdMaxSize arr)

/-- The generalised Sylvester array `S` (lines 230-247) for the sizes `n + 1` and `p + 1`, as a list
of rows. -/
def sylRows (arr : List (List K)) (n p : ℕ) : List (List K) :=
  sylBlock (arr.getD (maxIndex arr) []) (p - 1) p ++
    (arr.eraseIdx (maxIndex arr)).flatMap fun x =>
      sylBlock x (n + p - x.length) (n + p - x.length + 1)

/-- A list of rows as a two dimensional array with `N` columns. -/
def rowsMat (rows : List (List K)) (N : ℕ) : Matrix (Fin rows.length) (Fin N) K :=
  fun i j => (rows.get i).getD j 0

/-- `u[abs(u) < 1e-8] = 0` (line 256). -/
def dropSmall {M N : ℕ} (u : Matrix (Fin M) (Fin N) K) : Matrix (Fin M) (Fin N) K :=
  fun i j => if |u i j| < 1 / 10 ^ 8 then 0 else u i j

/-- The loop of lines 257-261 followed by `u[-1, :]`; the argument holds the rows of `u` from the
last to the first. Zero rows are deleted from the bottom, the first row is never deleted. -/
def lastRow : List (List K) → List K
  | [] => []
  | [x] => x
  | x :: y :: t => if x.any (fun a => decide (a ≠ 0)) then x else lastRow (y :: t)

/-- Lines 263-265: `gcdpoly = np.trim_zeros(u[-1, :], 'f')`, `gcdpoly /= gcdpoly[0]`. `np.real` of a
real array is that array. -/
def monicRow (x : List K) : Res (List K) :=
  match trimZeros x with
  | [] => .error .index
  | a :: t => .ok ((a :: t).map fun b => b / a)

/-- Lines 249-267: the rank test and the triangular factor. -/
def gcdTail (E : GcdNum K) (rows : List (List K)) (N : ℕ) : Res (List K) :=
  if E.rank (rowsMat rows N) = min rows.length N then .ok [1]
  else
    let u := dropSmall (E.lu (rowsMat rows N))
    monicRow (lastRow (List.ofFn fun i => List.ofFn (u i)).reverse)

/-- Lines 224-267. `n + 1` and `p + 1` are the two largest sizes; with a zero polynomial and all
others of the same degree `p` is `-1` and `np.zeros((1, p-1))` raises `ValueError`. -/
def gcdCore (E : GcdNum K) (arr : List (List K)) : Res (List K) :=
  if gcdMaxSize arr = 1 then .ok [1]
  else if 1 < gcdMaxSize arr ∧ secondSize arr = 1 then .ok (arr.getD (maxIndex arr) [])
  else if secondSize arr = 0 then .error .value
  else gcdTail E (sylRows arr (gcdMaxSize arr - 1) (secondSize arr - 1))
    (gcdMaxSize arr - 1 + (secondSize arr - 1))

/-- `arr_args` (lines 202-203). -/
def gcdArgs (args : List (List K)) : List (List K) :=
  (args.filter fun x => decide (x.length > 0)).map trimZeros

/-- `haroldgcd(*args)` (`_polynomial_ops.py:202-270`). -/
def haroldgcd (E : GcdNum K) (args : List (List K)) : Res (List K) :=
  match gcdArgs args with
  | [] => .error .value           -- `max([])`
  | [x] => .ok x
  | arr => gcdCore E arr

end Harold
