import Verif.Base.Arr
import Mathlib.Data.List.Sort

/-!
# `pair_complex_numbers`

Models `/repo/harold/_aux_linalg.py:148-301`. Complex numbers are pairs (real part, imaginary part);
the argument is the flattened list of entries. Not modelled: arguments that cannot be converted to
complex numbers.
-/

namespace Harold

variable {K : Type} [Field K] [LinearOrder K]

/-- The order of `np.sort_complex`: real parts first, then imaginary parts. -/
def lexLe (z w : K × K) : Prop := z.1 < w.1 ∨ (z.1 = w.1 ∧ z.2 ≤ w.2)

instance : DecidableRel (lexLe (K := K)) := fun _ _ => inferInstanceAs (Decidable (_ ∨ _))

/-- `np.real_if_close(x, realness_tol)` for one entry (`_aux_linalg.py:199-205`): a tolerance above 1 counts in
units of the machine epsilon. -/
def realIfClose (rtol : K) (z : K × K) : K × K :=
  if |z.2| < (if 1 < rtol then rtol / 2 ^ 52 else rtol) then (z.1, 0) else z

/-- `np.sign(x).astype(int)`. -/
def signInt (x : K) : ℤ := if 0 < x then 1 else if x < 0 then -1 else 0

/-- `x[::2]`. -/
def evens : List K → List K
  | [] => []
  | [a] => [a]
  | a :: _ :: l => a :: evens l

/-- `x[1::2]`. -/
def odds : List K → List K
  | [] => []
  | [_] => []
  | _ :: b :: l => b :: odds l

/-- The inner `while still_neg` loop (`_aux_linalg.py:261-267`): the index of the first `1` from position `xl` on;
`s` is the array of signs from there. Running off the end raises `IndexError`. -/
def firstPos : List ℤ → ℕ → Res ℕ
  | [], _ => .error .index
  | s :: l, xl => if s = 1 then .ok xl else firstPos l (xl + 1)

/-- Entry `i` of an array (only read in range). -/
def nth (j : List K) (i : ℕ) : K := j.getD i 0

/-- `sorted_array_j[ind:ind+2*l] = sorted_array_j[indices]` (`_aux_linalg.py:272-277`): the positions `ind, ..., ind+l-1`
interleaved with `ind+2*l-1, ..., ind+l`. Indices out of range raise `IndexError`. -/
def interleave (j : List K) (ind l : ℕ) : Res (List K) :=
  if ind + 2 * l ≤ j.length then
    .ok (j.take ind ++ ((List.range l).flatMap fun i => [nth j (ind + i), nth j (ind + 2 * l - 1 - i)]) ++ j.drop (ind + 2 * l))
  else .error .index

/-- The generator `repeat_sign_test` together with the loop over it (`_aux_linalg.py:245-277`); `sg` is `myarr_sign`. -/
def signLoop (sg : List ℤ) : ℕ → ℕ → List K → Res (List K)
  | 0, _, j => .ok j
  | fuel + 1, x, j =>
    if sg.length ≤ x then .ok j
    else if (sg.drop x).take 2 = [-1, 1] then signLoop sg fuel (x + 2) j
    else if (sg.drop x).take 2 = [1, -1] then
      signLoop sg fuel (x + 2) (j.take x ++ ((j.drop x).take 2).map (fun v => -v) ++ j.drop (x + 2))
    else do
      let xl ← firstPos (sg.drop (x + 2)) (x + 2)
      let j ← interleave j x (xl - x)
      signLoop sg fuel (x + 2 * (xl - x)) j

/-- Lines 226-296: the paired complex entries. -/
def pairEntries (tol : K) (positivesFirst : Bool) (zs : List (K × K)) : Res (List (K × K)) := do
  let s := zs.insertionSort lexLe
  let r := s.map Prod.fst
  let j := s.map Prod.snd
  if (List.zipWith (fun x y => |x - y|) (evens r) (odds r)).any (fun d => decide (tol < d)) then .error .value
  else do
    let j ← signLoop (j.map signInt) j.length 0 j
    if (List.zipWith (fun x y => |x + y|) (evens j) (odds j)).any (fun d => decide (tol < d)) then .error .value
    else .ok ((List.zip (evens r) (evens j)).flatMap fun q =>
      if positivesFirst then [(q.1, -q.2), (q.1, q.2)] else [(q.1, q.2), (q.1, -q.2)])

/-- `pair_complex_numbers(a, tol, realness_tol, positives_first, reals_first)` (`_aux_linalg.py:148-301`). -/
def pairComplex (a : List (K × K)) (tol rtol : K) (positivesFirst realsFirst : Bool) : Res (List (K × K)) :=
  if a.length = 0 then .ok []
  else
    let a := a.map (realIfClose rtol)
    let zs := a.filter fun z => decide (rtol ≤ |z.2|)
    let rs := a.filter fun z => decide (¬ rtol ≤ |z.2|)
    if zs.length = 0 then .ok ((a.map Prod.fst).insertionSort (· ≤ ·) |>.map fun x => (x, 0))
    else if zs.length % 2 ≠ 0 then .error .value
    else do
      let pairs ← pairEntries tol positivesFirst zs
      let rs := rs.insertionSort lexLe
      .ok (if realsFirst then rs ++ pairs else pairs ++ rs)

end Harold
