import Verif.Base.Err
import Mathlib.Data.Nat.Notation

/-!
# Repeated pole locations

Models `/repo/harold/_static_ctrl_design.py:189-240`. Locations are elements of any type with decidable equality; `isReal` is the test
`p.imag == 0.`. The difference of two numbers is zero exactly if they are equal.
-/

namespace Harold

variable {P : Type} [DecidableEq P]

/-- `l[::2]` (`_static_ctrl_design.py:219`). -/
def everyOther : List P → List P
  | [] => []
  | [x] => [x]
  | x :: _ :: t => x :: everyOther t

/-- `diff(pp) == 0` (`_static_ctrl_design.py:220,232`). -/
def equalNext : List P → List Bool
  | x :: y :: t => decide (x = y) :: equalNext (y :: t)
  | _ => []

/-- `diff(boolarray).nonzero()[0] + 1` (`_static_ctrl_design.py:221,233`); the difference of truth values is their inequality. -/
def flipIdx (b : List Bool) : List ℕ :=
  ((List.range (b.length - 1)).filter fun i => b.getD i false != b.getD (i + 1) false).map (· + 1)

/-- `ind.reshape(-1, 2)` (`_static_ctrl_design.py:224,236`); an odd number of entries is an error. -/
def reshape2 : List ℕ → Res (List (ℕ × ℕ))
  | [] => .ok []
  | [_] => .error .value
  | s :: e :: t => do
    let r ← reshape2 t
    .ok ((s, e) :: r)

/-- `_static_ctrl_design.py:219-224` and `231-236`: `[start, end)` of each repetition. -/
def repIdx (pp : List P) : Res (List (ℕ × ℕ)) :=
  let b := equalNext pp
  match b.head?, b.getLast? with
  | some b0, some b1 => do
    let ind := flipIdx b
    let ind := if b0 then 0 :: ind else ind
    let ind := if b1 then ind ++ [b.length] else ind
    let r ← reshape2 ind
    .ok (r.map fun se => (se.1, se.2 + 1))
  | _, _ => .error .index      -- boolarray[0]

/-- The repetitions of pairs (`_static_ctrl_design.py:215-226`). -/
def pairReps (nc : ℕ) (p : List P) : Res (List (ℕ × ℕ)) := if nc ≤ 2 then .ok [] else repIdx (everyOther (p.take nc))

/-- The repetitions of real locations (`_static_ctrl_design.py:228-238`). -/
def realReps (nc nr : ℕ) (p : List P) : Res (List (ℕ × ℕ)) :=
  if nr < 2 then .ok [] else do
    let r ← repIdx (p.drop nc)
    .ok (r.map fun se => (se.1 + nc, se.2 + nc))

/-- `_get_pole_reps(p)` (`_static_ctrl_design.py:189-240`). -/
def getPoleReps (isReal : P → Bool) (p : List P) : Res ((List (ℕ × ℕ) × List (ℕ × ℕ)) × ℕ × ℕ) := do
  let nr := p.countP isReal
  let nc := p.length - nr
  let cs ← pairReps nc p
  let rs ← realReps nc nr p
  .ok ((cs, rs), nc, nr)

end Harold
