import Verif.Base.Arr
import Verif.Model.Index

/-!
# `_aux_linalg.py`: `e_i`
-/

namespace Harold

open Matrix

variable {K : Type}

/-- `E[i, j] = v` on a 2-D array (the indices come from `np.arange(width)[..]` and `enumerate`, so
they are in range; an out-of-range assignment is a no-op here). -/
def Arr.set (x : Arr K) (i j : ℕ) (v : K) : Arr K :=
  ⟨x.r, x.c, Matrix.of fun a b => if (a : ℕ) = i ∧ (b : ℕ) = j then v else x.m a b⟩

/-- `e_i(width, nth, output)` (`_aux_linalg.py:304-363`); `isCol` is `output == 'c'`. -/
def eI [Zero K] [One K] (width : ℕ) (nth : Idx) (isCol : Bool) : Res (Arr K) := do
  let colInds ← arangeIdx width nth
  let m := colInds.length
  let E : Arr K := if isCol then Arr.zeros width m else Arr.zeros m width
  .ok <| colInds.zipIdx.foldl
    (fun E xi => if isCol then E.set xi.1 xi.2 1 else E.set xi.2 xi.1 1) E

end Harold
