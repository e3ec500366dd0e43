import Verif.Base.Arr

/-!
# `haroldsvd` and `haroldker`
-/

namespace Harold

open Matrix

variable {K : Type}

/-- `np.linalg.svd(., full_matrices=True)` (the factors `u`, `s`, `vh`) and `np.spacing(1.)`. -/
structure SvdNum (K : Type) where
  svd : Arr K → Arr K × List K × Arr K
  eps : K

/-- `diags` (`_aux_linalg.py:78-80`): the rectangular matrix with the entries of `s` on its diagonal. -/
def diagRect [Zero K] (p m : ℕ) (s : List K) : Matrix (Fin p) (Fin m) K :=
  Matrix.of fun i j => if (i : ℕ) = j then s.getD i 0 else 0

/-- `rank_tol` (`_aux_linalg.py:83-84`). -/
def rankTol [Field K] [LinearOrder K] (eps : K) (p m : ℕ) (s : List K) : K :=
  s.foldr max (s.headD 0) * ((max p m : ℕ) : K) * eps

/-- `sum(s > rank_tol)` (`_aux_linalg.py:85`). -/
def countAbove [LinearOrder K] (tol : K) (s : List K) : ℕ := (s.filter fun t => decide (tol < t)).length

/-- `haroldsvd(A, also_rank=True)` (`_aux_linalg.py:30-90`) for a 2-D array. The maximum of an empty array raises `ValueError`. -/
def haroldsvd [Field K] [LinearOrder K] (S : SvdNum K) (x : Arr K) : Res (Arr K × Arr K × Arr K × ℕ) :=
  let r := S.svd x
  if r.2.1 = [] then .error .value
  else .ok (r.1, Arr.of (diagRect x.r x.c r.2.1), r.2.2, countAbove (rankTol S.eps x.r x.c r.2.1) r.2.1)

/-- `V[:, r:]`. -/
def Arr.dropCols (x : Arr K) (k : ℕ) : Arr K :=
  Arr.of (Matrix.of fun (i : Fin x.r) (j : Fin (x.c - k)) => x.m i ⟨k + j, by omega⟩)

/-- The right-sided case of `haroldker` (`_aux_linalg.py:133-145`). -/
def kerRight [Field K] [LinearOrder K] (S : SvdNum K) (x : Arr K) : Res (Arr K) :=
  if x.r * x.c ≤ 1 then .ok (Arr.zeros 1 1)
  else do
    let r ← haroldsvd S x
    if r.2.2.2 = min x.r x.c ∧ x.c ≤ x.r then .ok (Arr.zeros x.c 1)
    else .ok (r.2.2.1.dropCols r.2.2.2)

/-- `haroldker(N, side)` (`_aux_linalg.py:93-145`) for a real 2-D array; `left` is `side == 'left'`. -/
def haroldker [Field K] [LinearOrder K] (S : SvdNum K) (x : Arr K) (left : Bool) : Res (Arr K) :=
  if left then kerRight S x.T else kerRight S x

end Harold
