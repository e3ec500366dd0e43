import Verif.Model.Svd
import Verif.Model.Kalman
import Verif.Model.Hess
import Verif.Model.MatrixSlice

/-!
# `staircase`

Models `/repo/harold/_system_funcs.py:18-124`.
-/

namespace Harold

open Matrix

variable {K : Type} [Field K] [LinearOrder K]

/-- `x[r0:r1, c0:c1] = y`. -/
def Arr.setBlock (x : Arr K) (r0 r1 c0 c1 : ℕ) (y : Arr K) : Res (Arr K) :=
  if h : r0 ≤ r1 ∧ r1 ≤ x.r ∧ c0 ≤ c1 ∧ c1 ≤ x.c ∧ y.r = r1 - r0 ∧ y.c = c1 - c0 then
    .ok (Arr.of (Matrix.of fun (i : Fin x.r) (j : Fin x.c) =>
      if h' : (r0 ≤ i ∧ i < r1) ∧ (c0 ≤ j ∧ j < c1) then y.m ⟨i - r0, by omega⟩ ⟨j - c0, by omega⟩ else x.m i j))
  else .error .value

/-- `norm(x, 1)` of scipy: the largest absolute column sum. -/
def Arr.norm1 (x : Arr K) : K := (List.ofFn fun j : Fin x.c => ∑ i, |x.m i j|).foldr max 0

/-- `haroldsvd(x, also_rank=True, rank_tol=tol)` (`_aux_linalg.py:30-90`). -/
def haroldsvdTol (S : SvdNum K) (tol : K) (x : Arr K) : Arr K × Arr K × Arr K × ℕ :=
  let r := S.svd x
  (r.1, Arr.of (diagRect x.r x.c r.2.1), r.2.2, countAbove tol r.2.1)

/-- `x[m:, m:] = 0.`. -/
def Arr.zeroFrom (x : Arr K) (m : ℕ) : Arr K := Arr.of (Matrix.of fun i j => if m ≤ (i : ℕ) ∧ m ≤ (j : ℕ) then 0 else x.m i j)

/-- The assignments of one sweep (`_system_funcs.py:109-117`), with `k = next_ + size_` and the SVD of `h3`. The blocks returned by `matrix_slice` are views,
so `h4` in line 114 is the block after the assignment in line 112. -/
def stairUpdate (a0 c0 t : Arr K) (j k : ℕ) (u sv : Arr K) : Res (Arr K × Arr K × Arr K) := do
  let n := a0.r
  let x ← u.T.matmul (t.slice (t.r - u.r) t.r 0 t.c)
  let t ← t.setBlock (t.r - u.r) t.r 0 t.c x
  let x ← (a0.slice 0 n k n).matmul u
  let a0 ← a0.setBlock 0 n k n x
  let a0 ← a0.setBlock k n j k sv
  let x ← u.T.matmul (a0.slice k n k n)
  let a0 ← a0.setBlock k n k n x
  let x ← (c0.slice 0 c0.r (c0.c - u.r) c0.c).matmul u
  let c0 ← c0.setBlock 0 c0.r (c0.c - u.r) c0.c x
  .ok (a0, c0, t)

/-- The loop (`_system_funcs.py:97-119`): `j` is `next_`, `m` the rank found last. -/
def stairLoop (S : SvdNum K) (tol : K) : ℕ → ℕ → ℕ → Arr K → Arr K → Arr K → Res (Arr K × Arr K × Arr K)
  | 0, _, _, a0, c0, t => .ok (a0, c0, t)
  | fuel + 1, j, s, a0, c0, t => do
    let h ← matrixSlice (a0.slice j a0.r j a0.c) s s "nw"
    let h3 := h.2.2.1
    if h3.any = false then .ok (a0, c0, t)
    else do
      let r := haroldsvdTol S tol h3
      let m := r.2.2.2
      if 0 < m ∧ m < h3.r then do
        let sv ← (r.2.1.zeroFrom m).matmul r.2.2.1
        let q ← stairUpdate a0 c0 t j (j + s) r.1 sv
        stairLoop S tol fuel (j + s) m q.1 q.2.1 q.2.2
      else .ok (a0, c0, t)

/-- `if invert:` (`_system_funcs.py:87-90`, `120-121`). -/
def stairInvert (invert : Bool) (r : Arr K × Arr K × Arr K × Arr K) : Arr K × Arr K × Arr K × Arr K :=
  if invert then (r.1.flipud.fliplr, r.2.1.flipud, r.2.2.1.fliplr, r.2.2.2.flipud) else r

/-- The part of the code that works on the pair to be compressed (`_system_funcs.py:74-121`): `A0, B0, C0, T` and whether line 91 returns. -/
def stairCore (S : SvdNum K) (invert : Bool) (a b c : Arr K) : Res ((Arr K × Arr K × Arr K × Arr K) × Bool) := do
  let n := a.r
  let r ← haroldsvd S b
  let m := r.2.2.2
  let x ← r.1.T.matmul a
  let a0 ← x.matmul r.1
  let b0 ← (r.2.1.zeroFrom m).matmul r.2.2.1
  let c0 ← c.matmul r.1
  let t := (Arr.eye (n - r.1.c)).blockDiag r.1.T
  if n = m then .ok (stairInvert invert (a0, b0, c0, t), true)
  else do
    let q ← stairLoop S ((n : K) * a.norm1 * S.eps) n 0 m a0 c0 t
    .ok (stairInvert invert (q.1, b0, q.2.1, q.2.2), false)

/-- `staircase(A, B, C, form=form, invert=invert)` (`_system_funcs.py:18-124`). The result has four components for every value of `compute_T`. -/
def staircase (S : SvdNum K) (form : String) (invert : Bool) (a b c : Arr K) : Res (Arr K × Arr K × Arr K × Arr K) :=
  if form ≠ "c" ∧ form ≠ "o" then .error .value
  else do
    let _ ← validateState (some a) (some b) (some c) (some (Arr.zeros c.r b.c))
    if form = "o" then
      if c.T.any = false then .ok (a, b, c, Arr.eye a.r)
      else do
        let r ← stairCore S invert a.T c.T b.T
        if r.2 then .ok (r.1.1.T, r.1.2.1.T, r.1.2.2.1.T, r.1.2.2.2.T) else .ok (r.1.1.T, r.1.2.2.1.T, r.1.2.1.T, r.1.2.2.2.T)
    else
      if b.any = false then .ok (a, b, c, Arr.eye a.r)
      else do
        let r ← stairCore S invert a b c
        .ok (r.1.1, r.1.2.1, r.1.2.2.1, r.1.2.2.2.T)

end Harold
