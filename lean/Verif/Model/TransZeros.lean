import Verif.Model.Svd
import Verif.Model.Kalman
import Verif.Model.Hess
import Verif.Model.Stair
import Mathlib.Analysis.Complex.Basic
import Mathlib.Analysis.Real.Sqrt

/-!
# `transmission_zeros`

Models `/repo/harold/_classes.py:3150-3263` for real matrices. `np.linalg.svd`, `np.spacing` and `scipy.linalg.qz` are parameters.
-/

namespace Harold

open Matrix

/-- The routines called: `np.linalg.svd` and `np.spacing(1.)` (in `svd`), `np.spacing`, and `qz(., ., output='complex')`, of which only the two triangular
factors are used. -/
structure TzNum where
  svd : SvdNum ℝ
  spacing : ℝ → ℝ
  qz : Arr ℝ → Arr ℝ → Arr ℂ × Arr ℂ

/-- The matrices `A, B, C, D`. -/
structure Quad where
  a : Arr ℝ
  b : Arr ℝ
  c : Arr ℝ
  d : Arr ℝ

/-- `A.T, C.T, B.T, D.T` (`_classes.py:3197-3198`). -/
def Quad.dual (s : Quad) : Quad := ⟨s.a.T, s.c.T, s.b.T, s.d.T⟩

/-- The first half of an iteration (`_classes.py:3231-3241`): `Cbd`, `r_of_d` and `sigma`, or `none` for `break` in line 3237. -/
noncomputable def tzSplit (S : SvdNum ℝ) (tol : ℝ) (c d : Arr ℝ) : Res (Option (Arr ℝ × Arr ℝ × ℕ)) :=
  if d.any then do
    let r := haroldsvdTol S tol d
    let rd ← r.2.1.matmul r.2.2.1
    if d.r - r.2.2.2 = 0 then .ok none
    else do
      let cbd ← r.1.T.matmul c
      .ok (some (cbd, rd, r.2.2.2))
  else .ok (some (c, d, 0))

/-- The ways an iteration of the deflation loop ends: `break` with the current matrices, `break` with empty matrices, or new matrices. -/
inductive TzOut where
  | stop
  | gone
  | next (s : Quad)

/-- The new matrices for `sigma > 0` (`_classes.py:3254-3258`). -/
noncomputable def tzUpdate (s : Quad) (q cbar rd : Arr ℝ) (nu : ℕ) : Res Quad := do
  let x ← q.T.matmul s.a
  let x ← x.vstack cbar
  let ac ← x.matmul q
  let y ← q.T.matmul s.b
  let bd ← y.vstack rd
  .ok ⟨ac.slice 0 nu 0 nu, bd.slice 0 nu 0 bd.c, ac.slice nu ac.r 0 nu, bd.slice nu bd.r 0 bd.c⟩

/-- The new matrices for `sigma == 0` (`_classes.py:3260-3262`). -/
noncomputable def tzUpdate0 (s : Quad) (q : Arr ℝ) (nu : ℕ) : Res Quad := do
  let x ← s.a.matmul q
  let x ← x.hstack s.b
  let y ← q.T.matmul x
  .ok ⟨y.slice 0 nu 0 nu, y.slice 0 nu (y.c - s.d.c) y.c, y.slice nu y.r 0 nu, y.slice nu y.r (y.c - s.d.c) y.c⟩

/-- The second half of an iteration (`_classes.py:3243-3262`). -/
noncomputable def tzCompress (S : SvdNum ℝ) (tol : ℝ) (s : Quad) (cbd rd : Arr ℝ) (sigma : ℕ) : Res TzOut :=
  let cbar := cbd.slice 0 sigma 0 cbd.c
  let ctil := cbd.slice sigma cbd.r 0 cbd.c
  let r := haroldsvdTol S tol ctil.T
  let rho := r.2.2.2
  let nu := s.a.r - rho
  if rho = 0 then .ok .stop
  else if nu = 0 then .ok .gone
  else if 0 < sigma then do
    let t ← tzUpdate s r.1.fliplr cbar (rd.slice 0 sigma 0 rd.c) nu
    .ok (.next t)
  else do
    let t ← tzUpdate0 s r.1.fliplr nu
    .ok (.next t)

/-- One iteration of the deflation loop (`_classes.py:3229-3262`). -/
noncomputable def tzStep (S : SvdNum ℝ) (tol : ℝ) (s : Quad) : Res TzOut := do
  match ← tzSplit S tol s.c s.d with
  | none => .ok .stop
  | some x => tzCompress S tol s x.1 x.2.1 x.2.2

/-- The deflation loop (`_classes.py:3228-3263`); `none` stands for four empty arrays. -/
noncomputable def tzLoop (S : SvdNum ℝ) (tol : ℝ) : ℕ → Quad → Res (Option Quad)
  | 0, s => .ok (some s)
  | fuel + 1, s => do
    match ← tzStep S tol s with
    | .stop => .ok (some s)
    | .gone => .ok none
    | .next t => tzLoop S tol fuel t

/-- `norm(x, 'fro')`. -/
noncomputable def Arr.normF (x : Arr ℝ) : ℝ := √(∑ i, ∑ j, x.m i j ^ 2)

/-- `m_eps` (`_classes.py:3226-3227`). -/
noncomputable def tzTol (N : TzNum) (s : Quad) : ℝ :=
  N.spacing (100 * √(((s.a.r + s.c.r) * (s.a.c + s.b.c) : ℕ) : ℝ)) * s.a.normF

/-- `_tzeros_reduce(A, B, C, D)` (`_classes.py:3222-3263`). -/
noncomputable def tzReduce (N : TzNum) (s : Quad) : Res (Option Quad) := tzLoop N.svd (tzTol N s) s.a.r s

/-- `np.roll(np.roll(x, -k, axis=0), -k, axis=1)`. -/
def Arr.roll (x : Arr ℝ) (k : ℕ) : Arr ℝ :=
  Arr.of (Matrix.of fun (i : Fin x.r) (j : Fin x.c) =>
    x.m ⟨(i + k) % x.r, Nat.mod_lt _ (lt_of_le_of_lt (Nat.zero_le _) i.2)⟩ ⟨(j + k) % x.c, Nat.mod_lt _ (lt_of_le_of_lt (Nat.zero_le _) j.2)⟩)

/-- `np.diag(x)` of a 2-D array. -/
def Arr.diagList (x : Arr ℂ) : List ℂ :=
  List.ofFn fun i : Fin (min x.r x.c) => x.m ⟨i, by omega⟩ ⟨i, by omega⟩

/-- Lines `_classes.py:3213-3218`: quotients of the diagonals, `inf` (here `none`) where the denominator is zero. `np.real_if_close` changes the type of the
array and drops imaginary parts below its threshold; values are kept here. -/
noncomputable def tzQuot (a b : List ℂ) : List (Option ℂ) := List.zipWith (fun x y => if x = 0 then none else some (y / x)) a b

/-- The generalized eigenvalue problem at the end (`_classes.py:3206-3219`). -/
noncomputable def tzFinal (N : TzNum) (s : Quad) : Res (List (Option ℂ)) := do
  let n := s.a.r
  let x ← s.d.hstack s.c
  let v := (N.svd.svd x).2.2.T.roll s.d.c
  let y ← s.a.hstack s.b
  let t ← y.matmul v
  let r := N.qz (v.slice 0 n 0 n) (t.slice 0 n 0 n)
  .ok (tzQuot r.1.diagList r.2.diagList)

/-- Lines `_classes.py:3203-3219`: nothing is left, or the eigenvalue problem. -/
noncomputable def tzEnd (N : TzNum) (s : Option Quad) : Res (List (Option ℂ)) :=
  match s with
  | none => .ok []
  | some s => if s.a.r * s.a.c = 0 then .ok [] else tzFinal N s

/-- Lines `_classes.py:3191-3201`: the reduction of the transposed system. -/
noncomputable def tzDual (N : TzNum) (s : Quad) : Res (Option Quad) := do
  let x ← s.c.hstack s.d
  if x.any ∨ s.d.r ≠ s.d.c then do
    let t ← tzReduce N s.dual
    .ok (t.map Quad.dual)
  else .ok (some s)

/-- Lines `_classes.py:3191-3219`. -/
noncomputable def tzAfter (N : TzNum) (s : Option Quad) : Res (List (Option ℂ)) :=
  match s with
  | none => .ok []
  | some s =>
    if s.a.r * s.a.c = 0 then .ok []
    else do
      let t ← tzDual N s
      tzEnd N t

/-- `np.linalg.matrix_rank(x)`: the number of singular values above `S.max() * max(x.shape) * eps`. -/
noncomputable def matrixRank (S : SvdNum ℝ) (x : Arr ℝ) : ℕ := countAbove (rankTol S.eps x.r x.c (S.svd x).2.1) (S.svd x).2.1

/-- Lines `_classes.py:3186-3189`: the first reduction is skipped if `D` has full row rank. -/
noncomputable def tzFirst (N : TzNum) (s : Quad) : Res (Option Quad) :=
  if matrixRank N.svd s.d = s.d.r then .ok (some s) else tzReduce N s

/-- `transmission_zeros(A, B, C, D)` (`_classes.py:3150-3219`); `none` in the list is `inf`. -/
noncomputable def transmissionZeros (N : TzNum) (s : Quad) : Res (List (Option ℂ)) :=
  let r := matrixRank N.svd s.d
  if s.b.any = false ∨ s.c.any = false then .ok []
  else if (s.d.r = 1 ∧ s.d.c = 1 ∧ 0 < r) ∨ (r = min s.d.r s.d.c ∧ s.d.r = s.d.c) then tzEnd N (some s)
  else do
    let t ← tzFirst N s
    tzAfter N t

end Harold
