import Verif.Base.Arr
import Mathlib.Algebra.BigOperators.Intervals
import Mathlib.Algebra.Order.Group.Abs

/-!
# `lyapunov_eq_solver`

Models `/repo/harold/_solvers.py`. The work arrays `As`, `Es`, `Xs`, `Ys` are functions of two natural numbers (entries outside the shape are never
read); slices keep the absolute indices of the array they are taken from, so `XA_of_row[:, (thisc - thisr):]` becomes the columns from `thisc` on.
`solve` is the unguarded gufunc of numpy: for a singular matrix it returns NaN, as does a division by zero. Both are modelled by `none`,
which makes the whole result `none` (every entry of `S @ Xs @ S.T` is then NaN or infinite).
-/

namespace Harold

open Matrix

variable {K : Type} [Field K] [LinearOrder K]

/-- The decompositions of scipy used here: `schur(A, output='real')` returns `As, S`; `qz(A, E)` returns `As, Es, Q, Z`. -/
structure LyapNum (K : Type) where
  schur : Arr K → Arr K × Arr K
  qz : Arr K → Arr K → Arr K × Arr K × Arr K × Arr K
  /-- `tol=1e-12` (`_solvers.py:122`, `287`) -/
  tol : K

/-- A work array. -/
abbrev Wk (K : Type) := ℕ → ℕ → K

/-- Entry access to an array. -/
def Arr.wk (x : Arr K) : Wk K := fun i j => if h : i < x.r ∧ j < x.c then x.m ⟨i, h.1⟩ ⟨j, h.2⟩ else 0

/-- The slice `A[r:, c:]` as an array of its own. -/
def Wk.at (A : Wk K) (r c : ℕ) : Wk K := fun i j => A (r + i) (c + j)

/-- `Y[r0:r1, c0:c1] += f[r0:r1, c0:c1]`. -/
def Wk.add (Y : Wk K) (r0 r1 c0 c1 : ℕ) (f : Wk K) : Wk K :=
  fun i j => if (r0 ≤ i ∧ i < r1) ∧ (c0 ≤ j ∧ j < c1) then Y i j + f i j else Y i j

/-- `X[r0:r1, c0:c1] = x` where the array `X` converts what is stored in it with `cast`. -/
def Wk.set (cast : K → K) (X : Wk K) (r0 r1 c0 c1 : ℕ) (x : Wk K) : Wk K :=
  fun i j => if (r0 ≤ i ∧ i < r1) ∧ (c0 ≤ j ∧ j < c1) then cast (x (i - r0) (j - c0)) else X i j

/-- `solve(M, y)`. -/
noncomputable def gsolve {n : ℕ} (M : Matrix (Fin n) (Fin n) K) (y : Fin n → K) : Option (Fin n → K) :=
  if M.det = 0 then none else some (M⁻¹ *ᵥ y)

/-- `x / y`. -/
def gdiv (x y : K) : Option K := if y = 0 then none else some (x / y)

/-- `np.array([[a, b], [b, c]])`. -/
def sym22 (v : Fin 3 → K) : Wk K := fun i j => if i = 0 then (if j = 0 then v 0 else v 1) else (if j = 0 then v 1 else v 2)

/-- `v.reshape(2, 2)`. -/
def resh22 (v : Fin 4 → K) : Wk K := fun i j => if i = 0 then (if j = 0 then v 0 else v 1) else (if j = 0 then v 2 else v 3)

/-- A `2 × 1` array. -/
def col2 (v : Fin 2 → K) : Wk K := fun i _ => if i = 0 then v 0 else v 1

/-- `x.T`. -/
def Wk.tr (x : Wk K) : Wk K := fun i j => x j i

/-- `-Yt.reshape(-1, 1)[[0, 1, 3], :]`. -/
def rhs3 (y : Wk K) : Fin 3 → K := ![-y 0 0, -y 0 1, -y 1 1]

/-- `-Yt.reshape(-1, 1)`. -/
def rhs4 (y : Wk K) : Fin 4 → K := ![-y 0 0, -y 0 1, -y 1 0, -y 1 1]

/-! ## Block sizes -/

/-- `subdiag_indices` (`_solvers.py:190-191`, `364-365`, `516-517`, `647-648`). -/
def subdiagIndices (tol : K) (n : ℕ) (A : Wk K) : List ℕ := (List.range (n - 1)).filter fun x => decide (|A (x + 1) x| > tol)

/-- `bz` (`_solvers.py:192-197`, `366-371`, `518-523`, `649-654`); `none` is the NaN marker. -/
def blockSizes (n : ℕ) (idx : List ℕ) : List ℕ :=
  (idx.foldl (fun bz x => (bz.set x (some 2)).set (x + 1) none) (List.replicate n (some 1))).filterMap id

/-- The consecutive pairs `(bs[k], bs[k+1])` (`_solvers.py:198`, `372`, `524`, `655`); the last entry `None` of `bs` stands for the end of the
array. -/
def blockPairs (n : ℕ) (bz : List ℕ) : List (ℕ × ℕ) :=
  let starts := bz.dropLast.scanl (· + ·) 0
  starts.zip (starts.tail ++ [n])

/-! ## Continuous time -/

/-- `mini_sylvester(Ar, Yt)` of the continuous solver (`_solvers.py:471-483`); `k` is the number of rows of `Ar`. -/
noncomputable def miniCs (k : ℕ) (Ar Yt : Wk K) : Option (Wk K) :=
  if k = 1 then (gdiv (-Yt 0 0) (Ar 0 0 * 2)).map fun t _ _ => t
  else
    let a := Ar 0 0; let b := Ar 0 1; let c := Ar 1 0; let d := Ar 1 1
    (gsolve !![2 * a, 2 * c, 0; b, a + d, c; 0, 2 * b, 2 * d] (rhs3 Yt)).map sym22

/-- `mini_sylvester(Ar, Yt, Al)` of the continuous solver (`_solvers.py:485-505`). -/
noncomputable def miniCn (kr : ℕ) (Ar Yt : Wk K) (kl : ℕ) (Al : Wk K) : Option (Wk K) :=
  if kr = 2 then
    if kl = 2 then
      let a00 := Al 0 0; let a01 := Al 0 1; let a10 := Al 1 0; let a11 := Al 1 1
      let b00 := Ar 0 0; let b01 := Ar 0 1; let b10 := Ar 1 0; let b11 := Ar 1 1
      (gsolve !![a00 + b00, b10, a10, 0; b01, a00 + b11, 0, a10; a01, 0, a11 + b00, b10; 0, a01, b01, a11 + b11] (rhs4 Yt)).map resh22
    else (gsolve !![Ar 0 0 + Al 0 0, Ar 1 0; Ar 0 1, Ar 1 1 + Al 0 0] ![-Yt 0 0, -Yt 0 1]).map fun v => (col2 v).tr
  else if kl = 2 then (gsolve !![Al 0 0 + Ar 0 0, Al 1 0; Al 0 1, Al 1 1 + Ar 0 0] ![-Yt 0 0, -Yt 1 0]).map col2
  else (gdiv (-Yt 0 0) (Ar 0 0 + Al 0 0)).map fun t _ _ => t

/-- One turn of the inner loop of the continuous solver (`_solvers.py:558-578`). -/
noncomputable def contCol (cast : K → K) (n : ℕ) (A : Wk K) (r0 r1 : ℕ) (c : ℕ × ℕ) (s : Wk K × Wk K) : Option (Wk K × Wk K) := do
  let x ← miniCn (c.2 - c.1) (A.at c.1 c.1) (s.2.at r0 c.1) (r1 - r0) (A.at r0 r0)
  let X := (s.1.set cast r0 r1 c.1 c.2 x).set cast c.1 c.2 r0 r1 x.tr
  let Y := s.2.add r0 r1 c.2 n fun i j => ∑ l ∈ Finset.Ico c.1 c.2, x (i - r0) (l - c.1) * A l j
  let Y := Y.add r1 c.2 c.1 c.2 fun i j => ∑ k ∈ Finset.Ico r0 r1, A k i * x (k - r0) (j - c.1)
  some (X, Y)

/-- One turn of the outer loop of the continuous solver (`_solvers.py:535-578`); `rest` are the blocks after the current one. -/
noncomputable def contRow (cast : K → K) (n : ℕ) (A : Wk K) (r : ℕ × ℕ) (rest : List (ℕ × ℕ)) (s : Wk K × Wk K) : Option (Wk K × Wk K) := do
  let Y := if r.1 ≠ 0 then s.2.add r.1 r.2 r.1 n fun i j => ∑ l ∈ Finset.range r.1, s.1 i l * A l j else s.2
  let x ← miniCs (r.2 - r.1) (A.at r.1 r.1) (Y.at r.1 r.1)
  let X := s.1.set cast r.1 r.2 r.1 r.2 x
  let Y := Y.add r.1 r.2 r.2 n fun i j => ∑ l ∈ Finset.Ico r.1 r.2, x (i - r.1) (l - r.1) * A l j
  rest.foldlM (fun s c => contCol cast n A r.1 r.2 c s) (X, Y)

/-- The outer loop over the blocks, for any row routine. -/
def blockLoop (row : ℕ × ℕ → List (ℕ × ℕ) → Wk K × Wk K → Option (Wk K × Wk K)) : List (ℕ × ℕ) → Wk K × Wk K → Option (Wk K × Wk K)
  | [], s => some s
  | r :: rest, s => do
    let s' ← row r rest s
    blockLoop row rest s'

/-- `S @ Xs @ S.T`. -/
def sandwich (S : Arr K) (n : ℕ) (X : Wk K) : Res (Arr K) := do
  let x ← S.matmul (Arr.of (Matrix.of fun (i j : Fin n) => X i j))
  x.matmul S.T

/-- `S.T @ Y @ S`. -/
def congruence (S Y : Arr K) : Res (Arr K) := do
  let x ← S.T.matmul Y
  x.matmul S

/-- `-Yt`, solved directly for at most two states. -/
def smallRes (n : ℕ) (x : Option (Wk K)) : Res (Option (Arr K)) :=
  if n = 0 then .error .value else .ok (x.map fun x => Arr.of (Matrix.of fun (i j : Fin n) => x i j))

/-- The common end of the solvers: transform back. -/
def finishRes (S : Arr K) (n : ℕ) : Option (Wk K × Wk K) → Res (Option (Arr K))
  | none => .ok none
  | some s => do
    let x ← sandwich S n s.1
    .ok (some x)

/-- `_solve_continuous_lyapunov(A, Y)` (`_solvers.py:452-580`). `cast` is the conversion to the data type of `Y`, in which `Xs` is stored
(`np.empty_like(Y)`); the initial contents of `Xs` are arbitrary, `X0`. -/
noncomputable def solveContinuous (N : LyapNum K) (cast : K → K) (X0 : Wk K) (A Y : Arr K) : Res (Option (Arr K)) :=
  if A.r < 3 then smallRes A.r (miniCs A.r A.wk Y.wk)
  else do
    let d := N.schur A
    let Ys ← congruence d.2 Y
    let n := d.1.r
    let bl := blockPairs n (blockSizes n (subdiagIndices 0 n d.1.wk))
    finishRes d.2 n (blockLoop (contRow cast n d.1.wk) bl (X0, Ys.wk))

/-! ## Discrete time -/

/-- `mini_sylvester(Al, Yt)` of the discrete solver (`_solvers.py:601-613`). -/
noncomputable def miniDs (k : ℕ) (Al Yt : Wk K) : Option (Wk K) :=
  if k = 1 then (gdiv (-Yt 0 0) (Al 0 0 ^ 2 - 1)).map fun t _ _ => t
  else
    let a := Al 0 0; let b := Al 0 1; let c := Al 1 0; let d := Al 1 1
    (gsolve !![a ^ 2 - 1, 2 * a * c, c ^ 2; a * b, a * d + b * c - 1, c * d; b ^ 2, 2 * b * d, d ^ 2 - 1] (rhs3 Yt)).map sym22

/-- `mini_sylvester(Al, Yt, Ar)` of the discrete solver (`_solvers.py:615-634`). -/
noncomputable def miniDn (kl : ℕ) (Al Yt : Wk K) (kr : ℕ) (Ar : Wk K) : Option (Wk K) :=
  if kl = 2 then
    if kr = 2 then
      let a00 := Al 0 0; let a01 := Al 0 1; let a10 := Al 1 0; let a11 := Al 1 1
      let b00 := Ar 0 0; let b01 := Ar 0 1; let b10 := Ar 1 0; let b11 := Ar 1 1
      (gsolve !![a00 * b00 - 1, a00 * b10, a10 * b00, a10 * b10; a00 * b01, a00 * b11 - 1, a10 * b01, a10 * b11;
        a01 * b00, a01 * b10, a11 * b00 - 1, a11 * b10; a01 * b01, a01 * b11, a11 * b01, a11 * b11 - 1] (rhs4 Yt)).map resh22
    else (gsolve !![Al 0 0 * Ar 0 0 - 1, Al 1 0 * Ar 0 0; Al 0 1 * Ar 0 0, Al 1 1 * Ar 0 0 - 1] ![-Yt 0 0, -Yt 1 0]).map col2
  else if kr = 2 then
    (gsolve !![Ar 0 0 * Al 0 0 - 1, Ar 1 0 * Al 0 0; Ar 0 1 * Al 0 0, Ar 1 1 * Al 0 0 - 1] ![-Yt 0 0, -Yt 0 1]).map fun v => (col2 v).tr
  else (gdiv (-Yt 0 0) (Ar 0 0 * Al 0 0 - 1)).map fun t _ _ => t

/-- `X[:, l0:l1] @ A[l0:l1, :]` with absolute indices. -/
def prodL (X A : Wk K) (l0 l1 : ℕ) : Wk K := fun i j => ∑ l ∈ Finset.Ico l0 l1, X i l * A l j

/-- `A[k0:k1, :].T @ W[k0:k1, :]` with absolute indices. -/
def prodK (A W : Wk K) (k0 k1 : ℕ) : Wk K := fun i j => ∑ k ∈ Finset.Ico k0 k1, A k i * W k j

/-- The block `x` placed at `(r, c)`. -/
def Wk.off (x : Wk K) (r c : ℕ) : Wk K := fun i j => x (i - r) (j - c)

/-- One turn of the inner loop of the discrete solver (`_solvers.py:687-712`); the third component of the state is `XA_of_row`. -/
noncomputable def discCol (cast : K → K) (n : ℕ) (A : Wk K) (r0 r1 : ℕ) (c : ℕ × ℕ) (s : Wk K × Wk K × Wk K) :
    Option (Wk K × Wk K × Wk K) := do
  let x ← miniDn (r1 - r0) (A.at r0 r0) (s.2.1.at r0 c.1) (c.2 - c.1) (A.at c.1 c.1)
  let X := (s.1.set cast r0 r1 c.1 c.2 x).set cast c.1 c.2 r0 r1 x.tr
  let ta := prodL (x.off r0 c.1) A c.1 c.2
  let Y := s.2.1.add r0 r1 c.1 n (prodK A ta r0 r1)
  let XA := s.2.2.add r0 r1 c.1 n ta
  let Y := Y.add r1 c.2 c.1 c.2 (prodK A XA r0 r1)
  some (X, Y, XA)

/-- One turn of the outer loop of the discrete solver (`_solvers.py:665-712`). -/
noncomputable def discRow (cast : K → K) (n : ℕ) (A : Wk K) (r : ℕ × ℕ) (rest : List (ℕ × ℕ)) (s : Wk K × Wk K) : Option (Wk K × Wk K) := do
  let Y := if r.1 ≠ 0 then s.2.add r.1 r.2 r.1 r.2 (prodK A (prodL s.1 A 0 r.1) r.1 r.2) else s.2
  let x ← miniDs (r.2 - r.1) (A.at r.1 r.1) (Y.at r.1 r.1)
  let X := s.1.set cast r.1 r.2 r.1 r.2 x
  let XA := prodL X A 0 r.2
  let Y := Y.add r.1 r.2 r.1 n (prodK A XA r.1 r.2)
  let t ← rest.foldlM (fun s c => discCol cast n A r.1 r.2 c s) (X, Y, XA)
  some (t.1, t.2.1)

/-- `_solve_discrete_lyapunov(A, Y)` (`_solvers.py:583-714`). -/
noncomputable def solveDiscrete (N : LyapNum K) (cast : K → K) (X0 : Wk K) (A Y : Arr K) : Res (Option (Arr K)) :=
  if A.r < 3 then smallRes A.r (miniDs A.r A.wk Y.wk)
  else do
    let d := N.schur A
    let Ys ← congruence d.2 Y
    let n := d.1.r
    let bl := blockPairs n (blockSizes n (subdiagIndices 0 n d.1.wk))
    finishRes d.2 n (blockLoop (discRow cast n d.1.wk) bl (X0, Ys.wk))

/-! ## Generalised equations -/

/-- `mini_sylvester(R, S, Yt)` of the continuous generalised solver (`_solvers.py:147-161`). -/
noncomputable def miniGCs (k : ℕ) (R S Yt : Wk K) : Option (Wk K) :=
  if k = 1 then (gdiv (-Yt 0 0) (2 * R 0 0 * S 0 0)).map fun t _ _ => t
  else
    let a := R 0 0; let b := R 0 1; let c := R 1 0; let d := R 1 1
    let e := S 0 0; let f := S 0 1; let g := S 1 0; let h := S 1 1
    (gsolve !![2 * a * e, 2 * (a * g + e * c), 2 * c * g; a * f + e * b, a * h + e * d + c * f + b * g, c * h + g * d;
      2 * b * f, 2 * (b * h + f * d), 2 * d * h] (rhs3 Yt)).map sym22

/-- `mini_sylvester(R, S, Yt, U, V)` of the continuous generalised solver (`_solvers.py:163-182`). -/
noncomputable def miniGCn (kr : ℕ) (R : Wk K) (ks : ℕ) (S Yt U V : Wk K) : Option (Wk K) :=
  if kr = 2 then
    if ks = 2 then
      let a := R 0 0; let b := R 0 1; let c := R 1 0; let d := R 1 1
      let e := S 0 0; let f := S 0 1; let g := S 1 0; let h := S 1 1
      let k := U 0 0; let l := U 0 1; let m := U 1 0; let n := U 1 1
      let p := V 0 0; let q := V 0 1; let r := V 1 0; let s := V 1 1
      (gsolve !![a * e + k * p, a * g + k * r, c * e + m * p, c * g + m * r; a * f + k * q, a * h + k * s, c * f + m * q, c * h + m * s;
        b * e + l * p, b * g + l * r, d * e + n * p, d * g + n * r; b * f + l * q, b * h + l * s, d * f + n * q, d * h + n * s]
        (rhs4 Yt)).map resh22
    else (gsolve !![S 0 0 * R 0 0 + V 0 0 * U 0 0, S 0 0 * R 1 0 + V 0 0 * U 1 0;
        S 0 0 * R 0 1 + V 0 0 * U 0 1, S 0 0 * R 1 1 + V 0 0 * U 1 1] ![-Yt 0 0, -Yt 1 0]).map col2
  else if ks = 2 then
    (gsolve !![R 0 0 * S 0 0 + U 0 0 * V 0 0, R 0 0 * S 1 0 + U 0 0 * V 1 0;
      R 0 0 * S 0 1 + U 0 0 * V 0 1, R 0 0 * S 1 1 + U 0 0 * V 1 1] ![-Yt 0 0, -Yt 0 1]).map fun v => (col2 v).tr
  else (gdiv (-Yt 0 0) (R 0 0 * S 0 0 + U 0 0 * V 0 0)).map fun t _ _ => t

/-- One turn of the inner loop of the continuous generalised solver (`_solvers.py:248-282`); the state is `Xs, Ys, XE_of_row, XA_of_row`. -/
noncomputable def gcontCol (cast : K → K) (n : ℕ) (A E : Wk K) (r0 r1 : ℕ) (c : ℕ × ℕ) (s : Wk K × Wk K × Wk K × Wk K) :
    Option (Wk K × Wk K × Wk K × Wk K) := do
  let x ← miniGCn (r1 - r0) (A.at r0 r0) (c.2 - c.1) (E.at c.1 c.1) (s.2.1.at r0 c.1) (E.at r0 r0) (A.at c.1 c.1)
  let X := (s.1.set cast r0 r1 c.1 c.2 x).set cast c.1 c.2 r0 r1 x.tr
  let te := prodL (x.off r0 c.1) E c.1 c.2
  let ta := prodL (x.off r0 c.1) A c.1 c.2
  let Y := s.2.1.add r0 r1 c.1 n fun i j => prodK A te r0 r1 i j + prodK E ta r0 r1 i j
  let XE := s.2.2.1.add r0 r1 c.1 n te
  let XA := s.2.2.2.add r0 r1 c.1 n ta
  let Y := Y.add r1 c.2 c.1 c.2 fun i j => prodK A XE r0 r1 i j + prodK E XA r0 r1 i j
  some (X, Y, XE, XA)

/-- One turn of the outer loop of the continuous generalised solver (`_solvers.py:212-282`). -/
noncomputable def gcontRow (cast : K → K) (n : ℕ) (A E : Wk K) (r : ℕ × ℕ) (rest : List (ℕ × ℕ)) (s : Wk K × Wk K) :
    Option (Wk K × Wk K) := do
  let Y := if r.1 ≠ 0 then s.2.add r.1 r.2 r.1 r.2 fun i j =>
      prodK A (prodL s.1 E 0 r.1) r.1 r.2 i j + prodK E (prodL s.1 A 0 r.1) r.1 r.2 i j else s.2
  let x ← miniGCs (r.2 - r.1) (A.at r.1 r.1) (E.at r.1 r.1) (Y.at r.1 r.1)
  let X := s.1.set cast r.1 r.2 r.1 r.2 x
  let XE := prodL X E 0 r.2
  let XA := prodL X A 0 r.2
  let Y := Y.add r.1 r.2 r.1 n fun i j => prodK A XE r.1 r.2 i j + prodK E XA r.1 r.2 i j
  let t ← rest.foldlM (fun s c => gcontCol cast n A E r.1 r.2 c s) (X, Y, XE, XA)
  some (t.1, t.2.1)

/-- `_solve_continuous_generalized_lyapunov(A, E, Y)` (`_solvers.py:122-284`). -/
noncomputable def solveGenContinuous (N : LyapNum K) (cast : K → K) (X0 : Wk K) (A E Y : Arr K) : Res (Option (Arr K)) :=
  if A.r < 3 then smallRes A.r (miniGCs A.r A.wk E.wk Y.wk)
  else do
    let d := N.qz A E
    let Ys ← congruence d.2.2.2 Y
    let n := A.r
    let bl := blockPairs n (blockSizes n (subdiagIndices N.tol n d.1.wk))
    finishRes d.2.2.1 n (blockLoop (gcontRow cast n d.1.wk d.2.1.wk) bl (X0, Ys.wk))

/-- `mini_sylvester(S, V, Yt)` of the discrete generalised solver (`_solvers.py:309-323`). -/
noncomputable def miniGDs (k : ℕ) (S V Yt : Wk K) : Option (Wk K) :=
  if k = 1 then (gdiv (-Yt 0 0) (S 0 0 ^ 2 - V 0 0 ^ 2)).map fun t _ _ => t
  else
    let a := S 0 0; let b := S 0 1; let c := S 1 0; let d := S 1 1
    let e := V 0 0; let f := V 0 1; let g := V 1 0; let h := V 1 1
    (gsolve !![a * a - e * e, 2 * (a * c - e * g), c * c - g * g; a * b - e * f, a * d - e * h + c * b - g * f, c * d - g * h;
      b * b - f * f, 2 * (b * d - f * h), d * d - h * h] (rhs3 Yt)).map sym22

/-- `mini_sylvester(S, V, Yt, R, U)` of the discrete generalised solver (`_solvers.py:325-345`). -/
noncomputable def miniGDn (ks : ℕ) (S V Yt : Wk K) (kr : ℕ) (R U : Wk K) : Option (Wk K) :=
  if ks = 2 then
    if kr = 2 then
      let a := R 0 0; let b := R 0 1; let c := R 1 0; let d := R 1 1
      let e := S 0 0; let f := S 0 1; let g := S 1 0; let h := S 1 1
      let k := U 0 0; let l := U 0 1; let m := U 1 0; let n := U 1 1
      let p := V 0 0; let q := V 0 1; let r := V 1 0; let s := V 1 1
      (gsolve !![a * e - k * p, a * g - k * r, c * e - m * p, c * g - m * r; a * f - k * q, a * h - k * s, c * f - m * q, c * h - m * s;
        b * e - l * p, b * g - l * r, d * e - n * p, d * g - n * r; b * f - l * q, b * h - l * s, d * f - n * q, d * h - n * s]
        (rhs4 Yt)).map resh22
    else (gsolve !![R 0 0 * S 0 0 - U 0 0 * V 0 0, R 0 0 * S 1 0 - U 0 0 * V 1 0;
        R 0 0 * S 0 1 - U 0 0 * V 0 1, R 0 0 * S 1 1 - U 0 0 * V 1 1] ![-Yt 0 0, -Yt 0 1]).map fun v => (col2 v).tr
  else if kr = 2 then
    (gsolve !![S 0 0 * R 0 0 - V 0 0 * U 0 0, S 0 0 * R 1 0 - V 0 0 * U 1 0;
      S 0 0 * R 0 1 - V 0 0 * U 0 1, S 0 0 * R 1 1 - V 0 0 * U 1 1] ![-Yt 0 0, -Yt 1 0]).map col2
  else (gdiv (-Yt 0 0) (R 0 0 * S 0 0 - U 0 0 * V 0 0)).map fun t _ _ => t

/-- One turn of the inner loop of the discrete generalised solver (`_solvers.py:411-447`). -/
noncomputable def gdiscCol (cast : K → K) (n : ℕ) (A E : Wk K) (r0 r1 : ℕ) (c : ℕ × ℕ) (s : Wk K × Wk K × Wk K × Wk K) :
    Option (Wk K × Wk K × Wk K × Wk K) := do
  let x ← miniGDn (c.2 - c.1) (A.at c.1 c.1) (E.at c.1 c.1) (s.2.1.at r0 c.1) (r1 - r0) (A.at r0 r0) (E.at r0 r0)
  let X := (s.1.set cast r0 r1 c.1 c.2 x).set cast c.1 c.2 r0 r1 x.tr
  let te := prodL (x.off r0 c.1) E c.1 c.2
  let ta := prodL (x.off r0 c.1) A c.1 c.2
  let Y := s.2.1.add r0 r1 c.1 n fun i j => prodK A ta r0 r1 i j - prodK E te r0 r1 i j
  let XE := s.2.2.1.add r0 r1 c.1 n te
  let XA := s.2.2.2.add r0 r1 c.1 n ta
  let Y := Y.add r1 c.2 c.1 c.2 fun i j => prodK A XA r0 r1 i j - prodK E XE r0 r1 i j
  some (X, Y, XE, XA)

/-- One turn of the outer loop of the discrete generalised solver (`_solvers.py:382-447`). -/
noncomputable def gdiscRow (cast : K → K) (n : ℕ) (A E : Wk K) (r : ℕ × ℕ) (rest : List (ℕ × ℕ)) (s : Wk K × Wk K) :
    Option (Wk K × Wk K) := do
  let Y := if r.1 ≠ 0 then s.2.add r.1 r.2 r.1 r.2 fun i j =>
      prodK A (prodL s.1 A 0 r.1) r.1 r.2 i j - prodK E (prodL s.1 E 0 r.1) r.1 r.2 i j else s.2
  let x ← miniGDs (r.2 - r.1) (A.at r.1 r.1) (E.at r.1 r.1) (Y.at r.1 r.1)
  let X := s.1.set cast r.1 r.2 r.1 r.2 x
  let XE := prodL X E 0 r.2
  let XA := prodL X A 0 r.2
  let Y := Y.add r.1 r.2 r.1 n fun i j => prodK A XA r.1 r.2 i j - prodK E XE r.1 r.2 i j
  let t ← rest.foldlM (fun s c => gdiscCol cast n A E r.1 r.2 c s) (X, Y, XE, XA)
  some (t.1, t.2.1)

/-- `_solve_discrete_generalized_lyapunov(A, E, Y)` (`_solvers.py:287-449`). That `qz` is allowed to overwrite the arguments is not modelled. -/
noncomputable def solveGenDiscrete (N : LyapNum K) (cast : K → K) (X0 : Wk K) (A E Y : Arr K) : Res (Option (Arr K)) :=
  if A.r < 3 then smallRes A.r (miniGDs A.r A.wk E.wk Y.wk)
  else do
    let d := N.qz A E
    let Ys ← congruence d.2.2.2 Y
    let n := d.1.r
    let bl := blockPairs n (blockSizes n (subdiagIndices N.tol n d.1.wk))
    finishRes d.2.2.1 n (blockLoop (gdiscRow cast n d.1.wk d.2.1.wk) bl (X0, Ys.wk))

/-- `check_matrices` (`_solvers.py:78-102`). -/
def lyapCheck (a y : Arr K) (e : Option (Arr K)) : Res Unit :=
  if (e.any fun e => decide (e.r ≠ e.c)) then .error .value
  else if a.r ≠ a.c then .error .value
  else if y.r ≠ y.c then .error .value
  else if a.shape ≠ y.shape ∨ (e.any fun e => decide (a.shape ≠ e.shape)) then .error .value
  else .ok ()

/-- `lyapunov_eq_solver(A, Y, E, form)` (`_solvers.py:32-119`) for 2-D arrays. -/
noncomputable def lyapunovEqSolver (N : LyapNum K) (cast : K → K) (X0 : Wk K) (A Y : Arr K) (E : Option (Arr K)) (form : String) :
    Res (Option (Arr K)) :=
  if ¬ form ∈ ["c", "continuous", "d", "discrete"] then .error .value
  else do
    lyapCheck A Y E
    if form ∈ ["c", "continuous"] then
      match E with
      | none => solveContinuous N cast X0 A Y
      | some E => solveGenContinuous N cast X0 A E Y
    else
      match E with
      | none => solveDiscrete N cast X0 A Y
      | some E => solveGenDiscrete N cast X0 A E Y

end Harold
