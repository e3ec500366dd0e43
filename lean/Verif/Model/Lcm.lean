import Verif.Model.Poly
import Mathlib.Data.Matrix.Block
import Mathlib.LinearAlgebra.Dimension.Finrank
import Mathlib.LinearAlgebra.FiniteDimensional.Defs

/-!
# `haroldlcm`

Models `/repo/harold/_polynomial_ops.py:73-163`. Arithmetic is exact. The rows of the block diagonal
matrix are indexed by (argument, position) instead of by the flattened position.
-/

namespace Harold

open Matrix

variable {K : Type} [Field K] [LinearOrder K]

/-- `haroldcompanion(x)` as a square matrix of size `x.size - 1`, if it has that size. -/
def companionSq (x : List K) : Option (Matrix (Fin (x.length - 1)) (Fin (x.length - 1)) K) :=
  match companion x with
  | .ok (some M) =>
    if h : x.length - 1 = M.r ∧ x.length - 1 = M.c then
      some (M.m.submatrix (Fin.cast h.1) (Fin.cast h.2))
    else none
  | _ => none

/-- The row index of `block_diag(*map(haroldcompanion, polys))`. -/
abbrev BIdx (polys : List (List K)) : Type :=
  Σ i : Fin polys.length, Fin ((polys.get i).length - 1)

/-- `b = np.concatenate([e_i(x.size-1, -1) for x in poppedargs])` (line 100). -/
def lcmB (polys : List (List K)) : BIdx polys → K :=
  fun ij => if ij.2.val + 1 = (polys.get ij.1).length - 1 then 1 else 0

open Classical in
/-- The loop of lines 109-117: append `As @ C[:, [-1]]` until the columns are dependent.
`matrix_rank(C) != C.shape[1]` is read as: the dimension of the column space is not the number of
columns. `last` is the last column of `C`. -/
noncomputable def krylovLoop {ι : Type} [Fintype ι] (A : Matrix ι ι K) :
    ℕ → List (ι → K) → (ι → K) → List (ι → K)
  | 0, C, last => C ++ [A *ᵥ last]
  | k + 1, C, last =>
    let new := A *ᵥ last
    let C' := C ++ [new]
    if Set.finrank K {v | v ∈ C'} ≠ C'.length then C' else krylovLoop A k C' new

/-- Lines 108-117: `C` starts as `Bs` and the loop runs over `range(n-1)`. -/
noncomputable def krylov {ι : Type} [Fintype ι] (A : Matrix ι ι K) (b : ι → K) : List (ι → K) :=
  krylovLoop A (Fintype.card ι - 1) [b] b

/-- `C[:, :-1] @ x`. -/
def combine {ι : Type} (C : List (ι → K)) (x : List K) : ι → K :=
  fun i => ∑ j : Fin C.length, x.getD j 0 * C.get j i

open Classical in
/-- Lines 119-122: `solve(temp[:cols-1, :-1], -temp[:cols-1, -1])` where `temp = s @ v` is `C` up to
an orthogonal factor from the left: the solution of `C[:, :-1] x = -C[:, -1]`. -/
noncomputable def lcmSolve {ι : Type} (C : List (ι → K)) (last : ι → K) : Res (List K) :=
  if h : ∃ x : List K, x.length = C.length ∧ combine C x = fun i => -last i then .ok h.choose
  else .error .linAlg

open Classical in
/-- Line 132: `lstsq(C[:, :-1], Bs)`, only defined here for a solvable system. -/
noncomputable def lcmLstsq {ι : Type} (C : List (ι → K)) (b : ι → K) : Res (List K) :=
  if h : ∃ x : List K, x.length = C.length ∧ combine C x = b then .ok h.choose
  else .error .linAlg

/-- The array `adjA` of lines 137-147 for the polynomial `l` of size `n + 1`. -/
def adjA (l : List K) (n x y z : ℕ) : K :=
  let diag := fun z => if z < n - x then l.getD z 0 else 0
  if y = x then diag z
  else if y < x then (if x - y ≤ z ∧ z < n then diag (z - (x - y)) else 0)
  else if n - y ≤ z ∧ z < n + 1 - y + x then -l.getD (n - x + (z - (n - y))) 0 else 0

/-- The case of two or more nonconstant arguments (lines 98-149): the monic LCM and one row of
multiplier coefficients for each argument. `sca` are the scalings found by `matrix_balance`:
`As = diag(sca)⁻¹ A diag(sca)`. -/
noncomputable def lcmMany (polys : List (List K)) (sca : BIdx polys → K) :
    Res (List K × List (List K)) :=
  if h : ∀ i : Fin polys.length, (companionSq (polys.get i)).isSome then do
    let A : Matrix (BIdx polys) (BIdx polys) K :=
      blockDiagonal' fun i => (companionSq (polys.get i)).get (h i)
    let As : Matrix (BIdx polys) (BIdx polys) K := Matrix.of fun i j => (sca i)⁻¹ * A i j * sca j
    let Bs : BIdx polys → K := fun i => lcmB polys i * (sca i)⁻¹
    let C := krylov As Bs
    let x ← lcmSolve C.dropLast (C.getLastD 0)
    let l := (x ++ [1]).reverse
    let n := l.length - 1
    let bl ← lcmLstsq C.dropLast Bs
    let mults := List.ofFn fun i : Fin polys.length =>
      List.ofFn fun z : Fin n =>
        ∑ r ∈ Finset.range n,
          (if h0 : 0 < (polys.get i).length - 1 then
              sca ⟨i, ⟨0, h0⟩⟩ * (C.dropLast.getD r 0) ⟨i, ⟨0, h0⟩⟩ else 0)
            * ∑ y ∈ Finset.range n, adjA l n r y z * bl.getD y 0
    .ok (l, mults)
  else .error .value   -- shapes of `a` and `b` differ (leading zeros); not modelled further

/-- Lines 151-155: rows for the popped constants are `lcmpoly`, the other rows are shifted. -/
def lcmAssemble (l : List K) : List (List K) → List (List K) → List (List K)
  | [], _ => []
  | p :: ps, rows =>
    if p.length = 1 then l :: lcmAssemble l ps rows
    else
      match rows with
      | [] => []
      | r :: rows => (0 :: r) :: lcmAssemble l ps rows

/-- `x[abs(x) < thr] = 0.` -/
def cleanup (thr : K) (l : List K) : List K := l.map fun a => if |a| < thr then 0 else a

/-- Lines 98-150 for the nonconstant arguments `popped`: the LCM and the rows of multipliers. -/
noncomputable def lcmPopped (bal : ∀ polys : List (List K), BIdx polys → K)
    (popped : List (List K)) : Res (List K × List (List K)) :=
  if 1 < popped.length then lcmMany popped (bal popped)
  else
    match trimZeros (popped.getD 0 []) with
    | [] => .error .index
    | a :: t =>
      -- 150: `mults[0, -1] = 1.` of a `1 × n_lcm` array
      if t.length = 0 then .error .index
      else .ok ((a :: t).map fun x => x / a, [List.replicate (t.length - 1) 0 ++ [1]])

/-- `haroldlcm(*args, cleanup_threshold=thr)` (lines 73-161) with `compute_multipliers=True`; the
arguments are real 1-D arrays. `bal` gives the scalings of `matrix_balance` for the nonconstant
arguments. -/
noncomputable def lcm (bal : ∀ polys : List (List K), BIdx polys → K) (thr : K)
    (args : List (List K)) : Res (List K × List (List K)) :=
  if ¬ ∀ x ∈ args, x ≠ [] then .error .value
  else if ∀ x ∈ args, x.length = 1 then .ok ([1], args.map fun _ => [1])
  else do
    let popped := args.filter fun x => decide (1 < x.length)
    let (l, mults) ← lcmPopped bal popped
    let mults := if ∃ x ∈ args, x.length = 1 then lcmAssemble l args mults else mults
    .ok (cleanup thr l, mults.map fun z => trimZeros (cleanup thr z))

end Harold
