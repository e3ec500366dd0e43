import Verif.Base.Arr
import Mathlib.Analysis.SpecialFunctions.Sqrt
import Mathlib.LinearAlgebra.Matrix.DotProduct

/-!
# `controllability_indices`

Models `/repo/harold/_system_props.py:151-261`. Floating point numbers are real numbers. The columns of the array `q` are a list of vectors.
-/

namespace Harold

open Matrix

/-- The numerical routines: `qr b` is `scipy.linalg.qr(b, mode='economic', pivoting=True)`, `thr b` the number `max(m, n)*np.spacing(norm(b, 2))` of line 230, `eps` is
`np.spacing(1.)`. -/
structure QrpNum where
  qr : {n m : ℕ} → Matrix (Fin n) (Fin m) ℝ → Matrix (Fin n) (Fin (min n m)) ℝ × Matrix (Fin (min n m)) (Fin m) ℝ × Equiv.Perm (Fin m)
  thr : {n m : ℕ} → Matrix (Fin n) (Fin m) ℝ → ℝ
  eps : ℝ

variable {n m : ℕ}

/-- `w -= ((q.T @ w).T * q).sum(axis=1, keepdims=True)` (`_system_props.py:246`). -/
def ciDeflate (q : List (Fin n → ℝ)) (w : Fin n → ℝ) : Fin n → ℝ := w - (q.map fun v => (v ⬝ᵥ w) • v).sum

/-- The variables of the loops: `q`, `remaining_cols` and `indices`. -/
structure CiState (n m : ℕ) where
  q : List (Fin n → ℝ)
  rem : List (Fin m)
  ind : Fin m → ℕ

/-- One test vector (`_system_props.py:242-254`). -/
noncomputable def ciStep (tol : ℝ) (s : CiState n m) (col : Fin m) (w : Fin n → ℝ) : CiState n m :=
  let w := ciDeflate s.q (ciDeflate s.q w)
  let normw := √(w ⬝ᵥ w)
  if normw ≤ tol then { s with rem := s.rem.erase col }
  else { s with q := s.q ++ [normw⁻¹ • w], ind := Function.update s.ind col (s.ind col + 1) }

/-- The loop over the remaining columns (`_system_props.py:241-254`). -/
noncomputable def ciInner (tol : ℝ) : List (Fin m × (Fin n → ℝ)) → CiState n m → CiState n m
  | [], s => s
  | (col, w) :: l, s => ciInner tol l (ciStep tol s col w)

/-- The outer loop (`_system_props.py:238-257`), with the number of rounds that are left. When `remaining_cols` is empty, `q[:, -0:]` is all of `q`, but then no
column is enumerated. -/
noncomputable def ciOuter (tol : ℝ) (A : Matrix (Fin n) (Fin n) ℝ) : ℕ → CiState n m → CiState n m
  | 0, s => s
  | k + 1, s =>
    let bank := (s.q.drop (s.q.length - s.rem.length)).map (A *ᵥ ·)
    let s := ciInner tol (s.rem.zip bank) s
    if s.rem = [] then s else ciOuter tol A k s

/-- The variables before the loop (`_system_props.py:224-234`). -/
noncomputable def ciStart (N : QrpNum) (B : Matrix (Fin n) (Fin m) ℝ) : CiState n m :=
  let f := N.qr B
  let rank := (Finset.univ.filter fun i : Fin (min n m) => N.thr B < |f.2.1 i (Fin.castLE (min_le_right n m) i)|).card
  let rem := ((List.finRange m).map f.2.2).take rank
  ⟨((List.finRange (min n m)).map fun j i => f.1 i j).take rank, rem, fun c => if c ∈ rem then 1 else 0⟩

/-- The part of `controllability_indices` after the checks. -/
noncomputable def ciMain (N : QrpNum) (tol : ℝ) (A : Matrix (Fin n) (Fin n) ℝ) (B : Matrix (Fin n) (Fin m) ℝ) : Fin m → ℕ :=
  (ciOuter tol A (n - 1) (ciStart N B)).ind

/-- `controllability_indices(A, B, tol)`. -/
noncomputable def controllabilityIndices (N : QrpNum) (tol : Option ℝ) (a b : Arr ℝ) : Res (List ℕ) :=
  if h : a.r = a.c then
    if h' : b.r = a.r then
      .ok (List.ofFn (ciMain N (tol.getD (√N.eps * (a.r : ℝ) ^ 2)) (a.m.submatrix id (Fin.cast h)) (b.m.submatrix (Fin.cast h'.symm) id)))
    else .error .value
  else .error .linAlg

end Harold
