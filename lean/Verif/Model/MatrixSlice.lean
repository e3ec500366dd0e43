import Verif.Model.State

/-!
# `matrix_slice` and `concatenate_state_matrices`
-/

namespace Harold

open Matrix

variable {K : Type}

/-- The position at which Python cuts an axis of length `n` for `M[:p]` and `M[p:]`: negative `p`
counts from the end, values beyond the end are clipped. -/
def cutAt (n : ℕ) (p : ℤ) : ℕ := if p < 0 then (n + p).toNat else min p.toNat n

theorem cutAt_le (n : ℕ) (p : ℤ) : cutAt n p ≤ n := by
  unfold cutAt; split_ifs <;> omega

/-- `M[:p, :m], M[:p, m:], M[p:, :m], M[p:, m:]` for cut positions inside the array. -/
def Arr.split4 (x : Arr K) (p m : ℕ) (hp : p ≤ x.r) (hm : m ≤ x.c) :
    Arr K × Arr K × Arr K × Arr K :=
  (Arr.of (x.m.submatrix (Fin.castLE hp) (Fin.castLE hm)),
   Arr.of (x.m.submatrix (Fin.castLE hp) fun j : Fin (x.c - m) => ⟨m + j, by omega⟩),
   Arr.of (x.m.submatrix (fun i : Fin (x.r - p) => ⟨p + i, by omega⟩) (Fin.castLE hm)),
   Arr.of (x.m.submatrix (fun i : Fin (x.r - p) => ⟨p + i, by omega⟩)
    fun j : Fin (x.c - m) => ⟨m + j, by omega⟩))

/-- The last line of `matrix_slice` (`_aux_linalg.py:443`). -/
def Arr.cut4 (x : Arr K) (p m : ℤ) : Arr K × Arr K × Arr K × Arr K :=
  x.split4 (cutAt x.r p) (cutAt x.c m) (cutAt_le _ _) (cutAt_le _ _)

/-- `matrix_slice(M, (z, w), corner)` (`_aux_linalg.py:427-443`). -/
def matrixSlice (M : Arr K) (z w : ℕ) (corner : String) : Res (Arr K × Arr K × Arr K × Arr K) :=
  if ¬ (corner = "ne" ∨ corner = "nw" ∨ corner = "se" ∨ corner = "sw") then .error .value
  else
    .ok <|
      if corner = "nw" then M.cut4 z w
      else if corner = "ne" then M.cut4 M.r ((M.c : ℤ) - w)
      else if corner = "sw" then M.cut4 ((M.r : ℤ) - z) w
      else M.cut4 ((M.r : ℤ) - z) ((M.c : ℤ) - w)

/-- `concatenate_state_matrices(G)` (`_classes.py:3517-3524`). -/
def concatenateStateMatrices (G : StateM K) : Res (Arr K) :=
  if G.isgain then .ok G.d
  else do
    let top ← Arr.hstack G.a G.b
    let bot ← Arr.hstack G.c G.d
    Arr.vstack top bot

end Harold
