import Verif.Model.State

/-!
# `hessenberg_realization`

Models `/repo/harold/_system_funcs.py:129-222` for `State` arguments with dynamics and for matrix triples.
-/

namespace Harold

open Matrix

variable {K : Type}

/-- `qr(b)` of scipy returns `Q, R`; `hessenberg(a, calc_q=True)` returns `H, Q`. -/
structure HessNum (K : Type) where
  qr : Arr K → Arr K × Arr K
  hess : Arr K → Arr K × Arr K

/-- `np.flipud(x)`. -/
def Arr.flipud (x : Arr K) : Arr K := Arr.of (x.m.submatrix Fin.rev id)

/-- `np.fliplr(x)`. -/
def Arr.fliplr (x : Arr K) : Arr K := Arr.of (x.m.submatrix id Fin.rev)

section
variable [Field K] [LinearOrder K]

/-- The decompositions (`_system_funcs.py:195-201`): `ah, bh, ch, T`. -/
def hessCore (N : HessNum K) (a b c : Arr K) : Res (Arr K × Arr K × Arr K × Arr K) := do
  let q := N.qr b
  let x ← q.1.T.matmul a
  let ab ← x.matmul q.1
  let cb ← c.matmul q.1
  let h := N.hess ab
  let ch ← cb.matmul h.2
  let T ← q.1.matmul h.2
  .ok (h.1, q.2, ch, T)

/-- `if invert:` (`_system_funcs.py:203-206`). -/
def hessInvert (invert : Bool) (r : Arr K × Arr K × Arr K × Arr K) : Arr K × Arr K × Arr K × Arr K :=
  if invert then (r.1.flipud.fliplr, r.2.1.flipud, r.2.2.1.fliplr, r.2.2.2.flipud) else r

/-- `hessenberg_realization((a, b, c), compute_T=True, form, invert, output='matrices')` (`_system_funcs.py:176-222`): `ah, bh, ch, T`. -/
def hessMatrices (N : HessNum K) (form : String) (invert : Bool) (a b c : Arr K) : Res (Arr K × Arr K × Arr K × Arr K) :=
  if form = "o" then do
    let r ← hessCore N a.T c.T b.T
    let r := hessInvert invert r
    .ok (r.1.T, r.2.2.1.T, r.2.1.T, r.2.2.2)
  else do
    let r ← hessCore N a b c
    .ok (hessInvert invert r)

/-- `hessenberg_realization(G, compute_T=True, form, invert)` for a `State` with dynamics (`_system_funcs.py:176-216`). -/
def hessSystem (N : HessNum K) (form : String) (invert : Bool) (G : StateM K) : Res (StateM K × Arr K) := do
  let r ← hessMatrices N form invert G.a G.b G.c
  let R ← mkState (some r.1) (some r.2.1) (some r.2.2.1) none G.dt
  .ok (R, r.2.2.2)

end

end Harold
