import Verif.Model.SysNorm
import Mathlib.Analysis.CStarAlgebra.Matrix
import Mathlib.Data.List.Sort

/-!
# `system_norm` with `p=np.inf`

Models the branch `np.isinf(p)` of `/repo/harold/_system_props.py:84-148` for `State` models; a
`Transfer` is first converted by `transfer_to_state` (line 68). `frequency_response` and `eigvals`
are parameters. The argument `hinf_tol` is never read by the code.
-/

namespace Harold

open Matrix

/-- The routines called by the H∞ branch: the samples `frequency_response(T, w=w, w_unit='rad/s',
output_unit='rad/s')[0]`, one `p × m` array per frequency, and `eigvals`. -/
structure HinfNum where
  freq : StateM ℝ → List ℝ → Res (List (Arr ℂ))
  eig : Arr ℝ → List ℂ

open scoped Matrix.Norms.L2Operator in
/-- `norm(f, ord=2)`: the largest singular value. -/
noncomputable def Arr.norm2 (f : Arr ℂ) : ℝ := ‖f.m‖

/-- `np.max(x)`. -/
noncomputable def npMax : List ℝ → Res ℝ
  | [] => .error .value
  | a :: l => .ok (l.foldl max a)

/-- `np.min(x)`. -/
noncomputable def npMin : List ℝ → Res ℝ
  | [] => .error .value
  | a :: l => .ok (l.foldl min a)

/-- `np.max(np.abs(f))` of a SISO response and `np.max(norm(f, ord=2, axis=(0, 1)))` otherwise
(lines 105-109 and 143-146). -/
noncomputable def peak (siso : Bool) (f : List (Arr ℂ)) : Res ℝ :=
  npMax (f.map fun x => if siso then ‖x.wk 0 0‖ else x.norm2)

open Classical in
/-- `np.abs(x.imag/x.real/np.abs(x))` (line 97); `inf` and `nan` are the two largest values for
`np.argmax`. -/
noncomputable def dampKey (x : ℂ) : WithTop (WithTop ℝ) :=
  if x.re = 0 then (if x.im = 0 then ⊤ else ((⊤ : WithTop ℝ) : WithTop (WithTop ℝ)))
  else ((|x.im / x.re / ‖x‖| : ℝ) : WithTop ℝ)

open Classical in
/-- `T.poles[np.argmax(J)]`: the first one of those with the largest value. -/
noncomputable def argmaxDamp : List ℂ → ℂ → ℂ
  | [], best => best
  | x :: l, best => argmaxDamp l (if dampKey best < dampKey x then x else best)

open Classical in
/-- `low_damp_fr` (lines 96-101). `T.poles` is a plain list for a static gain, it has no attribute
`imag`. -/
noncomputable def lowDamp (isgain : Bool) (poles : List ℂ) : Res ℝ :=
  if isgain then .error .attribute
  else if ∃ x ∈ poles, x.im ≠ 0 then
    match poles with
    | [] => .error .value
    | x :: l => .ok ‖argmaxDamp l x‖
  else npMin (poles.map fun x => ‖x‖)

/-- `a - b @ solve(R, d.T) @ c` (lines 124 and 127). -/
noncomputable def hamA (a b c d R : Arr ℝ) : Res (Arr ℝ) := do
  let x ← R.solve d.T
  let bx ← b.matmul x
  let bxc ← bx.matmul c
  a.sub bxc

/-- `d.T @ d - test_gamma**2 * np.eye(d.shape[1])` (line 121). -/
noncomputable def hamR (g : ℝ) (d : Arr ℝ) : Res (Arr ℝ) := do
  let dd ← d.T.matmul d
  dd.sub ((Arr.eye d.c).smul (g ^ 2))

/-- `d @ d.T - test_gamma**2 * np.eye(d.shape[0])` (line 122). -/
noncomputable def hamS (g : ℝ) (d : Arr ℝ) : Res (Arr ℝ) := do
  let dd ← d.matmul d.T
  dd.sub ((Arr.eye d.r).smul (g ^ 2))

/-- The Hamiltonian `mat` (lines 121-127). -/
noncomputable def hamiltonian (g : ℝ) (a b c d : Arr ℝ) : Res (Arr ℝ) := do
  let R ← hamR g d
  let S ← hamS g d
  let h11 ← hamA a b c d R
  let rb ← R.solve b.T
  let h12 ← (b.smul (-g)).matmul rb
  let sc ← S.solve c
  let h21 ← (c.T.smul g).matmul sc
  let top ← h11.hstack h12
  let bot ← h21.hstack h11.T.neg
  top.vstack bot

/-- `np.sort(np.unique(np.abs(im_eigs.imag)))` and `(w_i[1:] + w_i[:-1]) / 2` (lines 138-140). -/
noncomputable def midpoints (im : List ℂ) : List ℝ :=
  let w := ((im.map fun z => |z.im|).dedup).insertionSort (· ≤ ·)
  List.zipWith (fun x y => (x + y) / 2) w.tail w.dropLast

/-- `2*np.sqrt(np.spacing(1.))` (line 118): `np.spacing(1.)` is `2⁻⁵²`. -/
noncomputable def gammaStep : ℝ := 2 * (1 / 2 ^ 26)

open Classical in
/-- `eigs_of_H[np.abs(eigs_of_H.real) <= eig_tol]` (line 131). -/
noncomputable def imEigs (tol : ℝ) (e : List ℂ) : List ℂ := e.filter fun z => decide (|z.re| ≤ tol)

/-- The loop of lines 115-146 and the return value of line 148. `gamma_ub` is not bound if the loop
ends without `break`. -/
noncomputable def hinfLoop (E : HinfNum) (tol : ℝ) (G : StateM ℝ) : ℕ → ℝ → Res ℝ
  | 0, _ => .error .unboundLocal
  | k + 1, lb => do
    let H ← hamiltonian (lb * (1 + gammaStep)) G.a G.b G.c G.d
    match imEigs tol (E.eig H) with
    | [] => .ok ((lb + lb * (1 + gammaStep)) / 2)
    | z :: im => do
      let f ← E.freq G (midpoints (z :: im))
      let lb ← peak G.isSISO f
      hinfLoop E tol G k lb

/-- `d` with complex entries; `norm(d, ord=2)` is the same for both. -/
noncomputable def Arr.toC (d : Arr ℝ) : Arr ℂ := Arr.of (d.m.map fun x : ℝ => (x : ℂ))

/-- `system_norm(G, p=np.inf, eig_tol=tol)` (`_system_props.py:84-148`). -/
noncomputable def systemNormInf (E : HinfNum) (tol : ℝ) (S : StateObj ℝ ℂ) : Res FVal :=
  if S.isstable = false then .ok .inf
  else do
    let w ← lowDamp S.g.isgain S.poles
    let f ← E.freq S.g [0, w]
    let lb ← peak S.g.isSISO f
    let v ← hinfLoop E tol S.g 51 (max lb S.g.d.toC.norm2)
    .ok (.fin v)

end Harold
