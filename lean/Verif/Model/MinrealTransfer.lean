import Verif.Model.Ackermann
import Verif.Model.TransferOps
import Mathlib.Analysis.Complex.Norm

/-!
# `minimal_realization` of `Transfer` models

Models `/repo/harold/_system_funcs.py:345-352` and `424-532`. `np.roots` is a parameter.
-/

namespace Harold

open Matrix

/-- `np.argmin`: the position of the first smallest element. `np.min` and `np.argmin` of an empty array raise `ValueError`. -/
noncomputable def argminIdx (d : List ℝ) : Option ℕ := d.min?.map d.idxOf

/-- `np.where(plz == c)[0][0]`. -/
noncomputable def whereFirst (c : ℂ) (l : List ℂ) : Res ℕ := if c ∈ l then .ok (l.idxOf c) else .error .index

/-- A zero `z` that matches the pole `pz = plz[i]` (`_system_funcs.py:488-523`). Line 514 adds a number to a list, a `TypeError`. -/
noncomputable def simplifyMatch (tol : ℝ) (safe plz : List ℂ) (z pz : ℂ) (i : ℕ) : Res (List ℂ × List ℂ) :=
  let plz' := plz.eraseIdx i
  if 0 < z.im ∧ 0 < pz.im then do
    let k ← whereFirst (star pz) plz'
    .ok (safe, plz'.eraseIdx k)
  else if 0 < z.im then
    match argminIdx (plz'.map fun p => ‖p - z‖) with
    | none => .error .value
    | some k => if ‖plz'.getD k 0 - z‖ < tol + tol * ‖z‖ then .ok (safe, plz'.eraseIdx k) else .error .type
  else if 0 < pz.im then do
    let k ← whereFirst (star pz) plz'
    .ok (safe, plz'.set k ((plz'.getD k 0).re : ℂ))
  else .ok (safe, plz')

/-- One round of the loop over the zeros (`_system_funcs.py:482-530`). -/
noncomputable def simplifyStep (tol : ℝ) (safe plz : List ℂ) (z : ℂ) : Res (List ℂ × List ℂ) :=
  match argminIdx (plz.map fun p => ‖p - z‖) with
  | none => .error .value
  | some i =>
    if ‖plz.getD i 0 - z‖ < tol + tol * ‖z‖ then simplifyMatch tol safe plz z (plz.getD i 0) i
    else .ok (safe ++ (if 0 < z.im then [z, star z] else [z]), plz)

/-- The loop over the zeros. -/
noncomputable def simplifyLoop (tol : ℝ) : List ℂ → List ℂ → List ℂ → Res (List ℂ × List ℂ)
  | [], safe, plz => .ok (safe, plz)
  | z :: zs, safe, plz => do
    let r ← simplifyStep tol safe plz z
    simplifyLoop tol zs r.1 r.2

/-- `np.poly(l)` for complex numbers: the real coefficients if the numbers come in conjugate pairs. Simplification: `np.poly` returns complex coefficients
otherwise, which is reported as an error here. -/
noncomputable def npPolyReal (l : List ℂ) : Res (List ℝ) :=
  open Classical in if l.Perm (l.map star) then .ok ((npPoly l).map Complex.re) else .error .notImplemented

/-- `_minimal_realization_simplify(num, den, tol)` (`_system_funcs.py:453-532`). -/
noncomputable def minrealSimplify (roots : List ℝ → List ℂ) (tol : ℝ) (num den : List ℝ) : Res (List ℝ × List ℝ) :=
  if num.length = 1 then .ok (num.map fun x => x / den.getD 0 0, den.map fun x => x / den.getD 0 0)
  else do
    let k := num.getD 0 0 / den.getD 0 0
    let zrz := roots num
    let zrz := zrz.filter (fun z => z.im = 0) ++ zrz.filter (fun z => 0 < z.im)
    let r ← simplifyLoop tol zrz [] (roots den)
    let n ← npPolyReal r.1
    let d ← npPolyReal r.2
    .ok (n.map fun x => k * x, d)

/-- `minimal_realization(G, tol)` for a `Transfer` (`_system_funcs.py:345-352`). -/
noncomputable def minrealTransfer (E : TNum ℝ) (roots : List ℝ → List ℂ) (tol : ℝ) (G : TransferM ℝ) : Res (TransferM ℝ) :=
  if G.isgain then do
    let x ← G.toArray
    mkTransfer E (.arr x) .none none
  else mkEntries E G.p G.m (fun i j => minrealSimplify roots tol (G.num.entry i j) (G.den.entry i j)) G.dt

end Harold
