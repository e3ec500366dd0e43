import Verif.Model.TransferOps
import Verif.Model.StateObj
import Mathlib.Analysis.Complex.Norm

/-!
# `state_to_transfer`

Models `/repo/harold/_classes.py:2766-2895` for real models; eigenvalues and zeros are complex numbers supplied by
`N.eig` (`eigvals`) and `N.tz` (`transmission_zeros`). Arithmetic is exact.
-/

namespace Harold

/-- `x[:, k:k+1]`. -/
def Arr.colAt {K : Type} (x : Arr K) (k : Fin x.c) : Arr K := Arr.of (Matrix.of fun (i : Fin x.r) (_ : Fin 1) => x.m i k)

/-- `x[k:k+1, :]`. -/
def Arr.rowAt {K : Type} (x : Arr K) (k : Fin x.r) : Arr K := Arr.of (Matrix.of fun (_ : Fin 1) (j : Fin x.c) => x.m k j)

/-- The point `s0` (`_classes.py:2855-2860`): twice the largest modulus, at least one. The maximum of a nonempty array of moduli. -/
noncomputable def s2tPoint (pp zz : List ℂ) : ℝ := max (((pp ++ zz).map fun z => ‖z‖).foldr max 0) (1 / 2) * 2

/-- The gain `k` of one entry (`_classes.py:2855-2866`). `np.linalg.lstsq` with an invertible square matrix is `solve`; the matrix
`s0 I - A` is invertible because `s0` exceeds the modulus of all computed eigenvalues. -/
noncomputable def s2tGain (pp zz : List ℂ) (a b c : Arr ℝ) : Res ℝ := do
  let s0 := s2tPoint pp zz
  let zeroProd : ℝ := if zz = [] then 1 else (zz.map fun z => (s0 : ℂ) - z).prod.re
  let sa ← ((Arr.eye a.r).smul s0).sub a
  let x ← sa.solve b
  let cab ← c.matmul x
  let poleProd : ℝ := (pp.map fun z => (s0 : ℂ) - z).prod.re
  .ok (cab.bget 0 0 * poleProd / zeroProd)

/-- Numerator and denominator of one entry (`_classes.py:2838-2880`). -/
noncomputable def s2tEntry (pp zz : List ℂ) (a b c : Arr ℝ) (d : ℝ) : Res (List ℝ × List ℝ) := do
  let den := (poly pp).map Complex.re
  let k ← s2tGain pp zz a b c
  let num := if zz = [] then [k] else ((poly zz).map Complex.re).map fun x => k * x
  let num ← polyadd [num, den.map fun x => d * x]
  .ok (if num = [] then ([0], [1]) else (num, den))

/-- `state_to_transfer(G)` (`_classes.py:2766-2895`). A SISO result is passed as arrays, others as lists of lists; the
constructor reads both in the same way. -/
noncomputable def stateToTransfer (E : TNum ℝ) (N : Numerics ℝ ℂ) (G : StateM ℝ) : Res (TransferM ℝ) :=
  if G.isgain then mkTransfer E (.arr G.d) .none G.dt
  else
    mkEntries E G.c.r G.b.c (fun i j =>
      s2tEntry (N.eig G.a) (N.tz G.a (G.b.colAt j) (G.c.rowAt i) (Arr.zeros 1 1)) G.a (G.b.colAt j) (G.c.rowAt i)
        (G.d.bget i j)) G.dt

end Harold
