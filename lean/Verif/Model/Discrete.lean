import Verif.Model.StateObj
import Verif.Model.MatrixSlice
import Mathlib.Analysis.Normed.Algebra.MatrixExponential
import Mathlib.Analysis.SpecialFunctions.Trigonometric.Basic
import Mathlib.Analysis.SpecialFunctions.Pow.Real

/-!
# `discretize` and `undiscretize`

Models `/repo/harold/_discrete_funcs.py` for `State` models over the reals (exact arithmetic).
`expm` is the exact matrix exponential. Warnings about ill-conditioned matrices are not modelled:
`solve` fails exactly on singular matrices.
-/

namespace Harold

open Matrix

section lft
variable {K : Type} [Field K] [DecidableEq K]

/-- `NAinv` (`_discrete_funcs.py:458-474`): `(I - q22 A)⁻¹`, computed only if `q22 != 0`. -/
noncomputable def naInv (q22 : K) (a : Arr K) : Res (Arr K) :=
  if q22 = 0 then .ok (Arr.eye a.r)
  else do
    let x ← (Arr.eye a.r).sub (a.smul q22)
    x.solve (Arr.eye a.r)

/-- `Bd` (`_discrete_funcs.py:485`). -/
def lftB (q12 q22 : K) (a na b : Arr K) : Res (Arr K) :=
  if q22 = 0 then .ok (b.smul q12)
  else do
    let x ← a.matmul na
    let y ← (x.smul q22).add (Arr.eye a.r)
    (y.smul q12).matmul b

/-- `Dd` (`_discrete_funcs.py:487`). -/
def lftD (q22 : K) (na b c d : Arr K) : Res (Arr K) :=
  if q22 = 0 then .ok d
  else do
    let x ← c.matmul na
    let y ← (x.smul q22).matmul b
    d.add y

/-- `_simple_lft_connect(q, A, B, C, D)` (`_discrete_funcs.py:448-490`). -/
noncomputable def simpleLft (q a b c d : Arr K) : Res (Arr K × Arr K × Arr K × Arr K) :=
  if q.r = 2 ∧ q.c = 2 then do
    let q11 := q.bget 0 0
    let q12 := q.bget 0 1
    let q21 := q.bget 1 0
    let q22 := q.bget 1 1
    let na ← naInv q22 a
    let t ← (a.smul q12).matmul na
    let ad ← ((Arr.eye a.r).smul q11).add (t.smul q21)
    let bd ← lftB q12 q22 a na b
    let cd ← c.matmul na
    let dd ← lftD q22 na b c d
    .ok (ad, bd, cd.smul q21, dd)
  else .error .value

/-- A `2 × 2` array. -/
def q2 (x y z w : K) : Arr K := Arr.of !![x, y; z, w]

end lft

/-- External routines: `balance` is `matrix_balance(·, permute=0, separate=1)` (scaled matrix and
scaling vector), `logm` the matrix logarithm (`none`: the result is not real), `nearZero a` the test
`any(abs(eigvals(a)) < sqrt(spacing(norm(a, 1))))` of lines 294 and 327. -/
structure DNum where
  balance : {n : ℕ} → Matrix (Fin n) (Fin n) ℝ → Matrix (Fin n) (Fin n) ℝ × (Fin n → ℝ)
  logm : {n : ℕ} → Matrix (Fin n) (Fin n) ℝ → Option (Matrix (Fin n) (Fin n) ℝ)
  nearZero : Arr ℝ → Bool

/-- `X * (sca[:, None] * np.reciprocal(sca))`. -/
noncomputable def unscale {n : ℕ} (sca : Fin n → ℝ) (X : Matrix (Fin n) (Fin n) ℝ) :
    Matrix (Fin n) (Fin n) ℝ := Matrix.of fun i j => X i j * (sca i * (sca j)⁻¹)

/-- `Ms, (sca, _) = matrix_balance(M); expm(Ms * t) * (sca[:, None] * np.reciprocal(sca))`
(`_discrete_funcs.py:151-153, 176-178`). Balancing a non-square array raises `ValueError`. -/
noncomputable def balExp (E : DNum) (M : Arr ℝ) (t : ℝ) : Res (Arr ℝ) :=
  if h : M.r = M.c then
    let X : Matrix (Fin M.r) (Fin M.r) ℝ := M.m.submatrix id (Fin.cast h)
    .ok (Arr.of (unscale (E.balance X).2 (NormedSpace.exp (t • (E.balance X).1))))
  else .error .value

/-- `Ms, (sca, _) = matrix_balance(M); logm(Ms) * (sca[:, None] * np.reciprocal(sca)) * (1/t)` and
the test for a complex result (`_discrete_funcs.py:298-302`). -/
noncomputable def balLog (E : DNum) (M : Arr ℝ) (t : ℝ) : Res (Arr ℝ) :=
  if h : M.r = M.c then
    let X : Matrix (Fin M.r) (Fin M.r) ℝ := M.m.submatrix id (Fin.cast h)
    match E.logm (E.balance X).1 with
    | none => .error .value
    | some Y => .ok (Arr.of ((1 / t) • unscale (E.balance X).2 Y))
  else .error .value

/-- `X[:n, :n]` and `X[:n, n:]`. -/
def topBlocks (X : Arr ℝ) (n : ℕ) : Arr ℝ × Arr ℝ :=
  let r := X.cut4 n n
  (r.1, r.2.1)

/-- The `'zoh'` branch of `_discretize` (`_discrete_funcs.py:139-154`). -/
noncomputable def discZoh (E : DNum) (g : StateM ℝ) (dt : ℝ) :
    Res (Arr ℝ × Arr ℝ × Arr ℝ × Arr ℝ) := do
  let top ← Arr.hstack g.a g.b
  let M ← Arr.vstack top (Arr.zeros g.m (g.m + g.n))
  let eM ← balExp E M dt
  .ok ((topBlocks eM g.n).1, (topBlocks eM g.n).2, g.c, g.d)

/-- The `'foh'` branch of `_discretize` (`_discrete_funcs.py:156-186`). -/
noncomputable def discFoh (E : DNum) (g : StateM ℝ) (dt : ℝ) :
    Res (Arr ℝ × Arr ℝ × Arr ℝ × Arr ℝ) := do
  let top ← Arr.hstack g.a g.b
  let M ← Arr.vstack (Arr.blockDiag (top.smul dt) (Arr.eye g.m)) (Arr.zeros g.m (g.n + 2 * g.m))
  let eM ← balExp E M 1
  let ad := (topBlocks eM g.n).1
  let right := (topBlocks eM g.n).2      -- `eM[:n, n:]`
  let bd0 := (right.cut4 g.n g.m).1      -- `eM[:n, n:n+m]`
  let bd1 := (right.cut4 g.n g.m).2.1    -- `eM[:n, n+m:]`
  let x ← ad.matmul bd1
  let y ← bd0.add x
  let bd ← y.sub bd1
  let z ← g.c.matmul bd1
  let dd ← g.d.add z
  .ok (ad, bd, g.c, dd)

/-- `('forward euler', 'forward difference', 'forward rectangular', '>>')`. -/
def forwardNames : List String := ["forward euler", "forward difference", "forward rectangular", ">>"]

/-- `('backward euler', 'backward difference', 'backward rectangular', '<<')`. -/
def backwardNames : List String :=
  ["backward euler", "backward difference", "backward rectangular", "<<"]

/-- `sq2tan` (`_discrete_funcs.py:197-198, 363-364`). -/
noncomputable def sq2tan (dt prewarp : ℝ) : ℝ :=
  Real.sqrt (2 * Real.tan (2 * Real.pi * prewarp * dt / 2) / (2 * Real.pi * prewarp))

/-- The matrix `q` of the tustin branch of `_discretize` (`_discrete_funcs.py:188-199`). -/
noncomputable def tustinQ (dt prewarp : ℝ) : Res (Arr ℝ) :=
  if prewarp = 0 then .ok (q2 1 (Real.sqrt dt) (Real.sqrt dt) (dt / 2))
  else if 1 / (2 * dt) < prewarp then .error .value
  else .ok (q2 1 (sq2tan dt prewarp) (sq2tan dt prewarp) (sq2tan dt prewarp ^ 2 / 2))

/-- The tustin branch of `_discretize` (`_discrete_funcs.py:187-201`). -/
noncomputable def discTustin (g : StateM ℝ) (dt prewarp : ℝ) :
    Res (Arr ℝ × Arr ℝ × Arr ℝ × Arr ℝ) := do
  let q ← tustinQ dt prewarp
  simpleLft q g.a g.b g.c g.d

/-- `_discretize` (`_discrete_funcs.py:136-217`), without the trailing `dt`. -/
noncomputable def discretizeArgs (E : DNum) (g : StateM ℝ) (dt : ℝ) (method : String) (prewarp : ℝ)
    (q : Option (Arr ℝ)) : Res (Arr ℝ × Arr ℝ × Arr ℝ × Arr ℝ) :=
  if method = "zoh" then discZoh E g dt
  else if method = "foh" then discFoh E g dt
  else if method ∈ tustinNames then discTustin g dt prewarp
  else if method ∈ forwardNames then
    simpleLft (q2 1 (Real.sqrt dt) (Real.sqrt dt) 0) g.a g.b g.c g.d
  else if method ∈ backwardNames then
    simpleLft (q2 1 (Real.sqrt dt) (Real.sqrt dt) dt) g.a g.b g.c g.d
  else if method = "lft" then
    match q with
    | none => .error .value
    | some q => simpleLft q g.a g.b g.c g.d
  else .error .unboundLocal

section objects
variable {P : Type}

/-- Execute an assignment statement, propagating its exception. -/
noncomputable def StateObj.set (N : Numerics ℝ P) (S : StateObj ℝ P) (x : Assign ℝ) : Res (StateObj ℝ P) :=
  match S.assign N x with
  | (S', none) => .ok S'
  | (_, some e) => .error e

/-- Lines 126-129: record the interconnection matrix or the prewarping frequency. -/
noncomputable def recordArgs (N : Numerics ℝ P) (S : StateObj ℝ P) (method : String) (prewarp : ℝ)
    (q : Option (Arr ℝ)) : Res (StateObj ℝ P) :=
  if method = "lft" then S.set N (.discretizationMatrix (q.getD Arr.empty))
  else if method ∈ tustinNames then S.set N (.prewarpFrequency prewarp)
  else .ok S

/-- Lines 116-131: the dynamic case of `discretize`. -/
noncomputable def discretizeDyn (N : Numerics ℝ P) (E : DNum) (G : StateObj ℝ P) (dt : ℝ)
    (method : String) (prewarp : ℝ) (q : Option (Arr ℝ)) : Res (StateObj ℝ P) := do
  let r ← discretizeArgs E G.g dt method prewarp q
  let S ← StateObj.init N (some r.1) (some r.2.1) (some r.2.2.1) (some r.2.2.2) (some dt)
  let S ← S.set N (.discretizedWith method)
  let S ← recordArgs N S method prewarp q
  S.set N (.samplingPeriod (some dt))

/-- `discretize(G, dt, method, prewarp_at, q)` (`_discrete_funcs.py:38-133`) for `State` models. -/
noncomputable def discretize (N : Numerics ℝ P) (E : DNum) (G : StateObj ℝ P) (dt : ℝ)
    (method : String) (prewarp : ℝ) (q : Option (Arr ℝ)) : Res (StateObj ℝ P) :=
  if method ∉ knownMethods then .error .value
  else if G.g.dt.isSome then .error .value
  else if G.g.isgain then do
    let S ← StateObj.init N (some G.g.d) none none none (some dt)
    S.set N (.samplingPeriod (some dt))
  else discretizeDyn N E G dt method prewarp q

/-- The `'zoh'` branch of `_undiscretize` (`_discrete_funcs.py:292-304`). -/
noncomputable def undiscZoh (E : DNum) (g : StateM ℝ) (dt : ℝ) :
    Res (Arr ℝ × Arr ℝ × Arr ℝ × Arr ℝ) :=
  if E.nearZero g.a then .error .value
  else do
    let top ← Arr.hstack g.a g.b
    let bot ← Arr.hstack (Arr.zeros g.m g.n) (Arr.eye g.m)
    let M ← Arr.vstack top bot
    let eM ← balLog E M dt
    .ok ((topBlocks eM g.n).1, (topBlocks eM g.n).2, g.c, g.d)

/-- The `'foh'` branch of `_undiscretize` (`_discrete_funcs.py:306-350`). -/
noncomputable def undiscFoh (E : DNum) (g : StateM ℝ) (dt : ℝ) :
    Res (Arr ℝ × Arr ℝ × Arr ℝ × Arr ℝ) :=
  if E.nearZero g.a then .error .value
  else do
    let t1 ← Arr.hstack g.a (g.b.smul dt)
    let t1 ← Arr.hstack t1 (Arr.zeros g.n g.m)
    let t2 ← Arr.hstack (Arr.zeros g.m g.n) (Arr.eye g.m)
    let t2 ← Arr.hstack t2 (Arr.eye g.m)
    let t3 ← Arr.hstack (Arr.zeros g.m (g.n + g.m)) (Arr.eye g.m)
    let t12 ← Arr.vstack t1 t2
    let M ← Arr.vstack t12 t3
    let eM ← balLog E M dt
    let ac := (topBlocks eM g.n).1
    let right := (topBlocks eM g.n).2
    let bc0 := (right.cut4 g.n g.m).1
    let bc1 := ((right.cut4 g.n g.m).2.1).neg
    let top ← Arr.hstack g.a bc0
    let bot ← Arr.hstack (Arr.zeros g.m g.n) (Arr.eye g.m)
    let M' ← Arr.vstack top bot
    let eM' ← balLog E M' dt
    let x ← g.c.matmul bc1
    let dc ← g.d.sub x
    .ok (ac, (topBlocks eM' g.n).2, g.c, dc)

/-- The matrix `q` of the tustin branch of `_undiscretize` (`_discrete_funcs.py:352-365`). -/
noncomputable def untustinQ (dt prewarp : ℝ) : Res (Arr ℝ) :=
  if prewarp = 0 then .ok (q2 (-2 / dt) (2 / Real.sqrt dt) (2 / Real.sqrt dt) (-1))
  else if 1 / (2 * dt) ≤ prewarp then .error .value
  else .ok (q2 (-2 / sq2tan dt prewarp ^ 2) (1 / sq2tan dt prewarp) (1 / sq2tan dt prewarp) (-1))

/-- The tustin branch of `_undiscretize` (`_discrete_funcs.py:352-367`). -/
noncomputable def undiscTustin (g : StateM ℝ) (dt prewarp : ℝ) :
    Res (Arr ℝ × Arr ℝ × Arr ℝ × Arr ℝ) := do
  let q ← untustinQ dt prewarp
  simpleLft q g.a g.b g.c g.d

/-- The inverse of the state matrix, `LinAlgError` turned into `ValueError`
(`_discrete_funcs.py:380-384`). -/
noncomputable def undiscInv (a : Arr ℝ) : Res (Arr ℝ) :=
  match a.solve (Arr.eye a.r) with
  | .error .linAlg => .error .value
  | r => r

/-- The backward difference branch of `_undiscretize` (`_discrete_funcs.py:374-394`). -/
noncomputable def undiscBackward (g : StateM ℝ) (dt : ℝ) :
    Res (Arr ℝ × Arr ℝ × Arr ℝ × Arr ℝ) := do
  let iAd ← undiscInv g.a
  let x ← (Arr.eye g.n).sub iAd
  let y ← iAd.matmul g.b
  let z ← g.c.matmul iAd
  let w ← z.matmul g.b
  let dc ← g.d.sub w
  .ok (x.smul (1 / dt), y.smul (1 / Real.sqrt dt), z.smul (1 / Real.sqrt dt), dc)

/-- `_undiscretize` (`_discrete_funcs.py:282-401`). -/
noncomputable def undiscretizeArgs (E : DNum) (g : StateM ℝ) (dt : ℝ) (method : String)
    (prewarp : ℝ) (q : Option (Arr ℝ)) : Res (Arr ℝ × Arr ℝ × Arr ℝ × Arr ℝ) :=
  if method = "zoh" then undiscZoh E g dt
  else if method = "foh" then undiscFoh E g dt
  else if method ∈ tustinNames then undiscTustin g dt prewarp
  else if method ∈ forwardNames then
    simpleLft (q2 (-1 / dt) (1 / Real.sqrt dt) (1 / Real.sqrt dt) 0) g.a g.b g.c g.d
  else if method ∈ backwardNames then undiscBackward g dt
  else if method = "lft" then
    match q with
    | none => .error .value
    | some q => simpleLft q g.a g.b g.c g.d
  else .error .unboundLocal

/-- Lines 252-256: the method used. -/
def undiscMethod (G : StateObj ℝ P) (method : Option String) : String :=
  method.getD (G.discWith.getD "tustin")

/-- Lines 258-267: the interconnection matrix used. -/
def undiscQ (G : StateObj ℝ P) (method : String) (q : Option (Arr ℝ)) : Res (Option (Arr ℝ)) :=
  if method = "lft" then
    if G.discMat.isNone ∧ q.isNone then .error .value
    else .ok (if q.isNone then G.discMat else q)
  else .ok q

/-- `undiscretize(G, method, prewarp_at, q)` (`_discrete_funcs.py:220-279`) for `State` models.
Line 277 passes the method object `G.to_array` itself to `State`, which raises `ValueError`. -/
noncomputable def undiscretize (N : Numerics ℝ P) (E : DNum) (G : StateObj ℝ P)
    (method : Option String) (prewarp : ℝ) (q : Option (Arr ℝ)) : Res (StateObj ℝ P) :=
  match G.g.dt with
  | none => .error .value
  | some dt => do
    let q ← undiscQ G (undiscMethod G method) q
    if G.g.isgain then .error .value
    else do
      let r ← undiscretizeArgs E G.g dt (undiscMethod G method) prewarp q
      StateObj.init N (some r.1) (some r.2.1) (some r.2.2.1) (some r.2.2.2) none

end objects

end Harold
