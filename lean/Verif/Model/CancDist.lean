import Verif.Base.Arr
import Verif.Lemmas.VNorm

/-!
# `cancellation_distance`

Models `/repo/harold/_system_funcs.py:225-294`. `qr(rand)`, `eig`, `cond` and `svdvals` are parameters.
-/

namespace Harold

open Matrix

/-- The routines called by `cancellation_distance`. -/
structure CancNum where
  /-- `qr(2*rand(n, n-m) - 1, mode='economic')[0]` (line 277) -/
  orth : (n k : ℕ) → Matrix (Fin n) (Fin k) ℝ
  /-- `eig(M)`: eigenvalues and the matrix of eigenvectors -/
  eig : (k : ℕ) → Matrix (Fin k) (Fin k) ℝ → (Fin k → ℂ) × Matrix (Fin k) (Fin k) ℂ
  /-- `cond(V)` -/
  cond : (k : ℕ) → Matrix (Fin k) (Fin k) ℂ → ℝ
  /-- `svdvals(M)[-1]` -/
  svdLast : (r c : ℕ) → Matrix (Fin r) (Fin c) ℂ → ℝ

/-- A float: a number, `inf` or `nan` (in the order in which `np.argsort` sorts them; all numbers
compared here are nonnegative). -/
abbrev NFloat := WithTop (WithTop ℝ)

open Classical in
/-- `x / y` of nonnegative numbers. -/
noncomputable def fdiv (x y : ℝ) : NFloat :=
  if y = 0 then (if x = 0 then ⊤ else ((⊤ : WithTop ℝ) : NFloat)) else ((x / y : ℝ) : WithTop ℝ)

/-- The complex matrix with the entries of a real one. -/
noncomputable def toCM {r c : ℕ} (M : Matrix (Fin r) (Fin c) ℝ) : Matrix (Fin r) (Fin c) ℂ :=
  M.map (algebraMap ℝ ℂ)

variable {N M : ℕ}

/-- `A = np.c_[F, G].T` (line 273). -/
def cancA (F : Matrix (Fin N) (Fin N) ℝ) (G : Matrix (Fin N) (Fin M) ℝ) :
    Matrix (Fin (N + M)) (Fin N) ℝ := (hcat F G)ᵀ

/-- `B = e_i(n, np.s_[:m])` (line 275): the first `m` columns of the identity. -/
def cancB (N M : ℕ) : Matrix (Fin (N + M)) (Fin N) ℝ := vcat 1 0

/-- `D = e_i(n, np.s_[m:])` (line 276): the other columns. -/
def cancD (N M : ℕ) : Matrix (Fin (N + M)) (Fin M) ℝ := vcat 0 1

/-- `X[:, x]`, the first `m` entries of an eigenvector (lines 280 and 285). -/
def topPart (v : Fin (N + M) → ℂ) : Fin N → ℂ := fun i => v (Fin.castAdd M i)

/-- `Y[:, x]`, the other entries of an eigenvector (lines 281 and 285). -/
def botPart (v : Fin (N + M) → ℂ) : Fin M → ℂ := fun i => v (Fin.natAdd N i)

/-- `norm((C-evals[x]*D).dot(Y[:, x])) / norm(X[:, x])` (line 285). -/
noncomputable def upp0 (C : Matrix (Fin (N + M)) (Fin M) ℝ) (e : ℂ) (v : Fin (N + M) → ℂ) : NFloat :=
  fdiv (vnorm ((toCM C - e • toCM (cancD N M)) *ᵥ botPart v)) (vnorm (topPart v))

open Classical in
/-- `np.argsort(u)[0]` (line 287): the first position of the smallest entry. numpy leaves the order of
equal entries open in general, it is the first one for the short arrays sorted by insertion. -/
noncomputable def argFirst {k : ℕ} (u : Fin k → NFloat) : Res (Fin k) :=
  match (List.finRange k).find? fun i => decide (∀ j, u i ≤ u j) with
  | some i => .ok i
  | none => .error .index

/-- Lines 273-294. -/
noncomputable def cancCore (E : CancNum) (F : Matrix (Fin N) (Fin N) ℝ) (G : Matrix (Fin N) (Fin M) ℝ) :
    Res (ℝ × NFloat × ℝ × ℂ × ℝ) :=
  let A := cancA F G
  let C := E.orth (N + M) M
  let ev := E.eig (N + M) (hcat A C)
  let K := E.cond (N + M) ev.2
  let u := fun x => upp0 C (ev.1 x) fun i => ev.2 i x
  match argFirst u with
  | .error e => .error e
  | .ok f =>
    let upper2 := E.svdLast (N + M) N (toCM A - ev.1 f • toCM (cancB N M))
    .ok (upper2, u f, upper2 / (K + 1), ev.1 f, upper2 * K)

/-- `cancellation_distance(F, G)`: `(upper2, upper1, lower0, e_f, radius)`. -/
noncomputable def cancellationDistance (E : CancNum) (F G : Arr ℝ) : Res (ℝ × NFloat × ℝ × ℂ × ℝ) :=
  if h : F.c = F.r then
    if h' : F.r = G.r then
      cancCore E (F.m.submatrix id (Fin.cast h.symm)) (G.m.submatrix (Fin.cast h') id)
    else .error .value
  else .error .value

end Harold
