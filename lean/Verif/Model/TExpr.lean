import Verif.Model.TransferOps

/-!
# Operator expressions over `Transfer` models

What Python evaluates for a formula such as `(G @ H + 2 * K) * F`: operands first, then the operator method of the operands. The first exception ends the
evaluation.
-/

namespace Harold

variable {K : Type} [Field K] [LinearOrder K]

/-- A formula over `Transfer` models with `p` outputs and `m` inputs. The nodes are the operators of `Transfer` (`_classes.py:394-961`) that stay within the
class; shapes are in the type, so formulas that the shape checks reject are not included. `left` and `right` are products `*` with a SISO factor on that side.
Quotients are in `Model/TransferInv.lean`. -/
inductive TExpr (K : Type) : ℕ → ℕ → Type where
  | model {p m : ℕ} (G : TransferM K) : TExpr K p m
  | neg {p m : ℕ} (e : TExpr K p m) : TExpr K p m
  | add {p m : ℕ} (e f : TExpr K p m) : TExpr K p m
  | sub {p m : ℕ} (e f : TExpr K p m) : TExpr K p m
  | times {p m : ℕ} (e f : TExpr K p m) : TExpr K p m
  | left {p m : ℕ} (e : TExpr K 1 1) (f : TExpr K p m) : TExpr K p m
  | right {p m : ℕ} (e : TExpr K p m) (f : TExpr K 1 1) : TExpr K p m
  | mul {p q m : ℕ} (e : TExpr K p q) (f : TExpr K q m) : TExpr K p m
  | scale {p m : ℕ} (k : K) (e : TExpr K p m) : TExpr K p m
  | shift {p m : ℕ} (e : TExpr K p m) (k : K) : TExpr K p m

/-- The evaluation of a formula: `-e` (`_classes.py:394-404`), `e + f` (`446-532`), `e - f` (`605-606`), `e * f` (`699-773`), `e @ f` (`837-934`), `k * e`
(`613-636`, `786-790`), `e + k` (`535-590`). -/
noncomputable def TExpr.eval (E : TNum K) : {p m : ℕ} → TExpr K p m → Res (TransferM K)
  | _, _, .model G => .ok G
  | _, _, .neg e => do
    let G ← e.eval E
    G.neg E
  | _, _, .add e f => do
    let G ← e.eval E
    let H ← f.eval E
    G.add E H
  | _, _, .sub e f => do
    let G ← e.eval E
    let H ← f.eval E
    G.sub E H
  | _, _, .times e f => do
    let G ← e.eval E
    let H ← f.eval E
    G.mul E H
  | _, _, .left e f => do
    let G ← e.eval E
    let H ← f.eval E
    G.mul E H
  | _, _, .right e f => do
    let G ← e.eval E
    let H ← f.eval E
    G.mul E H
  | _, _, .mul e f => do
    let G ← e.eval E
    let H ← f.eval E
    G.matmul E H
  | _, _, .scale k e => do
    let G ← e.eval E
    G.mulGain E (.scalar k)
  | _, _, .shift e k => do
    let G ← e.eval E
    G.addGain E (.scalar k)

end Harold
