import Verif.Model.Feedback

/-!
# Operator expressions over `State` models

What Python evaluates for a formula such as `feedback(G @ (H + 2 * K), 1 / F)`: operands first, then the operator method of the operands. The first exception ends the evaluation.
-/

namespace Harold

variable {K : Type} [Field K] [LinearOrder K]

/-- A formula over `State` models with `p` outputs and `m` inputs. The nodes are the operators of `State` (`_classes.py:1935-2465`) and `feedback` (`_bd_algebra.py:12`); shapes are in the type, so formulas that the shape checks reject (C17, C31) are not included, nor are the SISO broadcasts of `+` and `@`. -/
inductive SExpr (K : Type) : ℕ → ℕ → Type where
  | model {p m : ℕ} (G : StateM K) : SExpr K p m
  | neg {p m : ℕ} (e : SExpr K p m) : SExpr K p m
  | add {p m : ℕ} (e f : SExpr K p m) : SExpr K p m
  | sub {p m : ℕ} (e f : SExpr K p m) : SExpr K p m
  | mul {p q m : ℕ} (e : SExpr K p q) (f : SExpr K q m) : SExpr K p m
  | scale {p m : ℕ} (k : K) (e : SExpr K p m) : SExpr K p m
  | shift {p m : ℕ} (e : SExpr K p m) (k : K) : SExpr K p m
  | inv {m : ℕ} (e : SExpr K m m) : SExpr K m m
  | loop {p m : ℕ} (negative : Bool) (e : SExpr K p m) (f : SExpr K m p) : SExpr K p m

/-- The evaluation of a formula: `-e` (`_classes.py:1935-1939`), `e + f` (`1946-1995`), `e - f` (`2107-2108`), `e @ f` (`2131-2208`), `k * e` (`2120-2124`), `e + k` (`2038-2098`), `1 / e` (`2435-2465`), `feedback(e, f, negative)` (`_bd_algebra.py:12-129`). `fuel` is the recursion depth that is left for `+`, `-` and `@`, which call themselves; it is never below 3. -/
noncomputable def SExpr.eval (fuel : ℕ) : {p m : ℕ} → SExpr K p m → Res (StateM K)
  | _, _, .model G => .ok G
  | _, _, .neg e => do
    let G ← e.eval fuel
    G.neg
  | _, _, .add e f => do
    let G ← e.eval fuel
    let H ← f.eval fuel
    G.add (fuel + 3) H
  | _, _, .sub e f => do
    let G ← e.eval fuel
    let H ← f.eval fuel
    G.sub (fuel + 3) H
  | _, _, .mul e f => do
    let G ← e.eval fuel
    let H ← f.eval fuel
    G.matmul (fuel + 3) H
  | _, _, .scale k e => do
    let G ← e.eval fuel
    StateM.rmulGain (.scalar k) G
  | _, _, .shift e k => do
    let G ← e.eval fuel
    G.addGain (fuel + 3) (.scalar k)
  | _, _, .inv e => do
    let G ← e.eval fuel
    StateM.rtruedivGain (.scalar 1) G
  | _, _, .loop negative e f => do
    let G ← e.eval fuel
    let H ← f.eval fuel
    feedback (.state G) (.state H) negative

end Harold
