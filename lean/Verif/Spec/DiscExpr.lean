import Verif.Model.Expr
import Verif.Model.Discrete

/-!
# Specification: a formula with its models discretized
-/

namespace Harold.Spec

/-- `S` is what `discretize(G, dt, method)` returns for the model `G` (the other attributes of the object and the external routines are arbitrary). -/
def DiscOf (method : String) (dt : ℝ) (G S : StateM ℝ) : Prop :=
  ∃ (P : Type) (N : Numerics ℝ P) (E : DNum) (o o' : StateObj ℝ P) (q : Option (Arr ℝ)), o.g = G ∧ discretize N E o dt method 0 q = .ok o' ∧ o'.g = S

/-- The second formula is the first one with each model `G` replaced by a model `S` such that `R G S`. -/
inductive Replaced (R : StateM ℝ → StateM ℝ → Prop) : {p m : ℕ} → SExpr ℝ p m → SExpr ℝ p m → Prop where
  | model {p m : ℕ} {G S : StateM ℝ} (h : R G S) : Replaced R (.model (p := p) (m := m) G) (.model S)
  | neg {p m : ℕ} {e e' : SExpr ℝ p m} (h : Replaced R e e') : Replaced R (.neg e) (.neg e')
  | add {p m : ℕ} {e e' f f' : SExpr ℝ p m} (h : Replaced R e e') (h' : Replaced R f f') : Replaced R (.add e f) (.add e' f')
  | sub {p m : ℕ} {e e' f f' : SExpr ℝ p m} (h : Replaced R e e') (h' : Replaced R f f') : Replaced R (.sub e f) (.sub e' f')
  | mul {p q m : ℕ} {e e' : SExpr ℝ p q} {f f' : SExpr ℝ q m} (h : Replaced R e e') (h' : Replaced R f f') : Replaced R (.mul e f) (.mul e' f')
  | scale {p m : ℕ} (k : ℝ) {e e' : SExpr ℝ p m} (h : Replaced R e e') : Replaced R (.scale k e) (.scale k e')
  | shift {p m : ℕ} (k : ℝ) {e e' : SExpr ℝ p m} (h : Replaced R e e') : Replaced R (.shift e k) (.shift e' k)
  | inv {m : ℕ} {e e' : SExpr ℝ m m} (h : Replaced R e e') : Replaced R (.inv e) (.inv e')
  | loop {p m : ℕ} (negative : Bool) {e e' : SExpr ℝ p m} {f f' : SExpr ℝ m p} (h : Replaced R e e') (h' : Replaced R f f') :
      Replaced R (.loop negative e f) (.loop negative e' f')

end Harold.Spec
