import Verif.Model.Expr
import Mathlib.Algebra.Field.Defs

/-!
# Specification: the laws of block diagram algebra

The rewriting rules for formulas over models that textbooks give for block diagrams.
-/

namespace Harold.Spec

/-- One formula is turned into the other by rewriting with the laws of block diagrams: sums commute and are associative, series connections are associative and distribute over sums on both sides, signs and scalar factors move through them, inverses cancel and reverse series connections, and feedback loops can be nested, unrolled, undone, inverted and can move a block from the forward path around the loop. The laws may be used in both directions and inside of any formula. -/
inductive Law {K : Type} [Field K] : {p m : ℕ} → SExpr K p m → SExpr K p m → Prop
  -- the laws may be used in both directions, and inside of formulas
  | refl {p m : ℕ} (e : SExpr K p m) : Law e e
  | symm {p m : ℕ} {e f : SExpr K p m} : Law e f → Law f e
  | neg {p m : ℕ} {e f : SExpr K p m} : Law e f → Law (.neg e) (.neg f)
  | add {p m : ℕ} {e e' f f' : SExpr K p m} : Law e e' → Law f f' → Law (.add e f) (.add e' f')
  | sub {p m : ℕ} {e e' f f' : SExpr K p m} : Law e e' → Law f f' → Law (.sub e f) (.sub e' f')
  | mul {p q m : ℕ} {e e' : SExpr K p q} {f f' : SExpr K q m} : Law e e' → Law f f' → Law (.mul e f) (.mul e' f')
  | scale {p m : ℕ} (k : K) {e f : SExpr K p m} : Law e f → Law (.scale k e) (.scale k f)
  | shift {p m : ℕ} (k : K) {e f : SExpr K p m} : Law e f → Law (.shift e k) (.shift f k)
  | inv {m : ℕ} {e f : SExpr K m m} : Law e f → Law (.inv e) (.inv f)
  | loop {p m : ℕ} (negative : Bool) {e e' : SExpr K p m} {f f' : SExpr K m p} : Law e e' → Law f f' → Law (.loop negative e f) (.loop negative e' f')
  -- sums and signs
  | add_comm {p m : ℕ} (e f : SExpr K p m) : Law (.add e f) (.add f e)
  | add_assoc {p m : ℕ} (e f g : SExpr K p m) : Law (.add (.add e f) g) (.add e (.add f g))
  | sub_eq {p m : ℕ} (e f : SExpr K p m) : Law (.sub e f) (.add e (.neg f))
  | neg_neg {p m : ℕ} (e : SExpr K p m) : Law (.neg (.neg e)) e
  | neg_add {p m : ℕ} (e f : SExpr K p m) : Law (.neg (.add e f)) (.add (.neg e) (.neg f))
  | add_sub {p m : ℕ} (e f : SExpr K p m) : Law (.sub (.add e f) f) e
  -- scalars
  | neg_scale {p m : ℕ} (e : SExpr K p m) : Law (.neg e) (.scale (-1) e)
  | one_scale {p m : ℕ} (e : SExpr K p m) : Law (.scale 1 e) e
  | scale_scale {p m : ℕ} (k l : K) (e : SExpr K p m) : Law (.scale k (.scale l e)) (.scale (k * l) e)
  | scale_add {p m : ℕ} (k : K) (e f : SExpr K p m) : Law (.scale k (.add e f)) (.add (.scale k e) (.scale k f))
  | add_scale {p m : ℕ} (k l : K) (e : SExpr K p m) : Law (.scale (k + l) e) (.add (.scale k e) (.scale l e))
  | shift_shift {p m : ℕ} (k l : K) (e : SExpr K p m) : Law (.shift (.shift e k) l) (.shift e (k + l))
  | shift_add {p m : ℕ} (k : K) (e f : SExpr K p m) : Law (.add (.shift e k) f) (.shift (.add e f) k)
  -- series connections
  | mul_assoc {p q r m : ℕ} (e : SExpr K p q) (f : SExpr K q r) (g : SExpr K r m) : Law (.mul (.mul e f) g) (.mul e (.mul f g))
  | mul_add {p q m : ℕ} (e : SExpr K p q) (f g : SExpr K q m) : Law (.mul e (.add f g)) (.add (.mul e f) (.mul e g))
  | add_mul {p q m : ℕ} (e f : SExpr K p q) (g : SExpr K q m) : Law (.mul (.add e f) g) (.add (.mul e g) (.mul f g))
  | scale_mul {p q m : ℕ} (k : K) (e : SExpr K p q) (f : SExpr K q m) : Law (.mul (.scale k e) f) (.scale k (.mul e f))
  | mul_scale {p q m : ℕ} (k : K) (e : SExpr K p q) (f : SExpr K q m) : Law (.mul e (.scale k f)) (.scale k (.mul e f))
  | mul_comm (e f : SExpr K 1 1) : Law (.mul e f) (.mul f e)
  -- inverses
  | inv_inv {m : ℕ} (e : SExpr K m m) : Law (.inv (.inv e)) e
  | inv_mul {m : ℕ} (e f : SExpr K m m) : Law (.inv (.mul e f)) (.mul (.inv f) (.inv e))
  | inv_cancel {m q : ℕ} (e : SExpr K m m) (f : SExpr K m q) : Law (.mul (.inv e) (.mul e f)) f
  | cancel_inv {m q : ℕ} (e : SExpr K m m) (f : SExpr K q m) : Law (.mul (.mul f e) (.inv e)) f
  -- feedback loops
  | loop_sign {p m : ℕ} (negative : Bool) (e : SExpr K p m) (f : SExpr K m p) : Law (.loop negative e f) (.loop (!negative) e (.neg f))
  | loop_neg {p m : ℕ} (negative : Bool) (e : SExpr K p m) (f : SExpr K m p) : Law (.loop negative (.neg e) f) (.neg (.loop (!negative) e f))
  | loop_scale {p m : ℕ} (negative : Bool) (k : K) (e : SExpr K p m) (f : SExpr K m p) : Law (.loop negative (.scale k e) f) (.scale k (.loop negative e (.scale k f)))
  | loop_loop {p m : ℕ} (negative : Bool) (e : SExpr K p m) (f g : SExpr K m p) : Law (.loop negative (.loop negative e f) g) (.loop negative e (.add f g))
  | loop_undo {p m : ℕ} (negative : Bool) (e : SExpr K p m) (f : SExpr K m p) : Law (.loop (!negative) (.loop negative e f) f) e
  | loop_pull {p q m : ℕ} (negative : Bool) (e : SExpr K p q) (f : SExpr K q m) (g : SExpr K m p) : Law (.loop negative (.mul e f) g) (.mul e (.loop negative f (.mul g e)))
  | loop_push {p q m : ℕ} (negative : Bool) (e : SExpr K p q) (f : SExpr K q m) (g : SExpr K m p) : Law (.loop negative (.mul e f) g) (.mul (.loop negative e (.mul f g)) f)
  | loop_around {p m : ℕ} (negative : Bool) (e : SExpr K p m) (f : SExpr K m p) : Law (.mul (.loop negative e f) f) (.mul e (.loop negative f e))
  | loop_unroll {p m : ℕ} (e : SExpr K p m) (f : SExpr K m p) : Law (.loop false e f) (.add e (.mul e (.mul f (.loop false e f))))
  | loop_unroll_neg {p m : ℕ} (e : SExpr K p m) (f : SExpr K m p) : Law (.loop true e f) (.sub e (.mul e (.mul f (.loop true e f))))
  | inv_loop {m : ℕ} (e f : SExpr K m m) : Law (.inv (.loop false e f)) (.sub (.inv e) f)
  | inv_loop_neg {m : ℕ} (e f : SExpr K m m) : Law (.inv (.loop true e f)) (.add (.inv e) f)
  | loop_inv {m : ℕ} (e f : SExpr K m m) : Law (.loop false (.inv e) f) (.inv (.sub e f))
  | loop_inv_neg {m : ℕ} (e f : SExpr K m m) : Law (.loop true (.inv e) f) (.inv (.add e f))

end Harold.Spec
