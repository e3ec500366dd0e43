import Verif.Spec.TF

/-!
# Specification: characteristic polynomial of a model at a point
-/

namespace Harold.Spec

open Matrix

/-- The characteristic polynomial `det(s I - A)` of the `State` model takes the value `v` at the point `s` of an extension field; a static gain has no states and the polynomial `1`. -/
def CharAt {K L : Type} [Field K] [Field L] [Algebra K L] (G : StateM K) (s v : L) : Prop :=
  (G.isgain = true ∧ v = 1) ∨
    (G.isgain = false ∧ ∃ (n : ℕ) (A : Matrix (Fin n) (Fin n) K), G.a = Arr.of A ∧ v = (s • (1 : Matrix (Fin n) (Fin n) L) - A.map (algebraMap K L)).det)

end Harold.Spec
