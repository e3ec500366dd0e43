import Verif.Model.State

/-!
# Specification: the transfer matrix of a state space model

Independent of the model's arithmetic: what it means that a model has `p` outputs, `m` inputs and
the value `M` of its transfer matrix at the complex frequency `s`.
-/

namespace Harold.Spec

open Matrix

/-- `s` is not an eigenvalue of `A` and `M = C (sI - A)⁻¹ B + D`. -/
def IsTF {L n m p : Type} [Field L] [Fintype n] [DecidableEq n] [Fintype m] [Fintype p]
    (A : Matrix n n L) (B : Matrix n m L) (C : Matrix p n L) (D : Matrix p m L)
    (s : L) (M : Matrix p m L) : Prop :=
  (s • (1 : Matrix n n L) - A).det ≠ 0 ∧ M = C * (s • (1 : Matrix n n L) - A)⁻¹ * B + D

/-- The `State` model `G` over `K` has `p` outputs and `m` inputs, `s` (in an extension field `L`
of `K`, think of `ℝ ⊆ ℂ`) is not an eigenvalue of its state matrix, and its transfer matrix takes
the value `M` at `s`. A static gain takes its gain at every `s`. -/
def HasTF {K L : Type} [Field K] [Field L] [Algebra K L] (G : StateM K) (p m : ℕ) (s : L)
    (M : Matrix (Fin p) (Fin m) L) : Prop :=
  (G.isgain = true ∧ ∃ D : Matrix (Fin p) (Fin m) K, G.d = Arr.of D ∧ M = D.map (algebraMap K L))
  ∨ (G.isgain = false ∧ ∃ (n : ℕ) (A : Matrix (Fin n) (Fin n) K) (B : Matrix (Fin n) (Fin m) K)
      (C : Matrix (Fin p) (Fin n) K) (D : Matrix (Fin p) (Fin m) K),
      G.a = Arr.of A ∧ G.b = Arr.of B ∧ G.c = Arr.of C ∧ G.d = Arr.of D ∧
      IsTF (A.map (algebraMap K L)) (B.map (algebraMap K L)) (C.map (algebraMap K L))
        (D.map (algebraMap K L)) s M)

/-- `G` is a consistent model with `p` outputs and `m` inputs: a `p × m` static gain, or matrices
`A : n × n`, `B : n × m`, `C : p × n`, `D : p × m` for some number of states `n`. -/
def Consistent {K : Type} (G : StateM K) (p m : ℕ) : Prop :=
  (G.d.r = p ∧ G.d.c = m) ∧
  (G.isgain = false → G.a.r = G.a.c ∧ G.b.r = G.a.r ∧ G.b.c = m ∧ G.c.r = p ∧ G.c.c = G.a.r)

/-- The sampling period is `None` or positive (what the `SamplingPeriod` setter guarantees). -/
def DtOk {K : Type} [Zero K] [LT K] (dt : Option K) : Prop := ∀ t, dt = some t → 0 < t

end Harold.Spec
