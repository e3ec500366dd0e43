import Verif.Props.StateAlgebra

/-!
# C18: `k * G` for scalars and arrays, and vectors with one entry
-/

namespace Harold

open Matrix Spec

variable {K L : Type} [Field K] [LinearOrder K] [Field L] [Algebra K L] {G : StateM K} {p m q : ℕ} {s : L}

/-- **C18**, `k * G` and `X * G`: multiplication from the left as for `@`. -/
theorem C18_star_left {M : Matrix (Fin q) (Fin m) L} (h : HasTF G q m s M) (hdt : DtOk G.dt) (x : K) (X : Matrix (Fin p) (Fin q) K) :
    (∃ R, StateM.rmulGain (.scalar x) G = .ok R ∧ HasTF R q m s (algebraMap K L x • M) ∧ R.dt = G.dt) ∧
      ∃ R, StateM.rmulGain (.arr (Arr.of X)) G = .ok R ∧ HasTF R p m s (X.map (algebraMap K L) * M) ∧ R.dt = G.dt :=
  ⟨rmatmul_scalar_hasTF h hdt x, rmatmul_arr_hasTF h hdt X⟩

/-- **C18**, `G @ [k]` for a 1-D array with one entry and `G` with one input and dynamics: the transfer matrix is multiplied by `k`. -/
theorem C18_vector_one {M : Matrix (Fin p) (Fin 1) L} (h : HasTF G p 1 s M) (hg : G.isgain = false) (hdt : DtOk G.dt) (x : K) :
    ∃ R, G.matmulGain (.vec [x]) = .ok R ∧ HasTF R p 1 s (algebraMap K L x • M) ∧ R.dt = G.dt := by
  have hm : G.m = 1 := by
    obtain ⟨h1, -⟩ | ⟨-, n, A, B, C, D, -, -, -, e, -⟩ := h
    · rw [hg] at h1; cases h1
    · rw [StateM.m, e]
  obtain ⟨R, h1, h2⟩ := matmul_scalar_hasTF h hg hdt x
  refine ⟨R, ?_, h2⟩
  rw [← h1]
  simp [StateM.matmulGain, StateM.matmulShapeBad, hm, Gain.regular]

example : (∃ R, StateM.rmulGain (.scalar 3) lag21 = .ok R ∧ HasTF R 2 1 (1 : ℚ) ((algebraMap ℚ ℚ 3) • !![1 / 2; 2]) ∧ R.dt = lag21.dt) ∧
    ∃ R, StateM.matmulGain lag21 (.vec [3]) = .ok R ∧ HasTF R 2 1 (1 : ℚ) ((algebraMap ℚ ℚ 3) • !![1 / 2; 2]) ∧ R.dt = lag21.dt :=
  ⟨(C18_star_left (p := 1) lag21_hasTF dtOk_none 3 !![1, 1]).1, C18_vector_one lag21_hasTF rfl dtOk_none 3⟩

end Harold
