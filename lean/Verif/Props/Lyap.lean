import Verif.Lemmas.SchurExists
import Verif.Lemmas.LyapFinal
import Verif.Lemmas.LyapUniq
import Mathlib.Tactic.NormNum
import Mathlib.Tactic.NoncommRing
import Mathlib.Data.Rat.Cast.Order
import Mathlib.LinearAlgebra.Matrix.Notation
import Mathlib.LinearAlgebra.Matrix.NonsingularInverse

/-!
# C53, C54: `lyapunov_eq_solver`

In all the theorems `some X` as a result means that an array of finite numbers is returned; `X0` is the arbitrary initial contents of the array
allocated with `np.empty_like`, and the conversion `id` says that `Y` has a floating point data type.
The suffix `_partial` is for this last restriction, see `C53_integer_violated` and `C54_integer_violated`.
-/

namespace Harold

open Matrix Spec

variable {K : Type} [Field K] [LinearOrder K] [IsStrictOrderedRing K] {n : ℕ}

theorem lyap_ok (A Y : Matrix (Fin n) (Fin n) K) : lyapCheck (Arr.of A) (Arr.of Y) none = .ok () := by
  simp [lyapCheck, Arr.shape]

theorem lyap_ok_E (A E Y : Matrix (Fin n) (Fin n) K) : lyapCheck (Arr.of A) (Arr.of Y) (some (Arr.of E)) = .ok () := by
  simp [lyapCheck, Arr.shape]

theorem congruence_of (S Y : Matrix (Fin n) (Fin n) K) : congruence (Arr.of S) (Arr.of Y) = .ok (Arr.of (Sᵀ * Y * S)) := by
  unfold congruence
  rw [Arr.T_of, Arr.matmul_of]
  simp only [bind, Except.bind]
  rw [Arr.matmul_of]

theorem finishRes_of (S : Matrix (Fin n) (Fin n) K) (s : Wk K × Wk K) :
    finishRes (Arr.of S) n (some s) = .ok (some (Arr.of (S * s.1.mat n * Sᵀ))) := by
  unfold finishRes sandwich
  rw [Arr.T_of]
  simp only
  change (do let x ← (do let x ← (Arr.of S).matmul (Arr.of (s.1.mat n)); x.matmul (Arr.of Sᵀ)); Except.ok (some x)) = _
  rw [Arr.matmul_of]
  simp only [bind, Except.bind]
  rw [Arr.matmul_of]

theorem cont_dispatch {N : LyapNum K} {cast : K → K} {X0 : Wk K} {A Y : Matrix (Fin n) (Fin n) K} {form : String} (hf : form ∈ ["c", "continuous"]) :
    lyapunovEqSolver N cast X0 (Arr.of A) (Arr.of Y) none form = solveContinuous N cast X0 (Arr.of A) (Arr.of Y) := by
  unfold lyapunovEqSolver
  rw [lyap_ok]
  simp only [List.mem_cons, List.not_mem_nil, or_false] at hf
  rcases hf with rfl | rfl <;> simp [bind, Except.bind]

theorem cont_solve {N : LyapNum K} {cast : K → K} {X0 : Wk K} {A Y : Matrix (Fin n) (Fin n) K} (h3n : 3 ≤ n) {As S : Matrix (Fin n) (Fin n) K}
    (h1 : N.schur (Arr.of A) = (Arr.of As, Arr.of S)) :
    solveContinuous N cast X0 (Arr.of A) (Arr.of Y) =
      finishRes (Arr.of S) n (blockLoop (contRow cast n (Arr.of As).wk) (blocksOf 0 As) (X0, (Arr.of (Sᵀ * Y * S)).wk)) := by
  unfold solveContinuous
  rw [if_neg (by simpa using h3n), h1]
  dsimp only
  rw [congruence_of]
  rfl

theorem cont_solve_small {N : LyapNum K} {cast : K → K} {X0 : Wk K} {A Y : Matrix (Fin n) (Fin n) K} (h3n : n < 3) (h0 : 0 < n) :
    solveContinuous N cast X0 (Arr.of A) (Arr.of Y) = .ok ((miniCs n (Arr.of A).wk (Arr.of Y).wk).map fun x => Arr.of (x.mat n)) := by
  unfold solveContinuous
  rw [if_pos (by simpa using h3n)]
  unfold smallRes
  rw [if_neg (by simpa using h0.ne')]
  rfl

/-- **C53**, continuous time: whatever is returned for a symmetric `Y` is a symmetric solution of `AᵀX + XA + Y = 0`. Missing: integer arrays, whose entries are truncated (`C53_integer_violated`). -/
theorem C53_continuous_solution_partial {N : LyapNum K} {X0 : Wk K} {A Y : Matrix (Fin n) (Fin n) K} (hN : SchurOk N A) (h0 : 0 < n) (hY : Yᵀ = Y) {form : String}
    (hf : form ∈ ["c", "continuous"]) {R : Arr K}
    (h : lyapunovEqSolver N id X0 (Arr.of A) (Arr.of Y) none form = .ok (some R)) :
    ∃ X : Matrix (Fin n) (Fin n) K, R = Arr.of X ∧ Aᵀ * X + X * A + Y = 0 ∧ Xᵀ = X := by
  rw [cont_dispatch hf] at h
  by_cases h3n : n < 3
  · rw [cont_solve_small h3n h0] at h
    cases hm : miniCs n (Arr.of A).wk (Arr.of Y).wk with
    | none => rw [hm] at h; cases h
    | some x =>
      rw [hm] at h
      cases h
      exact ⟨_, rfl, cont_small (by omega) hY hm⟩
  · obtain ⟨As, S, h1, h2, h4, h6⟩ := hN
    rw [cont_solve (by omega) h1] at h
    generalize hl : blockLoop _ _ _ = o at h
    cases o with
    | none => cases h
    | some s =>
    rw [finishRes_of] at h
    cases h
    have hYs : (Sᵀ * Y * S)ᵀ = Sᵀ * Y * S := by
      simp only [transpose_mul, transpose_transpose, hY, Matrix.mul_assoc]
    have hx := cont_loop le_rfl h6 h0 hYs hl
    have o1 : S * Sᵀ = 1 := mul_eq_one_comm.mp h2
    have o2 := h2
    have e : Aᵀ * (S * s.1.mat n * Sᵀ) + S * s.1.mat n * Sᵀ * A + Y = S * (Asᵀ * s.1.mat n + s.1.mat n * As + Sᵀ * Y * S) * Sᵀ := by
      rw [h4]
      simp only [transpose_mul, transpose_transpose, Matrix.mul_add, Matrix.add_mul, Matrix.mul_assoc, o2, o1, Matrix.mul_one,
        ← Matrix.mul_assoc Sᵀ S, ← Matrix.mul_assoc S Sᵀ, Matrix.one_mul]
    refine ⟨_, rfl, ?_, ?_⟩
    · rw [e, hx.1, Matrix.mul_zero, Matrix.zero_mul]
    · simp only [transpose_mul, transpose_transpose, hx.2, Matrix.mul_assoc]

/-- **C53**, continuous time: when the equation has no two solutions, the solver returns one. Missing: integer arrays, whose entries are truncated (`C53_integer_violated`). -/
theorem C53_continuous_succeeds_partial {N : LyapNum K} {X0 : Wk K} {A Y : Matrix (Fin n) (Fin n) K} (hN : SchurOk N A) (h0 : 0 < n) (hY : Yᵀ = Y) {form : String}
    (hf : form ∈ ["c", "continuous"]) (hu : ∀ X : Matrix (Fin n) (Fin n) K, Aᵀ * X + X * A = 0 → X = 0) :
    ∃ X : Matrix (Fin n) (Fin n) K, lyapunovEqSolver N id X0 (Arr.of A) (Arr.of Y) none form = .ok (some (Arr.of X)) ∧
      Aᵀ * X + X * A + Y = 0 ∧ Xᵀ = X := by
  have key : ∃ R, lyapunovEqSolver N id X0 (Arr.of A) (Arr.of Y) none form = .ok (some R) := by
    rw [cont_dispatch hf]
    by_cases h3n : n < 3
    · rw [cont_solve_small h3n h0]
      cases hm : miniCs n (Arr.of A).wk (Arr.of Y).wk with
      | none => exact absurd hm (cont_small_ne_none (by omega) hu)
      | some x => exact ⟨_, rfl⟩
    obtain ⟨As, S, h1, h2, h4, h6⟩ := hN
    have o1 : S * Sᵀ = 1 := mul_eq_one_comm.mp h2
    have o2 := h2
    have hu' : ∀ X : Matrix (Fin n) (Fin n) K, Asᵀ * X + X * As = 0 → X = 0 := by
      intro X hX
      have e : Aᵀ * (S * X * Sᵀ) + S * X * Sᵀ * A = S * (Asᵀ * X + X * As) * Sᵀ := by
        rw [h4]
        simp only [transpose_mul, transpose_transpose, Matrix.mul_add, Matrix.add_mul, Matrix.mul_assoc, o2, o1, Matrix.mul_one,
          ← Matrix.mul_assoc Sᵀ S, ← Matrix.mul_assoc S Sᵀ, Matrix.one_mul]
      rw [hX, Matrix.mul_zero, Matrix.zero_mul] at e
      have e2 : Sᵀ * (S * X * Sᵀ) * S = X := by
        simp only [Matrix.mul_assoc, h2, Matrix.mul_one, ← Matrix.mul_assoc Sᵀ S, Matrix.one_mul]
      rw [← e2, hu _ e, Matrix.mul_zero, Matrix.zero_mul]
    rw [cont_solve (by omega) h1]
    generalize hl : blockLoop _ _ _ = o
    cases o with
    | none => exact absurd hl (cont_loop_ne_none le_rfl h6 h0 hu')
    | some s => exact ⟨_, finishRes_of _ s⟩
  obtain ⟨R, hR⟩ := key
  obtain ⟨X, rfl, hX⟩ := C53_continuous_solution_partial hN h0 hY hf hR
  exact ⟨X, hR, hX⟩

theorem disc_dispatch {N : LyapNum K} {cast : K → K} {X0 : Wk K} {A Y : Matrix (Fin n) (Fin n) K} {form : String} (hf : form ∈ ["d", "discrete"]) :
    lyapunovEqSolver N cast X0 (Arr.of A) (Arr.of Y) none form = solveDiscrete N cast X0 (Arr.of A) (Arr.of Y) := by
  unfold lyapunovEqSolver
  rw [lyap_ok]
  simp only [List.mem_cons, List.not_mem_nil, or_false] at hf
  rcases hf with rfl | rfl <;> simp [bind, Except.bind]

theorem disc_solve {N : LyapNum K} {cast : K → K} {X0 : Wk K} {A Y : Matrix (Fin n) (Fin n) K} (h3n : 3 ≤ n) {As S : Matrix (Fin n) (Fin n) K}
    (h1 : N.schur (Arr.of A) = (Arr.of As, Arr.of S)) :
    solveDiscrete N cast X0 (Arr.of A) (Arr.of Y) =
      finishRes (Arr.of S) n (blockLoop (discRow cast n (Arr.of As).wk) (blocksOf 0 As) (X0, (Arr.of (Sᵀ * Y * S)).wk)) := by
  unfold solveDiscrete
  rw [if_neg (by simpa using h3n), h1]
  dsimp only
  rw [congruence_of]
  rfl

theorem disc_solve_small {N : LyapNum K} {cast : K → K} {X0 : Wk K} {A Y : Matrix (Fin n) (Fin n) K} (h3n : n < 3) (h0 : 0 < n) :
    solveDiscrete N cast X0 (Arr.of A) (Arr.of Y) = .ok ((miniDs n (Arr.of A).wk (Arr.of Y).wk).map fun x => Arr.of (x.mat n)) := by
  unfold solveDiscrete
  rw [if_pos (by simpa using h3n)]
  unfold smallRes
  rw [if_neg (by simpa using h0.ne')]
  rfl

/-- **C53**, discrete time: whatever is returned for a symmetric `Y` is a symmetric solution of `AᵀXA - X + Y = 0`. Missing: integer arrays, whose entries are truncated (`C53_integer_violated`). -/
theorem C53_discrete_solution_partial {N : LyapNum K} {X0 : Wk K} {A Y : Matrix (Fin n) (Fin n) K} (hN : SchurOk N A) (h0 : 0 < n) (hY : Yᵀ = Y) {form : String}
    (hf : form ∈ ["d", "discrete"]) {R : Arr K}
    (h : lyapunovEqSolver N id X0 (Arr.of A) (Arr.of Y) none form = .ok (some R)) :
    ∃ X : Matrix (Fin n) (Fin n) K, R = Arr.of X ∧ Aᵀ * X * A - X + Y = 0 ∧ Xᵀ = X := by
  rw [disc_dispatch hf] at h
  by_cases h3n : n < 3
  · rw [disc_solve_small h3n h0] at h
    cases hm : miniDs n (Arr.of A).wk (Arr.of Y).wk with
    | none => rw [hm] at h; cases h
    | some x =>
      rw [hm] at h
      cases h
      exact ⟨_, rfl, disc_small (by omega) hY hm⟩
  · obtain ⟨As, S, h1, h2, h4, h6⟩ := hN
    rw [disc_solve (by omega) h1] at h
    generalize hl : blockLoop _ _ _ = o at h
    cases o with
    | none => cases h
    | some s =>
    rw [finishRes_of] at h
    cases h
    have hYs : (Sᵀ * Y * S)ᵀ = Sᵀ * Y * S := by
      simp only [transpose_mul, transpose_transpose, hY, Matrix.mul_assoc]
    have hx := disc_loop le_rfl h6 h0 hYs hl
    have o1 : S * Sᵀ = 1 := mul_eq_one_comm.mp h2
    have o2 := h2
    have e : Aᵀ * (S * s.1.mat n * Sᵀ) * A - S * s.1.mat n * Sᵀ + Y = S * (Asᵀ * s.1.mat n * As - s.1.mat n + Sᵀ * Y * S) * Sᵀ := by
      rw [h4]
      simp only [transpose_mul, transpose_transpose, Matrix.mul_add, Matrix.add_mul, Matrix.mul_sub, Matrix.sub_mul, Matrix.mul_assoc, o2, o1,
        Matrix.mul_one, ← Matrix.mul_assoc Sᵀ S, ← Matrix.mul_assoc S Sᵀ, Matrix.one_mul]
    refine ⟨_, rfl, ?_, ?_⟩
    · rw [e, hx.1, Matrix.mul_zero, Matrix.zero_mul]
    · simp only [transpose_mul, transpose_transpose, hx.2, Matrix.mul_assoc]

/-- **C53**, discrete time: when the equation has no two solutions, the solver returns one. Missing: integer arrays, whose entries are truncated (`C53_integer_violated`). -/
theorem C53_discrete_succeeds_partial {N : LyapNum K} {X0 : Wk K} {A Y : Matrix (Fin n) (Fin n) K} (hN : SchurOk N A) (h0 : 0 < n) (hY : Yᵀ = Y) {form : String}
    (hf : form ∈ ["d", "discrete"]) (hu : ∀ X : Matrix (Fin n) (Fin n) K, Aᵀ * X * A - X = 0 → X = 0) :
    ∃ X : Matrix (Fin n) (Fin n) K, lyapunovEqSolver N id X0 (Arr.of A) (Arr.of Y) none form = .ok (some (Arr.of X)) ∧
      Aᵀ * X * A - X + Y = 0 ∧ Xᵀ = X := by
  have key : ∃ R, lyapunovEqSolver N id X0 (Arr.of A) (Arr.of Y) none form = .ok (some R) := by
    rw [disc_dispatch hf]
    by_cases h3n : n < 3
    · rw [disc_solve_small h3n h0]
      cases hm : miniDs n (Arr.of A).wk (Arr.of Y).wk with
      | none => exact absurd hm (disc_small_ne_none (by omega) hu)
      | some x => exact ⟨_, rfl⟩
    obtain ⟨As, S, h1, h2, h4, h6⟩ := hN
    have o1 : S * Sᵀ = 1 := mul_eq_one_comm.mp h2
    have o2 := h2
    have hu' : ∀ X : Matrix (Fin n) (Fin n) K, Asᵀ * X * As - X = 0 → X = 0 := by
      intro X hX
      have e : Aᵀ * (S * X * Sᵀ) * A - S * X * Sᵀ = S * (Asᵀ * X * As - X) * Sᵀ := by
        rw [h4]
        simp only [transpose_mul, transpose_transpose, Matrix.mul_sub, Matrix.sub_mul, Matrix.mul_assoc, o2, o1, Matrix.mul_one,
          ← Matrix.mul_assoc Sᵀ S, ← Matrix.mul_assoc S Sᵀ, Matrix.one_mul]
      rw [hX, Matrix.mul_zero, Matrix.zero_mul] at e
      have e2 : Sᵀ * (S * X * Sᵀ) * S = X := by
        simp only [Matrix.mul_assoc, h2, Matrix.mul_one, ← Matrix.mul_assoc Sᵀ S, Matrix.one_mul]
      rw [← e2, hu _ e, Matrix.mul_zero, Matrix.zero_mul]
    rw [disc_solve (by omega) h1]
    generalize hl : blockLoop _ _ _ = o
    cases o with
    | none => exact absurd hl (disc_loop_ne_none le_rfl h6 h0 hu')
    | some s => exact ⟨_, finishRes_of _ s⟩
  obtain ⟨R, hR⟩ := key
  obtain ⟨X, rfl, hX⟩ := C53_discrete_solution_partial hN h0 hY hf hR
  exact ⟨X, hR, hX⟩

theorem gcont_dispatch {N : LyapNum K} {cast : K → K} {X0 : Wk K} {A E Y : Matrix (Fin n) (Fin n) K} {form : String} (hf : form ∈ ["c", "continuous"]) :
    lyapunovEqSolver N cast X0 (Arr.of A) (Arr.of Y) (some (Arr.of E)) form = solveGenContinuous N cast X0 (Arr.of A) (Arr.of E) (Arr.of Y) := by
  unfold lyapunovEqSolver
  rw [lyap_ok_E]
  simp only [List.mem_cons, List.not_mem_nil, or_false] at hf
  rcases hf with rfl | rfl <;> simp [bind, Except.bind]

theorem gcont_solve {N : LyapNum K} {cast : K → K} {X0 : Wk K} {A E Y : Matrix (Fin n) (Fin n) K} (h3n : 3 ≤ n) {As Es Q Z : Matrix (Fin n) (Fin n) K}
    (h1 : N.qz (Arr.of A) (Arr.of E) = (Arr.of As, Arr.of Es, Arr.of Q, Arr.of Z)) :
    solveGenContinuous N cast X0 (Arr.of A) (Arr.of E) (Arr.of Y) =
      finishRes (Arr.of Q) n (blockLoop (gcontRow cast n (Arr.of As).wk (Arr.of Es).wk) (blocksOf N.tol As) (X0, (Arr.of (Zᵀ * Y * Z)).wk)) := by
  unfold solveGenContinuous
  rw [if_neg (by simpa using h3n), h1]
  dsimp only
  rw [congruence_of]
  rfl

theorem gcont_solve_small {N : LyapNum K} {cast : K → K} {X0 : Wk K} {A E Y : Matrix (Fin n) (Fin n) K} (h3n : n < 3) (h0 : 0 < n) :
    solveGenContinuous N cast X0 (Arr.of A) (Arr.of E) (Arr.of Y) = .ok ((miniGCs n (Arr.of A).wk (Arr.of E).wk (Arr.of Y).wk).map fun x => Arr.of (x.mat n)) := by
  unfold solveGenContinuous
  rw [if_pos (by simpa using h3n)]
  unfold smallRes
  rw [if_neg (by simpa using h0.ne')]
  rfl

/-- **C54**, continuous time: whatever is returned for a symmetric `Y` is a symmetric solution of `AᵀXE + EᵀXA + Y = 0`. Missing: integer arrays, whose entries are truncated (`C54_integer_violated`). -/
theorem C54_continuous_solution_partial {N : LyapNum K} (ht : 0 ≤ N.tol) {X0 : Wk K} {A E Y : Matrix (Fin n) (Fin n) K} (hN : QzOk N A E) (h0 : 0 < n) (hY : Yᵀ = Y) {form : String}
    (hf : form ∈ ["c", "continuous"]) {R : Arr K}
    (h : lyapunovEqSolver N id X0 (Arr.of A) (Arr.of Y) (some (Arr.of E)) form = .ok (some R)) :
    ∃ X : Matrix (Fin n) (Fin n) K, R = Arr.of X ∧ Aᵀ * X * E + Eᵀ * X * A + Y = 0 ∧ Xᵀ = X := by
  rw [gcont_dispatch hf] at h
  by_cases h3n : n < 3
  · rw [gcont_solve_small h3n h0] at h
    cases hm : miniGCs n (Arr.of A).wk (Arr.of E).wk (Arr.of Y).wk with
    | none => rw [hm] at h; cases h
    | some x =>
      rw [hm] at h
      cases h
      exact ⟨_, rfl, gcont_small (by omega) hY hm⟩
  · obtain ⟨As, Es, Q, Z, h1, h2, h3, h4, h5, h6, h7⟩ := hN
    rw [gcont_solve (by omega) h1] at h
    generalize hl : blockLoop _ _ _ = o at h
    cases o with
    | none => cases h
    | some s =>
    rw [finishRes_of] at h
    cases h
    have hYs : (Zᵀ * Y * Z)ᵀ = Zᵀ * Y * Z := by
      simp only [transpose_mul, transpose_transpose, hY, Matrix.mul_assoc]
    have hx := gcont_loop ht h6 h7 h0 hYs hl
    have z2 : Z * Zᵀ = 1 := mul_eq_one_comm.mp h3
    have e : Aᵀ * (Q * s.1.mat n * Qᵀ) * E + Eᵀ * (Q * s.1.mat n * Qᵀ) * A + Y =
        Z * (Asᵀ * s.1.mat n * Es + Esᵀ * s.1.mat n * As + Zᵀ * Y * Z) * Zᵀ := by
      rw [h4, h5]
      simp only [transpose_mul, transpose_transpose, Matrix.mul_add, Matrix.add_mul, Matrix.mul_assoc, h2, h3, z2, Matrix.mul_one,
        ← Matrix.mul_assoc Qᵀ Q, ← Matrix.mul_assoc Z Zᵀ, Matrix.one_mul]
    refine ⟨_, rfl, ?_, ?_⟩
    · rw [e, hx.1, Matrix.mul_zero, Matrix.zero_mul]
    · simp only [transpose_mul, transpose_transpose, hx.2, Matrix.mul_assoc]

/-- **C54**, continuous time: when the equation has no two solutions, the solver returns one. Missing: integer arrays, whose entries are truncated (`C54_integer_violated`). -/
theorem C54_continuous_succeeds_partial {N : LyapNum K} (ht : 0 ≤ N.tol) {X0 : Wk K} {A E Y : Matrix (Fin n) (Fin n) K} (hN : QzOk N A E) (h0 : 0 < n) (hY : Yᵀ = Y) {form : String}
    (hf : form ∈ ["c", "continuous"]) (hu : ∀ X : Matrix (Fin n) (Fin n) K, Aᵀ * X * E + Eᵀ * X * A = 0 → X = 0) :
    ∃ X : Matrix (Fin n) (Fin n) K, lyapunovEqSolver N id X0 (Arr.of A) (Arr.of Y) (some (Arr.of E)) form = .ok (some (Arr.of X)) ∧
      Aᵀ * X * E + Eᵀ * X * A + Y = 0 ∧ Xᵀ = X := by
  have key : ∃ R, lyapunovEqSolver N id X0 (Arr.of A) (Arr.of Y) (some (Arr.of E)) form = .ok (some R) := by
    rw [gcont_dispatch hf]
    by_cases h3n : n < 3
    · rw [gcont_solve_small h3n h0]
      cases hm : miniGCs n (Arr.of A).wk (Arr.of E).wk (Arr.of Y).wk with
      | none => exact absurd hm (gcont_small_ne_none (by omega) hu)
      | some x => exact ⟨_, rfl⟩
    obtain ⟨As, Es, Q, Z, h1, h2, h3, h4, h5, h6, h7⟩ := hN
    have hu' : ∀ X : Matrix (Fin n) (Fin n) K, Asᵀ * X * Es + Esᵀ * X * As = 0 → X = 0 := by
      intro X hX
      have e : Aᵀ * (Q * X * Qᵀ) * E + Eᵀ * (Q * X * Qᵀ) * A = Z * (Asᵀ * X * Es + Esᵀ * X * As) * Zᵀ := by
        rw [h4, h5]
        simp only [transpose_mul, transpose_transpose, Matrix.mul_add, Matrix.add_mul, Matrix.mul_assoc, h2, h3, Matrix.mul_one,
          ← Matrix.mul_assoc Qᵀ Q, ← Matrix.mul_assoc Z Zᵀ, Matrix.one_mul]
      rw [hX, Matrix.mul_zero, Matrix.zero_mul] at e
      have e2 : Qᵀ * (Q * X * Qᵀ) * Q = X := by
        simp only [Matrix.mul_assoc, h2, Matrix.mul_one, ← Matrix.mul_assoc Qᵀ Q, Matrix.one_mul]
      rw [← e2, hu _ e, Matrix.mul_zero, Matrix.zero_mul]
    rw [gcont_solve (by omega) h1]
    generalize hl : blockLoop _ _ _ = o
    cases o with
    | none => exact absurd hl (gcont_loop_ne_none ht h6 h7 h0 hu')
    | some s => exact ⟨_, finishRes_of _ s⟩
  obtain ⟨R, hR⟩ := key
  obtain ⟨X, rfl, hX⟩ := C54_continuous_solution_partial ht hN h0 hY hf hR
  exact ⟨X, hR, hX⟩

theorem gdisc_dispatch {N : LyapNum K} {cast : K → K} {X0 : Wk K} {A E Y : Matrix (Fin n) (Fin n) K} {form : String} (hf : form ∈ ["d", "discrete"]) :
    lyapunovEqSolver N cast X0 (Arr.of A) (Arr.of Y) (some (Arr.of E)) form = solveGenDiscrete N cast X0 (Arr.of A) (Arr.of E) (Arr.of Y) := by
  unfold lyapunovEqSolver
  rw [lyap_ok_E]
  simp only [List.mem_cons, List.not_mem_nil, or_false] at hf
  rcases hf with rfl | rfl <;> simp [bind, Except.bind]

theorem gdisc_solve {N : LyapNum K} {cast : K → K} {X0 : Wk K} {A E Y : Matrix (Fin n) (Fin n) K} (h3n : 3 ≤ n) {As Es Q Z : Matrix (Fin n) (Fin n) K}
    (h1 : N.qz (Arr.of A) (Arr.of E) = (Arr.of As, Arr.of Es, Arr.of Q, Arr.of Z)) :
    solveGenDiscrete N cast X0 (Arr.of A) (Arr.of E) (Arr.of Y) =
      finishRes (Arr.of Q) n (blockLoop (gdiscRow cast n (Arr.of As).wk (Arr.of Es).wk) (blocksOf N.tol As) (X0, (Arr.of (Zᵀ * Y * Z)).wk)) := by
  unfold solveGenDiscrete
  rw [if_neg (by simpa using h3n), h1]
  dsimp only
  rw [congruence_of]
  rfl

theorem gdisc_solve_small {N : LyapNum K} {cast : K → K} {X0 : Wk K} {A E Y : Matrix (Fin n) (Fin n) K} (h3n : n < 3) (h0 : 0 < n) :
    solveGenDiscrete N cast X0 (Arr.of A) (Arr.of E) (Arr.of Y) = .ok ((miniGDs n (Arr.of A).wk (Arr.of E).wk (Arr.of Y).wk).map fun x => Arr.of (x.mat n)) := by
  unfold solveGenDiscrete
  rw [if_pos (by simpa using h3n)]
  unfold smallRes
  rw [if_neg (by simpa using h0.ne')]
  rfl

/-- **C54**, discrete time: whatever is returned for a symmetric `Y` is a symmetric solution of `AᵀXA - EᵀXE + Y = 0`. Missing: integer arrays, whose entries are truncated (`C54_integer_violated`). -/
theorem C54_discrete_solution_partial {N : LyapNum K} (ht : 0 ≤ N.tol) {X0 : Wk K} {A E Y : Matrix (Fin n) (Fin n) K} (hN : QzOk N A E) (h0 : 0 < n) (hY : Yᵀ = Y) {form : String}
    (hf : form ∈ ["d", "discrete"]) {R : Arr K}
    (h : lyapunovEqSolver N id X0 (Arr.of A) (Arr.of Y) (some (Arr.of E)) form = .ok (some R)) :
    ∃ X : Matrix (Fin n) (Fin n) K, R = Arr.of X ∧ Aᵀ * X * A - Eᵀ * X * E + Y = 0 ∧ Xᵀ = X := by
  rw [gdisc_dispatch hf] at h
  by_cases h3n : n < 3
  · rw [gdisc_solve_small h3n h0] at h
    cases hm : miniGDs n (Arr.of A).wk (Arr.of E).wk (Arr.of Y).wk with
    | none => rw [hm] at h; cases h
    | some x =>
      rw [hm] at h
      cases h
      exact ⟨_, rfl, gdisc_small (by omega) hY hm⟩
  · obtain ⟨As, Es, Q, Z, h1, h2, h3, h4, h5, h6, h7⟩ := hN
    rw [gdisc_solve (by omega) h1] at h
    generalize hl : blockLoop _ _ _ = o at h
    cases o with
    | none => cases h
    | some s =>
    rw [finishRes_of] at h
    cases h
    have hYs : (Zᵀ * Y * Z)ᵀ = Zᵀ * Y * Z := by
      simp only [transpose_mul, transpose_transpose, hY, Matrix.mul_assoc]
    have hx := gdisc_loop ht h6 h7 h0 hYs hl
    have z2 : Z * Zᵀ = 1 := mul_eq_one_comm.mp h3
    have e : Aᵀ * (Q * s.1.mat n * Qᵀ) * A - Eᵀ * (Q * s.1.mat n * Qᵀ) * E + Y =
        Z * (Asᵀ * s.1.mat n * As - Esᵀ * s.1.mat n * Es + Zᵀ * Y * Z) * Zᵀ := by
      rw [h4, h5]
      simp only [transpose_mul, transpose_transpose, Matrix.mul_add, Matrix.add_mul, Matrix.mul_sub, Matrix.sub_mul, Matrix.mul_assoc, h2, h3, z2,
        Matrix.mul_one, ← Matrix.mul_assoc Qᵀ Q, ← Matrix.mul_assoc Z Zᵀ, Matrix.one_mul]
    refine ⟨_, rfl, ?_, ?_⟩
    · rw [e, hx.1, Matrix.mul_zero, Matrix.zero_mul]
    · simp only [transpose_mul, transpose_transpose, hx.2, Matrix.mul_assoc]

/-- **C54**, discrete time: when the equation has no two solutions, the solver returns one. Missing: integer arrays, whose entries are truncated (`C54_integer_violated`). -/
theorem C54_discrete_succeeds_partial {N : LyapNum K} (ht : 0 ≤ N.tol) {X0 : Wk K} {A E Y : Matrix (Fin n) (Fin n) K} (hN : QzOk N A E) (h0 : 0 < n) (hY : Yᵀ = Y) {form : String}
    (hf : form ∈ ["d", "discrete"]) (hu : ∀ X : Matrix (Fin n) (Fin n) K, Aᵀ * X * A - Eᵀ * X * E = 0 → X = 0) :
    ∃ X : Matrix (Fin n) (Fin n) K, lyapunovEqSolver N id X0 (Arr.of A) (Arr.of Y) (some (Arr.of E)) form = .ok (some (Arr.of X)) ∧
      Aᵀ * X * A - Eᵀ * X * E + Y = 0 ∧ Xᵀ = X := by
  have key : ∃ R, lyapunovEqSolver N id X0 (Arr.of A) (Arr.of Y) (some (Arr.of E)) form = .ok (some R) := by
    rw [gdisc_dispatch hf]
    by_cases h3n : n < 3
    · rw [gdisc_solve_small h3n h0]
      cases hm : miniGDs n (Arr.of A).wk (Arr.of E).wk (Arr.of Y).wk with
      | none => exact absurd hm (gdisc_small_ne_none (by omega) hu)
      | some x => exact ⟨_, rfl⟩
    obtain ⟨As, Es, Q, Z, h1, h2, h3, h4, h5, h6, h7⟩ := hN
    have hu' : ∀ X : Matrix (Fin n) (Fin n) K, Asᵀ * X * As - Esᵀ * X * Es = 0 → X = 0 := by
      intro X hX
      have e : Aᵀ * (Q * X * Qᵀ) * A - Eᵀ * (Q * X * Qᵀ) * E = Z * (Asᵀ * X * As - Esᵀ * X * Es) * Zᵀ := by
        rw [h4, h5]
        simp only [transpose_mul, transpose_transpose, Matrix.mul_sub, Matrix.sub_mul, Matrix.mul_assoc, h2, h3, Matrix.mul_one,
          ← Matrix.mul_assoc Qᵀ Q, ← Matrix.mul_assoc Z Zᵀ, Matrix.one_mul]
      rw [hX, Matrix.mul_zero, Matrix.zero_mul] at e
      have e2 : Qᵀ * (Q * X * Qᵀ) * Q = X := by
        simp only [Matrix.mul_assoc, h2, Matrix.mul_one, ← Matrix.mul_assoc Qᵀ Q, Matrix.one_mul]
      rw [← e2, hu _ e, Matrix.mul_zero, Matrix.zero_mul]
    rw [gdisc_solve (by omega) h1]
    generalize hl : blockLoop _ _ _ = o
    cases o with
    | none => exact absurd hl (gdisc_loop_ne_none ht h6 h7 h0 hu')
    | some s => exact ⟨_, finishRes_of _ s⟩
  obtain ⟨R, hR⟩ := key
  obtain ⟨X, rfl, hX⟩ := C54_discrete_solution_partial ht hN h0 hY hf hR
  exact ⟨X, hR, hX⟩

/-! ## Stable matrices -/

/-- **C53**, continuous time: for a real matrix with all eigenvalues in the open left half plane the solver returns the solution. Missing: integer arrays, whose entries are truncated (`C53_integer_violated`). -/
theorem C53_continuous_stable_partial {N : LyapNum ℝ} {X0 : Wk ℝ} {A Y : Matrix (Fin n) (Fin n) ℝ} (hN : SchurOk N A) (h0 : 0 < n) (hY : Yᵀ = Y)
    {form : String} (hf : form ∈ ["c", "continuous"]) (hA : Hurwitz A) :
    ∃ X : Matrix (Fin n) (Fin n) ℝ, lyapunovEqSolver N id X0 (Arr.of A) (Arr.of Y) none form = .ok (some (Arr.of X)) ∧
      Aᵀ * X + X * A + Y = 0 ∧ Xᵀ = X ∧ ∀ X', Aᵀ * X' + X' * A + Y = 0 → X' = X := by
  obtain ⟨X, h1, h2, h3⟩ := C53_continuous_succeeds_partial hN h0 hY hf (X0 := X0) fun X hX => lyap_unique_cont hA hX
  refine ⟨X, h1, h2, h3, fun X' h4 => sub_eq_zero.mp (lyap_unique_cont hA ?_)⟩
  rw [Matrix.mul_sub, Matrix.sub_mul]
  calc Aᵀ * X' - Aᵀ * X + (X' * A - X * A) = (Aᵀ * X' + X' * A + Y) - (Aᵀ * X + X * A + Y) := by abel
    _ = 0 := by rw [h4, h2, sub_zero]

/-- **C53**, discrete time: for a real matrix with all eigenvalues in the open unit disc the solver returns the solution. Missing: integer arrays, whose entries are truncated (`C53_integer_violated`). -/
theorem C53_discrete_stable_partial {N : LyapNum ℝ} {X0 : Wk ℝ} {A Y : Matrix (Fin n) (Fin n) ℝ} (hN : SchurOk N A) (h0 : 0 < n) (hY : Yᵀ = Y)
    {form : String} (hf : form ∈ ["d", "discrete"]) (hA : Schur A) :
    ∃ X : Matrix (Fin n) (Fin n) ℝ, lyapunovEqSolver N id X0 (Arr.of A) (Arr.of Y) none form = .ok (some (Arr.of X)) ∧
      Aᵀ * X * A - X + Y = 0 ∧ Xᵀ = X ∧ ∀ X', Aᵀ * X' * A - X' + Y = 0 → X' = X := by
  obtain ⟨X, h1, h2, h3⟩ := C53_discrete_succeeds_partial hN h0 hY hf (X0 := X0) fun X hX => lyap_unique_disc hA hX
  refine ⟨X, h1, h2, h3, fun X' h4 => sub_eq_zero.mp (lyap_unique_disc hA ?_)⟩
  rw [Matrix.mul_sub, Matrix.sub_mul]
  calc Aᵀ * X' * A - Aᵀ * X * A - (X' - X) = (Aᵀ * X' * A - X' + Y) - (Aᵀ * X * A - X + Y) := by abel
    _ = 0 := by rw [h4, h2, sub_zero]

/-- **C54**, continuous time: for an invertible `E` and a stable `A E⁻¹` the solver returns a solution. Missing: integer arrays, whose entries are truncated (`C54_integer_violated`). -/
theorem C54_continuous_stable_partial {N : LyapNum ℝ} (ht : 0 ≤ N.tol) {X0 : Wk ℝ} {A E Y : Matrix (Fin n) (Fin n) ℝ} (hN : QzOk N A E) (h0 : 0 < n)
    (hY : Yᵀ = Y) {form : String} (hf : form ∈ ["c", "continuous"]) (hE : IsUnit E.det) (hA : Hurwitz (A * E⁻¹)) :
    ∃ X : Matrix (Fin n) (Fin n) ℝ, lyapunovEqSolver N id X0 (Arr.of A) (Arr.of Y) (some (Arr.of E)) form = .ok (some (Arr.of X)) ∧
      Aᵀ * X * E + Eᵀ * X * A + Y = 0 ∧ Xᵀ = X := by
  refine C54_continuous_succeeds_partial ht hN h0 hY hf fun X hX => lyap_unique_cont hA ?_
  have e1 : E * E⁻¹ = 1 := Matrix.mul_nonsing_inv E hE
  have e2 : E⁻¹ᵀ * Eᵀ = 1 := by rw [← transpose_mul, e1, transpose_one]
  have := congrArg (fun M => E⁻¹ᵀ * M * E⁻¹) hX
  simp only [Matrix.mul_add, Matrix.add_mul, Matrix.mul_zero, Matrix.zero_mul] at this
  rw [transpose_mul, ← this]
  congr 1
  · simp only [Matrix.mul_assoc, e1, Matrix.mul_one]
  · simp only [← Matrix.mul_assoc, e2, Matrix.one_mul]

/-- **C54**, discrete time: for an invertible `E` and a stable `A E⁻¹` the solver returns a solution. Missing: integer arrays, whose entries are truncated (`C54_integer_violated`). -/
theorem C54_discrete_stable_partial {N : LyapNum ℝ} (ht : 0 ≤ N.tol) {X0 : Wk ℝ} {A E Y : Matrix (Fin n) (Fin n) ℝ} (hN : QzOk N A E) (h0 : 0 < n)
    (hY : Yᵀ = Y) {form : String} (hf : form ∈ ["d", "discrete"]) (hE : IsUnit E.det) (hA : Schur (A * E⁻¹)) :
    ∃ X : Matrix (Fin n) (Fin n) ℝ, lyapunovEqSolver N id X0 (Arr.of A) (Arr.of Y) (some (Arr.of E)) form = .ok (some (Arr.of X)) ∧
      Aᵀ * X * A - Eᵀ * X * E + Y = 0 ∧ Xᵀ = X := by
  refine C54_discrete_succeeds_partial ht hN h0 hY hf fun X hX => lyap_unique_disc hA ?_
  have e1 : E * E⁻¹ = 1 := Matrix.mul_nonsing_inv E hE
  have e2 : E⁻¹ᵀ * Eᵀ = 1 := by rw [← transpose_mul, e1, transpose_one]
  have := congrArg (fun M => E⁻¹ᵀ * M * E⁻¹) hX
  simp only [Matrix.mul_sub, Matrix.sub_mul, Matrix.mul_zero, Matrix.zero_mul] at this
  rw [transpose_mul, ← this]
  congr 1
  · simp only [Matrix.mul_assoc]
  · simp only [← Matrix.mul_assoc, e2, Matrix.one_mul]
    rw [Matrix.mul_assoc, e1, Matrix.mul_one]

/-! ## Rejected arguments -/

/-- **C53**, **C54**: an unknown `form`, a matrix that is not square or matrices of different sizes are refused. -/
theorem C53_rejects {N : LyapNum K} {cast : K → K} {X0 : Wk K} {A Y : Arr K} {E : Option (Arr K)} {form : String}
    (h : ¬ form ∈ ["c", "continuous", "d", "discrete"] ∨ A.r ≠ A.c ∨ Y.r ≠ Y.c ∨ A.r ≠ Y.r ∨ ∃ e, E = some e ∧ (e.r ≠ e.c ∨ e.r ≠ A.r)) :
    lyapunovEqSolver N cast X0 A Y E form = .error .value := by
  unfold lyapunovEqSolver
  by_cases hf : form ∈ ["c", "continuous", "d", "discrete"]
  · rw [if_neg (not_not.mpr hf)]
    have hc : lyapCheck A Y E = .error .value := by
      unfold lyapCheck
      by_cases h1 : (E.any fun e => decide (e.r ≠ e.c)) = true
      · rw [if_pos h1]
      rw [if_neg h1]
      by_cases h2 : A.r ≠ A.c
      · rw [if_pos h2]
      rw [if_neg h2]
      by_cases h3 : Y.r ≠ Y.c
      · rw [if_pos h3]
      rw [if_neg h3, if_pos]
      rcases h with h | h | h | h | ⟨e, rfl, h⟩
      · exact absurd hf h
      · exact absurd h h2
      · exact absurd h h3
      · exact Or.inl fun e => h (congrArg Prod.fst e)
      · right
        rcases h with h | h
        · exact absurd (by simpa using h) h1
        · simp only [Option.any_some, decide_eq_true_eq]
          exact fun e => h (congrArg Prod.fst e).symm
    rw [hc]
    rfl
  · rw [if_pos hf]

/-! ## Integer data -/

theorem cont_range {cast : K → K} {P : K → Prop} (hc : ∀ x, P (cast x)) {A : Wk K} {m : ℕ} {sub : ℕ → Prop} {bl : List (ℕ × ℕ)}
    (hch : Chain sub m 0 bl) {s s' : Wk K × Wk K} (h0 : ∀ i j, P (s.1 i j)) (h : blockLoop (contRow cast m A) bl s = some s') :
    ∀ i j, P (s'.1 i j) := by
  have hset : ∀ (X x : Wk K) (a b c d : ℕ), (∀ i j, P (X i j)) → ∀ i j, P (X.set cast a b c d x i j) := by
    intro X x a b c d hX i j
    unfold Wk.set
    split_ifs
    · exact hc _
    · exact hX i j
  refine blockLoop_inv (P := fun _ s => ∀ i j, P (s.1 i j)) hch h0 (fun r rest _ hr s s' hs he => ?_) h
  unfold contRow at he
  dsimp only at he
  generalize (if r.1 ≠ 0 then _ else s.2 : Wk K) = Y at he
  cases hm : miniCs (r.2 - r.1) (A.at r.1 r.1) (Y.at r.1 r.1) with
  | none => rw [hm] at he; cases he
  | some x =>
    rw [hm] at he
    simp only [bind, Option.bind] at he
    refine foldlM_inv (P := fun _ s => ∀ i j, P (s.1 i j)) hr ?_ (fun c _ t t' ht hstep => ?_) he
    · exact hset _ _ _ _ _ _ hs
    · unfold contCol at hstep
      cases hm : miniCn (c.2 - c.1) (A.at c.1 c.1) (t.2.at r.1 c.1) (r.2 - r.1) (A.at r.1 r.1) with
      | none => rw [hm] at hstep; cases hstep
      | some x =>
        rw [hm] at hstep
        simp only [bind, Option.bind] at hstep
        cases hstep
        exact hset _ _ _ _ _ _ (hset _ _ _ _ _ _ ht)

theorem gcont_range {cast : K → K} {P : K → Prop} (hc : ∀ x, P (cast x)) {A E : Wk K} {m : ℕ} {sub : ℕ → Prop} {bl : List (ℕ × ℕ)}
    (hch : Chain sub m 0 bl) {s s' : Wk K × Wk K} (h0 : ∀ i j, P (s.1 i j)) (h : blockLoop (gcontRow cast m A E) bl s = some s') :
    ∀ i j, P (s'.1 i j) := by
  have hset : ∀ (X x : Wk K) (a b c d : ℕ), (∀ i j, P (X i j)) → ∀ i j, P (X.set cast a b c d x i j) := by
    intro X x a b c d hX i j
    unfold Wk.set
    split_ifs
    · exact hc _
    · exact hX i j
  refine blockLoop_inv (P := fun _ s => ∀ i j, P (s.1 i j)) hch h0 (fun r rest _ hr s s' hs he => ?_) h
  unfold gcontRow at he
  dsimp only at he
  generalize (if r.1 ≠ 0 then _ else s.2 : Wk K) = Y at he
  cases hm : miniGCs (r.2 - r.1) (A.at r.1 r.1) (E.at r.1 r.1) (Y.at r.1 r.1) with
  | none => rw [hm] at he; cases he
  | some x =>
    rw [hm] at he
    simp only [bind, Option.bind] at he
    generalize hf : (List.foldlM _ _ rest : Option (Wk K × Wk K × Wk K × Wk K)) = o at he
    cases o with
    | none => cases he
    | some w =>
    cases he
    refine foldlM_inv (P := fun _ s => ∀ i j, P (s.1 i j)) hr ?_ (fun c _ t t' ht hstep => ?_) hf
    · exact hset _ _ _ _ _ _ hs
    · unfold gcontCol at hstep
      cases hm : miniGCn (r.2 - r.1) (A.at r.1 r.1) (c.2 - c.1) (E.at c.1 c.1) (t.2.1.at r.1 c.1) (E.at r.1 r.1) (A.at c.1 c.1) with
      | none => rw [hm] at hstep; cases hstep
      | some x =>
        rw [hm] at hstep
        simp only [bind, Option.bind] at hstep
        cases hstep
        exact hset _ _ _ _ _ _ (hset _ _ _ _ _ _ ht)

theorem quasiTri_neg_one {tol : K} (ht : 0 ≤ tol) : QuasiTri tol (-1 : Matrix (Fin n) (Fin n) K) where
  below i j h := by
    rw [Matrix.neg_apply, Matrix.one_apply_ne (by intro e; subst e; omega), neg_zero]
  subdiag i j h h' := by
    refine absurd ?_ h'
    rw [Matrix.neg_apply, Matrix.one_apply_ne (by intro e; subst e; omega), neg_zero]
  isolated i j k h h' := by
    rw [Matrix.neg_apply, Matrix.neg_apply, Matrix.one_apply_ne (by intro e; subst e; omega), Matrix.one_apply_ne (by intro e; subst e; omega)]
    rw [neg_zero, abs_zero]
    exact fun a => absurd a (not_lt.mpr ht)

/-- **C53** fails for integer data (`np.empty_like(Y)` allocates an integer array and every block of the solution is truncated when it is stored):
for `A = -I` and `Y = I` of any size from three on the answer is not a solution. -/
theorem C53_integer_violated {N : LyapNum ℚ} {cast : ℚ → ℚ} (hc : ∀ x, ∃ z : ℤ, cast x = z) {X0 : Wk ℚ} (hX : ∀ i j, ∃ z : ℤ, X0 i j = z)
    (hn : 3 ≤ n) (hN : N.schur (Arr.of (-1 : Matrix (Fin n) (Fin n) ℚ)) = (Arr.of (-1 : Matrix (Fin n) (Fin n) ℚ), Arr.of (1 : Matrix (Fin n) (Fin n) ℚ))) :
    ∃ X : Matrix (Fin n) (Fin n) ℚ, lyapunovEqSolver N cast X0 (Arr.of (-1 : Matrix (Fin n) (Fin n) ℚ)) (Arr.of (1 : Matrix (Fin n) (Fin n) ℚ)) none "c" = .ok (some (Arr.of X)) ∧
      (-1 : Matrix (Fin n) (Fin n) ℚ)ᵀ * X + X * -1 + 1 ≠ 0 := by
  have h0 : 0 < n := by omega
  rw [cont_dispatch (by simp), cont_solve hn hN]
  generalize hl : blockLoop _ _ _ = o
  cases o with
  | none =>
    refine absurd hl (cont_loop_ne_none le_rfl (quasiTri_neg_one le_rfl) h0 fun X hX => ?_)
    simp only [transpose_neg, transpose_one, Matrix.neg_mul, Matrix.one_mul, Matrix.mul_neg, Matrix.mul_one] at hX
    ext i j
    have := congrFun (congrFun hX i) j
    simp only [Matrix.add_apply, Matrix.neg_apply, Matrix.zero_apply] at this
    rw [Matrix.zero_apply]
    linarith
  | some s =>
    refine ⟨_, finishRes_of _ s, fun h => ?_⟩
    have hi := cont_range (P := fun x : ℚ => ∃ z : ℤ, x = z) hc ((quasiTri_neg_one (K := ℚ) le_rfl).chain le_rfl h0) hX hl 0 0
    obtain ⟨z, hz⟩ := hi
    have := congrFun (congrFun h ⟨0, h0⟩) ⟨0, h0⟩
    simp only [transpose_neg, transpose_one, Matrix.neg_mul, Matrix.one_mul, Matrix.mul_neg, Matrix.mul_one, Matrix.add_apply, Matrix.neg_apply,
      Matrix.zero_apply, Matrix.one_apply_eq] at this
    have e : s.1.mat n ⟨0, h0⟩ ⟨0, h0⟩ = z := hz
    rw [e] at this
    have h2 : (2 * z : ℚ) = 1 := by linarith
    have h3 : 2 * z = 1 := by exact_mod_cast h2
    omega

/-- **C54** fails for integer data (`np.empty_like(Y)` allocates an integer array and every block of the solution is truncated when it is stored):
for `A = -I`, `E = I` and `Y = I` of any size from three on the answer is not a solution. -/
theorem C54_integer_violated {N : LyapNum ℚ} {cast : ℚ → ℚ} (hc : ∀ x, ∃ z : ℤ, cast x = z) {X0 : Wk ℚ} (hX : ∀ i j, ∃ z : ℤ, X0 i j = z)
    (hn : 3 ≤ n) (ht : 0 ≤ N.tol)
    (hN : N.qz (Arr.of (-1 : Matrix (Fin n) (Fin n) ℚ)) (Arr.of (1 : Matrix (Fin n) (Fin n) ℚ)) =
      (Arr.of (-1 : Matrix (Fin n) (Fin n) ℚ), Arr.of (1 : Matrix (Fin n) (Fin n) ℚ), Arr.of (1 : Matrix (Fin n) (Fin n) ℚ),
        Arr.of (1 : Matrix (Fin n) (Fin n) ℚ))) :
    ∃ X : Matrix (Fin n) (Fin n) ℚ, lyapunovEqSolver N cast X0 (Arr.of (-1 : Matrix (Fin n) (Fin n) ℚ)) (Arr.of (1 : Matrix (Fin n) (Fin n) ℚ))
      (some (Arr.of (1 : Matrix (Fin n) (Fin n) ℚ))) "c" = .ok (some (Arr.of X)) ∧
      (-1 : Matrix (Fin n) (Fin n) ℚ)ᵀ * X * 1 + 1ᵀ * X * -1 + 1 ≠ 0 := by
  have h0 : 0 < n := by omega
  rw [gcont_dispatch (by simp), gcont_solve hn hN]
  generalize hl : blockLoop _ _ _ = o
  cases o with
  | none =>
    refine absurd hl (gcont_loop_ne_none ht (quasiTri_neg_one ht) (fun i j h => Matrix.one_apply_ne h.ne') h0 fun X hX => ?_)
    simp only [transpose_neg, transpose_one, Matrix.neg_mul, Matrix.one_mul, Matrix.mul_neg, Matrix.mul_one] at hX
    ext i j
    have := congrFun (congrFun hX i) j
    simp only [Matrix.add_apply, Matrix.neg_apply, Matrix.zero_apply] at this
    rw [Matrix.zero_apply]
    linarith
  | some s =>
    refine ⟨_, finishRes_of _ s, fun h => ?_⟩
    have hi := gcont_range (P := fun x : ℚ => ∃ z : ℤ, x = z) hc ((quasiTri_neg_one (K := ℚ) ht).chain ht h0) hX hl 0 0
    obtain ⟨z, hz⟩ := hi
    have := congrFun (congrFun h ⟨0, h0⟩) ⟨0, h0⟩
    simp only [transpose_neg, transpose_one, Matrix.neg_mul, Matrix.one_mul, Matrix.mul_neg, Matrix.mul_one, Matrix.add_apply, Matrix.neg_apply,
      Matrix.zero_apply, Matrix.one_apply_eq] at this
    have e : s.1.mat n ⟨0, h0⟩ ⟨0, h0⟩ = z := hz
    rw [e] at this
    have h2 : (2 * z : ℚ) = 1 := by linarith
    have h3 : 2 * z = 1 := by exact_mod_cast h2
    omega

/-! ## Concrete cases -/

/-- Decompositions that are exact for matrices already in quasi-triangular form. -/
noncomputable def idLyap : LyapNum ℚ where
  schur a := (a, Arr.of (1 : Matrix (Fin a.r) (Fin a.r) ℚ))
  qz a e := (a, e, Arr.of (1 : Matrix (Fin a.r) (Fin a.r) ℚ), Arr.of (1 : Matrix (Fin a.r) (Fin a.r) ℚ))
  tol := 1 / 10 ^ 12

/-- A 2x2 block followed by a 1x1 block. -/
def exA : Matrix (Fin 3) (Fin 3) ℚ := !![-1, 2, 1; -2, -1, 3; 0, 0, -2]

theorem exA_quasi {tol : ℚ} (h0 : 0 ≤ tol) (h : tol < 2) : QuasiTri tol exA where
  below i j h := by
    fin_cases i <;> fin_cases j <;> simp [exA] at h ⊢
  subdiag i j h' h1 := by
    fin_cases i <;> fin_cases j <;> simp [exA] at h' h1 ⊢
    exact h
  isolated i j k h1 h2 h3 := by
    fin_cases i <;> fin_cases j <;> fin_cases k <;> simp [exA] at h1 h2 h3 ⊢
    exact h0

example : SchurOk idLyap exA := ⟨exA, 1, rfl, by simp, by simp, exA_quasi le_rfl (by norm_num)⟩

def exE : Matrix (Fin 3) (Fin 3) ℚ := !![1, 1, 0; 0, 1, 0; 0, 0, 1]

example : QzOk idLyap exA exE ∧ 0 ≤ idLyap.tol := by
  refine ⟨⟨exA, exE, 1, 1, rfl, by simp, by simp, by simp, by simp, exA_quasi (by norm_num [idLyap]) (by norm_num [idLyap]), ?_⟩,
    by norm_num [idLyap]⟩
  intro i j h
  fin_cases i <;> fin_cases j <;> simp [exE] at h ⊢

/-- The Lyapunov operator of `exA` is injective, so the hypotheses of `C53_continuous_succeeds_partial` hold. -/
example : ∀ X : Matrix (Fin 3) (Fin 3) ℚ, exAᵀ * X + X * exA = 0 → X = 0 := by
  intro X hX
  have h : ∀ i j, (exAᵀ * X + X * exA) i j = 0 := fun i j => by rw [hX]; rfl
  have h00 := h 0 0; have h01 := h 0 1; have h02 := h 0 2
  have h10 := h 1 0; have h11 := h 1 1; have h12 := h 1 2
  have h20 := h 2 0; have h21 := h 2 1; have h22 := h 2 2
  simp [exA, Matrix.mul_apply, Fin.sum_univ_three] at h00 h01 h02 h10 h11 h12 h20 h21 h22
  ext i j
  fin_cases i <;> fin_cases j <;> simp <;> linarith

/-- The integer conversion of numpy. -/
example : ∀ x : ℚ, ∃ z : ℤ, ((if 0 ≤ x then ⌊x⌋ else ⌈x⌉ : ℤ) : ℚ) = z := fun x => ⟨_, rfl⟩

example : idLyap.qz (Arr.of (-1 : Matrix (Fin 3) (Fin 3) ℚ)) (Arr.of (1 : Matrix (Fin 3) (Fin 3) ℚ)) =
    (Arr.of (-1 : Matrix (Fin 3) (Fin 3) ℚ), Arr.of (1 : Matrix (Fin 3) (Fin 3) ℚ), Arr.of (1 : Matrix (Fin 3) (Fin 3) ℚ),
      Arr.of (1 : Matrix (Fin 3) (Fin 3) ℚ)) := rfl

example : idLyap.schur (Arr.of (-1 : Matrix (Fin 3) (Fin 3) ℚ)) = (Arr.of (-1 : Matrix (Fin 3) (Fin 3) ℚ), Arr.of (1 : Matrix (Fin 3) (Fin 3) ℚ)) := rfl

/-- Non-vacuity for all sizes: some `schur` meets its contract for all real matrices, and some `qz` for all pairs with invertible `E`. -/
example : ∃ N : LyapNum ℝ, 0 ≤ N.tol ∧ (∀ {n : ℕ} (A : Matrix (Fin n) (Fin n) ℝ), SchurOk N A) ∧ ∀ {n : ℕ} (A E : Matrix (Fin n) (Fin n) ℝ), E.det ≠ 0 → QzOk N A E :=
  let ⟨N, h, h1, h2⟩ := exists_lyapNum
  ⟨N, h.ge, h1, h2⟩

end Harold
