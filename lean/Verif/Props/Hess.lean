import Verif.Lemmas.Hess
import Verif.Lemmas.HessExists
import Mathlib.Tactic.NormNum
import Mathlib.Data.Rat.Cast.Order
import Mathlib.LinearAlgebra.Matrix.Notation
import Mathlib.LinearAlgebra.Matrix.NonsingularInverse

/-!
# C51: `hessenberg_realization`
-/

namespace Harold

open Matrix Spec

variable {K L : Type} [Field K] [LinearOrder K] [Field L] [Algebra K L] {n m p : ℕ}

/-- **C51**, one input, form `'c'` without `invert`: `T` is orthogonal, the returned matrices are those of the model in the new coordinates, the
state matrix is an upper Hessenberg matrix and only the first entry of the input matrix can be nonzero.
`_partial`: for more inputs see `C51_multi_input_violated`, for `invert` `C51_invert_violated`, for the feedthrough `C51_feedthrough_violated`. -/
theorem C51_matrices_c_partial {N : HessNum K} (A : Matrix (Fin n) (Fin n) K) (B : Matrix (Fin n) (Fin 1) K) (C : Matrix (Fin p) (Fin n) K)
    (hq : QrOk N B) (hh : ∀ M : Matrix (Fin n) (Fin n) K, HessOk N M) :
    ∃ T : Matrix (Fin n) (Fin n) K, hessMatrices N "c" false (Arr.of A) (Arr.of B) (Arr.of C) =
      .ok (Arr.of (T⁻¹ * A * T), Arr.of (T⁻¹ * B), Arr.of (C * T), Arr.of T) ∧ Tᵀ * T = 1 ∧ IsHess (T⁻¹ * A * T) ∧
      ∀ (i : Fin n) (j : Fin 1), (i : ℕ) ≠ 0 → (T⁻¹ * B) i j = 0 := by
  obtain ⟨T, h1, h2, h3, h4⟩ := hessMatrices_c (form := "c") (by decide) A B C hq hh false
  exact ⟨T, by rw [h4, inv_eq_left_inv h1]; rfl, h1, by rw [inv_eq_left_inv h1]; exact h2, by rw [inv_eq_left_inv h1]; exact h3⟩

/-- **C51**, one output, form `'o'` without `invert`. Missing: several outputs (`C51_multi_input_violated` is the dual) and `invert` (`C51_invert_violated`). -/
theorem C51_matrices_o_partial {N : HessNum K} (A : Matrix (Fin n) (Fin n) K) (B : Matrix (Fin n) (Fin m) K) (C : Matrix (Fin 1) (Fin n) K)
    (hq : QrOk N Cᵀ) (hh : ∀ M : Matrix (Fin n) (Fin n) K, HessOk N M) :
    ∃ T : Matrix (Fin n) (Fin n) K, hessMatrices N "o" false (Arr.of A) (Arr.of B) (Arr.of C) =
      .ok (Arr.of (T⁻¹ * A * T), Arr.of (T⁻¹ * B), Arr.of (C * T), Arr.of T) ∧ Tᵀ * T = 1 ∧ IsHess (T⁻¹ * A * T)ᵀ ∧
      ∀ (i : Fin 1) (j : Fin n), (j : ℕ) ≠ 0 → (C * T) i j = 0 := by
  obtain ⟨T, h1, h2, h3, h4⟩ := hessMatrices_o A B C hq hh false
  exact ⟨T, by rw [h4, inv_eq_left_inv h1]; rfl, h1, by rw [inv_eq_left_inv h1]; exact h2, h3⟩

theorem hess_tf {A : Matrix (Fin n) (Fin n) K} {B : Matrix (Fin n) (Fin m) K} {C : Matrix (Fin p) (Fin n) K} {D : Matrix (Fin p) (Fin m) K}
    {s : L} {M : Matrix (Fin p) (Fin m) L} {T : Matrix (Fin n) (Fin n) K} (hT : Tᵀ * T = 1) (invert : Bool)
    (h : IsTF (A.map (algebraMap K L)) (B.map (algebraMap K L)) (C.map (algebraMap K L)) (D.map (algebraMap K L)) s M) {dt : Option K}
    (hdt : DtOk dt) {X : Arr K × Arr K × Arr K × Arr K}
    (hX : X = if invert then
        (Arr.of ((Tᵀ * A * T).submatrix Fin.rev Fin.rev), Arr.of ((Tᵀ * B).submatrix Fin.rev id), Arr.of ((C * T).submatrix id Fin.rev),
          Arr.of (T.submatrix Fin.rev id))
        else (Arr.of (Tᵀ * A * T), Arr.of (Tᵀ * B), Arr.of (C * T), Arr.of T)) :
    ∃ R, mkState (some X.1) (some X.2.1) (some X.2.2.1) none dt = .ok R ∧ HasTF R p m s (M - D.map (algebraMap K L)) ∧ R.dt = dt := by
  have h0 : IsTF (A.map (algebraMap K L)) (B.map (algebraMap K L)) (C.map (algebraMap K L)) ((0 : Matrix (Fin p) (Fin m) K).map (algebraMap K L)) s
      (M - D.map (algebraMap K L)) := by
    refine ⟨h.1, ?_⟩
    rw [h.2, add_sub_cancel_right, Matrix.map_zero _ (map_zero _), add_zero]
  have h1 := IsTF.similar h0 (T.map (algebraMap K L)) (Tᵀ.map (algebraMap K L)) (by
    rw [← Matrix.map_mul, hT, Matrix.map_one _ (map_zero _) (map_one _)])
  simp only [← Matrix.map_mul] at h1
  have mk : ∀ (A' : Matrix (Fin n) (Fin n) K) (B' : Matrix (Fin n) (Fin m) K) (C' : Matrix (Fin p) (Fin n) K),
      mkState (some (Arr.of A')) (some (Arr.of B')) (some (Arr.of C')) none dt =
        .ok ⟨Arr.of A', Arr.of B', Arr.of C', Arr.of (0 : Matrix (Fin p) (Fin m) K), dt, false⟩ := by
    intro A' B' C'
    simp [mkState, validateState, checkDt_ok hdt, bind, Except.bind, Arr.zeros]
  cases invert
  · simp only [Bool.false_eq_true, if_false] at hX
    subst hX
    exact ⟨_, mk _ _ _, Spec.HasTF.of_dyn h1, rfl⟩
  · simp only [if_true] at hX
    subst hX
    exact ⟨_, mk _ _ _, Spec.HasTF.of_dyn (IsTF.reindex Fin.revPerm h1), rfl⟩

/-- **C51**: for one input in form `'c'` or one output in form `'o'`, with and without `invert`, the returned model has the transfer matrix of the
argument without the feedthrough, and its sampling period. Missing: the feedthrough is dropped (`C51_feedthrough_violated`), several inputs (`C51_multi_input_violated`). -/
theorem C51_transfer_partial {N : HessNum K} {G : StateM K} (hG : G.isgain = false) (hdt : DtOk G.dt) {form : String} {invert : Bool}
    (hq : ∀ B : Matrix (Fin n) (Fin 1) K, QrOk N B) (hh : ∀ M : Matrix (Fin n) (Fin n) K, HessOk N M) (hn : G.a.r = n)
    (h1 : if form = "o" then p = 1 else m = 1) {s : L} {M : Matrix (Fin p) (Fin m) L} (hM : HasTF G p m s M) :
    ∃ (R : StateM K) (T : Arr K) (D : Matrix (Fin p) (Fin m) K), hessSystem N form invert G = .ok (R, T) ∧ G.d = Arr.of D ∧
      HasTF R p m s (M - D.map (algebraMap K L)) ∧ R.dt = G.dt := by
  rcases hM with ⟨hg, -⟩ | ⟨-, n', A, B, C, D, hA, hB, hC, hD, hM⟩
  · rw [hG] at hg; cases hg
  obtain ⟨a, b, c, d, dt, g⟩ := G
  simp only at hG hA hB hC hD hdt hn
  subst hG hA hB hC hD
  simp only [Arr.of_r] at hn
  subst hn
  unfold hessSystem
  simp only
  split_ifs at h1 with hf
  · subst h1 hf
    obtain ⟨T, h2, -, -, h5⟩ := hessMatrices_o A B C (hq _) hh invert
    obtain ⟨R, h6, h7, h8⟩ := hess_tf h2 invert hM hdt rfl
    rw [h5]
    simp only [bind, Except.bind]
    rw [h6]
    exact ⟨R, _, D, rfl, rfl, h7, h8⟩
  · subst h1
    obtain ⟨T, h2, -, -, h5⟩ := hessMatrices_c hf A B C (hq _) hh invert
    obtain ⟨R, h6, h7, h8⟩ := hess_tf h2 invert hM hdt rfl
    rw [h5]
    simp only [bind, Except.bind]
    rw [h6]
    exact ⟨R, _, D, rfl, rfl, h7, h8⟩

theorem HasTF_unique {G : StateM K} {s : L} {M M' : Matrix (Fin p) (Fin m) L} (h : HasTF G p m s M) (h' : HasTF G p m s M') : M = M' := by
  rcases h with ⟨hg, D, hD, rfl⟩ | ⟨hg, n, A, B, C, D, hA, hB, hC, hD, hM⟩ <;>
    rcases h' with ⟨hg', D', hD', rfl⟩ | ⟨hg', n', A', B', C', D', hA', hB', hC', hD', hM'⟩
  · rw [hD, Arr.of_inj] at hD'
    rw [hD']
  · rw [hg] at hg'; cases hg'
  · rw [hg] at hg'; cases hg'
  · obtain rfl : n = n' := congrArg Arr.r (hA.symm.trans hA')
    rw [hA, Arr.of_inj] at hA'
    rw [hB, Arr.of_inj] at hB'
    rw [hC, Arr.of_inj] at hC'
    rw [hD, Arr.of_inj] at hD'
    subst hA' hB' hC' hD'
    exact hM.unique hM'

/-- **C51** fails for the feedthrough: it is dropped, so a model with a nonzero feedthrough changes its transfer matrix at every frequency. -/
theorem C51_feedthrough_violated {N : HessNum K} {G : StateM K} (hG : G.isgain = false) (hdt : DtOk G.dt) {form : String} {invert : Bool}
    (hq : ∀ B : Matrix (Fin n) (Fin 1) K, QrOk N B) (hh : ∀ M : Matrix (Fin n) (Fin n) K, HessOk N M) (hn : G.a.r = n)
    (h1 : if form = "o" then p = 1 else m = 1) {s : L} {M : Matrix (Fin p) (Fin m) L} (hM : HasTF G p m s M) (hD : G.d.any = true) :
    ∃ (R : StateM K) (T : Arr K), hessSystem N form invert G = .ok (R, T) ∧ ¬ HasTF R p m s M := by
  obtain ⟨R, T, D, h2, h3, h4, -⟩ := C51_transfer_partial (invert := invert) hG hdt hq hh hn h1 hM
  refine ⟨R, T, h2, fun h5 => ?_⟩
  have := HasTF_unique h4 h5
  rw [h3, Arr.any_iff] at hD
  obtain ⟨i, j, hij⟩ := hD
  have h6 := congrFun (congrFun this i) j
  simp only [Matrix.sub_apply, Matrix.map_apply, sub_eq_self] at h6
  exact hij ((map_eq_zero _).mp h6)

/-! ## More than one input -/

/-- Model data of the witness. -/
def mA : Matrix (Fin 3) (Fin 3) ℚ := !![0, 0, 0; 3, 0, 0; 4, 0, 0]
def mB : Matrix (Fin 3) (Fin 2) ℚ := !![1, 0; 0, 1; 0, 0]
def mC : Matrix (Fin 1) (Fin 3) ℚ := !![0, 0, 1]
def mH : Matrix (Fin 3) (Fin 3) ℚ := !![0, 0, 0; 5, 0, 0; 0, 0, 0]
def mP : Matrix (Fin 3) (Fin 3) ℚ := !![1, 0, 0; 0, 3 / 5, 4 / 5; 0, 4 / 5, -3 / 5]

def mN : HessNum ℚ := ⟨fun _ => (Arr.of (1 : Matrix (Fin 3) (Fin 3) ℚ), Arr.of mB), fun _ => (Arr.of mH, Arr.of mP)⟩

theorem mN_qr : QrOk mN mB := ⟨1, mB, rfl, by simp, by simp, by
  intro i j h
  fin_cases i <;> fin_cases j <;> simp [mB] at h ⊢⟩

theorem mN_hess : HessOk mN mA := by
  refine ⟨mH, mP, rfl, ?_, ?_, ?_, ?_⟩
  · ext i j
    fin_cases i <;> fin_cases j <;> simp [mP, Matrix.mul_apply, Fin.sum_univ_three] <;> norm_num
  · ext i j
    fin_cases i <;> fin_cases j <;> simp [mP, mH, mA, Matrix.mul_apply, Fin.sum_univ_three] <;> norm_num
  · intro i j h
    fin_cases i <;> fin_cases j <;> simp [mH] at h ⊢
  · intro i j h
    fin_cases i <;> fin_cases j <;> simp [mP] at h ⊢

/-- **C51** fails for two inputs (`bh` is not multiplied by the transformation of the Hessenberg step): a model with the transfer matrix
`[4, 0]` at `s = 1` becomes one with `[4, 4/5]`. -/
theorem C51_multi_input_violated : ∃ (N : HessNum ℚ) (A : Matrix (Fin 3) (Fin 3) ℚ) (B : Matrix (Fin 3) (Fin 2) ℚ) (C : Matrix (Fin 1) (Fin 3) ℚ)
    (R : StateM ℚ) (T : Arr ℚ) (M : Matrix (Fin 1) (Fin 2) ℚ), QrOk N B ∧ (∀ Q R, N.qr (Arr.of B) = (Arr.of Q, R) → HessOk N (Qᵀ * A * Q)) ∧
      hessSystem N "c" false ⟨Arr.of A, Arr.of B, Arr.of C, Arr.of (0 : Matrix (Fin 1) (Fin 2) ℚ), none, false⟩ = .ok (R, T) ∧
      HasTF (⟨Arr.of A, Arr.of B, Arr.of C, Arr.of (0 : Matrix (Fin 1) (Fin 2) ℚ), none, false⟩ : StateM ℚ) 1 2 (1 : ℚ) M ∧
      ¬ HasTF R 1 2 (1 : ℚ) M := by
  have hr : hessSystem mN "c" false ⟨Arr.of mA, Arr.of mB, Arr.of mC, Arr.of (0 : Matrix (Fin 1) (Fin 2) ℚ), none, false⟩ =
      .ok (⟨Arr.of mH, Arr.of mB, Arr.of (mC * (1 : Matrix (Fin 3) (Fin 3) ℚ) * mP), Arr.of (0 : Matrix (Fin 1) (Fin 2) ℚ), none, false⟩, Arr.of ((1 : Matrix (Fin 3) (Fin 3) ℚ) * mP)) := by
    simp [hessSystem, hessMatrices, hessCore, hessInvert, mN, bind, Except.bind, mkState, validateState, checkDt, Arr.zeros]
  have h1 : IsTF mA mB mC 0 (1 : ℚ) !![4, 0] := by
    refine isTF_iff_sol.mpr ⟨?_, !![1, 0; 3, 1; 4, 0], ?_, ?_⟩
    · simp [mA, Matrix.det_fin_three]
    · ext i j
      fin_cases i <;> fin_cases j <;> simp [mA, mB, Matrix.mul_apply, Fin.sum_univ_three]
    · ext i j
      fin_cases i; fin_cases j <;> simp [mC, Matrix.mul_apply, Fin.sum_univ_three]
  have h2 : IsTF mH mB (mC * (1 : Matrix (Fin 3) (Fin 3) ℚ) * mP) 0 (1 : ℚ) !![4, 4 / 5] := by
    refine isTF_iff_sol.mpr ⟨?_, !![1, 0; 5, 1; 0, 0], ?_, ?_⟩
    · simp [mH, Matrix.det_fin_three]
    · ext i j
      fin_cases i <;> fin_cases j <;> simp [mH, mB, Matrix.mul_apply, Fin.sum_univ_three]
    · ext i j
      fin_cases i; fin_cases j <;> simp [mC, mP, Matrix.mul_one, Matrix.mul_apply, Fin.sum_univ_three]
  refine ⟨mN, mA, mB, mC, _, _, !![4, 0], mN_qr, fun Q R h => ?_, hr, ?_, fun h => ?_⟩
  · simp only [mN, Prod.mk.injEq, Arr.of_inj] at h
    rw [← h.1]
    simpa using mN_hess
  · exact Spec.HasTF.of_dyn (by simpa using h1)
  · have h3 := HasTF_unique h (Spec.HasTF.of_dyn (M := !![4, 4 / 5]) (by simpa using h2))
    have := congrFun (congrFun h3 0) 1
    norm_num at this

/-! ## `invert` -/

/-- **C51** fails for `invert=True` with `compute_T`: `flipud(T)` should be `fliplr(T)`. The returned `T` does not transform the input matrix into the
returned one. -/
theorem C51_invert_violated : ∃ (N : HessNum ℚ) (A : Matrix (Fin 2) (Fin 2) ℚ) (B : Matrix (Fin 2) (Fin 1) ℚ) (C : Matrix (Fin 1) (Fin 2) ℚ)
    (a c : Arr ℚ) (b : Matrix (Fin 2) (Fin 1) ℚ) (T : Matrix (Fin 2) (Fin 2) ℚ), QrOk N B ∧ (∀ M : Matrix (Fin 2) (Fin 2) ℚ, HessOk N M) ∧
      hessMatrices N "c" true (Arr.of A) (Arr.of B) (Arr.of C) = .ok (a, Arr.of b, c, Arr.of T) ∧ T⁻¹ * B ≠ b ∧ T * b ≠ B := by
  obtain ⟨Q, hQ⟩ : ∃ Q : Matrix (Fin 2) (Fin 2) ℚ, Q = !![3 / 5, 4 / 5; 4 / 5, -3 / 5] := ⟨_, rfl⟩
  obtain ⟨b, hb⟩ : ∃ b : Matrix (Fin 2) (Fin 1) ℚ, b = !![1; 0] := ⟨_, rfl⟩
  obtain ⟨B, hB⟩ : ∃ b : Matrix (Fin 2) (Fin 1) ℚ, b = !![3 / 5; 4 / 5] := ⟨_, rfl⟩
  have h1 : Qᵀ * Q = 1 := by
    ext i j
    fin_cases i <;> fin_cases j <;> simp [hQ, Matrix.mul_apply, Fin.sum_univ_two] <;> norm_num
  have h2 : B = Q * b := by
    ext i j
    fin_cases i <;> fin_cases j <;> simp [hQ, hb, hB, Matrix.mul_apply, Fin.sum_univ_two]
  have hN : ∀ M : Matrix (Fin 2) (Fin 2) ℚ,
      HessOk (⟨fun _ => (Arr.of Q, Arr.of b), fun x => (x, Arr.eye x.r)⟩ : HessNum ℚ) M := fun M => ⟨M, 1, rfl, by simp, by simp, by
        intro i j h
        fin_cases i <;> fin_cases j <;> simp at h, by
        intro i j h
        fin_cases i <;> fin_cases j <;> simp at h ⊢⟩
  have hq : QrOk (⟨fun _ => (Arr.of Q, Arr.of b), fun x => (x, Arr.eye x.r)⟩ : HessNum ℚ) B := ⟨Q, b, rfl, h1, h2, by
    intro i j h
    fin_cases i <;> fin_cases j <;> simp [hb] at h ⊢⟩
  have h3 : (Q.submatrix Fin.rev id) * (b.submatrix Fin.rev id) ≠ B := by
    intro h
    have := congrFun (congrFun h 0) 0
    simp [hQ, hb, hB, Matrix.mul_apply, Fin.sum_univ_two] at this
    norm_num at this
  have h4 : (Q.submatrix Fin.rev id)ᵀ * (Q.submatrix Fin.rev id) = 1 := by
    ext i j
    fin_cases i <;> fin_cases j <;> simp [hQ, Matrix.mul_apply, Fin.sum_univ_two] <;> norm_num
  obtain ⟨A, hA⟩ : ∃ A : Matrix (Fin 2) (Fin 2) ℚ, A = 1 := ⟨_, rfl⟩
  obtain ⟨C, hC⟩ : ∃ A : Matrix (Fin 1) (Fin 2) ℚ, A = !![1, 1] := ⟨_, rfl⟩
  refine ⟨_, A, B, C, Arr.of ((Qᵀ * A * Q).submatrix Fin.rev Fin.rev), Arr.of ((C * Q).submatrix id Fin.rev), b.submatrix Fin.rev id, Q.submatrix Fin.rev id, hq, hN, ?_, fun h => h3 ?_, h3⟩
  · simp [hessMatrices, hessCore, hessInvert, bind, Except.bind, Arr.flipud_of, Arr.fliplr_of, Arr.eye]
  · rw [← h, ← Matrix.mul_assoc, mul_nonsing_inv _ ((isUnit_iff_isUnit_det _).mp ⟨⟨_, _, mul_eq_one_comm.mp h4, h4⟩, rfl⟩), Matrix.one_mul]

/-! ## Non-vacuity -/

/-- Over the real numbers there are factorisations meeting the contracts for all matrices of all sizes. -/
example : ∃ N : HessNum ℝ, (∀ {n m : ℕ} (B : Matrix (Fin n) (Fin m) ℝ), QrOk N B) ∧ ∀ {n : ℕ} (A : Matrix (Fin n) (Fin n) ℝ), HessOk N A := exists_hessNum

/-- For two states and a first unit vector as input matrix the identity is a valid answer of both factorisations. -/
def idHess : HessNum ℚ := ⟨fun x => (Arr.eye x.r, x), fun x => (x, Arr.eye x.r)⟩

example : QrOk idHess !![2; 0] ∧ ∀ M : Matrix (Fin 2) (Fin 2) ℚ, HessOk idHess M :=
  ⟨⟨1, !![2; 0], rfl, by simp, by simp, by
    intro i j h
    fin_cases i <;> fin_cases j <;> simp at h ⊢⟩, fun M => ⟨M, 1, rfl, by simp, by simp, by
        intro i j h
        fin_cases i <;> fin_cases j <;> simp at h, by
        intro i j h
        fin_cases i <;> fin_cases j <;> simp at h ⊢⟩⟩

end Harold
