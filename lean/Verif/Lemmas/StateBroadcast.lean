import Verif.Lemmas.StateMul
import Mathlib.LinearAlgebra.Matrix.ToLinearEquiv

/-!
# Broadcasting a SISO operand, inverses, indexing
-/

namespace Harold

open Matrix Spec

variable {K L : Type} [Field K] [LinearOrder K] [Field L] [Algebra K L]
variable {G H : StateM K} {p m q k : ℕ} {s : L}

local notation "φ" => algebraMap K L

/-! ### Addition -/

theorem scalar_add_arr (d : Matrix (Fin 1) (Fin 1) K) (S : Matrix (Fin p) (Fin m) K) :
    Arr.add (Arr.of d) (Arr.of S) = .ok (Arr.of (Matrix.of fun i j => d 0 0 + S i j)) := by
  simp only [Arr.add, Arr.bop, bdim_one_left]
  congr 2
  ext i j
  simp [Arr.bget_of, bget_scalar]

/-- `G + X` for `G` not SISO (or static) and `X` of shape `1 × 1`. -/
theorem addSA_oneone_hasTF {M : Matrix (Fin p) (Fin m) L} (h : HasTF G p m s M) (hdt : DtOk G.dt)
    (X : Matrix (Fin 1) (Fin 1) K) (hs : G.isgain = true ∨ ¬ (p = 1 ∧ m = 1)) (fuel : ℕ) :
    ∃ R, G.addSA (fuel + 1) (.ar (Arr.of X)) = .ok R ∧
      HasTF R p m s (Matrix.of fun i j => M i j + φ (X 0 0)) ∧ R.dt = G.dt := by
  cases hg : G.isgain
  · have hs' : ¬ (p = 1 ∧ m = 1) := by simpa [hg] using hs
    obtain ⟨n, A, B, C, D, hA, hB, hC, hD, hT⟩ := dyn_elim h hg
    obtain ⟨R, e, h1, h2, -⟩ := ok_dyn' (p := p) (m := m) (s := s)
      (M := Matrix.of fun i j => M i j + φ (X 0 0))
      (A := A) (B := B) (C := C) (D := Matrix.of fun i j => D i j + X 0 0) hdt rfl (by
        have := hT.add_const (Matrix.of fun _ _ => φ (X 0 0))
        convert this using 1 <;> (ext; simp))
    refine ⟨R, ?_, h1, h2⟩
    simpa [StateM.addSA, hg, siso_of_hasTF h, hs', hA, hB, hC, hD, add_scalarArr, bind,
      Except.bind] using e
  · obtain ⟨D, hD, rfl⟩ := gain_elim h hg
    obtain ⟨R, e, h1, h2, -⟩ := ok_gain (p := p) (m := m) (s := s)
      (D := Matrix.of fun i j => D i j + X 0 0)
      (M := Matrix.of fun i j => D.map φ i j + φ (X 0 0)) hdt rfl (by ext; simp)
    refine ⟨R, ?_, h1, h2⟩
    simpa [StateM.addSA, hg, hD, add_scalarArr, bind, Except.bind] using e

/-- `G + H` with `G` SISO, `H` not SISO, any of them static. -/
theorem add_bcast_left_hasTF {M : Matrix (Fin 1) (Fin 1) L} {N : Matrix (Fin p) (Fin m) L}
    (h : HasTF G 1 1 s M) (h' : HasTF H p m s N)
    (hdt : DtOk G.dt) (he : G.dt = H.dt) (hs : ¬ (p = 1 ∧ m = 1)) (fuel : ℕ) :
    ∃ R, G.add (fuel + 3) H = .ok R ∧ HasTF R p m s (Matrix.of fun i j => M 0 0 + N i j) := by
  cases hg : G.isgain <;> cases hg' : H.isgain
  · exact add_siso_left_hasTF h h' hdt he hg hg' hs fuel
  · obtain ⟨E, hE, rfl⟩ := gain_elim h' hg'
    obtain ⟨R, e, h1, -⟩ := addSA_siso_hasTF h hdt hg E hs fuel
    refine ⟨R, ?_, by simpa using h1⟩
    rw [StateM.add]
    simpa [he, hg, hg', hE] using e
  · obtain ⟨D, hD, rfl⟩ := gain_elim h hg
    obtain ⟨R, e, h1, -⟩ := addSA_oneone_hasTF h' (he ▸ hdt) D (Or.inr hs) (fuel + 1)
    refine ⟨R, ?_, by convert h1 using 1; ext; simp [add_comm]⟩
    rw [StateM.add]
    simpa [he, hg, hg', hD] using e
  · obtain ⟨D, hD, rfl⟩ := gain_elim h hg
    obtain ⟨E, hE, rfl⟩ := gain_elim h' hg'
    obtain ⟨R, e, h1, -⟩ := ok_gain (p := p) (m := m) (s := s)
      (D := Matrix.of fun i j => D 0 0 + E i j)
      (M := Matrix.of fun i j => D.map φ 0 0 + E.map φ i j) hdt rfl (by ext; simp)
    refine ⟨R, ?_, h1⟩
    rw [StateM.add]
    simpa [he, hg, hg', hD, hE, scalar_add_arr, bind, Except.bind] using (he ▸ e)

/-- `G + H` with `H` SISO, `G` not SISO, any of them static. -/
theorem add_bcast_right_hasTF {M : Matrix (Fin p) (Fin m) L} {N : Matrix (Fin 1) (Fin 1) L}
    (h : HasTF G p m s M) (h' : HasTF H 1 1 s N)
    (hdt : DtOk G.dt) (he : G.dt = H.dt) (hs : ¬ (p = 1 ∧ m = 1)) (fuel : ℕ) :
    ∃ R, G.add (fuel + 3) H = .ok R ∧ HasTF R p m s (Matrix.of fun i j => M i j + N 0 0) := by
  cases hg : G.isgain <;> cases hg' : H.isgain
  · exact add_siso_right_hasTF h h' hdt he hg hg' hs fuel
  · obtain ⟨E, hE, rfl⟩ := gain_elim h' hg'
    obtain ⟨R, e, h1, -⟩ := addSA_oneone_hasTF h hdt E (Or.inr hs) (fuel + 1)
    refine ⟨R, ?_, by simpa using h1⟩
    rw [StateM.add]
    simpa [he, hg, hg', hE] using e
  · obtain ⟨D, hD, rfl⟩ := gain_elim h hg
    obtain ⟨R, e, h1, -⟩ := addSA_siso_hasTF h' (he ▸ hdt) hg' D hs fuel
    refine ⟨R, ?_, by convert h1 using 1; ext; simp [add_comm]⟩
    rw [StateM.add]
    simpa [he, hg, hg', hD] using e
  · obtain ⟨D, hD, rfl⟩ := gain_elim h hg
    obtain ⟨E, hE, rfl⟩ := gain_elim h' hg'
    obtain ⟨R, e, h1, -⟩ := ok_gain (p := p) (m := m) (s := s)
      (D := Matrix.of fun i j => D i j + E 0 0)
      (M := Matrix.of fun i j => D.map φ i j + E.map φ 0 0) hdt rfl (by ext; simp)
    refine ⟨R, ?_, h1⟩
    rw [StateM.add]
    simpa [he, hg, hg', hD, hE, add_scalarArr, bind, Except.bind] using (he ▸ e)

/-! ### Multiplication -/

theorem matmul_eye_hasTF {M : Matrix (Fin 1) (Fin 1) L} (h : HasTF G 1 1 s M)
    (hg : G.isgain = false) (hdt : DtOk G.dt) (k : ℕ) :
    ∃ R, G.matmulGain (.arr (Arr.eye k)) = .ok R ∧
      HasTF R k k s (M 0 0 • (1 : Matrix (Fin k) (Fin k) L)) ∧ R.dt = G.dt := by
  obtain ⟨R, e, h1, h2⟩ := sisoArr_hasTF h hg hdt (1 : Matrix (Fin k) (Fin k) K)
  refine ⟨R, ?_, ?_, h2⟩
  · simp only [StateM.matmulGain, StateM.matmulShapeBad, StateM.matmulSA, hg, siso_of_hasTF h, Gain.regular]
    simp only [and_self, decide_true, Bool.not_true, Bool.and_false, Bool.false_eq_true, if_false,
      if_true]
    exact e
  · convert h1 using 1
    ext i j
    by_cases hij : i = j <;> simp [Matrix.one_apply, hij]

/-- `G @ H` with `G` dynamic SISO and `H` dynamic with a number of outputs other than one. -/
theorem matmul_bcast_left_hasTF {M : Matrix (Fin 1) (Fin 1) L} {N : Matrix (Fin p) (Fin m) L}
    (h : HasTF G 1 1 s M) (h' : HasTF H p m s N) (hdt : DtOk G.dt) (he : G.dt = H.dt)
    (hg : G.isgain = false) (hg' : H.isgain = false) (hp : p ≠ 1) (fuel : ℕ) :
    ∃ R, G.matmul (fuel + 2) H = .ok R ∧ HasTF R p m s (M 0 0 • N) ∧ R.dt = G.dt := by
  rw [StateM.matmul]
  have e1 : G.isSISO = true := by simp [siso_of_hasTF h]
  have e2 : H.isSISO = false := by simp [siso_of_hasTF h', hp]
  have e3 : G.m = 1 := h.c_eq
  have e4 : H.p = p := h'.r_eq
  have e5 : H.m = m := h'.c_eq
  simp only [he, ne_eq, not_true_eq_false, if_false, hg, hg', Bool.and_self, Bool.false_eq_true,
    e1, e2, e3, e4, e5, Ne.symm hp, not_false_eq_true, decide_true, Bool.true_bne, Bool.not_false,
    if_true, hp]
  split_ifs with hm hmp
  · subst hm
    obtain ⟨R, e, h1, h2, -⟩ := matmul_hasTF h' h (he ▸ hdt) he.symm fuel
    refine ⟨R, e, ?_, h2⟩
    convert h1 using 1
    ext i j
    fin_cases j
    simp [Matrix.mul_apply]
    exact mul_comm _ _
  · rw [min_eq_right hmp]
    obtain ⟨G', e', h1', h2'⟩ := matmul_eye_hasTF h hg hdt m
    obtain ⟨R, e, h1, h2, -⟩ := matmul_hasTF h' h1' (he ▸ hdt) (he.symm.trans h2'.symm) fuel
    refine ⟨R, by simp only [bind, Except.bind, e', e], ?_, h2⟩
    simpa using h1
  · rw [min_eq_left (by omega)]
    obtain ⟨G', e', h1', h2'⟩ := matmul_eye_hasTF h hg hdt p
    obtain ⟨R, e, h1, h2, -⟩ := matmul_hasTF h1' h' (h2' ▸ hdt) (h2'.trans he) fuel
    refine ⟨R, by simp only [bind, Except.bind, e', e], ?_, by rw [h2, h2', he]⟩
    simpa using h1

/-- `G @ H` with `H` dynamic SISO and `G` dynamic with a number of inputs other than one. -/
theorem matmul_bcast_right_hasTF {M : Matrix (Fin p) (Fin m) L} {N : Matrix (Fin 1) (Fin 1) L}
    (h : HasTF G p m s M) (h' : HasTF H 1 1 s N) (hdt : DtOk G.dt) (he : G.dt = H.dt)
    (hg : G.isgain = false) (hg' : H.isgain = false) (hm : m ≠ 1) (fuel : ℕ) :
    ∃ R, G.matmul (fuel + 2) H = .ok R ∧ HasTF R p m s (N 0 0 • M) ∧ R.dt = G.dt := by
  rw [StateM.matmul]
  have e1 : H.isSISO = true := by simp [siso_of_hasTF h']
  have e2 : G.isSISO = false := by simp [siso_of_hasTF h, hm]
  have e3 : H.p = 1 := h'.r_eq
  have e4 : G.p = p := h.r_eq
  have e5 : G.m = m := h.c_eq
  simp only [he, ne_eq, not_true_eq_false, if_false, hg, hg', Bool.and_self, Bool.false_eq_true,
    e1, e2, e3, e4, e5, hm, not_false_eq_true, decide_true, Bool.bne_true, Bool.not_false,
    if_true]
  split_ifs with hp hmp
  · subst hp
    obtain ⟨R, e, h1, h2, -⟩ := matmul_hasTF h' h (he ▸ hdt) he.symm fuel
    refine ⟨R, e, ?_, h2⟩
    convert h1 using 1
    ext i j
    fin_cases i
    simp [Matrix.mul_apply]
  · rw [min_eq_right hmp]
    obtain ⟨G', e', h1', h2'⟩ := matmul_eye_hasTF h' hg' (he ▸ hdt) m
    obtain ⟨R, e, h1, h2, -⟩ := matmul_hasTF h h1' hdt (he.trans h2'.symm) fuel
    refine ⟨R, by simp only [bind, Except.bind, e', e], ?_, h2.trans he⟩
    simpa using h1
  · rw [min_eq_left (by omega)]
    obtain ⟨G', e', h1', h2'⟩ := matmul_eye_hasTF h' hg' (he ▸ hdt) p
    obtain ⟨R, e, h1, h2, -⟩ := matmul_hasTF h1' h (h2' ▸ (he ▸ hdt)) (h2'.trans he.symm) fuel
    refine ⟨R, by simp only [bind, Except.bind, e', e], ?_, by rw [h2, h2']⟩
    simpa using h1

/-! ### Inverse -/

theorem det_ne_zero_of_not_svBelow [IsStrictOrderedRing K] {n : ℕ} {D : Matrix (Fin n) (Fin n) K}
    {τ : K} (hτ : 0 < τ) (h : ¬ HasSVBelow τ D) : D.det ≠ 0 := by
  intro h0
  obtain ⟨x, hx, hDx⟩ := Matrix.exists_mulVec_eq_zero_iff.mpr h0
  refine h ⟨x, hx, ?_⟩
  rw [hDx]
  simp only [zero_dotProduct]
  refine mul_pos (pow_pos hτ 2) ?_
  obtain ⟨i, hi⟩ := Function.ne_iff.mp hx
  refine Finset.sum_pos' (fun j _ => mul_self_nonneg _) ⟨i, Finset.mem_univ _, ?_⟩
  exact mul_self_pos.mpr hi

theorem invert_hasTF [IsStrictOrderedRing K] (hdt : DtOk G.dt)
    {D : Matrix (Fin m) (Fin m) K} (hD : G.d = Arr.of D) (hsv : ¬ HasSVBelow spacing1 D)
    (hG : G.isgain = true ∨ ∃ (n : ℕ) (A : Matrix (Fin n) (Fin n) K) (B : Matrix (Fin n) (Fin m) K)
      (C : Matrix (Fin m) (Fin n) K), G.a = Arr.of A ∧ G.b = Arr.of B ∧ G.c = Arr.of C) :
    ∃ R, G.invert = .ok R ∧ R.dt = G.dt ∧ R.isgain = G.isgain ∧ R.d = Arr.of D⁻¹ ∧
      (∀ (n : ℕ) (A : Matrix (Fin n) (Fin n) K) (B : Matrix (Fin n) (Fin m) K)
        (C : Matrix (Fin m) (Fin n) K), G.isgain = false →
        G.a = Arr.of A → G.b = Arr.of B → G.c = Arr.of C →
        R.a = Arr.of (A - B * (D⁻¹ * C)) ∧ R.b = Arr.of (B * D⁻¹) ∧ R.c = Arr.of (-(D⁻¹ * C))) := by
  have hdet : D.det ≠ 0 := det_ne_zero_of_not_svBelow (by simp [spacing1]) hsv
  have hdetT : (Dᵀ).det ≠ 0 := by rwa [det_transpose]
  have hT : ((Dᵀ)⁻¹) = (D⁻¹)ᵀ := (Matrix.transpose_nonsing_inv D).symm
  have heye : (Arr.eye m : Arr K) = Arr.of 1 := rfl
  have hsv' : ¬ HasSVBelow spacing1 (D.submatrix id (Fin.cast (rfl : m = m))) := by
    simpa using hsv
  obtain ⟨a, b, c, d, dt, g⟩ := G
  simp only at hD hG hdt
  subst hD
  cases g
  · rcases hG with h0 | ⟨n, A, B, C, rfl, rfl, rfl⟩
    · simp at h0
    refine ⟨⟨Arr.of (A - B * (D⁻¹ * C)), Arr.of (B * D⁻¹), Arr.of (-(D⁻¹ * C)), Arr.of D⁻¹, dt,
      false⟩, ?_, rfl, rfl, rfl, ?_⟩
    · simp only [StateM.invert, Arr.of_r, Arr.of_c, Arr.of_m, dif_pos, if_neg hsv', heye,
        Arr.solve_of, if_neg hdet, Bool.false_eq_true, if_false, bind, Except.bind, Arr.matmul_of,
        Arr.sub_of, Arr.T_of, if_neg hdetT, hT, Arr.neg_of, mul_one, Matrix.transpose_mul,
        Matrix.transpose_transpose]
      exact mkState_of hdt _ _ _ _
    · intro n' A' B' C' _ hA hB hC
      have hn : n = n' := congrArg Arr.r hA
      subst hn
      rw [Arr.of_inj] at hA hB hC
      subst hA hB hC
      exact ⟨rfl, rfl, rfl⟩
  · refine ⟨⟨Arr.empty, Arr.empty, Arr.empty, Arr.of D⁻¹, dt, true⟩, ?_, rfl, rfl, rfl, ?_⟩
    · simp only [StateM.invert, Arr.of_r, Arr.of_c, Arr.of_m, dif_pos, if_neg hsv', heye,
        Arr.solve_of, if_neg hdet, if_true, bind, Except.bind, mul_one]
      simp [mkState, validateState, checkDt_ok hdt, bind, Except.bind]
    · intro n' A' B' C' h0
      simp at h0

end Harold
