import Verif.Lemmas.StateOps

/-!
# The multiplication methods of `State` compute the transfer matrices
-/

namespace Harold

open Matrix Spec
open scoped Kronecker

variable {K L : Type} [Field K] [LinearOrder K] [Field L] [Algebra K L]
variable {G H : StateM K} {p m q k : ℕ} {s : L}

local notation "φ" => algebraMap K L

theorem gain_elim {M : Matrix (Fin p) (Fin m) L} (h : HasTF G p m s M) (hg : G.isgain = true) :
    ∃ D : Matrix (Fin p) (Fin m) K, G.d = Arr.of D ∧ M = D.map φ := by
  rcases h with ⟨_, D, hD, hN⟩ | ⟨h0, _⟩
  · exact ⟨D, hD, hN⟩
  · rw [hg] at h0; simp at h0

theorem dyn_elim {M : Matrix (Fin p) (Fin m) L} (h : HasTF G p m s M) (hg : G.isgain = false) :
    ∃ (n : ℕ) (A : Matrix (Fin n) (Fin n) K) (B : Matrix (Fin n) (Fin m) K)
      (C : Matrix (Fin p) (Fin n) K) (D : Matrix (Fin p) (Fin m) K),
      G.a = Arr.of A ∧ G.b = Arr.of B ∧ G.c = Arr.of C ∧ G.d = Arr.of D ∧
      IsTF (A.map φ) (B.map φ) (C.map φ) (D.map φ) s M := by
  rcases h with ⟨h0, _⟩ | ⟨_, h⟩
  · rw [hg] at h0; simp at h0
  · exact h

theorem siso_of_hasTF {M : Matrix (Fin p) (Fin m) L} (h : HasTF G p m s M) :
    G.isSISO = decide (p = 1 ∧ m = 1) := by simp [StateM.isSISO, h.r_eq, h.c_eq]

theorem series_hasTF {M : Matrix (Fin p) (Fin q) L} {N : Matrix (Fin q) (Fin m) L}
    (h : HasTF G p q s M) (h' : HasTF H q m s N) (hg : G.isgain = false) (hg' : H.isgain = false)
    (hdt : DtOk G.dt) :
    ∃ R, G.series H = .ok R ∧ HasTF R p m s (M * N) ∧ R.dt = G.dt ∧ R.isgain = false ∧
      R.n = G.n + H.n := by
  obtain ⟨n, A, B, C, D, hA, hB, hC, hD, hT⟩ := dyn_elim h hg
  obtain ⟨n', A', B', C', D', hA', hB', hC', hD', hT'⟩ := dyn_elim h' hg'
  have e : G.n + H.n = n + n' := by simp [StateM.n, hA, hA']
  have z : (Arr.zeros n' n : Arr K) = Arr.of 0 := rfl
  rw [e]
  refine ok_dyn (n := n + n') hdt (by
    simp only [StateM.series, hA, hB, hC, hD, hA', hB', hC', hD', Arr.vstack_of, Arr.hstack_of,
      Arr.matmul_of, Arr.of_r, Arr.of_c, z, bind, Except.bind]
    rfl) ?_
  rw [vcat_hcat, vcat_map, hcat_map, blk_map, map_mul', map_mul', map_mul', map_mul',
    Matrix.map_zero _ (map_zero _)]
  exact isTF_series hT hT'

/-! ### SISO times array -/

theorem repDiag_of (k : ℕ) (A : Matrix (Fin p) (Fin m) K) :
    Arr.repDiag k (Arr.of A) = Arr.of (kronM (1 : Matrix (Fin k) (Fin k) K) A) := rfl

theorem kronM_map (A : Matrix (Fin p) (Fin m) K) (B : Matrix (Fin q) (Fin k) K) :
    (kronM A B).map φ = ((A.map φ) ⊗ₖ (B.map φ)).submatrix finProdFinEquiv.symm finProdFinEquiv.symm
    := by
  ext i j; simp [kronM]

/-- wide case -/
theorem sisoWide {n : ℕ} {A : Matrix (Fin n) (Fin n) K} {B : Matrix (Fin n) (Fin 1) K}
    {C : Matrix (Fin 1) (Fin n) K} {D : Matrix (Fin 1) (Fin 1) K} {dt : Option K} (hdt : DtOk dt)
    {M : Matrix (Fin 1) (Fin 1) L} (hT : IsTF (A.map φ) (B.map φ) (C.map φ) (D.map φ) s M)
    (S : Matrix (Fin p) (Fin m) K) :
    ∃ R, mkState (some (Arr.repDiag p (Arr.of A))) (some (Arr.kron (Arr.of S) (Arr.of B)))
        (some (Arr.repDiag p (Arr.of C))) (some (Arr.of (Matrix.of fun i j => S i j * D 0 0))) dt
        = .ok R ∧
      HasTF R p m s (Matrix.of fun i j => φ (S i j) * M 0 0) ∧ R.dt = dt ∧ R.isgain = false := by
  rw [repDiag_of, repDiag_of, Arr.kron_of, Arr.of_cast rfl (mul_one m).symm (kronM S B),
    Arr.of_cast (mul_one p).symm rfl (kronM 1 C)]
  refine ok_dyn' hdt rfl ?_
  have h1 := ((hT.kron_right (S.map φ)).submatrix (fun i : Fin p => (i, (0 : Fin 1)))
    (fun j : Fin m => (j, (0 : Fin 1)))).reindex (finProdFinEquiv (m := p) (n := n)).symm
  convert h1 using 1
  · rw [kronM_map]; congr 2; ext; simp [Matrix.one_apply]
  · ext i j; simp only [Matrix.map_apply, submatrix_apply, kronM, kroneckerMap_apply,
      finProdFinEquiv_symm_cast_one, map_mul, id, Fin.cast_eq_self]
  · ext i j
    simp only [Matrix.map_apply, submatrix_apply, kronM, kroneckerMap_apply,
      finProdFinEquiv_symm_cast_one, map_mul, id, Fin.cast_eq_self]
    simp [Matrix.one_apply]
  · ext i j; simp
  · ext i j; simp

/-- tall case -/
theorem sisoTall {n : ℕ} {A : Matrix (Fin n) (Fin n) K} {B : Matrix (Fin n) (Fin 1) K}
    {C : Matrix (Fin 1) (Fin n) K} {D : Matrix (Fin 1) (Fin 1) K} {dt : Option K} (hdt : DtOk dt)
    {M : Matrix (Fin 1) (Fin 1) L} (hT : IsTF (A.map φ) (B.map φ) (C.map φ) (D.map φ) s M)
    (S : Matrix (Fin p) (Fin m) K) :
    ∃ R, mkState (some (Arr.repDiag m (Arr.of A))) (some (Arr.repDiag m (Arr.of B)))
        (some (Arr.kron (Arr.of S) (Arr.of C))) (some (Arr.of (Matrix.of fun i j => S i j * D 0 0)))
        dt = .ok R ∧
      HasTF R p m s (Matrix.of fun i j => φ (S i j) * M 0 0) ∧ R.dt = dt ∧ R.isgain = false := by
  rw [repDiag_of, repDiag_of, Arr.kron_of, Arr.of_cast rfl (mul_one m).symm (kronM 1 B),
    Arr.of_cast (mul_one p).symm rfl (kronM S C)]
  refine ok_dyn' hdt rfl ?_
  have h1 := ((hT.kron_left (S.map φ)).submatrix (fun i : Fin p => (i, (0 : Fin 1)))
    (fun j : Fin m => (j, (0 : Fin 1)))).reindex (finProdFinEquiv (m := m) (n := n)).symm
  convert h1 using 1
  · rw [kronM_map]; congr 2; ext; simp [Matrix.one_apply]
  · ext i j
    simp only [Matrix.map_apply, submatrix_apply, kronM, kroneckerMap_apply,
      finProdFinEquiv_symm_cast_one, map_mul, id, Fin.cast_eq_self]
    simp [Matrix.one_apply]
  · ext i j; simp only [Matrix.map_apply, submatrix_apply, kronM, kroneckerMap_apply,
      finProdFinEquiv_symm_cast_one, map_mul, id, Fin.cast_eq_self]
  · ext i j; simp
  · ext i j; simp

theorem sisoTimesArr_hasTF {M : Matrix (Fin 1) (Fin 1) L} (h : HasTF G 1 1 s M)
    (hg : G.isgain = false) (hdt : DtOk G.dt) (S : Matrix (Fin p) (Fin m) K) :
    ∃ R, G.sisoTimesArr (Arr.of S) = .ok R ∧
      HasTF R p m s (Matrix.of fun i j => φ (S i j) * M 0 0) ∧ R.dt = G.dt ∧ R.isgain = false := by
  obtain ⟨n, A, B, C, D, hA, hB, hC, hD, hT⟩ := dyn_elim h hg
  by_cases hmp : m < p
  · obtain ⟨R, e, hR⟩ := sisoTall hdt hT S
    refine ⟨R, ?_, hR⟩
    simp only [StateM.sisoTimesArr, hA, hB, hC, hD, mul_scalar, bind, Except.bind, Arr.of_r,
      Arr.of_c, if_pos hmp, min_eq_right hmp.le]
    exact e
  · obtain ⟨R, e, hR⟩ := sisoWide hdt hT S
    refine ⟨R, ?_, hR⟩
    simp only [StateM.sisoTimesArr, hA, hB, hC, hD, mul_scalar, bind, Except.bind, Arr.of_r,
      Arr.of_c, if_neg hmp, min_eq_left (not_lt.mp hmp)]
    exact e

/-- SISO dynamic model times any array (the zero array gives a static zero). -/
theorem sisoArr_hasTF {M : Matrix (Fin 1) (Fin 1) L} (h : HasTF G 1 1 s M)
    (hg : G.isgain = false) (hdt : DtOk G.dt) (S : Matrix (Fin p) (Fin m) K) :
    ∃ R, (if (Arr.of S).any then G.sisoTimesArr (Arr.of S) else mkGain (Arr.zeros p m) G.dt)
        = .ok R ∧
      HasTF R p m s (Matrix.of fun i j => φ (S i j) * M 0 0) ∧ R.dt = G.dt := by
  by_cases hS : (Arr.of S).any = true
  · obtain ⟨R, e, h1, h2, -⟩ := sisoTimesArr_hasTF h hg hdt S
    exact ⟨R, by rw [if_pos hS, e], h1, h2⟩
  · have hz : S = 0 := by
      ext i j
      by_contra hne
      exact hS ((Arr.any_iff _).mpr ⟨i, j, hne⟩)
    obtain ⟨R, e, h1, h2, -⟩ := ok_gain (p := p) (m := m) (s := s) (D := (0 : Matrix _ _ K))
      (M := Matrix.of fun i j => φ (S i j) * M 0 0) hdt rfl (by ext; simp [hz])
    exact ⟨R, by rw [if_neg hS]; exact e, h1, h2⟩

/-! ### Scalars and arrays -/

theorem map_smul' (x : K) (D : Matrix (Fin p) (Fin m) K) : (x • D).map φ = φ x • D.map φ := by
  ext; simp

/-- `k @ G`. -/
theorem rmatmul_scalar_hasTF {M : Matrix (Fin p) (Fin m) L} (h : HasTF G p m s M)
    (hdt : DtOk G.dt) (x : K) :
    ∃ R, StateM.rmatmulGain (.scalar x) G = .ok R ∧ HasTF R p m s (φ x • M) ∧ R.dt = G.dt := by
  cases hg : G.isgain
  · obtain ⟨n, A, B, C, D, hA, hB, hC, hD, hT⟩ := dyn_elim h hg
    have hgen : ∃ R, mkState (some (Arr.of A)) (some (Arr.of B)) (some (Arr.of (x • C)))
        (some (Arr.of (x • D))) G.dt = .ok R ∧ HasTF R p m s (φ x • M) ∧ R.dt = G.dt := by
      obtain ⟨R, e, h1, h2, -⟩ := ok_dyn' (p := p) (m := m) (s := s) (M := φ x • M)
        (C := x • C) (D := x • D) (B := B) (A := A) hdt rfl (by
        rw [map_smul', map_smul']
        have := hT.mul_left (φ x • (1 : Matrix (Fin p) (Fin p) L))
        simpa using this)
      exact ⟨R, e, h1, h2⟩
    have hz : x = 0 → ∃ R, mkGain (Arr.of (0 : Matrix (Fin p) (Fin m) K)) G.dt = .ok R ∧
        HasTF R p m s (φ x • M) ∧ R.dt = G.dt := by
      rintro rfl
      obtain ⟨R, e, h1, h2, -⟩ := ok_gain (p := p) (m := m) (s := s) (D := (0 : Matrix _ _ K))
        (M := φ 0 • M) hdt rfl (by ext; simp)
      exact ⟨R, e, h1, h2⟩
    simp only [StateM.rmatmulGain, hg, Bool.false_eq_true, if_false, siso_of_hasTF h,
      decide_eq_true_eq, hA, hB, hC, hD, Arr.smul_of]
    by_cases h1 : p = 1 ∧ m = 1
    · by_cases hx : x = 0
      · obtain ⟨rfl, rfl⟩ := h1
        simp only [and_self, if_true, hx]
        rw [← hx]
        have : (Arr.scalar x : Arr K) = Arr.of (0 : Matrix (Fin 1) (Fin 1) K) := by
          rw [hx]; rfl
        rw [this]
        exact hz hx
      · simp only [h1, hx, if_false, if_true, and_self]; exact hgen
    · simp only [h1, if_false]; exact hgen
  · obtain ⟨D, hD, rfl⟩ := gain_elim h hg
    obtain ⟨R, e, h1, h2, -⟩ := ok_gain (p := p) (m := m) (s := s) (D := x • D)
        (M := φ x • D.map φ) hdt rfl (map_smul' x D).symm
    refine ⟨R, ?_, h1, h2⟩
    simp only [StateM.rmatmulGain, hg, if_true, hD, Arr.smul_of]
    exact e

/-- `G @ k` for dynamic `G`. -/
theorem matmul_scalar_hasTF {M : Matrix (Fin p) (Fin m) L} (h : HasTF G p m s M)
    (hg : G.isgain = false) (hdt : DtOk G.dt) (x : K) :
    ∃ R, G.matmulGain (.scalar x) = .ok R ∧ HasTF R p m s (φ x • M) ∧ R.dt = G.dt := by
  obtain ⟨n, A, B, C, D, hA, hB, hC, hD, hT⟩ := dyn_elim h hg
  have hgen : ∃ R, mkState (some (Arr.of A)) (some (Arr.of (x • B))) (some (Arr.of C))
      (some (Arr.of (x • D))) G.dt = .ok R ∧ HasTF R p m s (φ x • M) ∧ R.dt = G.dt := by
    obtain ⟨R, e, h1, h2, -⟩ := ok_dyn' (p := p) (m := m) (s := s) (M := φ x • M)
      (C := C) (D := x • D) (B := x • B) (A := A) hdt rfl (by
      rw [map_smul', map_smul']
      have := hT.mul_right (φ x • (1 : Matrix (Fin m) (Fin m) L))
      simpa using this)
    exact ⟨R, e, h1, h2⟩
  simp only [StateM.matmulGain, StateM.matmulShapeBad, StateM.matmulSA, hg, Bool.false_eq_true, if_false, siso_of_hasTF h,
    decide_eq_true_eq, hA, hB, hC, hD, Arr.smul_of, Gain.regular]
  by_cases h1 : p = 1 ∧ m = 1
  · by_cases hx : x = 0
    · obtain ⟨rfl, rfl⟩ := h1
      simp only [and_self, if_true, hx]
      obtain ⟨R, e, h1, h2, -⟩ := ok_gain (p := 1) (m := 1) (s := s) (D := (0 : Matrix _ _ K))
        (M := φ 0 • M) hdt rfl (by ext; simp)
      exact ⟨R, e, h1, h2⟩
    · simp only [h1, hx, if_false, if_true, and_self]; exact hgen
  · simp only [h1, if_false]; exact hgen

/-- `G @ X` for an array `X` with as many rows as `G` has inputs. -/
theorem matmul_arr_hasTF {M : Matrix (Fin p) (Fin q) L} (h : HasTF G p q s M)
    (hdt : DtOk G.dt) (X : Matrix (Fin q) (Fin m) K) :
    ∃ R, G.matmulGain (.arr (Arr.of X)) = .ok R ∧ HasTF R p m s (M * X.map φ) ∧ R.dt = G.dt := by
  have hm : G.m = q := h.c_eq
  cases hg : G.isgain
  · by_cases h1 : p = 1 ∧ q = 1
    · obtain ⟨rfl, rfl⟩ := h1
      obtain ⟨R, e, h1, h2⟩ := sisoArr_hasTF h hg hdt X
      refine ⟨R, ?_, ?_, h2⟩
      · simp only [StateM.matmulGain, StateM.matmulShapeBad, StateM.matmulSA, hm, hg, siso_of_hasTF h, Gain.regular]
        simpa using e
      · convert h1 using 1
        ext i j
        fin_cases i
        simp [Matrix.mul_apply, mul_comm]
    · obtain ⟨n, A, B, C, D, hA, hB, hC, hD, hT⟩ := dyn_elim h hg
      obtain ⟨R, e, h2, h3, -⟩ := ok_dyn' (p := p) (m := m) (s := s) (M := M * X.map φ)
        (C := C) (D := D * X) (B := B * X) (A := A) hdt rfl (by
        rw [map_mul', map_mul']; exact hT.mul_right _)
      refine ⟨R, ?_, h2, h3⟩
      simp only [StateM.matmulGain, StateM.matmulShapeBad, StateM.matmulSA, hm, hg, siso_of_hasTF h, Gain.regular, hA, hB, hC, hD,
        Arr.matmul_of, bind, Except.bind, h1]
      simpa using e
  · obtain ⟨D, hD, rfl⟩ := gain_elim h hg
    obtain ⟨R, e, h1, h2, -⟩ := ok_gain (p := p) (m := m) (s := s) (D := D * X)
        (M := D.map φ * X.map φ) hdt rfl (map_mul' _ _).symm
    refine ⟨R, ?_, h1, h2⟩
    simp only [StateM.matmulGain, StateM.matmulShapeBad, StateM.matmulSA, hm, hg, if_true, hD, Arr.matmul_of, Gain.regular]
    simpa using e

/-- `X @ G` for an array `X` with as many columns as `G` has outputs. -/
theorem rmatmul_arr_hasTF {M : Matrix (Fin q) (Fin m) L} (h : HasTF G q m s M)
    (hdt : DtOk G.dt) (X : Matrix (Fin p) (Fin q) K) :
    ∃ R, StateM.rmatmulGain (.arr (Arr.of X)) G = .ok R ∧ HasTF R p m s (X.map φ * M) ∧
      R.dt = G.dt := by
  have hp : G.p = q := h.r_eq
  cases hg : G.isgain
  · by_cases h1 : q = 1 ∧ m = 1
    · obtain ⟨rfl, rfl⟩ := h1
      obtain ⟨R, e, h1, h2⟩ := sisoArr_hasTF h hg hdt X
      refine ⟨R, ?_, ?_, h2⟩
      · simp only [StateM.rmatmulGain, hp, hg, siso_of_hasTF h]
        simpa using e
      · convert h1 using 1
        ext i j
        fin_cases j
        simp [Matrix.mul_apply]
    · obtain ⟨n, A, B, C, D, hA, hB, hC, hD, hT⟩ := dyn_elim h hg
      obtain ⟨R, e, h2, h3, -⟩ := ok_dyn' (p := p) (m := m) (s := s) (M := X.map φ * M)
        (C := X * C) (D := X * D) (B := B) (A := A) hdt rfl (by
        rw [map_mul', map_mul']; exact hT.mul_left _)
      refine ⟨R, ?_, h2, h3⟩
      simp only [StateM.rmatmulGain, hp, hg, siso_of_hasTF h, hA, hB, hC, hD,
        Arr.matmul_of, bind, Except.bind, h1]
      simpa using e
  · obtain ⟨D, hD, rfl⟩ := gain_elim h hg
    obtain ⟨R, e, h1, h2, -⟩ := ok_gain (p := p) (m := m) (s := s) (D := X * D)
        (M := X.map φ * D.map φ) hdt rfl (map_mul' _ _).symm
    refine ⟨R, ?_, h1, h2⟩
    simp only [StateM.rmatmulGain, hp, hg, if_true, hD, Arr.matmul_of]
    simpa using e

/-! ### `G @ H` -/

theorem matmul_hasTF {M : Matrix (Fin p) (Fin q) L} {N : Matrix (Fin q) (Fin m) L}
    (h : HasTF G p q s M) (h' : HasTF H q m s N) (hdt : DtOk G.dt) (he : G.dt = H.dt) (fuel : ℕ) :
    ∃ R, G.matmul (fuel + 1) H = .ok R ∧ HasTF R p m s (M * N) ∧ R.dt = G.dt ∧
      (G.isgain = false → H.isgain = false → R.n = G.n + H.n) := by
  rw [StateM.matmul]
  have hm : G.m = q := h.c_eq
  have hp : H.p = q := h'.r_eq
  cases hg : G.isgain <;> cases hg' : H.isgain
  · obtain ⟨R, e, h1, h2, -, h3⟩ := series_hasTF h h' hg hg' hdt
    refine ⟨R, ?_, h1, h2, fun _ _ => h3⟩
    simpa [he, hm, hp] using e
  · obtain ⟨D, hD, rfl⟩ := gain_elim h' hg'
    simp only [he, ne_eq, not_true_eq_false, if_false, Bool.and_true, Bool.false_eq_true, if_true,
      siso_of_hasTF h', decide_eq_true_eq, reduceCtorEq, IsEmpty.forall_iff, implies_true, and_true]
    rw [← he]
    split_ifs with h1
    · obtain ⟨rfl, rfl⟩ := h1
      obtain ⟨R, e, h1, h2⟩ := matmul_scalar_hasTF h hg hdt (D 0 0)
      refine ⟨R, by rw [hD, bget_scalar]; exact e, ?_, h2⟩
      convert h1 using 1
      ext i j
      fin_cases j
      simp [Matrix.mul_apply, mul_comm]
    · rw [hD]; exact matmul_arr_hasTF h hdt D
  · obtain ⟨D, hD, rfl⟩ := gain_elim h hg
    simp only [he, ne_eq, not_true_eq_false, if_false, Bool.and_false, Bool.false_eq_true, if_true,
      siso_of_hasTF h, decide_eq_true_eq, reduceCtorEq, IsEmpty.forall_iff, and_true]
    split_ifs with h1
    · obtain ⟨rfl, rfl⟩ := h1
      obtain ⟨R, e, h1, h2⟩ := rmatmul_scalar_hasTF h' (he ▸ hdt) (D 0 0)
      refine ⟨R, by rw [hD, bget_scalar]; exact e, ?_, h2⟩
      convert h1 using 1
      ext i j
      fin_cases i
      simp [Matrix.mul_apply]
    · rw [hD]; exact rmatmul_arr_hasTF h' (he ▸ hdt) D
  · obtain ⟨D, hD, rfl⟩ := gain_elim h hg
    obtain ⟨E, hE, rfl⟩ := gain_elim h' hg'
    obtain ⟨R, e, h1, h2, -⟩ := ok_gain (p := p) (m := m) (s := s) (D := D * E)
        (M := D.map φ * E.map φ) hdt rfl (map_mul' _ _).symm
    refine ⟨R, ?_, h1, h2, by simp⟩
    rw [he] at e
    simpa [he, hD, hE, bind, Except.bind] using e

end Harold
