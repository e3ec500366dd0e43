import Verif.Lemmas.ToTransfer
import Verif.Props.Transfer

/-!
# C28: `state_to_transfer`
-/

namespace Harold

open Matrix Spec Polynomial

variable {E : TNum ℝ} {N : Numerics ℝ ℂ} {p m n : ℕ}

/-- The dynamic case with the normal form of the result. -/
theorem stateToTransfer_dynamic (hbal : ∀ polys i, E.bal polys i ≠ 0) (hthr : E.lcmTol ≤ 1)
    (hN : EigExact N) (hZ : ZerosExact N) {G : StateM ℝ} (hG : Consistent G p m) (hg : G.isgain = false)
    (hdt : DtOk G.dt) (hp : 0 < p) (hm : 0 < m) :
    ∃ F N' D', stateToTransfer E N G = .ok F ∧ Normal F p m N' D' ∧ F.dt = G.dt ∧
      ∀ {L : Type} [Field L] [Algebra ℝ L] (s : L) (M : Matrix (Fin p) (Fin m) L), HasTF G p m s M → Valued F p m s M := by
  obtain ⟨⟨hr, hc⟩, hG⟩ := hG
  obtain ⟨h1, h2, h3, h4, h5⟩ := hG hg
  obtain ⟨a, b, c, d, dt, g⟩ := G
  simp only at hr hc hg hdt h1 h2 h3 h4 h5
  obtain ⟨n, hn⟩ : ∃ n, a.r = n := ⟨_, rfl⟩
  rw [hn] at h1 h2 h5
  obtain ⟨A, rfl⟩ := Arr.exists_of hn h1.symm
  obtain ⟨B, rfl⟩ := Arr.exists_of h2 h3
  obtain ⟨C, rfl⟩ := Arr.exists_of h4 h5
  obtain ⟨D, rfl⟩ := Arr.exists_of hr hc
  subst hg
  have hent : ∀ (i : Fin p) (j : Fin m), ∃ e, s2tEntry (N.eig (Arr.of A))
      (N.tz (Arr.of A) ((Arr.of B).colAt j) ((Arr.of C).rowAt i) (Arr.zeros 1 1)) (Arr.of A) ((Arr.of B).colAt j)
      ((Arr.of C).rowAt i) ((Arr.of D).bget i j) = .ok e ∧ EntryNormal e ∧
      ∀ {L : Type} [Field L] [Algebra ℝ L] (s : L),
        (s • (1 : Matrix (Fin n) (Fin n) L) - A.map (algebraMap ℝ L)).det ≠ 0 →
        EntryVal s e ((C.map (algebraMap ℝ L) * (s • (1 : Matrix (Fin n) (Fin n) L) - A.map (algebraMap ℝ L))⁻¹
          * B.map (algebraMap ℝ L)) i j + algebraMap ℝ L (D i j)) := by
    intro i j
    obtain ⟨e, he, h1, h2⟩ := s2tEntry_spec (A := A) (b := Matrix.of fun i (_ : Fin 1) => B i j)
      (c := Matrix.of fun (_ : Fin 1) k => C i k) (hN A) (hZ A _ _) (D i j)
    refine ⟨e, by rw [Arr.bget_of]; exact he, h1, ?_⟩
    intro L _ _ s hs
    have := h2 s hs
    convert this using 2
    simp [Matrix.mul_apply]
  choose e he1 he2 he3 using hent
  obtain ⟨F, N', D', hF, hFn, hFdt⟩ := mkEntries_normal (E := E) hbal hthr hp hm (dt := dt) hdt fun i j =>
    ⟨e i j, he1 i j, he2 i j⟩
  refine ⟨F, N', D', by simpa [stateToTransfer] using hF, hFn, hFdt, ?_⟩
  intro L _ _ s M hM
  rcases hM with ⟨h, -⟩ | ⟨-, n', A', B', C', D', e1, e2, e3, e4, hd, rfl⟩
  · cases h
  · simp only at e1 e2 e3 e4
    have hnn : n' = n := (congrArg Arr.r e1).symm
    subst hnn
    rw [Arr.of_inj] at e1 e2 e3 e4
    subst e1 e2 e3 e4
    exact (mkEntries_valued hF fun i j e' h' => by
      rw [he1 i j] at h'
      simp only [Except.ok.injEq] at h'
      subst h'
      exact he3 i j s hd).1

/-- **C28**, dynamic models: given exact eigenvalues and zeros `state_to_transfer` returns a `Transfer` with the sampling period of `G` whose
quotients are the entries of `C(sI-A)⁻¹B + D` at every `s` that is no eigenvalue of `A`. Missing from the full claim: static gains with one
row or column, which are rejected (`C28_row_gain_violated`); the others are in `C28_gain`. -/
theorem C28_dynamic_partial (hbal : ∀ polys i, E.bal polys i ≠ 0) (hthr : E.lcmTol ≤ 1)
    (hN : EigExact N) (hZ : ZerosExact N) {G : StateM ℝ} (hG : Consistent G p m) (hg : G.isgain = false)
    (hdt : DtOk G.dt) (hp : 0 < p) (hm : 0 < m) :
    ∃ F, stateToTransfer E N G = .ok F ∧ F.dt = G.dt ∧
      ∀ {L : Type} [Field L] [Algebra ℝ L] (s : L) (M : Matrix (Fin p) (Fin m) L), HasTF G p m s M → HasVal F p m s M := by
  obtain ⟨F, -, -, h1, -, h2, h3⟩ := stateToTransfer_dynamic hbal hthr hN hZ hG hg hdt hp hm
  exact ⟨F, h1, h2, fun s M hM => (h3 s M hM).1⟩

/-- **C28**, static gains: a result has the value of the gain. -/
theorem C28_gain {G : StateM ℝ} (hG : Consistent G p m) (hg : G.isgain = true) (hp : 0 < p) (hm : 0 < m) {F : TransferM ℝ}
    (h : stateToTransfer E N G = .ok F) {L : Type} [Field L] [Algebra ℝ L] (s : L) (M : Matrix (Fin p) (Fin m) L) (hM : HasTF G p m s M) :
    HasVal F p m s M ∧ F.dt = G.dt := by
  obtain ⟨⟨hr, hc⟩, -⟩ := hG
  rcases hM with ⟨-, D, hD, rfl⟩ | ⟨h', -⟩
  · unfold stateToTransfer at h
    rw [if_pos hg, hD] at h
    obtain ⟨h1, h2⟩ := mkArr_valued hp hm h s
    exact ⟨h1.1, h2⟩
  · rw [hg] at h'; cases h'

/-- Static gains with at least two inputs and two outputs, and scalar gains, are converted. -/
theorem C28_gain_success {D : Matrix (Fin p) (Fin m) ℝ} (hpm : 1 < min p m ∨ (p = 1 ∧ m = 1)) {dt : Option ℝ} (hdt : DtOk dt)
    {a b c : Arr ℝ} : ∃ F, stateToTransfer E N ⟨a, b, c, Arr.of D, dt, true⟩ = .ok F := by
  unfold stateToTransfer
  simp only [if_true]
  rcases hpm with h | ⟨rfl, rfl⟩
  · have hne : ¬ (p = 0 ∨ m = 0) := by omega
    refine ⟨⟨Arr.of (Matrix.of fun i j => [D i j]), constArr p m [1], true, dt⟩, ?_⟩
    unfold mkTransfer validateTransfer
    simp only [regArg, Arr.of_r, Arr.of_c, if_pos h, bind, Except.bind, combineArgs]
    rw [if_neg (by rintro ⟨i, j, hh⟩; simp at hh)]
    simp only [constArr, hne, if_false, Arr.of_r, Arr.of_c, checkDt_ok hdt]
    have h1 : maxSize (Arr.of (Matrix.of fun (_ : Fin p) (_ : Fin m) => [(1 : ℝ)])) = 1 :=
      (maxSize_eq_one (by omega) (by omega) (fun _ _ => by simp)).mpr fun _ _ => rfl
    simp only [h1, decide_true, TransferM.poleMatrix, if_true]
  · refine ⟨⟨constArr 1 1 [D 0 0], constArr 1 1 [1], true, dt⟩, ?_⟩
    unfold mkTransfer validateTransfer
    have hfl : (Arr.of D).flatten = [D 0 0] := by simp [Arr.flatten, List.finRange_succ]
    simp only [regArg, Arr.of_r, Arr.of_c, min_self, lt_irrefl, if_false, bind, Except.bind, combineArgs, hfl]
    simp [constArr, checkDt_ok hdt, TransferM.poleMatrix, maxSize]

/-- The code violates **C28**: the static gain `State([[1, 2]])` is rejected, because `Transfer` reads an array with one row as the
coefficients of a polynomial. -/
theorem C28_row_gain_violated : stateToTransfer E N ⟨Arr.empty, Arr.empty, Arr.empty, Arr.of !![1, 2], none, true⟩ = .error .value := by
  unfold stateToTransfer mkTransfer validateTransfer
  have hfl : (Arr.of (!![1, 2] : Matrix (Fin 1) (Fin 2) ℝ)).flatten = [1, 2] := by simp [Arr.flatten, List.finRange_succ]
  simp only [if_true, regArg, Arr.of_r, Arr.of_c, bind, Except.bind, combineArgs, hfl]
  norm_num

/-- The hypotheses on the numerics are satisfiable: eigenvalues and zeros exist in `ℂ`. -/
theorem exists_exact_numerics : ∃ N : Numerics ℝ ℂ, EigExact N ∧ ZerosExact N := by
  classical
  have hsplit : ∀ q : ℂ[X], q = C q.leadingCoeff * (q.roots.toList.map fun z => X - C z).prod := by
    intro q
    have h := (IsAlgClosed.splits q).eq_prod_roots
    conv_lhs => rw [h]
    congr 1
    rw [← Multiset.prod_coe, ← Multiset.map_coe, Multiset.coe_toList]
  let tz : Arr ℝ → Arr ℝ → Arr ℝ → Arr ℝ → List ℂ := fun a b c _ =>
    if h : a.r = a.c ∧ b.r = a.r ∧ b.c = 1 ∧ c.r = 1 ∧ c.c = a.r then
      ((numPoly (a.m.submatrix id (Fin.cast h.1)) (fun i => b.m (Fin.cast h.2.1.symm i) (Fin.cast h.2.2.1.symm 0))
        (fun i => c.m (Fin.cast h.2.2.2.1.symm 0) (Fin.cast h.2.2.2.2.symm i))).map (algebraMap ℝ ℂ)).roots.toList
    else []
  let eig : Arr ℝ → List ℂ := fun a =>
    if h : a.r = a.c then ((a.m.submatrix id (Fin.cast h)).charpoly.map (algebraMap ℝ ℂ)).roots.toList else []
  refine ⟨⟨eig, tz, fun _ => true, fun _ => true⟩, ?_, ?_⟩
  · intro n A
    have h1 := hsplit (A.charpoly.map (algebraMap ℝ ℂ))
    rw [((charpoly_monic A).map (algebraMap ℝ ℂ)).leadingCoeff, C_1, one_mul] at h1
    simpa [eig] using h1
  · intro n A b c _
    exact ⟨_, by simpa [tz] using hsplit ((numPoly A (fun i => b i 0) (c 0)).map (algebraMap ℝ ℂ))⟩

/-- Non-vacuity of `C28_dynamic_partial`: a model with two states. -/
example : ∃ (N : Numerics ℝ ℂ) (F : TransferM ℝ), EigExact N ∧ ZerosExact N ∧
    stateToTransfer ⟨fun _ _ => 1, 1 / 10 ^ 9, 1 / 10 ^ 14⟩ N ⟨Arr.of !![0, 1; -2, -3], Arr.of !![0; 1], Arr.of !![1, 0; 0, 1], Arr.of !![0; 0], none, false⟩
      = .ok F ∧ F.dt = none := by
  obtain ⟨N, h1, h2⟩ := exists_exact_numerics
  obtain ⟨F, h3, h4, -⟩ := C28_dynamic_partial (E := ⟨fun _ _ => 1, 1 / 10 ^ 9, 1 / 10 ^ 14⟩) (p := 2) (m := 1) (fun _ _ => one_ne_zero) (by norm_num)
    h1 h2 (G := ⟨Arr.of !![0, 1; -2, -3], Arr.of !![0; 1], Arr.of !![1, 0; 0, 1], Arr.of !![0; 0], none, false⟩)
    ⟨⟨rfl, rfl⟩, fun _ => ⟨rfl, rfl, rfl, rfl, rfl⟩⟩ rfl dtOk_none (by norm_num) (by norm_num)
  exact ⟨N, F, h1, h2, h3, h4⟩

end Harold
