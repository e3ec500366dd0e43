import Verif.Lemmas.StateTF

/-!
# The arithmetic methods of `State` compute the transfer matrices
-/

namespace Harold

open Matrix Spec

variable {K L : Type} [Field K] [LinearOrder K] [Field L] [Algebra K L]
variable {G H : StateM K} {p m q k : ℕ} {s : L}

local notation "φ" => algebraMap K L

theorem isSISO_of {a b c : Arr K} {D : Matrix (Fin p) (Fin m) K} {dt : Option K} {g : Bool} :
    (⟨a, b, c, Arr.of D, dt, g⟩ : StateM K).isSISO = decide (p = 1 ∧ m = 1) := rfl

theorem map_neg' (D : Matrix (Fin p) (Fin m) K) : (-D).map φ = -(D.map φ) := by
  ext; simp

theorem map_add' (D E : Matrix (Fin p) (Fin m) K) : (D + E).map φ = D.map φ + E.map φ := by
  ext; simp

theorem map_sub' (D E : Matrix (Fin p) (Fin m) K) : (D - E).map φ = D.map φ - E.map φ := by
  ext; simp

theorem map_mul' (D : Matrix (Fin p) (Fin k) K) (E : Matrix (Fin k) (Fin m) K) :
    (D * E).map φ = D.map φ * E.map φ := Matrix.map_mul

theorem ok_gain {x : Res (StateM K)} {dt : Option K} (hdt : DtOk dt) {D : Matrix (Fin p) (Fin m) K}
    {M : Matrix (Fin p) (Fin m) L} (e : x = mkGain (Arr.of D) dt) (hM : M = D.map φ) :
    ∃ R, x = .ok R ∧ HasTF R p m s M ∧ R.dt = dt ∧ R.isgain = true :=
  ⟨_, e.trans (mkGain_of hdt _), hM ▸ HasTF.of_gain, rfl, rfl⟩

theorem ok_dyn {x : Res (StateM K)} {dt : Option K} (hdt : DtOk dt) {n : ℕ}
    {A : Matrix (Fin n) (Fin n) K} {B : Matrix (Fin n) (Fin m) K}
    {C : Matrix (Fin p) (Fin n) K} {D : Matrix (Fin p) (Fin m) K} {M : Matrix (Fin p) (Fin m) L}
    (e : x = mkState (some (Arr.of A)) (some (Arr.of B)) (some (Arr.of C)) (some (Arr.of D)) dt)
    (h : IsTF (A.map φ) (B.map φ) (C.map φ) (D.map φ) s M) :
    ∃ R, x = .ok R ∧ HasTF R p m s M ∧ R.dt = dt ∧ R.isgain = false ∧ R.n = n :=
  ⟨_, e.trans (mkState_of hdt A B C D), HasTF.of_dyn h, rfl, rfl, rfl⟩

theorem ok_dyn' {x : Res (StateM K)} {dt : Option K} (hdt : DtOk dt) {n : ℕ}
    {A : Matrix (Fin n) (Fin n) K} {B : Matrix (Fin n) (Fin m) K}
    {C : Matrix (Fin p) (Fin n) K} {D : Matrix (Fin p) (Fin m) K} {M : Matrix (Fin p) (Fin m) L}
    (e : x = mkState (some (Arr.of A)) (some (Arr.of B)) (some (Arr.of C)) (some (Arr.of D)) dt)
    (h : IsTF (A.map φ) (B.map φ) (C.map φ) (D.map φ) s M) :
    ∃ R, x = .ok R ∧ HasTF R p m s M ∧ R.dt = dt ∧ R.isgain = false :=
  ⟨_, e.trans (mkState_of hdt A B C D), HasTF.of_dyn h, rfl, rfl⟩

theorem addScalar_of (D : Matrix (Fin p) (Fin m) K) (x : K) :
    (Arr.of D).addScalar x = Arr.of (D + Matrix.of fun _ _ => x) := rfl

theorem neg_hasTF {M : Matrix (Fin p) (Fin m) L} (h : HasTF G p m s M) (hdt : DtOk G.dt) :
    ∃ R, G.neg = .ok R ∧ HasTF R p m s (-M) ∧ R.dt = G.dt ∧ R.isgain = G.isgain := by
  refine Spec.HasTF.elim (motive := fun G M => DtOk G.dt →
    ∃ R, G.neg = .ok R ∧ HasTF R p m s (-M) ∧ R.dt = G.dt ∧ R.isgain = G.isgain) h ?_ ?_ hdt
  · intro a b c D dt hdt
    exact ok_gain hdt (by simp only [StateM.neg, if_true, Arr.neg_of]) (map_neg' D).symm
  · intro n A B C D dt M hT hdt
    refine ok_dyn' hdt (by
      simp only [StateM.neg, Arr.neg_of, Bool.false_eq_true, if_false]; rfl) ?_
    rw [map_neg', map_neg']
    exact hT.neg

theorem parallel_hasTF {M N : Matrix (Fin p) (Fin m) L} (h : HasTF G p m s M)
    (h' : HasTF H p m s N) (hg : G.isgain = false) (hg' : H.isgain = false) :
    ∃ R, G.parallel H = .ok R ∧ HasTF R p m s (M + N) ∧ R.dt = none ∧ R.isgain = false ∧
      R.n = G.n + H.n := by
  refine Spec.HasTF.elim (motive := fun G M => G.isgain = false →
    ∃ R, G.parallel H = .ok R ∧ HasTF R p m s (M + N) ∧ R.dt = none ∧ R.isgain = false ∧
      R.n = G.n + H.n) h
      (fun _ _ _ _ _ h => by simp at h) ?_ hg
  intro n A B C D dt M hT _
  refine Spec.HasTF.elim (motive := fun H N => H.isgain = false →
    ∃ R, StateM.parallel _ H = .ok R ∧ HasTF R p m s (M + N) ∧ R.dt = none ∧ R.isgain = false ∧
      R.n = _ + H.n) h'
      (fun _ _ _ _ _ h => by simp at h) ?_ hg'
  intro n' A' B' C' D' dt' M' hT' _
  have hnone : DtOk (none : Option K) := fun t h => by simp at h
  refine ok_dyn (n := n + n') hnone (by
    simp only [StateM.parallel, Arr.vstack_of, Arr.hstack_of, Arr.add_of, Arr.blockDiag_of,
      bind, Except.bind]
    rfl) ?_
  rw [vcat_map, hcat_map, blk_map, map_add', Matrix.map_zero _ (map_zero _),
    Matrix.map_zero _ (map_zero _)]
  exact isTF_parallel hT hT'

theorem broadcast_hasTF {M : Matrix (Fin 1) (Fin 1) L} (h : HasTF G 1 1 s M)
    (hg : G.isgain = false) {dt : Option K} (hdt : DtOk dt) (p m : ℕ) :
    ∃ R, G.broadcast p m dt = .ok R ∧ HasTF R p m s (Matrix.of fun _ _ => M 0 0) ∧ R.dt = dt ∧
      R.isgain = false ∧ R.n = G.n := by
  refine Spec.HasTF.elim (motive := fun G M => G.isgain = false →
    ∃ R, G.broadcast p m dt = .ok R ∧ HasTF R p m s (Matrix.of fun _ _ => M 0 0) ∧ R.dt = dt ∧
      R.isgain = false ∧ R.n = G.n) h
      (fun _ _ _ _ _ h => by simp at h) ?_ hg
  intro n A B C D _ M hT _
  have h1 : (Arr.ones p m : Arr K) = Arr.of (Matrix.of fun _ _ => 1) := rfl
  refine ok_dyn (n := n) hdt (by
    simp only [StateM.broadcast, kron_ones_row, kron_ones_col, h1, mul_scalar, bind, Except.bind]
    rfl) ?_
  have := hT.submatrix (fun _ : Fin p => 0) (fun _ : Fin m => 0)
  convert this using 1 <;> (ext; simp)

/-- `G + X` for an array `X` of the shape of `G`; the SISO dynamic case is excluded. -/
theorem addSA_hasTF {M : Matrix (Fin p) (Fin m) L} (h : HasTF G p m s M) (hdt : DtOk G.dt)
    (X : Matrix (Fin p) (Fin m) K) (hs : G.isgain = true ∨ ¬ (p = 1 ∧ m = 1)) (fuel : ℕ) :
    ∃ R, G.addSA (fuel + 1) (.ar (Arr.of X)) = .ok R ∧ HasTF R p m s (M + X.map φ) ∧
      R.dt = G.dt ∧ R.isgain = G.isgain := by
  refine Spec.HasTF.elim (motive := fun G M => DtOk G.dt → (G.isgain = true ∨ ¬ (p = 1 ∧ m = 1)) →
    ∃ R, G.addSA (fuel + 1) (.ar (Arr.of X)) = .ok R ∧ HasTF R p m s (M + X.map φ) ∧
      R.dt = G.dt ∧ R.isgain = G.isgain) h ?_ ?_ hdt hs
  · intro a b c D dt hdt _
    exact ok_gain hdt (by
      simp only [StateM.addSA, if_true, Arr.add_of, bind, Except.bind]) (map_add' _ _).symm
  · intro n A B C D dt M hT hdt hs
    replace hs : ¬ (p = 1 ∧ m = 1) := by simpa using hs
    refine ok_dyn' hdt (by
      simp only [StateM.addSA, isSISO_of, decide_eq_true_eq, hs, Arr.add_of, bind, Except.bind,
        Bool.false_eq_true, if_false]; rfl) ?_
    rw [map_add']
    exact hT.add_const _

/-- `G + k` for a scalar `k` adds `k` to every entry. -/
theorem addSA_scalar_hasTF {M : Matrix (Fin p) (Fin m) L} (h : HasTF G p m s M) (hdt : DtOk G.dt)
    (x : K) (fuel : ℕ) :
    ∃ R, G.addSA (fuel + 1) (.sc x) = .ok R ∧
      HasTF R p m s (Matrix.of fun i j => M i j + φ x) ∧
      R.dt = G.dt ∧ R.isgain = G.isgain := by
  refine Spec.HasTF.elim (motive := fun G M => DtOk G.dt → 
    ∃ R, G.addSA (fuel + 1) (.sc x) = .ok R ∧ HasTF R p m s (Matrix.of fun i j => M i j + φ x) ∧
      R.dt = G.dt ∧ R.isgain = G.isgain) h ?_ ?_ hdt
  · intro a b c D dt hdt
    have e : (Matrix.of fun i j => D.map φ i j + φ x)
        = (D + Matrix.of fun _ _ => x).map φ := by ext; simp
    exact ok_gain hdt (by simp only [StateM.addSA, if_true, addScalar_of]) e
  · intro n A B C D dt M hT hdt
    have e : (Matrix.of fun i j => M i j + φ x)
        = M + (Matrix.of fun (_ : Fin p) (_ : Fin m) => x).map φ := by ext; simp
    refine ok_dyn' hdt (by
      simp only [StateM.addSA, Bool.false_eq_true, if_false, ite_self, addScalar_of]; rfl) ?_
    rw [e, map_add']
    exact hT.add_const _

/-- `G + X` for dynamic SISO `G` and an array `X` that is not `1 × 1` adds `X` to the broadcast. -/
theorem addSA_siso_hasTF {M : Matrix (Fin 1) (Fin 1) L} (h : HasTF G 1 1 s M) (hdt : DtOk G.dt)
    (hg : G.isgain = false)
    (X : Matrix (Fin p) (Fin m) K) (hs : ¬ (p = 1 ∧ m = 1)) (fuel : ℕ) :
    ∃ R, G.addSA (fuel + 2) (.ar (Arr.of X)) = .ok R ∧
      HasTF R p m s (Matrix.of fun i j => M 0 0 + φ (X i j)) ∧
      R.dt = G.dt ∧ R.isgain = false := by
  obtain ⟨G', e, hG', dt', g', -⟩ := broadcast_hasTF h hg hdt p m
  obtain ⟨R, eR, hR, dtR, gR⟩ := addSA_hasTF hG' (by rw [dt']; exact hdt) X (Or.inr hs) fuel
  refine ⟨R, ?_, hR, dtR.trans dt', gR.trans g'⟩
  have hS : G.isSISO = true := by simp [StateM.isSISO, h.r_eq, h.c_eq]
  rw [StateM.addSA]
  simp only [hg, hS, if_true, Bool.false_eq_true, if_false, bind, Except.bind, Arr.of_r, Arr.of_c,
    e, eR]

/-- `G + H` of equally shaped models. -/
theorem add_hasTF {M N : Matrix (Fin p) (Fin m) L} (h : HasTF G p m s M) (h' : HasTF H p m s N)
    (hdt : DtOk G.dt) (he : G.dt = H.dt)
    (hs : G.isgain = H.isgain ∨ ¬ (p = 1 ∧ m = 1)) (fuel : ℕ) :
    ∃ R, G.add (fuel + 2) H = .ok R ∧ HasTF R p m s (M + N) ∧
      R.dt = (if G.isgain = false ∧ H.isgain = false then none else G.dt) := by
  rw [StateM.add]
  cases hg : G.isgain <;> cases hg' : H.isgain
  · obtain ⟨R, e, hR, dR, -⟩ := parallel_hasTF h h' hg hg'
    refine ⟨R, ?_, hR, by simp [dR]⟩
    simp only [he, ne_eq, not_true_eq_false, if_false, Bool.and_self, Bool.false_eq_true,
      StateM.isSISO, h.r_eq, h.c_eq, h'.r_eq, h'.c_eq, StateM.p, StateM.m, or_self]
    by_cases h1 : p = 1 ∧ m = 1 <;> simp [h1, e]
  · have hs' : ¬ (p = 1 ∧ m = 1) := by simpa [hg, hg'] using hs
    obtain ⟨D, hD, rfl⟩ : ∃ D : Matrix (Fin p) (Fin m) K, H.d = Arr.of D ∧ N = D.map φ := by
      rcases h' with ⟨_, D, hD, hN⟩ | ⟨h0, _⟩
      · exact ⟨D, hD, hN⟩
      · rw [hg'] at h0; simp at h0
    obtain ⟨R, e, hR, dR, -⟩ := addSA_hasTF h hdt D (Or.inr hs') fuel
    refine ⟨R, ?_, hR, by simp [dR]⟩
    simp only [he, ne_eq, not_true_eq_false, if_false, Bool.and_true, Bool.false_eq_true, if_true,
      hD, e]
  · have hs' : ¬ (p = 1 ∧ m = 1) := by simpa [hg, hg'] using hs
    obtain ⟨D, hD, rfl⟩ : ∃ D : Matrix (Fin p) (Fin m) K, G.d = Arr.of D ∧ M = D.map φ := by
      rcases h with ⟨_, D, hD, hN⟩ | ⟨h0, _⟩
      · exact ⟨D, hD, hN⟩
      · rw [hg] at h0; simp at h0
    obtain ⟨R, e, hR, dR, -⟩ := addSA_hasTF h' (he ▸ hdt) D (Or.inr hs') fuel
    refine ⟨R, ?_, by rw [add_comm]; exact hR, by simp [dR, he]⟩
    simp only [he, ne_eq, not_true_eq_false, if_false, Bool.and_false, Bool.false_eq_true, if_true,
      hD, e]
  · obtain ⟨D, hD, rfl⟩ : ∃ D : Matrix (Fin p) (Fin m) K, G.d = Arr.of D ∧ M = D.map φ := by
      rcases h with ⟨_, D, hD, hN⟩ | ⟨h0, _⟩
      · exact ⟨D, hD, hN⟩
      · rw [hg] at h0; simp at h0
    obtain ⟨E, hE, rfl⟩ : ∃ D : Matrix (Fin p) (Fin m) K, H.d = Arr.of D ∧ N = D.map φ := by
      rcases h' with ⟨_, D, hD, hN⟩ | ⟨h0, _⟩
      · exact ⟨D, hD, hN⟩
      · rw [hg'] at h0; simp at h0
    refine ⟨⟨Arr.empty, Arr.empty, Arr.empty, Arr.of (D + E), G.dt, true⟩, ?_, ?_, by simp⟩
    · simp only [he, ne_eq, not_true_eq_false, if_false, Bool.and_self, if_true, hD, hE,
        Arr.add_of, bind, Except.bind]
      rw [mkGain_of (he ▸ hdt)]
    · rw [← map_add']; exact HasTF.of_gain

/-- `G + H`, `G` dynamic SISO, `H` dynamic and not SISO. -/
theorem add_siso_left_hasTF {M : Matrix (Fin 1) (Fin 1) L} {N : Matrix (Fin p) (Fin m) L}
    (h : HasTF G 1 1 s M) (h' : HasTF H p m s N)
    (hdt : DtOk G.dt) (he : G.dt = H.dt) (hg : G.isgain = false) (hg' : H.isgain = false)
    (hs : ¬ (p = 1 ∧ m = 1)) (fuel : ℕ) :
    ∃ R, G.add (fuel + 3) H = .ok R ∧ HasTF R p m s (Matrix.of fun i j => M 0 0 + N i j) := by
  obtain ⟨G', e, hG', dt', g', -⟩ := broadcast_hasTF h hg hdt p m
  obtain ⟨R, eR, hR, -⟩ := add_hasTF hG' h' (by rw [dt']; exact hdt) (by rw [dt']; exact he)
    (Or.inr hs) fuel
  refine ⟨R, ?_, hR⟩
  have h1 : G.isSISO = true := by simp [StateM.isSISO, h.r_eq, h.c_eq]
  have h2 : H.isSISO = false := by simpa [StateM.isSISO, h'.r_eq, h'.c_eq] using hs
  rw [StateM.add]
  simp only [he, ne_eq, not_true_eq_false, if_false, hg, hg', h1, h2, Bool.and_self,
    Bool.false_eq_true, Bool.and_false, Bool.not_true, Bool.false_and, if_true, bind, Except.bind,
    StateM.p, StateM.m, h'.r_eq, h'.c_eq]
  rw [← he, e]
  exact eR

/-- `G + H`, `H` dynamic SISO, `G` dynamic and not SISO. -/
theorem add_siso_right_hasTF {M : Matrix (Fin p) (Fin m) L} {N : Matrix (Fin 1) (Fin 1) L}
    (h : HasTF G p m s M) (h' : HasTF H 1 1 s N)
    (hdt : DtOk G.dt) (he : G.dt = H.dt) (hg : G.isgain = false) (hg' : H.isgain = false)
    (hs : ¬ (p = 1 ∧ m = 1)) (fuel : ℕ) :
    ∃ R, G.add (fuel + 3) H = .ok R ∧ HasTF R p m s (Matrix.of fun i j => M i j + N 0 0) := by
  obtain ⟨G', e, hG', dt', g', -⟩ := broadcast_hasTF h' hg' hdt p m
  obtain ⟨R, eR, hR, -⟩ := add_hasTF h hG' hdt (by rw [dt'])
    (Or.inr hs) fuel
  refine ⟨R, ?_, hR⟩
  have h1 : H.isSISO = true := by simp [StateM.isSISO, h'.r_eq, h'.c_eq]
  have h2 : G.isSISO = false := by simpa [StateM.isSISO, h.r_eq, h.c_eq] using hs
  rw [StateM.add]
  simp only [he, ne_eq, not_true_eq_false, if_false, hg, hg', h1, h2, Bool.and_self,
    Bool.false_eq_true, Bool.and_true, Bool.not_true, Bool.not_false, Bool.and_false, Bool.false_and, if_true, bind,
    Except.bind, StateM.p, StateM.m, h.r_eq, h.c_eq]
  rw [← he, e]
  exact eR

end Harold
