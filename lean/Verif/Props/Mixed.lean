import Verif.Model.Mixed
import Verif.Props.Transfer
import Verif.Props.StateAlgebra

/-!
# C29: arithmetic between `Transfer` and `State`
-/

namespace Harold

open Matrix Spec Polynomial

variable {K L : Type} [Field K] [LinearOrder K] [IsStrictOrderedRing K] [Field L] [Algebra K L] {E : TNum K} {p q m : ℕ} {s : L}

/-- The value of a model of either class at `s`. -/
def Spec.SysVal (F : Sys K) (p m : ℕ) (s : L) (M : Matrix (Fin p) (Fin m) L) : Prop :=
  match F with
  | .st G => HasTF G p m s M
  | .tf G => HasVal G p m s M

/-- The sampling period of a model of either class. -/
def Sys.dt : Sys K → Option K
  | .st G => G.dt
  | .tf G => G.dt

/-- `transfer_to_state` of a model in normal form. -/
theorem t2s_normal (hbal : ∀ polys i, E.bal polys i ≠ 0) (hthr : E.lcmTol ≤ 1)
    {G : TransferM K} (htol : ClearModel E.lcmTol E.remTol G) {N D : Matrix (Fin p) (Fin m) (List K)} (hG : Normal G p m N D) :
    ∃ S, transferToState E G = .ok S ∧ S.dt = G.dt ∧
      ∀ (s : L) (M : Matrix (Fin p) (Fin m) L), HasVal G p m s M → HasTF S p m s M := by
  obtain ⟨F, h1, h2, h3⟩ := mkTransfer_normal (E := E) hbal hthr hG.pos.1 hG.pos.2 (N := N) (D := D) hG.dt hG.lead
    hG.trimmed hG.causal
  have hF : F = G := by
    obtain ⟨a, b, c, d⟩ := F
    obtain ⟨a', b', c', d'⟩ := G
    have e1 := h2.num.trans hG.num.symm
    have e2 := h2.den.trans hG.den.symm
    have e3 := h2.flag.trans hG.flag.symm
    simp only at e1 e2 e3 h3
    rw [e1, e2, h3, Bool.eq_iff_iff.mpr e3]
  subst hF
  have hpp : ∀ i j, ProperPair (N i j) (D i j) := fun i j => properPair_of_length (hG.lead i j) (hG.causal i j)
  by_cases hs : p = 1 ∧ m = 1
  · obtain ⟨rfl, rfl⟩ := hs
    have e1 : F.num.entry 0 0 = N 0 0 := by rw [hG.num]; exact entry_of N 0 0
    have e2 : F.den.entry 0 0 = D 0 0 := by rw [hG.den]; exact entry_of D 0 0
    obtain ⟨S, h4, h5, h6, -⟩ := C26_siso_partial (L := L) (by rw [e1, e2]; exact ((clearModel_iff hG.num hG.den).mp htol).1 ⟨rfl, rfl⟩ 0 0) h1 (by simp [TransferM.isSISO, hG.num]) (by rw [e1, e2]; exact hpp 0 0)
      (by rw [e1]; exact (hG.trimmed 0 0).ne_nil)
    exact ⟨S, h4, h5, h6⟩
  · exact C27_mimo_partial (L := L) hbal ((clearModel_iff hG.num hG.den).mp htol) h1 hs hG.num hG.den hG.lead (fun i j => (hG.trimmed i j).ne_nil) hpp
      fun hg i j => by
        have h4 := hG.flag.mp hg i j
        have h5 := hG.causal i j
        have h6 := List.length_pos_iff.mpr (hG.trimmed i j).ne_nil
        omega

/-- **C29**, `State @ Transfer` and `State * Transfer` for dynamic models of compatible shape: the product in the right order.
`_partial`: models whose conversion rounds coefficients (`ClearModel` fails); `State` operands on the right of a `Transfer` are in `C29_*_violated`. -/
theorem C29_state_transfer_partial (hbal : ∀ polys i, E.bal polys i ≠ 0) (hthr : E.lcmTol ≤ 1)
    {G : StateM K} {H : TransferM K} (htol : ClearModel E.lcmTol E.remTol H) {N D : Matrix (Fin q) (Fin m) (List K)} {M : Matrix (Fin p) (Fin q) L}
    {M' : Matrix (Fin q) (Fin m) L} (hG : HasTF G p q s M) (hgd : G.isgain = false) (hH : Normal H q m N D)
    (hHv : HasVal H q m s M') (hhd : H.isgain = false) (he : G.dt = H.dt)
    (hs : (p = 1 ∧ q = 1) ↔ (q = 1 ∧ m = 1)) (fuel : ℕ) :
    ∃ R, matmulST E (fuel + 1) G H = .ok R ∧ SysVal R p m s (M * M') ∧ R.dt = G.dt := by
  obtain ⟨S, h1, h2, h3⟩ := t2s_normal (L := L) hbal hthr htol hH
  have hdt : DtOk G.dt := by rw [he]; exact hH.dt
  obtain ⟨R, h4, h5, h6, -⟩ := C17_matmul hG (h3 s M' hHv) hdt (by rw [h2, he]) fuel
  refine ⟨.st R, ?_, h5, h6⟩
  have e1 : G.isSISO = decide (p = 1 ∧ q = 1) := by simp [StateM.isSISO, hG.r_eq, hG.c_eq]
  have e2 : H.isSISO = decide (q = 1 ∧ m = 1) := by simp [TransferM.isSISO, hH.num]
  have e3 : G.isSISO = H.isSISO := by rw [e1, e2]; exact decide_eq_decide.mpr hs
  have e4 : G.m = H.p := by simp [StateM.m, hG.c_eq, TransferM.p, hH.num]
  unfold matmulST
  rw [if_neg (by simp [he]), if_neg (by simp [hgd]), if_neg (by simp [hgd]), if_neg (by simp [hhd]), if_pos e3, if_neg (by simp [e4])]
  simp only [h1, bind, Except.bind, h4]
  rfl

/-- **C29**, one factor SISO (`State @ Transfer`): the SISO factor scales the other one. Missing: models whose conversion rounds coefficients; for the other order see `C29_mul_violated`. -/
theorem C29_state_siso_transfer_partial (hbal : ∀ polys i, E.bal polys i ≠ 0) (hthr : E.lcmTol ≤ 1)
    {G : StateM K} {H : TransferM K} (htol : ClearModel E.lcmTol E.remTol H) {N D : Matrix (Fin p) (Fin m) (List K)} {v : Matrix (Fin 1) (Fin 1) L}
    {M : Matrix (Fin p) (Fin m) L} (hG : HasTF G 1 1 s v) (hgd : G.isgain = false) (hH : Normal H p m N D)
    (hHv : HasVal H p m s M) (hhd : H.isgain = false) (he : G.dt = H.dt) (hs : ¬ (p = 1 ∧ m = 1)) (fuel : ℕ) :
    ∃ R, matmulST E (fuel + 1) G H = .ok R ∧ SysVal R p m s (v 0 0 • M) ∧ R.dt = G.dt := by
  obtain ⟨S, h1, h2, h3⟩ := t2s_normal (L := L) hbal hthr htol hH
  have hdt : DtOk G.dt := by rw [he]; exact hH.dt
  have e1 : G.isSISO = true := by simp [StateM.isSISO, hG.r_eq, hG.c_eq]
  have e2 : H.isSISO = false := by simpa [TransferM.isSISO, hH.num] using hs
  have e3 : H.p = p := by simp [TransferM.p, hH.num]
  have e4 : H.m = m := by simp [TransferM.m, hH.num]
  obtain ⟨⟨G', h4, h5, h6⟩, -⟩ := C18_siso_array hG hgd hdt (1 : Matrix (Fin (min p m)) (Fin (min p m)) K)
  have h5' : HasTF G' (min p m) (min p m) s (v 0 0 • (1 : Matrix (Fin (min p m)) (Fin (min p m)) L)) := by
    convert h5 using 1
    ext i j
    by_cases hij : i = j
    · subst hij; simp
    · simp [hij]
  have key : ∃ R, (if H.m ≤ H.p then S.matmul (fuel + 1) G' else G'.matmul (fuel + 1) S) = .ok R ∧
      HasTF R p m s (v 0 0 • M) ∧ R.dt = G.dt := by
    rw [e3, e4]
    split_ifs with hle
    · have hmin : min p m = m := min_eq_right hle
      rw [hmin] at h5'
      obtain ⟨R, h7, h8, h9, -⟩ := C17_matmul (h3 s M hHv) h5' (by rw [h2, ← he]; exact hdt) (by rw [h2, h6, he]) fuel
      exact ⟨R, h7, by simpa using h8, by rw [h9, h2, he]⟩
    · have hmin : min p m = p := min_eq_left (by omega)
      rw [hmin] at h5'
      obtain ⟨R, h7, h8, h9, -⟩ := C17_matmul h5' (h3 s M hHv) (by rw [h6]; exact hdt) (by rw [h2, h6, he]) fuel
      exact ⟨R, h7, by simpa using h8, by rw [h9, h6]⟩
  obtain ⟨R, h7, h8, h9⟩ := key
  refine ⟨.st R, ?_, h8, h9⟩
  unfold matmulST
  rw [if_neg (by simp [he]), if_neg (by simp [hgd]), if_neg (by simp [hgd]), if_neg (by simp [hhd]), if_neg (by simp [e1, e2]), if_pos e1]
  have h4' : G.matmulGain (.arr (Arr.eye (min H.p H.m))) = .ok G' := by rw [e3, e4]; exact h4
  simp only [h1, h4', bind, Except.bind, h7]
  rfl

/-- `transfer_to_state` of a SISO model whose numerator is not a multiple of its denominator has states. -/
theorem t2s_siso_dyn (hbal : ∀ polys i, E.bal polys i ≠ 0) (hthr : E.lcmTol ≤ 1)
    {G : TransferM K} (htol : ClearModel E.lcmTol E.remTol G) {N D : Matrix (Fin 1) (Fin 1) (List K)} (hG : Normal G 1 1 N D)
    (hc : ¬ ∃ c : K, toPoly (N 0 0) = C c * toPoly (D 0 0)) :
    ∃ S, transferToState E G = .ok S ∧ S.dt = G.dt ∧ S.isgain = false ∧
      ∀ (s : L) (M : Matrix (Fin 1) (Fin 1) L), HasVal G 1 1 s M → HasTF S 1 1 s M := by
  obtain ⟨F, h1, h2, h3⟩ := mkTransfer_normal (E := E) hbal hthr hG.pos.1 hG.pos.2 (N := N) (D := D) hG.dt hG.lead
    hG.trimmed hG.causal
  have hF : F = G := by
    obtain ⟨a, b, c, d⟩ := F
    obtain ⟨a', b', c', d'⟩ := G
    have e1 := h2.num.trans hG.num.symm
    have e2 := h2.den.trans hG.den.symm
    have e3 := h2.flag.trans hG.flag.symm
    simp only at e1 e2 e3 h3
    rw [e1, e2, h3, Bool.eq_iff_iff.mpr e3]
  subst hF
  have e1 : F.num.entry 0 0 = N 0 0 := by rw [hG.num]; exact entry_of N 0 0
  have e2 : F.den.entry 0 0 = D 0 0 := by rw [hG.den]; exact entry_of D 0 0
  obtain ⟨S, h4, h5, h6, h7⟩ := C26_siso_partial (L := L) (by rw [e1, e2]; exact ((clearModel_iff hG.num hG.den).mp htol).1 ⟨rfl, rfl⟩ 0 0) h1 (by simp [TransferM.isSISO, hG.num])
    (by rw [e1, e2]; exact properPair_of_length (hG.lead 0 0) (hG.causal 0 0)) (by rw [e1]; exact (hG.trimmed 0 0).ne_nil)
  rw [e1, e2] at h7
  rcases h7 with ⟨h7, -⟩ | ⟨-, h7⟩
  · exact ⟨S, h4, h5, h7, h6⟩
  · exact absurd h7 hc

/-- **C29**, MIMO `State` times SISO `Transfer`: the SISO factor scales the other one. The numerator must not be a multiple of the
denominator: such a `Transfer` becomes a static model, for which the code raises (`C18_static_siso_array_violated`). -/
theorem C29_state_transfer_siso_partial (hbal : ∀ polys i, E.bal polys i ≠ 0) (hthr : E.lcmTol ≤ 1)
    {G : StateM K} {H : TransferM K} (htol : ClearModel E.lcmTol E.remTol H) {N D : Matrix (Fin 1) (Fin 1) (List K)} {v : Matrix (Fin 1) (Fin 1) L}
    {M : Matrix (Fin p) (Fin m) L} (hG : HasTF G p m s M) (hgd : G.isgain = false) (hH : Normal H 1 1 N D)
    (hHv : HasVal H 1 1 s v) (hhd : H.isgain = false) (hc : ¬ ∃ c : K, toPoly (N 0 0) = C c * toPoly (D 0 0)) (he : G.dt = H.dt)
    (hs : ¬ (p = 1 ∧ m = 1)) (fuel : ℕ) :
    ∃ R, matmulST E (fuel + 1) G H = .ok R ∧ SysVal R p m s (v 0 0 • M) ∧ R.dt = G.dt := by
  obtain ⟨S, h1, h2, hS, h3⟩ := t2s_siso_dyn (L := L) hbal hthr htol hH hc
  have hdt : DtOk G.dt := by rw [he]; exact hH.dt
  have e1 : G.isSISO = false := by simpa [StateM.isSISO, hG.r_eq, hG.c_eq] using hs
  have e2 : H.isSISO = true := by simp [TransferM.isSISO, hH.num]
  have e3 : G.p = p := by simp [StateM.p, hG.r_eq]
  have e4 : G.m = m := by simp [StateM.m, hG.c_eq]
  obtain ⟨⟨S', h4, h5, h6⟩, -⟩ := C18_siso_array (h3 s v hHv) hS (by rw [h2, ← he]; exact hdt) (1 : Matrix (Fin (min p m)) (Fin (min p m)) K)
  have h5' : HasTF S' (min p m) (min p m) s (v 0 0 • (1 : Matrix (Fin (min p m)) (Fin (min p m)) L)) := by
    convert h5 using 1
    ext i j
    by_cases hij : i = j
    · subst hij; simp
    · simp [hij]
  have key : ∃ R, (if G.m ≤ G.p then G.matmul (fuel + 1) S' else S'.matmul (fuel + 1) G) = .ok R ∧
      HasTF R p m s (v 0 0 • M) ∧ R.dt = G.dt := by
    rw [e3, e4]
    split_ifs with hle
    · have hmin : min p m = m := min_eq_right hle
      rw [hmin] at h5'
      obtain ⟨R, h7, h8, h9, -⟩ := C17_matmul hG h5' hdt (by rw [h6, h2, he]) fuel
      exact ⟨R, h7, by simpa using h8, h9⟩
    · have hmin : min p m = p := min_eq_left (by omega)
      rw [hmin] at h5'
      obtain ⟨R, h7, h8, h9, -⟩ := C17_matmul h5' hG (by rw [h6, h2, ← he]; exact hdt) (by rw [h6, h2, he]) fuel
      exact ⟨R, h7, by simpa using h8, by rw [h9, h6, h2, he]⟩
  obtain ⟨R, h7, h8, h9⟩ := key
  refine ⟨.st R, ?_, h8, h9⟩
  unfold matmulST
  rw [if_neg (by simp [he]), if_neg (by simp [hgd]), if_neg (by simp [hgd]), if_neg (by simp [hhd]), if_neg (by simp [e1, e2]),
    if_neg (by simp [e1])]
  have h4' : S.matmulGain (.arr (Arr.eye (min G.p G.m))) = .ok S' := by rw [e3, e4]; exact h4
  simp only [h1, h4', bind, Except.bind, h7]
  rfl

/-- **C29**, a SISO `Transfer` on the left of a `State` with one input (in particular two SISO models). Missing: models whose conversion rounds coefficients; `State` models with several inputs, see `C29_mul_violated`. -/
theorem C29_siso_transfer_state_partial (hbal : ∀ polys i, E.bal polys i ≠ 0) (hthr : E.lcmTol ≤ 1)
    {G : TransferM K} (htol : ClearModel E.lcmTol E.remTol G) {H : StateM K} {N D : Matrix (Fin 1) (Fin 1) (List K)} {v : Matrix (Fin 1) (Fin 1) L}
    {M : Matrix (Fin p) (Fin 1) L} (hG : Normal G 1 1 N D) (hGv : HasVal G 1 1 s v) (hH : HasTF H p 1 s M)
    (he : G.dt = H.dt) (fuel : ℕ) :
    ∃ R, mulTS E (fuel + 1) G H = .ok R ∧ matmulTS E (fuel + 1) G H = .ok R ∧ SysVal R p 1 s (v 0 0 • M) ∧ R.dt = G.dt := by
  obtain ⟨S, h1, h2, h3⟩ := t2s_normal (L := L) hbal hthr htol hG
  obtain ⟨R, h4, h5, h6, -⟩ := C17_matmul hH (h3 s v hGv) (by rw [← he]; exact hG.dt) (by rw [h2, he]) fuel
  have hm : mulTS E (fuel + 1) G H = .ok (.st R) := by
    unfold mulTS
    rw [if_neg (by simp [he])]
    simp only [h1, bind, Except.bind, h4]
    rfl
  refine ⟨.st R, hm, ?_, ?_, h6.trans he.symm⟩
  · unfold matmulTS
    rw [if_pos (by simp [TransferM.isSISO, hG.num]), hm]
  · have : v 0 0 • M = M * v := by
      ext i j
      rw [Subsingleton.elim j 0]
      simp [Matrix.mul_apply, mul_comm]
    rw [this]
    exact h5

/-- What `G * H` is for a `Transfer` `G` and a `State` `H`, for all models whose shapes allow it: the product in the wrong order. -/
theorem C29_mul_swapped (hbal : ∀ polys i, E.bal polys i ≠ 0) (hthr : E.lcmTol ≤ 1)
    {G : TransferM K} (htol : ClearModel E.lcmTol E.remTol G) {H : StateM K} {N D : Matrix (Fin q) (Fin m) (List K)} {M : Matrix (Fin q) (Fin m) L}
    {M' : Matrix (Fin p) (Fin q) L} (hG : Normal G q m N D) (hGv : HasVal G q m s M) (hH : HasTF H p q s M')
    (he : G.dt = H.dt) (fuel : ℕ) :
    ∃ R, mulTS E (fuel + 1) G H = .ok R ∧ SysVal R p m s (M' * M) := by
  obtain ⟨S, h1, h2, h3⟩ := t2s_normal (L := L) hbal hthr htol hG
  obtain ⟨R, h4, h5, h6, -⟩ := C17_matmul hH (h3 s M hGv) (by rw [← he]; exact hG.dt) (by rw [h2, he]) fuel
  refine ⟨.st R, ?_, h5⟩
  unfold mulTS
  rw [if_neg (by simp [he])]
  simp only [h1, bind, Except.bind, h4]
  rfl

/-- `Transfer([[0, 1], [0, 0]], 1)` and `State([[0, 0], [1, 0]])`. -/
def upTf : TransferM ℚ := ⟨Arr.of !![[0], [1]; [0], [0]], Arr.of !![[1], [1]; [1], [1]], true, none⟩
def downSs : StateM ℚ := ⟨Arr.empty, Arr.empty, Arr.empty, Arr.of !![0, 0; 1, 0], none, true⟩

theorem upTf_normal : Normal upTf 2 2 !![[0], [1]; [0], [0]] !![[1], [1]; [1], [1]] where
  pos := by norm_num
  num := rfl
  den := rfl
  trimmed := fun i j => by
    fin_cases i <;> fin_cases j
    · exact Or.inl rfl
    · exact Or.inr ⟨1, [], rfl, one_ne_zero⟩
    · exact Or.inl rfl
    · exact Or.inl rfl
  lead := fun i j => by fin_cases i <;> fin_cases j <;> exact one_ne_zero
  causal := fun i j => by fin_cases i <;> fin_cases j <;> exact le_refl 1
  flag := ⟨fun _ i j => by fin_cases i <;> fin_cases j <;> rfl, fun _ => rfl⟩
  dt := dtOk_none

theorem upTf_val (s : ℚ) : HasVal upTf 2 2 s !![0, 1; 0, 0] := by
  refine ⟨_, _, rfl, rfl, fun i j => ?_⟩
  fin_cases i <;> fin_cases j <;> simp [polyAt, toPoly]

/-- The code violates **C29**: the product of `[[0, 1], [0, 0]]` (a `Transfer`) and `[[0, 0], [1, 0]]` (a `State`) is
`[[1, 0], [0, 0]]`; the code returns `[[0, 0], [0, 1]]`. -/
theorem C29_mul_violated (E : TNum ℚ) (hbal : ∀ polys i, E.bal polys i ≠ 0) (hthr : E.lcmTol ≤ 1) (s : ℚ) :
    HasVal upTf 2 2 s !![0, 1; 0, 0] ∧ HasTF downSs 2 2 s !![0, 0; 1, 0] ∧
    (!![0, 1; 0, 0] * !![0, 0; 1, 0] : Matrix (Fin 2) (Fin 2) ℚ) = !![1, 0; 0, 0] ∧
    ∃ R, mulTS E 1 upTf downSs = .ok R ∧ SysVal R 2 2 s !![0, 0; 0, 1] := by
  have h1 : HasTF downSs 2 2 s !![0, 0; 1, 0] := by
    refine Or.inl ⟨rfl, !![0, 0; 1, 0], rfl, ?_⟩
    ext i j
    fin_cases i <;> fin_cases j <;> simp
  refine ⟨upTf_val s, h1, ?_, ?_⟩
  · ext i j
    fin_cases i <;> fin_cases j <;> simp [Matrix.mul_apply, Fin.sum_univ_two]
  · obtain ⟨R, h2, h3⟩ := C29_mul_swapped hbal hthr (clearModel_gain hthr upTf_normal rfl) upTf_normal (upTf_val s) h1 rfl 0
    refine ⟨R, h2, ?_⟩
    convert h3 using 1
    ext i j
    fin_cases i <;> fin_cases j <;> simp [Matrix.mul_apply, Fin.sum_univ_two]

/-- The code violates **C29**: `G @ H` raises for every MIMO `Transfer` `G` and every `State` `H`. -/
theorem C29_matmul_violated {G : TransferM K} (H : StateM K) (hs : G.isSISO = false) (fuel : ℕ) :
    ∃ e, matmulTS E fuel G H = .error e := by
  unfold matmulTS
  rw [if_neg (by simp [hs])]
  split_ifs
  · exact ⟨_, rfl⟩
  · cases h : transferToState E G with
    | error e => exact ⟨e, rfl⟩
    | ok S => exact ⟨.value, rfl⟩

/-- **C29**, sums of dynamic models of equal shape. For SISO models the numerator must not be a multiple of the denominator (see
`C15_static_siso_violated`). -/
theorem C29_add_partial (hbal : ∀ polys i, E.bal polys i ≠ 0) (hthr : E.lcmTol ≤ 1)
    {G : StateM K} {H : TransferM K} (htol : ClearModel E.lcmTol E.remTol H) {N D : Matrix (Fin p) (Fin m) (List K)} {M M' : Matrix (Fin p) (Fin m) L}
    (hG : HasTF G p m s M) (hgd : G.isgain = false) (hH : Normal H p m N D) (hHv : HasVal H p m s M') (hhd : H.isgain = false)
    (he : G.dt = H.dt) (hc : ∀ i j, ¬ ∃ c : K, toPoly (N i j) = C c * toPoly (D i j)) (fuel : ℕ) :
    (∃ R, addST E (fuel + 2) G H = .ok R ∧ SysVal R p m s (M + M')) ∧
    (∃ R, addTS E (fuel + 2) H G = .ok R ∧ SysVal R p m s (M + M')) := by
  have hdt : DtOk G.dt := by rw [he]; exact hH.dt
  obtain ⟨S, h1, h2, hS, h3⟩ : ∃ S, transferToState E H = .ok S ∧ S.dt = H.dt ∧ (G.isgain = S.isgain ∨ ¬ (p = 1 ∧ m = 1)) ∧
      HasTF S p m s M' := by
    by_cases hs : p = 1 ∧ m = 1
    · obtain ⟨rfl, rfl⟩ := hs
      obtain ⟨S, h1, h2, h3, h4⟩ := t2s_siso_dyn (L := L) hbal hthr htol hH (hc 0 0)
      exact ⟨S, h1, h2, Or.inl (by rw [hgd, h3]), h4 s M' hHv⟩
    · obtain ⟨S, h1, h2, h3⟩ := t2s_normal (L := L) hbal hthr htol hH
      exact ⟨S, h1, h2, Or.inr hs, h3 s M' hHv⟩
  obtain ⟨R, h4, h5⟩ := C15_add_partial hG h3 hdt (by rw [h2, he]) hS fuel
  have e3 : (G.p, G.m) = (H.p, H.m) := by simp [StateM.p, StateM.m, TransferM.p, TransferM.m, hG.r_eq, hG.c_eq, hH.num]
  constructor
  · refine ⟨.st R, ?_, h5⟩
    unfold addST
    rw [if_neg (by simp [he]), if_neg (by simp [hgd]), if_neg (by simp [hgd]), if_neg (by simp [hhd]), if_neg (by simp [e3])]
    simp only [h1, bind, Except.bind, h4]
    rfl
  · refine ⟨.st R, ?_, h5⟩
    unfold addTS
    rw [if_neg (by simp [he]), if_neg (by simp [hgd]), if_neg (by simp [hhd]), if_neg (by simp [hgd]), if_neg (by simp [e3])]
    simp only [h1, bind, Except.bind, h4]
    rfl

/-- A mismatch of sampling periods is rejected. -/
theorem C16_mixed_mismatch (G : StateM K) (H : TransferM K) (h : G.dt ≠ H.dt) (fuel : ℕ) :
    addST E fuel G H = .error .value ∧ addTS E fuel H G = .error .value ∧ matmulST E fuel G H = .error .value ∧
    mulTS E fuel H G = .error .value ∧ matmulTS E fuel H G = .error .value := by
  refine ⟨?_, ?_, ?_, ?_, ?_⟩
  · unfold addST; rw [if_pos h]
  · unfold addTS; rw [if_pos h.symm]
  · unfold matmulST; rw [if_pos h]
  · unfold mulTS; rw [if_pos h.symm]
  · unfold matmulTS mulTS
    split_ifs with h1 h2 h2
    · rfl
    · exact absurd h.symm h2
    · rfl
    · exact absurd h.symm h2

/-- Non-vacuity: `1/(s+1)` as a `State` and as a `Transfer` at `s = 1`. -/
example (E : TNum ℚ) (hbal : ∀ polys i, E.bal polys i ≠ 0) (hthr : E.lcmTol = 1 / 10 ^ 9)
    (htol : E.remTol = 1 / 10 ^ 14) :
    (∃ R, matmulST E 1 lag lagTf = .ok R ∧ SysVal R 1 1 (1 : ℚ) (!![1 / 2] * !![1 / 2]) ∧ R.dt = none) ∧
    (∃ R, addST E 2 lag lagTf = .ok R ∧ SysVal R 1 1 (1 : ℚ) (!![1 / 2] + !![1 / 2])) := by
  have h1 : E.lcmTol ≤ 1 := by rw [hthr]; norm_num
  have h2 : ClearModel E.lcmTol E.remTol lagTf := clearModel_int h1 (by rw [htol]; norm_num) (lagTf_normal E).num (lagTf_normal E).den
    (fun _ _ => [1]) (fun _ _ => [1, 1]) (fun i j => by fin_cases i; fin_cases j; simp [lagTf]) (fun i j => by fin_cases i; fin_cases j; simp [lagTf]) fun _ _ => ⟨_, rfl⟩
  exact ⟨C29_state_transfer_partial hbal h1 h2 lag_hasTF rfl (lagTf_normal E) lagTf_valued.1 rfl rfl Iff.rfl 0,
   (C29_add_partial hbal h1 h2 lag_hasTF rfl (lagTf_normal E) lagTf_valued.1 rfl rfl (fun i j => by
    rintro ⟨c, hc⟩
    have h1 := congrArg (Polynomial.eval 0) hc
    have h2 := congrArg (Polynomial.eval 1) hc
    simp [toPoly] at h1 h2
    rw [← h1] at h2
    norm_num at h2) 0).1⟩

end Harold
