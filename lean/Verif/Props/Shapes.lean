import Verif.Props.StateAlgebra
import Verif.Props.Transfer

/-!
# C90: sums of models of different shapes
-/

namespace Harold

open Matrix Spec

variable {K : Type} [Field K] [LinearOrder K]

section
variable {G H : StateM K} {p m p' m' : ℕ}

/-- **C90**, `State`: the sum of two dynamic MIMO models of different shapes raises `ValueError`. Missing: static gains
(`C90_gains_violated`, `C90_mixed_violated`). -/
theorem C90_state_partial (hg : G.isgain = false) (hg' : H.isgain = false) (hG : G.p = p ∧ G.m = m) (hH : H.p = p' ∧ H.m = m')
    (hs : ¬ (p = 1 ∧ m = 1)) (hs' : ¬ (p' = 1 ∧ m' = 1)) (hne : ¬ (p = p' ∧ m = m')) (fuel : ℕ) :
    G.add (fuel + 1) H = .error .value := by
  obtain ⟨rfl, rfl⟩ := hG
  obtain ⟨rfl, rfl⟩ := hH
  have e1 : G.isSISO = false := by simpa [StateM.isSISO, StateM.p, StateM.m] using hs
  have e2 : H.isSISO = false := by simpa [StateM.isSISO, StateM.p, StateM.m] using hs'
  rw [StateM.add]
  by_cases hd : G.dt = H.dt
  · simp only [hd, ne_eq, not_true_eq_false, if_false, hg, hg', e1, e2, Bool.false_and, Bool.false_eq_true, Bool.not_false, Bool.and_self, if_true]
    rw [if_pos]
    by_contra h
    exact hne (by tauto)
  · rw [if_pos hd]

end

/-- The dynamic model `State(-I, I, I, 0)` with two inputs and outputs, and the one with the last output removed. -/
def lag22 : StateM ℚ := ⟨Arr.of (-1 : Matrix (Fin 2) (Fin 2) ℚ), Arr.of (1 : Matrix (Fin 2) (Fin 2) ℚ), Arr.of (1 : Matrix (Fin 2) (Fin 2) ℚ),
  Arr.of (0 : Matrix (Fin 2) (Fin 2) ℚ), none, false⟩
def lag12 : StateM ℚ := ⟨Arr.of (-1 : Matrix (Fin 2) (Fin 2) ℚ), Arr.of (1 : Matrix (Fin 2) (Fin 2) ℚ), Arr.of (!![1, 0] : Matrix (Fin 1) (Fin 2) ℚ),
  Arr.of (0 : Matrix (Fin 1) (Fin 2) ℚ), none, false⟩

/-- The hypotheses of `C90_state_partial` are met. -/
example : lag12.add 1 lag22 = .error .value :=
  C90_state_partial (p := 1) (m := 2) (p' := 2) (m' := 2) rfl rfl ⟨rfl, rfl⟩ ⟨rfl, rfl⟩ (by decide) (by decide) (by decide) 0

/-- **C90** fails for two static `State` models: `State([[1, 2]]) + State([[3], [5]])`, of shapes `1 × 2` and `2 × 1`, is the `2 × 2` gain
`[[4, 5], [6, 7]]`. -/
theorem C90_gains_violated (fuel : ℕ) : ∃ G H R : StateM ℚ, mkGain (Arr.of !![1, 2]) none = .ok G ∧ mkGain (Arr.of !![3; 5]) none = .ok H ∧
    (G.p = 1 ∧ G.m = 2) ∧ (H.p = 2 ∧ H.m = 1) ∧ G.add (fuel + 1) H = .ok R ∧ R.d = Arr.of !![4, 5; 6, 7] := by
  have hd : (Arr.of !![(1 : ℚ), 2]).add (Arr.of !![3; 5]) = .ok (Arr.of !![4, 5; 6, 7]) := by
    simp only [Arr.add, Arr.bop, Arr.bdim]
    norm_num
    ext i j
    fin_cases i <;> fin_cases j <;> simp [Arr.bget, Arr.of] <;> norm_num
  refine ⟨_, _, ⟨Arr.empty, Arr.empty, Arr.empty, Arr.of !![4, 5; 6, 7], none, true⟩, mkGain_of dtOk_none _, mkGain_of dtOk_none _, ⟨rfl, rfl⟩, ⟨rfl, rfl⟩,
    ?_, rfl⟩
  rw [StateM.add]
  simp only [ne_eq, not_true_eq_false, if_false, Bool.and_self, if_true, hd, bind, Except.bind]
  exact mkGain_of dtOk_none _

/-- **C90** fails for a dynamic and a static `State` model: `G + State([[1, 2]])` for a `2 × 2` model `G` adds the row `[1, 2]` to both rows. -/
theorem C90_mixed_violated (fuel : ℕ) : ∃ H R : StateM ℚ, mkGain (Arr.of !![1, 2]) none = .ok H ∧ (lag22.p = 2 ∧ lag22.m = 2) ∧ (H.p = 1 ∧ H.m = 2) ∧
    lag22.add (fuel + 2) H = .ok R ∧ R.d = Arr.of !![1, 2; 1, 2] := by
  have hd : (Arr.of (0 : Matrix (Fin 2) (Fin 2) ℚ)).add (Arr.of !![1, 2]) = .ok (Arr.of !![1, 2; 1, 2]) := by
    simp only [Arr.add, Arr.bop, Arr.bdim]
    norm_num
    ext i j
    fin_cases i <;> fin_cases j <;> simp [Arr.bget, Arr.of]
  refine ⟨_, ⟨lag22.a, lag22.b, lag22.c, Arr.of !![1, 2; 1, 2], none, false⟩, mkGain_of dtOk_none _, ⟨rfl, rfl⟩, ⟨rfl, rfl⟩, ?_, rfl⟩
  rw [StateM.add]
  simp only [lag22, ne_eq, not_true_eq_false, if_false, Bool.false_and, Bool.false_eq_true, if_true]
  rw [StateM.addSA]
  simp only [Bool.false_eq_true, if_false, hd, bind, Except.bind]
  rw [if_neg (by simp [StateM.isSISO])]
  exact mkState_of dtOk_none _ _ _ _

open TransferM

variable {E : TNum K} {G H F : TransferM K}

/-- **C90**, `Transfer`: the sum of two MIMO models (not both static) does not return if the left one has more rows or more columns. Missing: if the right
one is larger the sum returns (`C90_transfer_violated`), two static gains broadcast
(`C90_transfer_gains_violated`), and the exception of the cases proved is not always `ValueError`. -/
theorem C90_transfer_partial (hg : ¬ (G.isgain = true ∧ H.isgain = true)) (h : H.p < G.p ∨ H.m < G.m) (hp : 0 < G.p) (hm : 0 < G.m)
    (e : TransferM.add E G H = .ok F) : False := by
  unfold TransferM.add at e
  split_ifs at e with h1 h2
  unfold addSame at e
  obtain ⟨f, hf, -⟩ := bind_ok' e
  have hf := matM_ok.mp hf
  rcases h with h | h
  · have := hf ⟨H.p, h⟩ ⟨0, hm⟩
    rw [if_neg (by intro hh; exact absurd hh.1 (lt_irrefl _))] at this
    cases this
  · have := hf ⟨0, hp⟩ ⟨H.m, h⟩
    rw [if_neg (by intro hh; exact absurd hh.2 (lt_irrefl _))] at this
    cases this

/-- The hypotheses of `C90_transfer_partial` are met: a `2 × 2` and a `1 × 2` model with entries `1/(s + 1)`. -/
example (E : TNum ℚ) (hbal : ∀ polys i, E.bal polys i ≠ 0) (hthr : E.lcmTol ≤ 1) : ∃ G H : TransferM ℚ,
    mkTransfer E (.lists (constArr 2 2 [1])) (.lists (constArr 2 2 [1, 1])) none = .ok G ∧
    mkTransfer E (.lists (constArr 1 2 [1])) (.lists (constArr 1 2 [1, 1])) none = .ok H ∧ ∀ F, TransferM.add E G H ≠ .ok F := by
  have h1 : ∀ p m : ℕ, 0 < p → 0 < m → ∃ F, mkTransfer E (.lists (constArr p m [1])) (.lists (constArr p m [1, 1])) none = .ok F ∧
      Normal F p m (Matrix.of fun _ _ => [1]) (Matrix.of fun _ _ => [1, 1]) ∧ F.dt = none := fun p m hp hm =>
    mkTransfer_normal hbal hthr hp hm dtOk_none (fun _ _ => by simp) (fun _ _ => Or.inr ⟨1, [], rfl, one_ne_zero⟩)
      fun _ _ => by simp
  obtain ⟨G, e1, hG, -⟩ := h1 2 2 (by norm_num) (by norm_num)
  obtain ⟨H, e2, hH, -⟩ := h1 1 2 (by norm_num) (by norm_num)
  refine ⟨G, H, e1, e2, fun F e => C90_transfer_partial (fun h => ?_) (Or.inl ?_) ?_ ?_ e⟩
  · have := hG.flag.mp h.1 0 0
    simp at this
  all_goals simp [TransferM.p, TransferM.m, hG.num, hH.num]

/-- **C90** fails for two static `Transfer` models: the `2 × 2` zero gain plus the `1 × 2` gain `[[1, 2]]` is `[[1, 2], [1, 2]]`. -/
theorem C90_transfer_gains_violated (E : TNum ℚ) : ∃ G H F : TransferM ℚ,
    mkList E (Arr.of (0 : Matrix (Fin 2) (Fin 2) ℚ)) none = .ok G ∧ mkList E (Arr.of !![1, 2]) none = .ok H ∧ TransferM.add E G H = .ok F ∧
      F.num = Arr.of !![[1], [2]; [1], [2]] := by
  obtain ⟨G, e1, hG, hGd⟩ := mkList_normal E (p := 2) (m := 2) (by norm_num) (by norm_num) (0 : Matrix (Fin 2) (Fin 2) ℚ) dtOk_none
  obtain ⟨H, e2, hH, hHd⟩ := mkList_normal E (p := 1) (m := 2) (by norm_num) (by norm_num) !![(1 : ℚ), 2] dtOk_none
  obtain ⟨F, e3, hF, -⟩ := mkList_normal E (p := 2) (m := 2) (by norm_num) (by norm_num) !![(1 : ℚ), 2; 1, 2] dtOk_none
  have hg : G.isgain = true := hG.flag.mpr fun _ _ => rfl
  have hh : H.isgain = true := hH.flag.mpr fun _ _ => rfl
  have hd : (Arr.of (0 : Matrix (Fin 2) (Fin 2) ℚ)).add (Arr.of !![1, 2]) = .ok (Arr.of !![1, 2; 1, 2]) := by
    simp only [Arr.add, Arr.bop, Arr.bdim]
    norm_num
    ext i j
    fin_cases i <;> fin_cases j <;> simp [Arr.bget, Arr.of]
  have a1 : G.toArray = .ok (Arr.of (0 : Matrix (Fin 2) (Fin 2) ℚ)) := by
    rw [TransferM.toArray, if_pos hg, hG.num, hG.den, gainArr_of (fun _ _ => rfl) (fun _ _ => rfl)]
    congr 2
    ext i j
    simp
  have a2 : H.toArray = .ok (Arr.of !![1, 2]) := by
    rw [TransferM.toArray, if_pos hh, hH.num, hH.den, gainArr_of (fun _ _ => rfl) (fun _ _ => rfl)]
    congr 2
    ext i j
    simp
  refine ⟨G, H, F, e1, e2, ?_, ?_⟩
  · unfold TransferM.add
    rw [if_neg (by simp [hGd, hHd]), if_pos ⟨hg, hh⟩]
    unfold addGains
    simp only [a1, a2, hd, bind, Except.bind]
    rw [if_neg (by simp [hG.num]), if_pos (by simp [hG.num]), hGd]
    exact e3
  · rw [hF.num]
    congr 1
    ext i j
    fin_cases i <;> fin_cases j <;> rfl

/-- **C90** fails for `Transfer` models when the right one is larger: with the `1 × 2` and the `2 × 2` model whose entries are all `1/(s + 1)` the sum is a
`1 × 2` model, the second output of the right operand is dropped. -/
theorem C90_transfer_violated (E : TNum ℚ) (hbal : ∀ polys i, E.bal polys i ≠ 0) (hthr : E.lcmTol ≤ 1) : ∃ G H F : TransferM ℚ,
    mkTransfer E (.lists (constArr 1 2 [1])) (.lists (constArr 1 2 [1, 1])) none = .ok G ∧
    mkTransfer E (.lists (constArr 2 2 [1])) (.lists (constArr 2 2 [1, 1])) none = .ok H ∧ TransferM.add E G H = .ok F ∧ F.p = 1 ∧ F.m = 2 :=
  C22_shape_violated E hbal hthr

end Harold
