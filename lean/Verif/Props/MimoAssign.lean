import Verif.Props.TransferObj
import Verif.Props.Hinf

/-!
# C63, numerators and denominators of multivariable models; C70, the first frequency of the H∞ norm
-/

namespace Harold

open Matrix

section
variable {K P : Type} [Field K] [LinearOrder K] (E : TNum K) (N : Numerics K P) {p m : ℕ}

theorem validate_mimo {X Y : Matrix (Fin p) (Fin m) (List K)} (hp : 0 < p) (hm : 0 < m) (h1 : ¬ (p = 1 ∧ m = 1)) :
    ((∀ i j, (trimZeros (X i j)).length ≤ (trimZeros (Y i j)).length) → validateTransfer (.lists (Arr.of X)) (.lists (Arr.of Y)) = .ok (Arr.of X, Arr.of Y, decide (maxSize (Arr.of Y) = 1))) ∧
    ((∃ i j, (trimZeros (Y i j)).length < (trimZeros (X i j)).length) → validateTransfer (.lists (Arr.of X)) (.lists (Arr.of Y)) = .error .value) := by
  have e : ∀ Z : Matrix (Fin p) (Fin m) (List K), regArg (.lists (Arr.of Z)) = .ok (.mimo (Arr.of Z)) := by
    intro Z
    simp only [regArg, Arr.of_r, Arr.of_c, if_neg h1, if_neg hp.ne']
  refine ⟨fun h => ?_, fun ⟨i, j, h⟩ => ?_⟩
  · unfold validateTransfer
    simp only [e, combineArgs, bind, Except.bind, Arr.of_r, Arr.of_c, and_self, not_true_eq_false, if_false]
    rw [if_neg]
    · simp [hp.ne', hm.ne']
    · rintro ⟨i, j, hij⟩
      simp only [Arr.entry, Arr.of] at hij
      split_ifs at hij with h2
      · exact absurd (h ⟨i, h2.1⟩ ⟨j, h2.2⟩) (not_le.mpr hij)
      · simp at hij
  · unfold validateTransfer
    simp only [e, combineArgs, bind, Except.bind, Arr.of_r, Arr.of_c, and_self, not_true_eq_false, if_false]
    rw [if_pos]
    refine ⟨i, j, ?_⟩
    simpa [Arr.entry, Arr.of] using h

/-- **C63**, multivariable models: setting `num` to a list of lists of the shape of the model keeps the denominators and stores the new numerators, if no numerator has a higher degree than its own denominator; otherwise it raises `ValueError` and the object is unchanged. (Whether poles and zeros can be computed afterwards is another matter, see `C63_rejected_partial`.) -/
theorem C63_mimo_num {S : TransferObj K P} {A B X : Matrix (Fin p) (Fin m) (List K)} (hp : 0 < p) (hm : 0 < m) (h1 : ¬ (p = 1 ∧ m = 1)) (hn : S.g.num = Arr.of A) (hd : S.g.den = Arr.of B)
    (hs : S.shape = (p, m)) :
    ((∀ i j, (trimZeros (X i j)).length ≤ (trimZeros (B i j)).length) → (S.assign E N (.num (.lists (Arr.of X)))).1.g = { S.g with num := Arr.of X }) ∧
    ((∃ i j, (trimZeros (B i j)).length < (trimZeros (X i j)).length) → S.assign E N (.num (.lists (Arr.of X))) = (S, some .value)) := by
  have e : S.stored S.g.den = .lists (Arr.of B) := by
    unfold TransferObj.stored
    rw [if_neg (by simp [TransferM.isSISO, hn]; exact fun h2 h3 => h1 ⟨h2, h3⟩), hd]
  obtain ⟨h2, h3⟩ := validate_mimo (X := X) (Y := B) hp hm h1
  constructor
  · intro h
    simp only [TransferObj.assign, e, h2 h]
    rw [if_neg (by simp [hs])]
    exact (TransferObj.recalc_g E N _).1
  · intro h
    simp only [TransferObj.assign, e, h3 h]

/-- **C63**, multivariable models: the same for `den`. -/
theorem C63_mimo_den {S : TransferObj K P} {A B X : Matrix (Fin p) (Fin m) (List K)} (hp : 0 < p) (hm : 0 < m) (h1 : ¬ (p = 1 ∧ m = 1)) (hn : S.g.num = Arr.of A) (hd : S.g.den = Arr.of B)
    (hs : S.shape = (p, m)) :
    ((∀ i j, (trimZeros (A i j)).length ≤ (trimZeros (X i j)).length) → (S.assign E N (.den (.lists (Arr.of X)))).1.g = { S.g with den := Arr.of X }) ∧
    ((∃ i j, (trimZeros (X i j)).length < (trimZeros (A i j)).length) → S.assign E N (.den (.lists (Arr.of X))) = (S, some .value)) := by
  have e : S.stored S.g.num = .lists (Arr.of A) := by
    unfold TransferObj.stored
    rw [if_neg (by simp [TransferM.isSISO, hn]; exact fun h2 h3 => h1 ⟨h2, h3⟩), hn]
  obtain ⟨h2, h3⟩ := validate_mimo (X := A) (Y := X) hp hm h1
  constructor
  · intro h
    simp only [TransferObj.assign, e, h2 h]
    rw [if_neg (by simp [hs])]
    exact (TransferObj.recalc_g E N _).1
  · intro h
    simp only [TransferObj.assign, e, h3 h]

/-- A row of two first-order models. -/
example : ∃ (S : TransferObj ℚ ℚ) (A B X : Matrix (Fin 1) (Fin 2) (List ℚ)), S.g.num = Arr.of A ∧ S.g.den = Arr.of B ∧ S.shape = (1, 2) ∧
    ∀ i j, (trimZeros (X i j)).length ≤ (trimZeros (B i j)).length := by
  refine ⟨⟨⟨Arr.of !![[1], [1]], Arr.of !![[1, 2], [1, 3]], false, none⟩, (1, 2), none, none, 0, [], [], true⟩, _, _, !![[5], [7, 1]], rfl, rfl, rfl, fun i j => ?_⟩
  fin_cases i
  fin_cases j <;> simp [trimZeros]

end

/-! ## C70 -/

theorem argmax_spec : ∀ (l : List ℂ) (b : ℂ), argmaxDamp l b ∈ b :: l ∧ ∀ x ∈ b :: l, dampKey x ≤ dampKey (argmaxDamp l b) := by
  intro l
  induction l with
  | nil => intro b; simp [argmaxDamp]
  | cons y l ih =>
    intro b
    rw [argmaxDamp]
    split_ifs with h
    · obtain ⟨h1, h2⟩ := ih y
      refine ⟨List.mem_cons_of_mem _ h1, fun x hx => ?_⟩
      rcases List.mem_cons.mp hx with rfl | hx
      · exact h.le.trans (h2 y (by simp))
      · exact h2 x hx
    · obtain ⟨h1, h2⟩ := ih b
      refine ⟨?_, fun x hx => ?_⟩
      · rcases List.mem_cons.mp h1 with h1 | h1
        · rw [h1]; simp
        · exact List.mem_cons_of_mem _ (List.mem_cons_of_mem _ h1)
      · rcases List.mem_cons.mp hx with rfl | hx
        · exact h2 _ (by simp)
        rcases List.mem_cons.mp hx with rfl | hx
        · exact (not_lt.mp h).trans (h2 b (by simp))
        · exact h2 x (List.mem_cons_of_mem _ hx)

theorem min_spec : ∀ (l : List ℝ) (b : ℝ), l.foldl min b ∈ b :: l ∧ ∀ x ∈ b :: l, l.foldl min b ≤ x := by
  intro l
  induction l with
  | nil => intro b; simp
  | cons y l ih =>
    intro b
    rw [List.foldl_cons]
    obtain ⟨h1, h2⟩ := ih (min b y)
    refine ⟨?_, fun x hx => ?_⟩
    · rcases List.mem_cons.mp h1 with h1 | h1
      · rw [h1]
        rcases min_choice b y with h | h <;> rw [h] <;> simp
      · exact List.mem_cons_of_mem _ (List.mem_cons_of_mem _ h1)
    · have h3 := h2 (min b y) (by simp)
      rcases List.mem_cons.mp hx with rfl | hx
      · exact h3.trans (min_le_left _ _)
      rcases List.mem_cons.mp hx with rfl | hx
      · exact h3.trans (min_le_right _ _)
      · exact h2 x (List.mem_cons_of_mem _ hx)

/-- **C70**, the first frequency: for a dynamic model the bound is started at the distance from the origin of one of its poles. If all poles are real it is the closest one. If there is a pole off the real axis and none on the imaginary axis, it is one with the largest `|Im p / Re p| / |p|`. -/
theorem C70_start {poles : List ℂ} {w : ℝ} (h : lowDamp false poles = .ok w) :
    ((∀ x ∈ poles, x.im = 0) → (∃ x ∈ poles, w = ‖x‖) ∧ ∀ x ∈ poles, w ≤ ‖x‖) ∧
    ((∃ x ∈ poles, x.im ≠ 0) → (∀ x ∈ poles, x.re ≠ 0) → ∃ x ∈ poles, w = ‖x‖ ∧ ∀ y ∈ poles, |y.im / y.re / ‖y‖| ≤ |x.im / x.re / ‖x‖|) := by
  unfold lowDamp at h
  rw [if_neg (by simp)] at h
  constructor
  · intro h1
    rw [if_neg (by push Not; exact h1)] at h
    cases poles with
    | nil => simp [npMin] at h
    | cons b l =>
      simp only [List.map_cons, npMin, Except.ok.injEq] at h
      obtain ⟨h2, h3⟩ := min_spec (l.map fun x => ‖x‖) ‖b‖
      rw [h, ← List.map_cons (f := fun x : ℂ => ‖x‖)] at h2 h3
      obtain ⟨x, hx, h4⟩ := List.mem_map.mp h2
      exact ⟨⟨x, hx, h4.symm⟩, fun y hy => h3 _ (List.mem_map.mpr ⟨y, hy, rfl⟩)⟩
  · intro h1 h0
    rw [if_pos h1] at h
    cases poles with
    | nil => simp at h
    | cons b l =>
      simp only [Except.ok.injEq] at h
      obtain ⟨h2, h3⟩ := argmax_spec l b
      refine ⟨_, h2, h.symm, fun y hy => ?_⟩
      have h4 := h3 y hy
      unfold dampKey at h4
      rw [if_neg (h0 _ hy), if_neg (h0 _ h2)] at h4
      exact WithTop.coe_le_coe.mp (WithTop.coe_le_coe.mp h4)

/-- The poles `-1`, `-1 ± 2 i`. -/
example : ∃ w, lowDamp false [-1, -1 + 2 * Complex.I, -1 - 2 * Complex.I] = .ok w ∧ (∃ x ∈ [(-1 : ℂ), -1 + 2 * Complex.I, -1 - 2 * Complex.I], x.im ≠ 0) ∧
    ∀ x ∈ [(-1 : ℂ), -1 + 2 * Complex.I, -1 - 2 * Complex.I], x.re ≠ 0 := by
  obtain ⟨w, hw⟩ := lowDamp_ok (l := [(-1 : ℂ), -1 + 2 * Complex.I, -1 - 2 * Complex.I]) (by simp)
  refine ⟨w, hw, ⟨-1 + 2 * Complex.I, by simp, by simp⟩, ?_⟩
  intro x hx
  fin_cases hx <;> simp

end Harold
