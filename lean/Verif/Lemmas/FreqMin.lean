import Verif.Model.FreqMin
import Verif.Spec.FreqMin
import Verif.Lemmas.Freq
import Verif.Lemmas.MinrealState
import Verif.Lemmas.Convert

/-!
# Frequency responses of rescaled and minimal rows
-/

namespace Harold

open Matrix Spec

section elim
variable {L : Type} [Field L] [DecidableEq L]

/-- Row and column scalings commute with a step of the elimination. -/
theorem elimStep_scale {U U' : ℕ → ℕ → L} {d e : ℕ → L} (hd : ∀ i, d i ≠ 0) (he : ∀ j, e j ≠ 0) (h : ∀ i j, U' i j = d i * U i j * e j) (x : ℕ) :
    (elimStep U x = none ∧ elimStep U' x = none) ∨
      ∃ V V', elimStep U x = some V ∧ elimStep U' x = some V' ∧ ∀ i j, V' i j = d i * V i j * e j := by
  unfold elimStep
  by_cases h0 : U (x - 1) (x - 1) = 0
  · exact Or.inl ⟨if_pos h0, if_pos (by rw [h, h0]; ring)⟩
  · have h1 : U' (x - 1) (x - 1) ≠ 0 := by
      rw [h]
      exact mul_ne_zero (mul_ne_zero (hd _) h0) (he _)
    refine Or.inr ⟨_, _, if_neg h0, if_neg h1, fun i j => ?_⟩
    split_ifs with h2
    · obtain ⟨rfl, -⟩ := h2
      rw [h, h, h, h]
      have := hd (i - 1)
      have := he (i - 1)
      field_simp
    · exact h i j

theorem elim_scale {d e : ℕ → L} (hd : ∀ i, d i ≠ 0) (he : ∀ j, e j ≠ 0) (l : List ℕ) : ∀ {U U' : ℕ → ℕ → L}, (∀ i j, U' i j = d i * U i j * e j) →
    (l.foldlM elimStep U = none ∧ l.foldlM elimStep U' = none) ∨
      ∃ V V', l.foldlM elimStep U = some V ∧ l.foldlM elimStep U' = some V' ∧ ∀ i j, V' i j = d i * V i j * e j := by
  induction l with
  | nil => exact fun {U U'} h => Or.inr ⟨U, U', rfl, rfl, h⟩
  | cons x l ih =>
    intro U U' h
    rw [List.foldlM_cons, List.foldlM_cons]
    rcases elimStep_scale hd he h x with ⟨h1, h2⟩ | ⟨V, V', h1, h2, h3⟩
    · rw [h1, h2]
      exact Or.inl ⟨rfl, rfl⟩
    · rw [h1, h2]
      exact ih h3

theorem elimSolve_scale {d e : ℕ → L} (hd : ∀ i, d i ≠ 0) (he : ∀ j, e j ≠ 0) {U U' : ℕ → ℕ → L} (h : ∀ i j, U' i j = d i * U i j * e j) (n : ℕ) (sc : L) {c : ℕ}
    (hc : e (n + c) = 1) : elimSolve n U' (sc * e (n - 1)) c = elimSolve n U sc c := by
  unfold elimSolve
  rcases elim_scale hd he (List.range' 1 (n - 1)) h with ⟨h1, h2⟩ | ⟨V, V', h1, h2, h3⟩
  · rw [h1, h2]
  · rw [h1, h2]
    dsimp only
    by_cases h0 : V (n - 1) (n - 1) = 0
    · rw [if_pos h0, if_pos (by rw [h3, h0]; ring)]
    · have h4 : V' (n - 1) (n - 1) ≠ 0 := by
        rw [h3]
        exact mul_ne_zero (mul_ne_zero (hd _) h0) (he _)
      rw [if_neg h0, if_neg h4, h3, h3, hc]
      have := hd (n - 1)
      have := he (n - 1)
      congr 1
      field_simp

end elim

section rows
variable {n m p : ℕ}

theorem get_lt (X : Matrix (Fin n) (Fin m) ℝ) {i j : ℕ} (hi : i < n) (hj : j < m) : (Arr.of X).get i j = X ⟨i, hi⟩ ⟨j, hj⟩ := by
  unfold Arr.get
  rw [dif_pos ⟨hi, hj⟩]

theorem get_ge (X : Matrix (Fin n) (Fin m) ℝ) {i j : ℕ} (h : ¬ (i < n ∧ j < m)) : (Arr.of X).get i j = 0 := by
  unfold Arr.get
  rw [dif_neg h]

theorem diagonal_inv {d : Fin n → ℝ} (hd : ∀ i, d i ≠ 0) : (diagonal d)⁻¹ = diagonal fun i => (d i)⁻¹ := by
  refine inv_eq_left_inv ?_
  rw [diagonal_mul_diagonal, ← diagonal_one]
  congr 1
  funext i
  exact inv_mul_cancel₀ (hd i)

/-- The samples of a row do not depend on the scaling of the states. -/
theorem rowResp_scale {d : Fin n → ℝ} (hd : ∀ i, d i ≠ 0) (hn : 0 < n) (H : Matrix (Fin n) (Fin n) ℝ) (B : Matrix (Fin n) (Fin m) ℝ) (c : Matrix (Fin 1) (Fin n) ℝ) (s : ℂ) (k : ℕ) :
    rowResp (Arr.of ((diagonal d)⁻¹ * H * diagonal d), Arr.of ((diagonal d)⁻¹ * B), Arr.of (c * diagonal d)) s k = rowResp (Arr.of H, Arr.of B, Arr.of c) s k := by
  unfold rowResp
  simp only [Arr.of_r, Arr.of_c]
  rw [diagonal_inv hd]
  set e : ℕ → ℂ := fun j => if h : j < n then (d ⟨j, h⟩ : ℂ) else 1 with he
  have he0 : ∀ j, e j ≠ 0 := fun j => by
    simp only [he]
    split_ifs with h
    · exact_mod_cast hd _
    · exact one_ne_zero
  have hsc : (((Arr.of (c * diagonal d)).get 0 (n - 1) : ℝ) : ℂ) = (((Arr.of c).get 0 (n - 1) : ℝ) : ℂ) * e (n - 1) := by
    rw [get_lt _ one_pos (by omega), get_lt _ one_pos (by omega), mul_diagonal, Complex.ofReal_mul]
    simp only [he]
    rw [dif_pos (by omega)]
  rw [hsc]
  refine elimSolve_scale (d := fun i => (e i)⁻¹) (fun i => inv_ne_zero (he0 i)) he0 (fun i j => ?_) n _ (by simp [he])
  unfold elimInit
  simp only [Arr.of_c]
  have hdiag : (if i = j then s else 0) = (e i)⁻¹ * (if i = j then s else 0) * e j := by
    split_ifs with h
    · subst h
      have := he0 i
      field_simp
    · ring
  rw [mul_add, add_mul, ← hdiag]
  congr 1
  split_ifs with hj
  · by_cases hi : i < n
    · rw [get_lt _ hi hj, get_lt _ hi hj, mul_diagonal, diagonal_mul]
      simp only [he, dif_pos hi, dif_pos hj]
      push_cast
      ring
    · rw [get_ge _ (fun h => hi h.1), get_ge _ (fun h => hi h.1)]
      simp
  · have hj' : e j = 1 := by simp only [he, dif_neg hj]
    rw [hj', mul_one]
    by_cases hi : i < n ∧ j - n < m
    · rw [get_lt _ hi.1 hi.2, get_lt _ hi.1 hi.2, diagonal_mul]
      simp only [he, dif_pos hi.1]
      push_cast
      rfl
    · rw [get_ge _ hi, get_ge _ hi]
      simp

theorem reachable_ne_zero {K : Type} [Field K] {A : Matrix (Fin n) (Fin n) K} {B : Matrix (Fin n) (Fin m) K} (hn : 0 < n) (h : Reachable A B) : B ≠ 0 := by
  rintro rfl
  obtain ⟨us, hus⟩ := h fun _ => 1
  have key : ∀ us : List (Fin m → K), finalState A (0 : Matrix (Fin n) (Fin m) K) us = 0 := by
    intro us
    unfold finalState
    induction us with
    | nil => rfl
    | cons u us ih => simpa using ih
  rw [key] at hus
  exact zero_ne_one (congrFun hus ⟨0, hn⟩)

/-- A minimal model is returned in the coordinates of the balancing. -/
theorem minrealMatrices_keep {S : SvdNum ℝ} (hS : ∀ (a b : ℕ) (M : Matrix (Fin a) (Fin b) ℝ), SvdOk S M) (he : S.eps = 0) {N : MinNum ℝ} {tol : ℝ} (hN : Decides N tol)
    {A T : Matrix (Fin n) (Fin n) ℝ} {B : Matrix (Fin n) (Fin m) ℝ} {C : Matrix (Fin p) (Fin n) ℝ} (hT : T.det ≠ 0)
    (h1 : N.bal (Arr.of A) = (Arr.of (T⁻¹ * A * T), Arr.of T)) (hn : 0 < n) (hC : C.rank < n) (hr : Reachable A B) (ho : Observable A C) :
    minrealMatrices S N tol (Arr.of A) (Arr.of B) (Arr.of C) = .ok (Arr.of (T⁻¹ * A * T), Arr.of (T⁻¹ * B), Arr.of (C * T)) := by
  have hTT : T⁻¹ * T = 1 := nonsing_inv_mul T (isUnit_iff_ne_zero.mpr hT)
  have hr1 : Reachable (T⁻¹ * A * T) (T⁻¹ * B) := (reachable_coords hTT).mpr hr
  have ho1 : Observable (T⁻¹ * A * T) (C * T) := (observable_coords hTT).mpr ho
  have hC1 : (C * T).rank < n := lt_of_le_of_lt (rank_mul_le_left C T) hC
  obtain ⟨Ac, Bc, Cc, Tc, r, h2, h3, h4, h5, h6, h7, h8⟩ := stair_c_exact hS he (T⁻¹ * A * T) (C * T) (reachable_ne_zero hn hr1)
  obtain ⟨Ao, Bo, Co, To, q, h9, h10, h11, h12, h13, -, -⟩ := stair_o_exact hS he (T⁻¹ * A * T) (T⁻¹ * B) hC1
  have hkc := hN 0 Ac Bc
  rw [h4, h5, reachable_coords h3, ← h4, ← h5] at hkc
  have hko := hN 1 Aoᵀ Coᵀ
  rw [← observable_iff_dual, h11, h13, observable_coords h10, ← h11, ← h13] at hko
  rw [minrealMatrices_eq hn hT h1 h2 h9, Arr.T_of, cancelDist_of _ _ _ _ hn]
  exact if_pos (lt_min (hkc.mpr hr1) (hko.mpr ho1))

/-- Two ways to compute the rows with the same samples give the same answer. -/
theorem freqState_congr {N : HessNum ℝ} {red red' : Option (Reduce ℝ)} {auto : List ℝ} {G : StateM ℝ} {w : Option GridArg} {samples : Option ℕ} {iu ou : String}
    (h : G.isgain = false → ∀ i : Fin G.c.r, ∃ r r', freqRow N red G i = .ok r ∧ freqRow N red' G i = .ok r' ∧ ∀ (s : ℂ) (k : ℕ), rowResp r s k = rowResp r' s k) :
    freqState N red auto G w samples iu ou = freqState N red' auto G w samples iu ou := by
  unfold freqState
  by_cases h0 : unitOk iu = false ∨ unitOk ou = false
  · rw [if_pos h0, if_pos h0]
  · rw [if_neg h0, if_neg h0]
    cases hw : freqGrid auto G.isgain G.dt w samples iu with
    | error e => rfl
    | ok ws =>
      simp only [bind, Except.bind]
      by_cases hg : G.isgain = true
      · rw [if_pos hg, if_pos hg]
      · rw [if_neg hg, if_neg hg]
        choose r r' h1 h2 h3 using h (by simpa using hg)
        rw [finM_ok.mpr h1, finM_ok.mpr h2]
        simp only [h3]

end rows

end Harold
