import Verif.Spec.Freq
import Verif.Lemmas.Hess
import Verif.Lemmas.TransferMk
import Mathlib.Data.List.GetD
import Mathlib.LinearAlgebra.Matrix.ToLinearEquiv
import Mathlib.Tactic.LinearCombination
import Mathlib.Tactic.FieldSimp

/-!
# The elimination of `_State_freq_resp`
-/

namespace Harold

open Matrix Spec

section elim
variable {L : Type} [Field L] [DecidableEq L]

/-- After the steps `1, …, k`: row `i ≤ k` is a combination of the original rows up to `i` (with coefficient one at `i`) whose entries in front of the
diagonal vanish; they are not stored. -/
structure ElimInv (n : ℕ) (U V : ℕ → ℕ → L) (k : ℕ) : Prop where
  rest : ∀ i j, k < i → V i j = U i j
  done : ∀ i, i ≤ k → ∃ l : ℕ → L, l i = 1 ∧ ∀ j, (∑ t ∈ Finset.range (i + 1), l t * U t j) = if j < i then 0 else V i j

theorem elimInv_zero (n : ℕ) (U : ℕ → ℕ → L) : ElimInv n U U 0 := by
  refine ⟨fun _ _ _ => rfl, fun i hi => ⟨fun _ => 1, rfl, fun j => ?_⟩⟩
  obtain rfl : i = 0 := by omega
  simp

theorem elimInv_step {n : ℕ} {U V W : ℕ → ℕ → L} {k : ℕ} (hess : ∀ i j, j + 1 < i → i < n → U i j = 0) (hk : k + 1 < n)
    (h : ElimInv n U V k) (hs : elimStep V (k + 1) = some W) : ElimInv n U W (k + 1) := by
  unfold elimStep at hs
  split_ifs at hs with h0
  simp only [Nat.add_sub_cancel, Option.some.injEq] at hs h0
  subst hs
  refine ⟨fun i j hi => ?_, fun i hi => ?_⟩
  · rw [if_neg (by omega), h.rest i j (by omega)]
  · rcases Nat.lt_or_ge k i with h1 | h1
    · obtain rfl : i = k + 1 := by omega
      obtain ⟨l, hl, hl'⟩ := h.done k le_rfl
      refine ⟨fun t => if t = k + 1 then 1 else -(V (k + 1) k / V k k) * l t, by simp, fun j => ?_⟩
      dsimp only
      rw [Finset.sum_range_succ, if_pos rfl, one_mul]
      have e : ∑ t ∈ Finset.range (k + 1), (if t = k + 1 then 1 else -(V (k + 1) k / V k k) * l t) * U t j
          = -(V (k + 1) k / V k k) * ∑ t ∈ Finset.range (k + 1), l t * U t j := by
        rw [Finset.mul_sum]
        refine Finset.sum_congr rfl fun t ht => ?_
        rw [if_neg (by have := Finset.mem_range.mp ht; omega), mul_assoc]
      rw [e, hl']
      have hr := fun j => h.rest (k + 1) j (by omega)
      rcases lt_trichotomy j k with h2 | rfl | h2
      · rw [if_pos h2, if_pos (by omega), hess _ _ (by omega) hk]
        ring
      · rw [if_neg (by omega), if_pos (by omega), ← hr]
        field_simp
        ring
      · rw [if_neg (by omega), if_neg (by omega), if_pos ⟨rfl, by omega⟩, ← hr]
        ring
    · obtain ⟨l, hl, hl'⟩ := h.done i (by omega)
      refine ⟨l, hl, fun j => ?_⟩
      rw [hl', if_neg (c := i = k + 1 ∧ _) (by omega)]

theorem elim_loop {n : ℕ} {U : ℕ → ℕ → L} (hess : ∀ i j, j + 1 < i → i < n → U i j = 0) :
    ∀ (c k : ℕ) {V W : ℕ → ℕ → L}, ElimInv n U V k → k + c + 1 ≤ n → (List.range' (k + 1) c).foldlM elimStep V = some W →
      ElimInv n U W (k + c) := by
  intro c
  induction c with
  | zero =>
    intro k V W h _ hs
    simp only [List.range'_zero, List.foldlM_nil] at hs
    cases hs
    exact h
  | succ c ih =>
    intro k V W h hk hs
    rw [List.range'_succ, List.foldlM_cons] at hs
    simp only [bind, Option.bind] at hs
    split at hs
    · cases hs
    · rename_i V' hV'
      have := ih (k + 1) (elimInv_step hess (by omega) h hV') (by omega) hs
      rwa [show k + 1 + c = k + (c + 1) by omega] at this

/-- What a `some` answer means: the last component of every solution of the eliminated system, times `sc`. -/
theorem elimSolve_sound {n : ℕ} (hn : 0 < n) {U : ℕ → ℕ → L} (hess : ∀ i j, j + 1 < i → i < n → U i j = 0) {sc v : L} {c : ℕ}
    (h : elimSolve n U sc c = some v) (X : ℕ → L) (hX : ∀ i < n, ∑ j ∈ Finset.range n, U i j * X j = U i (n + c)) : v = X (n - 1) * sc := by
  unfold elimSolve at h
  split at h
  · cases h
  · rename_i V hV
    split_ifs at h with h0
    rw [Option.some.injEq] at h
    have hi := elim_loop hess (n - 1) 0 (elimInv_zero n U) (by omega) hV
    rw [Nat.zero_add] at hi
    obtain ⟨l, -, hl⟩ := hi.done (n - 1) le_rfl
    rw [Nat.sub_add_cancel hn] at hl
    have h1 := hl (n + c)
    rw [if_neg (by omega)] at h1
    have h2 : ∑ j ∈ Finset.range n, (∑ t ∈ Finset.range n, l t * U t j) * X j = V (n - 1) (n + c) := by
      rw [← h1]
      simp only [Finset.sum_mul]
      rw [Finset.sum_comm]
      refine Finset.sum_congr rfl fun t ht => ?_
      rw [← hX t (Finset.mem_range.mp ht), Finset.mul_sum]
      exact Finset.sum_congr rfl fun j _ => by ring
    rw [Finset.sum_eq_single (n - 1)] at h2
    · rw [hl, if_neg (by omega)] at h2
      rw [← h, ← h2]
      field_simp
    · intro j hj hj'
      rw [hl, if_pos (by have := Finset.mem_range.mp hj; omega), zero_mul]
    · intro hj
      exact absurd (Finset.mem_range.mpr (by omega)) hj

/-- The leading principal minor of size `k`. -/
def minor (U : ℕ → ℕ → L) (k : ℕ) : Matrix (Fin k) (Fin k) L := Matrix.of fun i j => U i j

theorem pivot_ne {n k : ℕ} {U V : ℕ → ℕ → L} (h : ElimInv n U V k) (hd : (minor U (k + 1)).det ≠ 0) : V k k ≠ 0 := by
  intro h0
  obtain ⟨l, hl, hl'⟩ := h.done k le_rfl
  refine hd (Matrix.exists_vecMul_eq_zero_iff.mp ⟨fun i => l i, ?_, ?_⟩)
  · intro h1
    have := congrFun h1 (Fin.last k)
    simp [hl] at this
  · funext j
    have h1 := hl' j
    rw [Finset.sum_range] at h1
    have h2 : (if (j : ℕ) < k then 0 else V k j) = 0 := by
      split_ifs with h3
      · rfl
      · rw [show (j : ℕ) = k by omega, h0]
    rw [h2] at h1
    simpa [Matrix.vecMul, dotProduct, minor] using h1

theorem elim_loop_defined {n : ℕ} {U : ℕ → ℕ → L} (hess : ∀ i j, j + 1 < i → i < n → U i j = 0) (hd : ∀ k ≤ n, (minor U k).det ≠ 0) :
    ∀ (c k : ℕ) {V : ℕ → ℕ → L}, ElimInv n U V k → k + c + 1 ≤ n → ∃ W, (List.range' (k + 1) c).foldlM elimStep V = some W := by
  intro c
  induction c with
  | zero =>
    intro k V h _
    exact ⟨V, rfl⟩
  | succ c ih =>
    intro k V h hk
    have hp := pivot_ne h (hd (k + 1) (by omega))
    obtain ⟨V', hV'⟩ : ∃ V', elimStep V (k + 1) = some V' := by
      unfold elimStep
      rw [if_neg (by simpa using hp)]
      exact ⟨_, rfl⟩
    obtain ⟨W, hW⟩ := ih (k + 1) (elimInv_step hess (by omega) h hV') (by omega)
    refine ⟨W, ?_⟩
    rw [List.range'_succ, List.foldlM_cons, hV']
    exact hW

theorem elimSolve_defined {n : ℕ} (hn : 0 < n) {U : ℕ → ℕ → L} (hess : ∀ i j, j + 1 < i → i < n → U i j = 0)
    (hd : ∀ k ≤ n, (minor U k).det ≠ 0) (sc : L) (c : ℕ) : ∃ v, elimSolve n U sc c = some v := by
  obtain ⟨W, hW⟩ := elim_loop_defined hess hd (n - 1) 0 (elimInv_zero n U) (by omega)
  unfold elimSolve
  rw [Nat.zero_add] at hW
  rw [hW]
  have hi := elim_loop hess (n - 1) 0 (elimInv_zero n U) (by omega) hW
  rw [Nat.zero_add] at hi
  have := pivot_ne hi (by rw [Nat.sub_add_cancel hn]; exact hd n le_rfl)
  simp only
  rw [if_neg this]
  exact ⟨_, rfl⟩

end elim

section state
variable {n m p : ℕ}

theorem get_of (X : Matrix (Fin n) (Fin m) ℝ) (i : Fin n) (j : Fin m) : (Arr.of X).get i j = X i j := by
  simp [Arr.get]

theorem elimInit_lt (H : Matrix (Fin n) (Fin n) ℝ) (B : Matrix (Fin n) (Fin m) ℝ) (s : ℂ) (i j : Fin n) :
    elimInit (Arr.of H) (Arr.of B) s i j = (s • (1 : Matrix (Fin n) (Fin n) ℂ) - H.map (algebraMap ℝ ℂ)) i j := by
  unfold elimInit
  rw [if_pos (by simpa using j.2), get_of]
  by_cases h : i = j
  · subst h
    simp [sub_eq_neg_add]
  · rw [if_neg (fun h' => h (Fin.ext h'))]
    simp [Matrix.one_apply, h]

theorem elimInit_ge (H : Matrix (Fin n) (Fin n) ℝ) (B : Matrix (Fin n) (Fin m) ℝ) (s : ℂ) (i : Fin n) (c : Fin m) :
    elimInit (Arr.of H) (Arr.of B) s i (n + c) = B.map (algebraMap ℝ ℂ) i c := by
  unfold elimInit
  rw [if_neg (by simp), if_neg (by have := i.2; omega)]
  simp only [Arr.of_c, Nat.add_sub_cancel_left, get_of, add_zero]
  rfl

theorem elimInit_hess {H : Matrix (Fin n) (Fin n) ℝ} (hH : IsHess H) (B : Matrix (Fin n) (Fin m) ℝ) (s : ℂ) (i j : ℕ) (h : j + 1 < i)
    (hi : i < n) : elimInit (Arr.of H) (Arr.of B) s i j = 0 := by
  have := elimInit_lt H B s ⟨i, hi⟩ ⟨j, by omega⟩
  simp only at this
  rw [this]
  simp [hH ⟨i, hi⟩ ⟨j, by omega⟩ h, Matrix.one_apply, show ¬ i = j by omega]

theorem rowResp_sound (hn : 0 < n) {H : Matrix (Fin n) (Fin n) ℝ} (hH : IsHess H) (B : Matrix (Fin n) (Fin m) ℝ) {c : Matrix (Fin 1) (Fin n) ℝ}
    (hc : ∀ j : Fin n, (j : ℕ) + 1 ≠ n → c 0 j = 0) {s v : ℂ} {k : Fin m} (h : rowResp (Arr.of H, Arr.of B, Arr.of c) s k = some v)
    {X : Matrix (Fin n) (Fin m) ℂ} (hX : (s • (1 : Matrix (Fin n) (Fin n) ℂ) - H.map (algebraMap ℝ ℂ)) * X = B.map (algebraMap ℝ ℂ)) :
    v = (c.map (algebraMap ℝ ℂ) * X) 0 k := by
  unfold rowResp at h
  simp only [Arr.of_r, Arr.of_c] at h
  have h1 := elimSolve_sound hn (elimInit_hess hH B s) h (fun j => if hj : j < n then X ⟨j, hj⟩ k else 0) ?_
  · rw [h1, dif_pos (by omega), Matrix.mul_apply, Finset.sum_eq_single (⟨n - 1, by omega⟩ : Fin n)]
    · have : (Arr.of c).get 0 (n - 1) = c 0 ⟨n - 1, by omega⟩ := get_of c 0 ⟨n - 1, by omega⟩
      rw [this, mul_comm]
      rfl
    · intro j _ hj
      rw [Matrix.map_apply, hc j (fun h => hj (Fin.ext (by simp; omega))), map_zero, zero_mul]
    · simp
  · intro i hi
    have h2 := elimInit_ge H B s ⟨i, hi⟩ k
    rw [← hX, Matrix.mul_apply] at h2
    simp only at h2
    rw [h2, Finset.sum_range]
    refine Finset.sum_congr rfl fun j _ => ?_
    rw [dif_pos j.2, ← elimInit_lt H B s ⟨i, hi⟩ j]

theorem rowResp_defined (hn : 0 < n) {H : Matrix (Fin n) (Fin n) ℝ} (hH : IsHess H) (B : Matrix (Fin n) (Fin m) ℝ) (c : Matrix (Fin 1) (Fin n) ℝ)
    {s : ℂ} (k : Fin m) (hd : ∀ (k : ℕ) (hk : k ≤ n),
      ((s • (1 : Matrix (Fin n) (Fin n) ℂ) - H.map (algebraMap ℝ ℂ)).submatrix (Fin.castLE hk) (Fin.castLE hk)).det ≠ 0) :
    ∃ v, rowResp (Arr.of H, Arr.of B, Arr.of c) s k = some v := by
  unfold rowResp
  refine elimSolve_defined hn (elimInit_hess hH B s) (fun k hk => ?_) _ _
  have e : minor (elimInit (Arr.of H) (Arr.of B) s) k =
      (s • (1 : Matrix (Fin n) (Fin n) ℂ) - H.map (algebraMap ℝ ℂ)).submatrix (Fin.castLE hk) (Fin.castLE hk) :=
    Matrix.ext fun i j => elimInit_lt H B s (Fin.castLE hk i) (Fin.castLE hk j)
  rw [e]
  exact hd k hk

theorem freqRow_of {N : HessNum ℝ} (hn : 0 < n) (A : Matrix (Fin n) (Fin n) ℝ) (B : Matrix (Fin n) (Fin m) ℝ) (C : Matrix (Fin p) (Fin n) ℝ)
    (d : Arr ℝ) (dt : Option ℝ) (g : Bool) (hq : ∀ b : Matrix (Fin n) (Fin 1) ℝ, QrOk N b) (hh : ∀ M : Matrix (Fin n) (Fin n) ℝ, HessOk N M)
    (i : Fin p) : ∃ T : Matrix (Fin n) (Fin n) ℝ, Tᵀ * T = 1 ∧ IsHess (Tᵀ * A * T) ∧ (∀ j : Fin n, (j : ℕ) + 1 ≠ n → (C * T) i j = 0) ∧
      freqRow N none ⟨Arr.of A, Arr.of B, Arr.of C, d, dt, g⟩ i =
        .ok (Arr.of (Tᵀ * A * T), Arr.of (Tᵀ * B), Arr.of (Matrix.of fun (_ : Fin 1) j => (C * T) i j)) := by
  obtain ⟨T, h1, h2, h3, h4⟩ := hessMatrices_o A B (Matrix.of fun (_ : Fin 1) j => C i j) (hq _) hh true
  have e1 : (T.submatrix id Fin.rev)ᵀ * A * (T.submatrix id Fin.rev) = (Tᵀ * A * T).submatrix Fin.rev Fin.rev := by
    ext a b
    simp [Matrix.mul_apply]
  have e2 : (T.submatrix id Fin.rev)ᵀ * B = (Tᵀ * B).submatrix Fin.rev id := by
    ext a b
    simp [Matrix.mul_apply]
  refine ⟨T.submatrix id Fin.rev, ?_, ?_, ?_, ?_⟩
  · have : (T.submatrix id Fin.rev)ᵀ * (T.submatrix id Fin.rev) = (Tᵀ * T).submatrix Fin.rev Fin.rev := by
      ext a b
      simp [Matrix.mul_apply]
    rw [this, h1]
    ext a b
    simp [Matrix.one_apply, Fin.rev_inj]
  · rw [e1]
    intro a b hab
    exact h2 (Fin.rev b) (Fin.rev a) (by simp [Fin.val_rev]; omega)
  · intro j hj
    have := h3 0 (Fin.rev j) (by simp [Fin.val_rev]; have := j.2; omega)
    simpa [Matrix.mul_apply] using this
  · unfold freqRow
    have e3 : (Arr.of (Matrix.of fun (_ : Fin 1) j => C i j)) = Arr.of (Matrix.of fun (_ : Fin 1) (j : Fin n) => C i j) := rfl
    simp only [Arr.of_c, Arr.of_m]
    rw [h4]
    simp only [bind, Except.bind, if_true, Arr.of_r, freqReduce]
    rw [if_neg (by omega), e1, e2]
    rfl

end state

section poly

theorem polyval_eq (l : List ℝ) (s : ℂ) : polyval l s = polyAt s l := by
  unfold polyval polyAt
  induction l using List.reverseRecOn with
  | nil => simp [toPoly]
  | append_singleton l a ih =>
    rw [List.foldl_append, ih, toPoly_append]
    simp [toPoly]

end poly

end Harold
