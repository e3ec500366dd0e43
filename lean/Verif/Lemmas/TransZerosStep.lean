import Verif.Lemmas.TransZeros
import Verif.Lemmas.Svd
import Verif.Lemmas.Stair
import Verif.Lemmas.KalmanDecomp
import Verif.Lemmas.Convert

/-!
# The code performs deflation steps
-/

namespace Harold

open Matrix Spec

variable {n m p : ℕ}

/-- In a descending list the first entries are the ones above `tol`. -/
theorem desc_getD_gt {s : List ℝ} {tol : ℝ} (hs : s.Pairwise (· ≥ ·)) : ∀ {i : ℕ}, i < countAbove tol s → tol < s.getD i 0 := by
  induction s with
  | nil => intro i h; simp [countAbove] at h
  | cons a l ih =>
    intro i h
    rw [List.pairwise_cons] at hs
    by_cases ha : tol < a
    · have : countAbove tol (a :: l) = countAbove tol l + 1 := by simp [countAbove, ha]
      rcases i with _ | i
      · simpa using ha
      · rw [List.getD_cons_succ]
        exact ih hs.2 (by omega)
    · exfalso
      have : countAbove tol (a :: l) = 0 := by
        unfold countAbove
        rw [List.length_eq_zero_iff, List.filter_eq_nil_iff]
        intro x hx
        rcases List.mem_cons.mp hx with rfl | hx
        · simpa using ha
        · have := hs.1 x hx
          simp only [decide_eq_true_eq, not_lt]
          exact this.trans (not_lt.mp ha)
      omega

section svd
variable {M : Matrix (Fin p) (Fin m) ℝ} {U : Matrix (Fin p) (Fin p) ℝ} {s : List ℝ} {V : Matrix (Fin m) (Fin m) ℝ}

theorem svd_count_le (h : IsSvd M U s V) : countAbove (0 : ℝ) s ≤ min p m := by
  rw [← h.len]
  exact List.length_filter_le _ _

theorem svd_ut (h : IsSvd M U s V) : Uᵀ * M = diagRect p m s * V := by
  rw [h.eq, ← Matrix.mul_assoc, ← Matrix.mul_assoc, h.u_orth, Matrix.one_mul]

/-- The rows of `UᵀM` behind the rank vanish. -/
theorem svd_rows_zero (h : IsSvd M U s V) (i : Fin p) (j : Fin m) (hi : countAbove (0 : ℝ) s ≤ (i : ℕ)) : (Uᵀ * M) i j = 0 := by
  rw [svd_ut h, Matrix.mul_apply]
  refine Finset.sum_eq_zero fun k _ => ?_
  have : diagRect p m s i k = 0 := by
    simp only [diagRect, Matrix.of_apply]
    by_cases hik : (i : ℕ) = k
    · rw [if_pos hik]
      by_cases hl : (i : ℕ) < s.length
      · refine le_antisymm (desc_getD_le h.desc hi hl) ?_
        rw [List.getD_eq_getElem _ _ hl]
        exact h.nonneg _ (List.getElem_mem _)
      · exact List.getD_eq_default _ _ (by omega)
    · rw [if_neg hik]
  rw [this, zero_mul]

/-- A vector in the left kernel of `M` has no components along the first columns of `U`. -/
theorem svd_left (h : IsSvd M U s V) {w : Fin p → ℝ} (hw : w ᵥ* M = 0) (i : Fin p) (hi : (i : ℕ) < countAbove (0 : ℝ) s) : (w ᵥ* U) i = 0 := by
  have hc := svd_count_le h
  have h1 : (w ᵥ* U) ᵥ* diagRect p m s = 0 := by
    have h2 : ((w ᵥ* U) ᵥ* diagRect p m s) ᵥ* V = 0 := by rw [vecMul_vecMul, vecMul_vecMul, ← Matrix.mul_assoc, ← h.eq, hw]
    have h3 := congrArg (fun x => x ᵥ* Vᵀ) h2
    simpa only [vecMul_vecMul, h.v_orth, Matrix.mul_assoc, vecMul_one, Matrix.mul_one, zero_vecMul] using h3
  have h2 := congrFun h1 ⟨i, by omega⟩
  have h3 : ((w ᵥ* U) ᵥ* diagRect p m s) ⟨i, by omega⟩ = (w ᵥ* U) i * s.getD i 0 := by
    rw [vecMul, dotProduct, Finset.sum_eq_single i]
    · simp [diagRect]
    · intro k _ hk
      simp only [diagRect, Matrix.of_apply]
      rw [if_neg (fun hh => hk (Fin.ext hh)), mul_zero]
    · simp
  rw [h3, Pi.zero_apply] at h2
  exact (mul_eq_zero.mp h2).resolve_right (desc_getD_gt h.desc hi).ne'

end svd

theorem vcat_low {σ k : ℕ} (X : Matrix (Fin n) (Fin k) ℝ) (Y : Matrix (Fin σ) (Fin k) ℝ) (i : Fin (n + σ)) (j : Fin k) (h : (i : ℕ) < n) :
    vcat X Y i j = X ⟨i, h⟩ j := by
  obtain ⟨i, rfl⟩ : ∃ i' : Fin n, i = Fin.castAdd σ i' := ⟨⟨i, h⟩, rfl⟩
  simp [vcat]

theorem vcat_high {σ k : ℕ} (X : Matrix (Fin n) (Fin k) ℝ) (Y : Matrix (Fin σ) (Fin k) ℝ) (i : Fin (n + σ)) (j : Fin k) (h : n ≤ (i : ℕ)) :
    vcat X Y i j = Y ⟨i - n, by omega⟩ j := by
  obtain ⟨i, rfl⟩ : ∃ i' : Fin σ, i = Fin.natAdd n i' := ⟨⟨i - n, by omega⟩, Fin.ext (by simp only [Fin.val_natAdd]; omega)⟩
  simp [vcat]

/-- What the first half of an iteration computes. -/
theorem tzSplit_spec {S : SvdNum ℝ} (hS : ∀ {p m : ℕ} (M : Matrix (Fin p) (Fin m) ℝ), SvdOk S M) (C : Matrix (Fin p) (Fin n) ℝ) (D : Matrix (Fin p) (Fin m) ℝ) :
    (tzSplit S 0 (Arr.of C) (Arr.of D) = .ok none ∧ ∀ w, w ᵥ* D = 0 → w = 0) ∨
    ∃ (U : Matrix (Fin p) (Fin p) ℝ) (σ : ℕ), tzSplit S 0 (Arr.of C) (Arr.of D) = .ok (some (Arr.of (Uᵀ * C), Arr.of (Uᵀ * D), σ)) ∧ Uᵀ * U = 1 ∧ σ ≤ p ∧
      (∀ (i : Fin p) (j : Fin m), σ ≤ (i : ℕ) → (Uᵀ * D) i j = 0) ∧ ∀ w, w ᵥ* D = 0 → ∀ i : Fin p, (i : ℕ) < σ → (w ᵥ* U) i = 0 := by
  unfold tzSplit
  by_cases hD : (Arr.of D).any = true
  · obtain ⟨U, s, V, h1, h2⟩ := hS D
    have hc := svd_count_le h2
    simp only [hD, if_true, haroldsvdTol, h1, Arr.of_r, Arr.of_c, Arr.matmul_of, Arr.T_of, bind, Except.bind]
    by_cases ht : p - countAbove 0 s = 0
    · left
      refine ⟨if_pos ht, fun w hw => ?_⟩
      have h3 : w ᵥ* U = 0 := funext fun i => svd_left h2 hw i (by omega)
      have h4 := congrArg (fun x => x ᵥ* Uᵀ) h3
      simpa only [vecMul_vecMul, mul_eq_one_comm.mp h2.u_orth, vecMul_one, zero_vecMul] using h4
    · right
      refine ⟨U, countAbove 0 s, ?_, h2.u_orth, by omega, fun i j => svd_rows_zero h2 i j, fun w hw i => svd_left h2 hw i⟩
      rw [if_neg ht, svd_ut h2]
  · right
    have h0 : D = 0 := by
      ext i j
      by_contra hne
      exact hD ((Arr.any_iff _).mpr ⟨i, j, hne⟩)
    refine ⟨1, 0, ?_, by simp, Nat.zero_le _, fun i j _ => by simp [h0], fun w _ i hi => absurd hi (by omega)⟩
    simp only [hD, Bool.false_eq_true, if_false, transpose_one, Matrix.one_mul]

section canonical
variable (A : Matrix (Fin n) (Fin n) ℝ) (B : Matrix (Fin n) (Fin m) ℝ) (C : Matrix (Fin p) (Fin n) ℝ) (D : Matrix (Fin p) (Fin m) ℝ)
  (Q : Matrix (Fin n) (Fin n) ℝ) (U : Matrix (Fin p) (Fin p) ℝ) (σ ν : ℕ)

/-- The rows of `X` from `ν` on, followed by the first rows of `Y`. -/
def dropRows {k : ℕ} (X : Matrix (Fin n) (Fin k) ℝ) (Y : Matrix (Fin p) (Fin k) ℝ) (hσ : σ ≤ p) : Matrix (Fin (n + σ - ν)) (Fin k) ℝ :=
  Matrix.of fun i j => if h : ν + (i : ℕ) < n then X ⟨ν + i, h⟩ j else Y ⟨ν + i - n, by omega⟩ j

variable {A B C D Q U σ ν}

/-- The matrices of a step. -/
theorem deflStep_mk (hQ : Qᵀ * Q = 1) (hU : Uᵀ * U = 1) (hν : ν ≤ n) (hσ : σ ≤ p)
    (hd0 : ∀ (i : Fin p) (j : Fin m), σ ≤ (i : ℕ) → (Uᵀ * D) i j = 0)
    (hc0 : ∀ (i : Fin p) (j : Fin n), σ ≤ (i : ℕ) → (j : ℕ) < ν → (Uᵀ * C * Q) i j = 0)
    (hinj : ∀ y : Fin n → ℝ, (∀ j : Fin n, (j : ℕ) < ν → y j = 0) → (∀ i : Fin p, σ ≤ (i : ℕ) → ((Uᵀ * C * Q) *ᵥ y) i = 0) → y = 0) :
    DeflStep A B C D ((Qᵀ * A * Q).submatrix (Fin.castLE hν) (Fin.castLE hν)) ((Qᵀ * B).submatrix (Fin.castLE hν) id)
      ((dropRows σ ν (Qᵀ * A * Q) (Uᵀ * C * Q) hσ).submatrix id (Fin.castLE hν)) (dropRows σ ν (Qᵀ * B) (Uᵀ * D) hσ) Q U σ where
  q := hQ
  u := hU
  le := hν
  σle := hσ
  card := by omega
  a _ _ := rfl
  b _ _ := rfl
  c1 i j h := dif_pos h
  c2 i j h := dif_neg (Nat.not_lt.mpr h)
  d1 i j h := dif_pos h
  d2 i j h := dif_neg (Nat.not_lt.mpr h)
  d0 := hd0
  c0 := hc0
  inj := hinj

end canonical

/-- What the second half of an iteration computes. -/
theorem tzCompress_spec {S : SvdNum ℝ} (hS : ∀ {p m : ℕ} (M : Matrix (Fin p) (Fin m) ℝ), SvdOk S M) (A : Matrix (Fin n) (Fin n) ℝ) (B : Matrix (Fin n) (Fin m) ℝ)
    (C : Matrix (Fin p) (Fin n) ℝ) (D : Matrix (Fin p) (Fin m) ℝ) {U : Matrix (Fin p) (Fin p) ℝ} {σ : ℕ} (hU : Uᵀ * U = 1) (hσ : σ ≤ p)
    (hd0 : ∀ (i : Fin p) (j : Fin m), σ ≤ (i : ℕ) → (Uᵀ * D) i j = 0) :
    (tzCompress S 0 ⟨Arr.of A, Arr.of B, Arr.of C, Arr.of D⟩ (Arr.of (Uᵀ * C)) (Arr.of (Uᵀ * D)) σ = .ok .stop ∧
      ∀ (i : Fin p) (j : Fin n), σ ≤ (i : ℕ) → (Uᵀ * C) i j = 0) ∨
    ∃ (ν p' : ℕ) (A' : Matrix (Fin ν) (Fin ν) ℝ) (B' : Matrix (Fin ν) (Fin m) ℝ) (C' : Matrix (Fin p') (Fin ν) ℝ) (D' : Matrix (Fin p') (Fin m) ℝ)
      (Q : Matrix (Fin n) (Fin n) ℝ), DeflStep A B C D A' B' C' D' Q U σ ∧ ν < n ∧ p' ≤ p ∧
      tzCompress S 0 ⟨Arr.of A, Arr.of B, Arr.of C, Arr.of D⟩ (Arr.of (Uᵀ * C)) (Arr.of (Uᵀ * D)) σ =
        if ν = 0 then .ok .gone else .ok (.next ⟨Arr.of A', Arr.of B', Arr.of C', Arr.of D'⟩) := by
  set Ct : Matrix (Fin (p - σ)) (Fin n) ℝ := Matrix.of fun i j => (Uᵀ * C) ⟨σ + i, by omega⟩ j with hCt
  have e1 : (Arr.of (Uᵀ * C)).slice σ p 0 n = Arr.of Ct := by
    rw [slice_of (a := p - σ) (b := n) _ _ _ _ _ (by omega) (by omega)]
    congr 1
    ext i j
    simp [hCt]
  set Cb : Matrix (Fin σ) (Fin n) ℝ := (Uᵀ * C).submatrix (Fin.castLE hσ) id with hCb
  have e2 : (Arr.of (Uᵀ * C)).slice 0 σ 0 n = Arr.of Cb := by
    rw [slice_of (a := σ) (b := n) _ _ _ _ _ (by omega) (by omega)]
    congr 1
    ext i j
    simp only [Matrix.of_apply, hCb, submatrix_apply, id_eq]
    exact congrArg₂ _ (Fin.ext (Nat.zero_add _)) (Fin.ext (Nat.zero_add _))
  set Rb : Matrix (Fin σ) (Fin m) ℝ := (Uᵀ * D).submatrix (Fin.castLE hσ) id with hRb
  have e3 : (Arr.of (Uᵀ * D)).slice 0 σ 0 m = Arr.of Rb := by
    rw [slice_of (a := σ) (b := m) _ _ _ _ _ (by omega) (by omega)]
    congr 1
    ext i j
    simp only [Matrix.of_apply, hRb, submatrix_apply, id_eq]
    exact congrArg₂ _ (Fin.ext (Nat.zero_add _)) (Fin.ext (Nat.zero_add _))
  obtain ⟨q, s, v, h1, h2⟩ := hS Ctᵀ
  have hρ := svd_count_le h2
  unfold tzCompress
  simp only [Arr.of_r, Arr.of_c, e1, e2, e3, Arr.T_of, haroldsvdTol, h1]
  by_cases h0 : countAbove 0 s = 0
  · left
    refine ⟨if_pos h0, fun i j hi => ?_⟩
    have h3 : qᵀ * Ctᵀ = 0 := by
      ext a b
      exact svd_rows_zero h2 a b (by omega)
    have h4 : Ctᵀ = 0 := by
      have := congrArg (fun x => q * x) h3
      simpa only [← Matrix.mul_assoc, mul_eq_one_comm.mp h2.u_orth, Matrix.one_mul, Matrix.mul_zero] using this
    have h5 := congrFun (congrFun h4 j) ⟨i - σ, by omega⟩
    have h6 : (⟨σ + (i - σ), by omega⟩ : Fin p) = i := Fin.ext (by simp only; omega)
    simp only [hCt, transpose_apply, Matrix.of_apply, h6, Matrix.zero_apply] at h5
    exact h5
  · right
    set Q : Matrix (Fin n) (Fin n) ℝ := q.submatrix id Fin.rev with hQdef
    set ν := n - countAbove 0 s with hν
    have hQ : Qᵀ * Q = 1 := by
      have : Qᵀ * Q = (qᵀ * q).submatrix Fin.rev Fin.rev := rfl
      rw [this, h2.u_orth, submatrix_one _ Fin.rev_injective]
    have hrow : ∀ (x : Fin n → ℝ) (i : Fin p), ∀ hi : σ ≤ (i : ℕ), ((Uᵀ * C) *ᵥ x) i = (Ct *ᵥ x) ⟨i - σ, by omega⟩ := by
      intro x i hi
      have h6 : (⟨σ + (i - σ), by omega⟩ : Fin p) = i := Fin.ext (by simp only; omega)
      exact mulVec_row_eq (fun j => by simp only [hCt, Matrix.of_apply, h6]) x
    have hc0 : ∀ (i : Fin p) (j : Fin n), σ ≤ (i : ℕ) → (j : ℕ) < ν → (Uᵀ * C * Q) i j = 0 := by
      intro i j hi hj
      have h3 := svd_rows_zero h2 (Fin.rev j) ⟨i - σ, by omega⟩ (by rw [Fin.val_rev]; omega)
      have h4 : (Uᵀ * C * Q) i j = ((Uᵀ * C) *ᵥ (fun k => q k (Fin.rev j))) i := rfl
      rw [h4, hrow _ _ hi, ← h3, Matrix.mul_apply, mulVec_sum]
      exact Finset.sum_congr rfl fun k _ => by rw [transpose_apply, transpose_apply, mul_comm]
    have hinj : ∀ y : Fin n → ℝ, (∀ j : Fin n, (j : ℕ) < ν → y j = 0) → (∀ i : Fin p, σ ≤ (i : ℕ) → ((Uᵀ * C * Q) *ᵥ y) i = 0) → y = 0 := by
      intro y hy1 hy2
      have hw : (Q *ᵥ y) ᵥ* Ctᵀ = 0 := by
        rw [vecMul_transpose]
        ext k
        have h3 := hy2 ⟨σ + k, by omega⟩ (by simp)
        rw [← mulVec_mulVec, hrow _ _ (by simp)] at h3
        have h6 : (⟨σ + k - σ, by omega⟩ : Fin (p - σ)) = k := Fin.ext (by simp only; omega)
        rw [h6] at h3
        exact h3
      ext j
      by_cases hj : (j : ℕ) < ν
      · exact hy1 j hj
      · have h3 := svd_left h2 hw (Fin.rev j) (by rw [Fin.val_rev]; omega)
        have h4 : ((Q *ᵥ y) ᵥ* q) (Fin.rev j) = ((Qᵀ * Q) *ᵥ y) j := by
          rw [← mulVec_mulVec, ← vecMul_transpose Qᵀ, transpose_transpose]
          rfl
        rw [h4, hQ, one_mulVec] at h3
        exact h3
    have hstep := deflStep_mk (A := A) (B := B) (C := C) (D := D) hQ hU (show ν ≤ n by omega) hσ hd0 hc0 hinj
    refine ⟨ν, n + σ - ν, _, _, _, _, Q, hstep, by omega, by omega, ?_⟩
    rw [if_neg h0]
    by_cases hν0 : ν = 0
    · rw [if_pos hν0, if_pos hν0]
    rw [if_neg hν0, if_neg hν0]
    have hfl : (Arr.of q).fliplr = Arr.of Q := rfl
    rw [hfl]
    by_cases hσ0 : 0 < σ
    · rw [if_pos hσ0]
      have hup : tzUpdate ⟨Arr.of A, Arr.of B, Arr.of C, Arr.of D⟩ (Arr.of Q) (Arr.of Cb) (Arr.of Rb) ν = .ok ⟨
          Arr.of ((Qᵀ * A * Q).submatrix (Fin.castLE (show ν ≤ n by omega)) (Fin.castLE (show ν ≤ n by omega))),
          Arr.of ((Qᵀ * B).submatrix (Fin.castLE (show ν ≤ n by omega)) id),
          Arr.of ((dropRows σ ν (Qᵀ * A * Q) (Uᵀ * C * Q) hσ).submatrix id (Fin.castLE (show ν ≤ n by omega))),
          Arr.of (dropRows σ ν (Qᵀ * B) (Uᵀ * D) hσ)⟩ := by
        unfold tzUpdate
        simp only [Arr.T_of, Arr.matmul_of, Arr.vstack_of, bind, Except.bind, Arr.of_r, Arr.of_c]
        rw [slice_of (a := ν) (b := ν) _ _ _ _ _ (by omega) (by omega), slice_of (a := ν) (b := m) _ _ _ _ _ (by omega) (by omega),
          slice_of (a := n + σ - ν) (b := ν) _ _ _ _ _ (by omega) (by omega), slice_of (a := n + σ - ν) (b := m) _ _ _ _ _ (by omega) (by omega)]
        have hmul : ∀ (i : Fin (n + σ)) (j : Fin n), (vcat (Qᵀ * A) Cb * Q) i j = if h : (i : ℕ) < n then (Qᵀ * A * Q) ⟨i, h⟩ j else (Uᵀ * C * Q) ⟨i - n, by omega⟩ j := by
          intro i j
          by_cases hi : (i : ℕ) < n
          · rw [dif_pos hi, Matrix.mul_apply, Matrix.mul_apply]
            exact Finset.sum_congr rfl fun k _ => by rw [vcat_low _ _ _ _ hi]
          · rw [dif_neg hi, Matrix.mul_apply, Matrix.mul_apply]
            exact Finset.sum_congr rfl fun k _ => by rw [vcat_high _ _ _ _ (by omega)]; rfl
        congr 2
        · refine Arr.of_inj.mpr ?_
          ext i j
          rw [Matrix.of_apply, hmul, dif_pos (by simp only; omega)]
          rw [submatrix_apply]
          exact congrArg₂ _ (Fin.ext (Nat.zero_add _)) (Fin.ext (Nat.zero_add _))
        · refine Arr.of_inj.mpr ?_
          ext i j
          rw [Matrix.of_apply, vcat_low _ _ _ _ (by simp only; omega), submatrix_apply]
          exact congrArg₂ _ (Fin.ext (Nat.zero_add _)) (Fin.ext (Nat.zero_add _))
        · refine Arr.of_inj.mpr ?_
          ext i j
          rw [Matrix.of_apply, hmul, submatrix_apply, dropRows, Matrix.of_apply]
          have hj : (⟨0 + j, by omega⟩ : Fin n) = Fin.castLE (by omega) j := Fin.ext (by simp)
          rw [hj]
          rfl
        · refine Arr.of_inj.mpr ?_
          ext i j
          rw [Matrix.of_apply, dropRows, Matrix.of_apply]
          have hj : (⟨0 + j, by omega⟩ : Fin m) = j := Fin.ext (by simp)
          rw [hj]
          by_cases hi : ν + (i : ℕ) < n
          · rw [dif_pos hi, vcat_low _ _ _ _ hi]
          · rw [dif_neg hi, vcat_high _ _ _ _ (by simp only; omega)]
            rfl
      simp only [hup, bind, Except.bind]
    · rw [if_neg hσ0]
      have hσ1 : σ = 0 := by omega
      have hup : tzUpdate0 ⟨Arr.of A, Arr.of B, Arr.of C, Arr.of D⟩ (Arr.of Q) ν = .ok ⟨
          Arr.of ((Qᵀ * A * Q).submatrix (Fin.castLE (show ν ≤ n by omega)) (Fin.castLE (show ν ≤ n by omega))),
          Arr.of ((Qᵀ * B).submatrix (Fin.castLE (show ν ≤ n by omega)) id),
          Arr.of ((dropRows σ ν (Qᵀ * A * Q) (Uᵀ * C * Q) hσ).submatrix id (Fin.castLE (show ν ≤ n by omega))),
          Arr.of (dropRows σ ν (Qᵀ * B) (Uᵀ * D) hσ)⟩ := by
        unfold tzUpdate0
        simp only [Arr.T_of, Arr.matmul_of, Arr.hstack_of, bind, Except.bind, Arr.of_r, Arr.of_c]
        rw [slice_of (a := ν) (b := ν) _ _ _ _ _ (by omega) (by omega), slice_of (a := ν) (b := m) _ _ _ _ _ (by omega) (by omega),
          slice_of (a := n + σ - ν) (b := ν) _ _ _ _ _ (by omega) (by omega), slice_of (a := n + σ - ν) (b := m) _ _ _ _ _ (by omega) (by omega)]
        have hleft : ∀ (i : Fin n) (j : Fin (n + m)) (h : (j : ℕ) < n), (Qᵀ * hcat (A * Q) B) i j = (Qᵀ * A * Q) i ⟨j, h⟩ := by
          intro i j h
          obtain ⟨j, rfl⟩ : ∃ j' : Fin n, j = Fin.castAdd m j' := ⟨⟨j, h⟩, rfl⟩
          rw [Matrix.mul_assoc, Matrix.mul_apply, Matrix.mul_apply]
          exact Finset.sum_congr rfl fun k _ => by simp [hcat]
        have hright : ∀ (i : Fin n) (j : Fin m), (Qᵀ * hcat (A * Q) B) i (Fin.natAdd n j) = (Qᵀ * B) i j := by
          intro i j
          rw [Matrix.mul_apply, Matrix.mul_apply]
          exact Finset.sum_congr rfl fun k _ => by simp [hcat]
        have hnm : ∀ j : Fin m, (⟨n + m - m + j, by omega⟩ : Fin (n + m)) = Fin.natAdd n j := fun j => Fin.ext (by simp)
        congr 2
        · refine Arr.of_inj.mpr ?_
          ext i j
          rw [Matrix.of_apply, hleft _ _ (by simp only; omega), submatrix_apply]
          exact congrArg₂ _ (Fin.ext (Nat.zero_add _)) (Fin.ext (Nat.zero_add _))
        · refine Arr.of_inj.mpr ?_
          ext i j
          rw [Matrix.of_apply, hnm, hright, submatrix_apply]
          exact congrArg (fun k => (Qᵀ * B) k j) (Fin.ext (Nat.zero_add _))
        · refine Arr.of_inj.mpr ?_
          ext i j
          have hj : 0 + (j : ℕ) < n := by omega
          rw [Matrix.of_apply, hleft _ _ hj, submatrix_apply, dropRows, Matrix.of_apply]
          refine Eq.trans ?_ (dif_pos (show ν + (i : ℕ) < n by omega)).symm
          exact congrArg ((Qᵀ * A * Q) _) (Fin.ext (Nat.zero_add _))
        · refine Arr.of_inj.mpr ?_
          ext i j
          rw [Matrix.of_apply, hnm, hright, dropRows, Matrix.of_apply, dif_pos (by omega)]
      simp only [hup, bind, Except.bind]

/-- What an iteration computes. -/
theorem tzStep_spec {S : SvdNum ℝ} (hS : ∀ {p m : ℕ} (M : Matrix (Fin p) (Fin m) ℝ), SvdOk S M) (A : Matrix (Fin n) (Fin n) ℝ) (B : Matrix (Fin n) (Fin m) ℝ)
    (C : Matrix (Fin p) (Fin n) ℝ) (D : Matrix (Fin p) (Fin m) ℝ) :
    (tzStep S 0 ⟨Arr.of A, Arr.of B, Arr.of C, Arr.of D⟩ = .ok .stop ∧ ∀ w, w ᵥ* D = 0 → w ᵥ* C = 0) ∨
    ∃ (ν p' : ℕ) (A' : Matrix (Fin ν) (Fin ν) ℝ) (B' : Matrix (Fin ν) (Fin m) ℝ) (C' : Matrix (Fin p') (Fin ν) ℝ) (D' : Matrix (Fin p') (Fin m) ℝ)
      (Q : Matrix (Fin n) (Fin n) ℝ) (U : Matrix (Fin p) (Fin p) ℝ) (σ : ℕ), DeflStep A B C D A' B' C' D' Q U σ ∧ ν < n ∧ p' ≤ p ∧
      tzStep S 0 ⟨Arr.of A, Arr.of B, Arr.of C, Arr.of D⟩ =
        if ν = 0 then .ok .gone else .ok (.next ⟨Arr.of A', Arr.of B', Arr.of C', Arr.of D'⟩) := by
  unfold tzStep
  rcases tzSplit_spec hS C D with ⟨h1, h2⟩ | ⟨U, σ, h1, hU, hσ, hd0, hw⟩
  · left
    simp only [h1, bind, Except.bind]
    refine ⟨trivial, fun w hw => ?_⟩
    rw [h2 w hw, zero_vecMul]
  · simp only [h1, bind, Except.bind]
    rcases tzCompress_spec hS A B C D hU hσ hd0 with ⟨h3, h4⟩ | ⟨ν, p', A', B', C', D', Q, h3, h4, h5, h6⟩
    · left
      refine ⟨h3, fun w hwD => ?_⟩
      have e : w ᵥ* C = (w ᵥ* U) ᵥ* (Uᵀ * C) := by
        rw [vecMul_vecMul, ← Matrix.mul_assoc, mul_eq_one_comm.mp hU, Matrix.one_mul]
      rw [e]
      ext j
      rw [vecMul, dotProduct, Pi.zero_apply]
      refine Finset.sum_eq_zero fun i _ => ?_
      by_cases hi : (i : ℕ) < σ
      · rw [hw w hwD i hi, zero_mul]
      · rw [h4 i j (by omega), mul_zero]
    · exact Or.inr ⟨ν, p', A', B', C', D', Q, U, σ, h3, h4, h5, h6⟩

end Harold
