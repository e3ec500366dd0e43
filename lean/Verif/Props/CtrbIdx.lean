import Verif.Lemmas.CtrbIdx
import Verif.Lemmas.StairReach

/-!
# C62: `controllability_indices`
-/

namespace Harold

open Matrix Spec

variable {n m : ℕ}

/-- The ranks stay constant from `n` on. -/
theorem kdim_const (A : Matrix (Fin n) (Fin n) ℝ) (B : Matrix (Fin n) (Fin m) ℝ) {j : ℕ} (h : n ≤ j) (h0 : 0 < j) : kdim A B j = (ctrbM A B (n - 1)).rank := by
  obtain ⟨i, rfl⟩ : ∃ i, j = i + 1 := ⟨j - 1, by omega⟩
  rw [kdim_succ, krylov_const (k := n - 1) (fun x hx => krylov_invariant A B hx) i (by omega)]
  rfl

theorem ctrbIndices_partial_sum {A : Matrix (Fin n) (Fin n) ℝ} {B : Matrix (Fin n) (Fin m) ℝ} {μ : Fin m → ℕ} (h : CtrbIndices A B μ) (J : ℕ) :
    ∑ j ∈ Finset.range J, (Finset.univ.filter fun c => j < μ c).card = kdim A B J := by
  induction J with
  | zero => rfl
  | succ J ih => rw [Finset.sum_range_succ, ih, h J]

/-- The sum of the controllability indices is the rank of the controllability matrix. -/
theorem ctrbIndices_sum {A : Matrix (Fin n) (Fin n) ℝ} {B : Matrix (Fin n) (Fin m) ℝ} {μ : Fin m → ℕ} (h : CtrbIndices A B μ) :
    ∑ c, μ c = (ctrbM A B (n - 1)).rank := by
  set J := n + 1 + ∑ c, μ c with hJ
  have hle : ∀ c, μ c ≤ J := fun c => by
    have := Finset.single_le_sum (f := μ) (fun i _ => Nat.zero_le _) (Finset.mem_univ c)
    omega
  rw [← kdim_const A B (j := J) (by omega) (by omega), ← ctrbIndices_partial_sum h J]
  simp only [Finset.card_filter]
  rw [Finset.sum_comm]
  refine Finset.sum_congr rfl fun c _ => ?_
  rw [← Finset.card_filter]
  have : (Finset.range J).filter (fun j => j < μ c) = Finset.range (μ c) := by
    ext j
    have := hle c
    simp only [Finset.mem_filter, Finset.mem_range]
    omega
  rw [this, Finset.card_range]

/-- **C62** in exact arithmetic: `controllability_indices` returns one index per input, they are the controllability indices of the pair, their sum is the rank of the
controllability matrix, and it is `n` exactly for controllable pairs. The hypotheses say that the pivoted QR decomposition of `B` is exact and that vectors count as
dependent only if they are. -/
theorem C62_indices {N : QrpNum} {B : Matrix (Fin n) (Fin m) ℝ} (hN : QrpOk N B) (ht : N.thr B = 0) (he : N.eps = 0) {tol : Option ℝ}
    (htol : tol = none ∨ tol = some 0) (A : Matrix (Fin n) (Fin n) ℝ) :
    ∃ μ : Fin m → ℕ, controllabilityIndices N tol (Arr.of A) (Arr.of B) = .ok (List.ofFn μ) ∧ CtrbIndices A B μ ∧
      ∑ c, μ c = (ctrbM A B (n - 1)).rank ∧ (∑ c, μ c = n ↔ Reachable A B) := by
  have h1 : CtrbIndices A B (ciMain N 0 A B) := ciOuter_spec (n - 1) 0 _ (ciStart_spec hN ht A) (Nat.zero_add _)
  refine ⟨ciMain N 0 A B, ?_, h1, ctrbIndices_sum h1, ?_⟩
  · unfold controllabilityIndices
    rw [dif_pos rfl, dif_pos rfl]
    have : tol.getD (√N.eps * ((Arr.of A).r : ℝ) ^ 2) = 0 := by
      rcases htol with rfl | rfl
      · simp [he]
      · rfl
    rw [this]
    rfl
  · rw [ctrbIndices_sum h1, reachable_iff_rank]

/-- **C62**: for controllable pairs the sum of the list is `n`. -/
theorem C62_sum {N : QrpNum} {B : Matrix (Fin n) (Fin m) ℝ} (hN : QrpOk N B) (ht : N.thr B = 0) (he : N.eps = 0) {tol : Option ℝ}
    (htol : tol = none ∨ tol = some 0) {A : Matrix (Fin n) (Fin n) ℝ} (h : Reachable A B) :
    ∃ l, controllabilityIndices N tol (Arr.of A) (Arr.of B) = .ok l ∧ l.length = m ∧ l.sum = n := by
  obtain ⟨μ, h1, -, -, h2⟩ := C62_indices hN ht he htol A
  exact ⟨_, h1, by simp, by rw [List.sum_ofFn]; exact h2.mpr h⟩

/-- **C62**: arrays that do not fit are rejected. -/
theorem C62_shape (N : QrpNum) (tol : Option ℝ) {a b : Arr ℝ} (h : ¬ (a.r = a.c ∧ b.r = a.r)) :
    controllabilityIndices N tol a b = .error .linAlg ∨ controllabilityIndices N tol a b = .error .value := by
  unfold controllabilityIndices
  by_cases h1 : a.r = a.c
  · rw [dif_pos h1, dif_neg fun h2 => h ⟨h1, h2⟩]
    exact Or.inr rfl
  · rw [dif_neg h1]
    exact Or.inl rfl

/-- The hypotheses are met by a pair with three states and two inputs. -/
example : ∃ N : QrpNum, QrpOk N (!![2, 1; 0, 1; 0, 0] : Matrix (Fin 3) (Fin 2) ℝ) ∧ N.thr (!![2, 1; 0, 1; 0, 0] : Matrix (Fin 3) (Fin 2) ℝ) = 0 ∧ N.eps = 0 ∧
    Reachable (!![0, 0, 0; 0, 0, 0; 0, 1, 0] : Matrix (Fin 3) (Fin 3) ℝ) (!![2, 1; 0, 1; 0, 0] : Matrix (Fin 3) (Fin 2) ℝ) := by
  refine ⟨⟨fun {n m} B => (Matrix.of fun i j => if (i : ℕ) = j then 1 else 0, B.submatrix (Fin.castLE (min_le_left n m)) id, 1), fun _ => 0, 0⟩,
    ⟨?_, ?_, ?_, ?_⟩, rfl, rfl, ?_⟩
  · ext i j
    fin_cases i <;> fin_cases j <;> simp [Matrix.mul_apply, Fin.sum_univ_three]
  · intro i j
    have key : ∀ f : Fin (min 3 2) → ℝ, ∑ j, f j = f ⟨0, by omega⟩ + f ⟨1, by omega⟩ := fun f => Fin.sum_univ_two f
    rw [Matrix.mul_apply, key]
    fin_cases i <;> fin_cases j <;> simp
  · intro i j hij
    fin_cases i <;> fin_cases j <;> simp at hij ⊢
  · intro i l j h1 h2
    fin_cases i <;> fin_cases l <;> fin_cases j <;> simp at h1 h2 ⊢
  · rw [reachable_iff_kry, eq_top_iff]
    intro x _
    have h1 := input_mem_kry (!![0, 0, 0; 0, 0, 0; 0, 1, 0] : Matrix (Fin 3) (Fin 3) ℝ) (!![2, 1; 0, 1; 0, 0] : Matrix (Fin 3) (Fin 2) ℝ) ![(x 0 - x 1) / 2, x 1]
    have h2 := krylov_invariant _ _ (input_mem_kry (!![0, 0, 0; 0, 0, 0; 0, 1, 0] : Matrix (Fin 3) (Fin 3) ℝ) (!![2, 1; 0, 1; 0, 0] : Matrix (Fin 3) (Fin 2) ℝ) ![0, x 2])
    convert Submodule.add_mem _ h1 h2 using 1
    ext i
    fin_cases i <;> simp [Matrix.mulVec, dotProduct, Fin.sum_univ_two, Fin.sum_univ_three]

end Harold
