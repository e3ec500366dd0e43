import Verif.Model.Sim
import Verif.Lemmas.Expm
import Verif.Lemmas.FeedbackTF
import Mathlib.Algebra.BigOperators.Fin

/-!
# The simulation recursion
-/

namespace Harold

open Matrix

variable {n m p N : ℕ} {A : Matrix (Fin n) (Fin n) ℝ} {B : Matrix (Fin n) (Fin m) ℝ}
  {C : Matrix (Fin p) (Fin n) ℝ} {D : Matrix (Fin p) (Fin m) ℝ}

theorem get_of {r c : ℕ} (M : Matrix (Fin r) (Fin c) ℝ) (i : Fin r) (j : Fin c) :
    (Arr.of M).get i j = M i j := by
  simp [Arr.get]

/-- Closed form of `s (k+1) = A s k + v k`. -/
theorem recursion_sum (v : ℕ → Fin n → ℝ) (s : ℕ → Fin n → ℝ)
    (hs : ∀ k, s (k + 1) = A *ᵥ s k + v k) (k : ℕ) :
    s k = A ^ k *ᵥ s 0 + ∑ j ∈ Finset.range k, A ^ (k - 1 - j) *ᵥ v j := by
  induction k with
  | zero => simp
  | succ k ih =>
    rw [hs, ih, Finset.sum_range_succ, Matrix.mulVec_add, Matrix.mulVec_mulVec, ← pow_succ',
      Matrix.mulVec_sum, add_assoc]
    congr 2
    · refine Finset.sum_congr rfl fun j hj => ?_
      rw [Matrix.mulVec_mulVec, ← pow_succ']
      congr 2
      have := Finset.mem_range.mp hj
      omega
    · simp

theorem simRow_of (Bu x0 : Arr ℝ) (k : ℕ) :
    (fun j : Fin n => simRow (Arr.of A) Bu x0 k j)
      = A ^ k *ᵥ (fun j : Fin n => x0.get 0 j)
        + ∑ j ∈ Finset.range k, A ^ (k - 1 - j) *ᵥ (fun l : Fin n => Bu.get j l) := by
  have := recursion_sum (A := A) (fun k l => Bu.get k l)
    (fun k (j : Fin n) => simRow (Arr.of A) Bu x0 k j) (by
      intro k
      funext j
      simp only [simRow, Pi.add_apply, Matrix.mulVec, dotProduct, Arr.of_r]
      rw [Finset.sum_range]
      congr 1
      refine Finset.sum_congr rfl fun l _ => ?_
      rw [get_of, mul_comm]) k
  simpa [simRow] using this

/-- A sum over the indices below `i`. -/
theorem sum_lt_fin {M : Type} [AddCommMonoid M] (f : ℕ → M) (i : Fin N) :
    ∑ j ∈ Finset.range i, f j = ∑ j : Fin N with j < i, f j := by
  rw [Finset.sum_filter, ← Finset.sum_filter_of_ne (p := fun j => j ∈ Finset.range (i : ℕ))
    (s := Finset.range (i : ℕ)) (fun x hx _ => hx)]
  have h1 : ∑ j : Fin N, (if j < i then f j else 0)
      = ∑ j ∈ Finset.range N, (if j < (i : ℕ) then f j else 0) := by
    rw [Finset.sum_range]
    rfl
  rw [h1, ← Finset.sum_filter]
  refine Finset.sum_congr ?_ fun _ _ => rfl
  ext j
  have := i.isLt
  simp only [Finset.mem_filter, Finset.mem_range]
  omega

theorem hcat_castAdd {r c₁ c₂ : ℕ} (X : Matrix (Fin r) (Fin c₁) ℝ) (Y : Matrix (Fin r) (Fin c₂) ℝ) :
    (hcat X Y).submatrix id (Fin.castAdd c₂) = X := by
  ext i j; simp [hcat]

theorem hcat_natAdd {r c₁ c₂ : ℕ} (X : Matrix (Fin r) (Fin c₁) ℝ) (Y : Matrix (Fin r) (Fin c₂) ℝ) :
    (hcat X Y).submatrix id (Fin.natAdd c₁) = Y := by
  ext i j; simp [hcat]

/-- The states computed from the rows `V` of `B u` and the initial row `r`. -/
def stateMat (A : Matrix (Fin n) (Fin n) ℝ) (V : Matrix (Fin N) (Fin n) ℝ) (x0 : Fin n → ℝ) :
    Matrix (Fin N) (Fin n) ℝ :=
  Matrix.of fun i => A ^ (i : ℕ) *ᵥ x0 + ∑ j : Fin N with j < i, A ^ ((i : ℕ) - 1 - j) *ᵥ V j

theorem stateMat_row (V : Matrix (Fin N) (Fin n) ℝ) (x0 : Fin n → ℝ) (i : Fin N) :
    stateMat A V x0 i
      = A ^ (i : ℕ) *ᵥ x0 + ∑ j : Fin N with j < i, A ^ ((i : ℕ) - 1 - j) *ᵥ V j := rfl

theorem simX_of (V : Matrix (Fin N) (Fin n) ℝ) (r : Matrix (Fin 1) (Fin n) ℝ) :
    simX (Arr.of A) (Arr.of V) (Arr.of r) N = Arr.of (stateMat A V (r 0)) := by
  unfold simX
  refine Arr.of_inj.mpr ?_
  ext i j
  have h := congrFun (simRow_of (A := A) (Arr.of V) (Arr.of r) i) j
  have e1 : (fun j : Fin n => (Arr.of r).get 0 j) = r 0 := by
    funext j; exact get_of r 0 j
  rw [e1] at h
  rw [Matrix.of_apply, h, stateMat, Matrix.of_apply]
  have e2 : ∑ j ∈ Finset.range (i : ℕ), A ^ ((i : ℕ) - 1 - j) *ᵥ (fun l : Fin n => (Arr.of V).get j l)
      = ∑ j : Fin N with j < i, A ^ ((i : ℕ) - 1 - j) *ᵥ V j := by
    rw [sum_lt_fin]
    refine Finset.sum_congr rfl fun j _ => ?_
    congr 1
    funext l
    exact get_of V j l
  rw [e2]

theorem simFlat_of (U : Matrix (Fin N) (Fin m) ℝ) (dt : Option ℝ) (x0 : Option (Arr ℝ))
    (r : Matrix (Fin 1) (Fin n) ℝ) (hx : x0Row n x0 = Arr.of r) :
    simFlat ⟨Arr.of A, Arr.of B, Arr.of C, Arr.of D, dt, false⟩ (Arr.of U) x0
      = .ok (Arr.of (stateMat A (U * Bᵀ) (r 0) * Cᵀ + U * Dᵀ)) := by
  have h1 := (cut4_full (r := N) (hcat (U * Bᵀ) (U * Dᵀ))).1
  have h2 := (cut4_full (r := N) (hcat (U * Bᵀ) (U * Dᵀ))).2
  rw [hcat_castAdd] at h1
  rw [hcat_natAdd] at h2
  have hx' : x0Row (StateM.n ⟨Arr.of A, Arr.of B, Arr.of C, Arr.of D, dt, false⟩) x0 = Arr.of r := hx
  simp only [simFlat, Arr.T_of, Arr.hstack_of, bind, Except.bind, Arr.matmul_of, mul_hcat, Arr.of_r,
    hx']
  simp only [StateM.n, Arr.of_r, h1, h2, simX_of, Arr.matmul_of, Arr.add_of]

theorem col_of (U : Matrix (Fin N) (Fin m) ℝ) (k : Fin m) :
    (Arr.of U).col k = Arr.of (U.submatrix id fun _ : Fin 1 => k) := by
  unfold Arr.col
  refine Arr.of_inj.mpr ?_
  ext i j
  simp [get_of]

theorem simChannel_of (U : Matrix (Fin N) (Fin m) ℝ) (dt : Option ℝ) (x0 : Option (Arr ℝ))
    (r : Matrix (Fin 1) (Fin n) ℝ) (hx : x0Row n x0 = Arr.of r) (k : Fin m) :
    simChannel ⟨Arr.of A, Arr.of B, Arr.of C, Arr.of D, dt, false⟩ (Arr.of U) x0 k
      = .ok (Arr.of (stateMat A ((U.submatrix id fun _ : Fin 1 => k) * (B.submatrix id fun _ : Fin 1 => k)ᵀ)
          (r 0) * Cᵀ + (U.submatrix id fun _ : Fin 1 => k) * (D.submatrix id fun _ : Fin 1 => k)ᵀ)) := by
  have hx' : x0Row (StateM.n ⟨Arr.of A, Arr.of B, Arr.of C, Arr.of D, dt, false⟩) x0 = Arr.of r := hx
  simp only [simChannel, col_of, Arr.T_of, Arr.matmul_of, bind, Except.bind, hx', simX_of,
    Arr.add_of, Arr.of_r]

theorem mapM_range_ok {α : Type} {f : ℕ → Res α} {g : Fin m → α} (h : ∀ k : Fin m, f k = .ok (g k)) :
    (List.range m).mapM f = .ok (List.ofFn g) := by
  have key : ∀ l : List (Fin m), (l.map Fin.val).mapM f = .ok (l.map g) := by
    intro l
    induction l with
    | nil => rfl
    | cons a l ih => simp [List.mapM_cons, h, ih, bind, Except.bind, pure, Except.pure]
  have e : List.range m = (List.finRange m).map Fin.val := by simp
  rw [e, key, List.ofFn_eq_map]

end Harold
