import Verif.Model.MatrixSlice
import Verif.Lemmas.StateTF

/-!
# C09, C61: slicing and concatenating matrices
-/

namespace Harold

open Matrix Harold.Spec

variable {K : Type}

/-- The four blocks tile `M`: with `p` rows in the upper blocks and `m` columns in the left ones,
entry `(i, j)` of `M` is found in the block it falls into. -/
def Spec.Tiles (M : Arr K) (b : Arr K × Arr K × Arr K × Arr K) : Prop :=
  Arr.hstack b.1 b.2.1 >>= (fun top => Arr.hstack b.2.2.1 b.2.2.2 >>= fun bot =>
    Arr.vstack top bot) = .ok M

theorem split4_blk {r₁ r₂ c₁ c₂ : ℕ} (A : Matrix (Fin r₁) (Fin c₁) K) (B : Matrix (Fin r₁) (Fin c₂) K)
    (C : Matrix (Fin r₂) (Fin c₁) K) (D : Matrix (Fin r₂) (Fin c₂) K) (hp hm) :
    (Arr.of (blk A B C D)).split4 r₁ c₁ hp hm = (Arr.of A, Arr.of B, Arr.of C, Arr.of D) := by
  have e1 : ∀ i : Fin r₁, finSumFinEquiv.symm (Fin.castLE hp i) = Sum.inl i := by
    intro i; rw [Equiv.symm_apply_eq]; ext; simp
  have e2 : ∀ j : Fin c₁, finSumFinEquiv.symm (Fin.castLE hm j) = Sum.inl j := by
    intro i; rw [Equiv.symm_apply_eq]; ext; simp
  have hr2 : (Arr.of (blk A B C D)).r - r₁ = r₂ := by simp
  have hc2 : (Arr.of (blk A B C D)).c - c₁ = c₂ := by simp
  have e3 : ∀ (i : ℕ) (h : i < r₁ + r₂) (h' : r₁ ≤ i), finSumFinEquiv.symm (⟨i, h⟩ : Fin (r₁ + r₂))
      = Sum.inr ⟨i - r₁, by omega⟩ := by
    intro i h h'; rw [Equiv.symm_apply_eq]; ext; simp; omega
  have e4 : ∀ (i : ℕ) (h : i < c₁ + c₂) (h' : c₁ ≤ i), finSumFinEquiv.symm (⟨i, h⟩ : Fin (c₁ + c₂))
      = Sum.inr ⟨i - c₁, by omega⟩ := by
    intro i h h'; rw [Equiv.symm_apply_eq]; ext; simp; omega
  simp only [Arr.split4, Prod.mk.injEq]
  refine ⟨?_, ?_, ?_, ?_⟩
  · congr 1
    ext i j
    simp [blk, e1, e2]
  · refine Arr.ext_cast rfl hc2 ?_
    intro i j
    simp only [Arr.of_m, submatrix_apply, blk]
    rw [e4 _ _ (by omega)]
    simp [e1]
    rfl
  · refine Arr.ext_cast hr2 rfl ?_
    intro i j
    simp only [Arr.of_m, submatrix_apply, blk]
    rw [e3 _ _ (by omega)]
    simp [e2]
    rfl
  · refine Arr.ext_cast hr2 hc2 ?_
    intro i j
    simp only [Arr.of_m, submatrix_apply, blk]
    rw [e4 _ _ (by omega), e3 _ _ (by omega)]
    simp
    rfl

/-- Every array is a block array at every cut position. -/
theorem exists_blk (x : Arr K) {p m : ℕ} (hp : p ≤ x.r) (hm : m ≤ x.c) :
    ∃ (A : Matrix (Fin p) (Fin m) K) (B : Matrix (Fin p) (Fin (x.c - m)) K)
      (C : Matrix (Fin (x.r - p)) (Fin m) K) (D : Matrix (Fin (x.r - p)) (Fin (x.c - m)) K),
      x = Arr.of (blk A B C D) := by
  obtain ⟨r, c, M⟩ := x
  simp only at hp hm
  obtain ⟨r₂, rfl⟩ := Nat.exists_eq_add_of_le hp
  obtain ⟨c₂, rfl⟩ := Nat.exists_eq_add_of_le hm
  have hr : p + r₂ - p = r₂ := by omega
  have hc : m + c₂ - m = c₂ := by omega
  simp only
  rw [hr, hc]
  refine ⟨(M.submatrix finSumFinEquiv finSumFinEquiv).toBlocks₁₁,
    (M.submatrix finSumFinEquiv finSumFinEquiv).toBlocks₁₂,
    (M.submatrix finSumFinEquiv finSumFinEquiv).toBlocks₂₁,
    (M.submatrix finSumFinEquiv finSumFinEquiv).toBlocks₂₂, ?_⟩
  congr 1
  rw [blk, fromBlocks_toBlocks, submatrix_submatrix]
  simp

theorem split4_tiles (x : Arr K) (p m : ℕ) (hp : p ≤ x.r) (hm : m ≤ x.c) :
    Spec.Tiles x (x.split4 p m hp hm) := by
  obtain ⟨A, B, C, D, h⟩ := exists_blk x hp hm
  have h2 : x.split4 p m hp hm = (Arr.of A, Arr.of B, Arr.of C, Arr.of D) := by
    generalize x.r - p = r₂ at A B C D h
    generalize x.c - m = c₂ at A B C D h
    subst h
    exact split4_blk A B C D hp hm
  rw [h2, Spec.Tiles]
  simp only [Arr.hstack_of, bind, Except.bind, Arr.vstack_of, vcat_hcat]
  rw [← h]

/-- C09: the blocks reassemble to the input, for every corner name and every corner shape. -/
theorem C09_tiles (M : Arr K) (z w : ℕ) (corner : String) :
    (corner = "nw" ∨ corner = "ne" ∨ corner = "sw" ∨ corner = "se") →
      ∃ b, matrixSlice M z w corner = .ok b ∧ Spec.Tiles M b := by
  intro h
  unfold matrixSlice
  rw [if_neg (by rcases h with rfl | rfl | rfl | rfl <;> simp)]
  refine ⟨_, rfl, ?_⟩
  split_ifs <;> exact split4_tiles _ _ _ _ _

/-- C09: other corner names are rejected. -/
theorem C09_rejects (M : Arr K) (z w : ℕ) (corner : String)
    (h : ¬ (corner = "nw" ∨ corner = "ne" ∨ corner = "sw" ∨ corner = "se")) :
    matrixSlice M z w corner = .error .value := by
  unfold matrixSlice
  rw [if_pos]
  tauto

theorem cutAt_of_le {n k : ℕ} (h : k ≤ n) : cutAt n (k : ℤ) = k := by
  unfold cutAt; split_ifs <;> omega

theorem cutAt_sub {n k : ℕ} (h : k ≤ n) : cutAt n ((n : ℤ) - k) = n - k := by
  unfold cutAt; split_ifs <;> omega

/-- C09: the block at the named corner has the requested shape, for every shape that fits. Partial:
the corner `"ne"` is missing, see `C09_ne_violated`. -/
theorem C09_corner_shape_partial (M : Arr K) (z w : ℕ) (hz : z ≤ M.r) (hw : w ≤ M.c) :
    (∃ A B C D, matrixSlice M z w "nw" = .ok (A, B, C, D) ∧ A.shape = (z, w)) ∧
    (∃ A B C D, matrixSlice M z w "sw" = .ok (A, B, C, D) ∧ C.shape = (z, w)) ∧
    (∃ A B C D, matrixSlice M z w "se" = .ok (A, B, C, D) ∧ D.shape = (z, w)) := by
  refine ⟨⟨_, _, _, _, rfl, ?_⟩, ⟨_, _, _, _, rfl, ?_⟩, ⟨_, _, _, _, rfl, ?_⟩⟩
  · simp [Arr.shape, cutAt_of_le hz, cutAt_of_le hw]
  · simp only [Arr.shape, Arr.of_r, Arr.of_c, cutAt_sub hz, cutAt_of_le hw]
    congr 1; omega
  · simp only [Arr.shape, Arr.of_r, Arr.of_c, cutAt_sub hz, cutAt_sub hw]
    congr 1 <;> omega

example : (1 : ℕ) ≤ (Arr.of !![(1 : ℚ), 2, 3; 4, 5, 6]).r ∧ 2 ≤ (Arr.of !![(1 : ℚ), 2, 3; 4, 5, 6]).c :=
  ⟨by simp, by simp⟩

/-- The north-east corner always gets all rows: asking for fewer rows than the matrix has is not
honoured. -/
theorem C09_ne_violated (M : Arr K) (z w : ℕ) (hz : z < M.r) (hw : w ≤ M.c) :
    ∃ A B C D, matrixSlice M z w "ne" = .ok (A, B, C, D) ∧ B.shape = (M.r, w) ∧
      B.shape ≠ (z, w) := by
  refine ⟨_, _, _, _, rfl, ?_⟩
  simp only [Arr.shape, Arr.of_r, Arr.of_c, cutAt_of_le (le_refl M.r), cutAt_sub hw]
  constructor
  · congr 1; omega
  · intro h
    have := congrArg Prod.fst h
    simp at this; omega

/-- C61: slicing the concatenated matrix of a model with `n` states at `(n, n)` returns the matrices
of the model; the concatenation of a static gain is its gain. -/
theorem C61_roundtrip (G : StateM K) (p m : ℕ) (h : Consistent G p m) :
    (G.isgain = true → concatenateStateMatrices G = .ok G.d) ∧
    (G.isgain = false → ∃ M, concatenateStateMatrices G = .ok M ∧
      M.shape = (G.n + p, G.n + m) ∧
      matrixSlice M G.n G.n "nw" = .ok (G.a, G.b, G.c, G.d)) := by
  constructor
  · intro hg; rw [concatenateStateMatrices, if_pos hg]
  · intro hg
    obtain ⟨⟨hdr, hdc⟩, h2⟩ := h
    obtain ⟨ha, hbr, hbc, hcr, hcc⟩ := h2 hg
    obtain ⟨a, b, c, d, dt, g⟩ := G
    simp only at *
    subst hg
    obtain ⟨n, hn⟩ : ∃ n, a.r = n := ⟨_, rfl⟩
    obtain ⟨A, rfl⟩ := Arr.exists_of hn (ha.symm.trans hn)
    simp only [Arr.of_r] at hbr hcc
    obtain ⟨B, rfl⟩ := Arr.exists_of hbr hbc
    obtain ⟨C, rfl⟩ := Arr.exists_of hcr hcc
    obtain ⟨D, rfl⟩ := Arr.exists_of hdr hdc
    refine ⟨Arr.of (blk A B C D), ?_, rfl, ?_⟩
    · simp [concatenateStateMatrices, bind, Except.bind, vcat_hcat]
    · have : matrixSlice (Arr.of (blk A B C D)) (StateM.n ⟨Arr.of A, Arr.of B, Arr.of C, Arr.of D, dt, false⟩)
          (StateM.n ⟨Arr.of A, Arr.of B, Arr.of C, Arr.of D, dt, false⟩) "nw"
          = .ok ((Arr.of (blk A B C D)).cut4 (n : ℤ) (n : ℤ)) := rfl
      rw [this, Arr.cut4]
      have h1 : cutAt (Arr.of (blk A B C D)).r (n : ℤ) = n := cutAt_of_le (by simp)
      have h2 : cutAt (Arr.of (blk A B C D)).c (n : ℤ) = n := cutAt_of_le (by simp)
      simp only [h1, h2]
      rw [split4_blk]

example : Consistent (⟨Arr.of !![(1 : ℚ), 2; 3, 4], Arr.of !![1; 1], Arr.of !![1, 0], Arr.of !![5],
    none, false⟩ : StateM ℚ) 1 1 := by simp [Consistent]

end Harold
