import Verif.Model.Lyap
import Mathlib.Algebra.BigOperators.Ring.Finset
import Mathlib.Tactic.LinearCombination

/-!
# Block forward substitution for `∑ κ k i l j X k l + Y i j = 0`
-/

namespace Harold

variable {K : Type} [Field K]

/-- The coefficients of the unknowns `X k l` in equation `(i, j)`. -/
abbrev Kern (K : Type) := ℕ → ℕ → ℕ → ℕ → K

def kS (κ : Kern K) (X : Wk K) (s t : Finset ℕ) (i j : ℕ) : K := ∑ k ∈ s, ∑ l ∈ t, κ k i l j * X k l

structure KTri (κ : Kern K) (bnd : ℕ → Prop) : Prop where
  tri : ∀ b, bnd b → ∀ k i l j, i < b → b ≤ k → κ k i l j = 0
  symm : ∀ k i l j, κ k i l j = κ l j k i

theorem KTri.tri' {κ : Kern K} {bnd : ℕ → Prop} (h : KTri κ bnd) {b : ℕ} (hb : bnd b) (k i l j : ℕ) (hj : j < b) (hl : b ≤ l) :
    κ k i l j = 0 := by
  rw [h.symm]; exact h.tri b hb _ _ _ _ hj hl

theorem kS_congr {κ : Kern K} {X X' : Wk K} {s t : Finset ℕ} {i j : ℕ}
    (h : ∀ k ∈ s, ∀ l ∈ t, X k l ≠ X' k l → κ k i l j = 0) : kS κ X s t i j = kS κ X' s t i j := by
  refine Finset.sum_congr rfl fun k hk => Finset.sum_congr rfl fun l hl => ?_
  by_cases hx : X k l = X' k l
  · rw [hx]
  · rw [h k hk l hl hx, zero_mul, zero_mul]

theorem kS_range_left {κ : Kern K} {bnd : ℕ → Prop} (h : KTri κ bnd) {b n : ℕ} (hb : bnd b) (hbn : b ≤ n) {X : Wk K} {t : Finset ℕ}
    {i j : ℕ} (hi : i < b) : kS κ X (Finset.range n) t i j = kS κ X (Finset.range b) t i j := by
  unfold kS
  refine (Finset.sum_subset (Finset.range_mono hbn) fun k _ hk => ?_).symm
  refine Finset.sum_eq_zero fun l _ => ?_
  rw [h.tri b hb _ _ _ _ hi (by simpa using hk), zero_mul]

theorem kS_range_right {κ : Kern K} {bnd : ℕ → Prop} (h : KTri κ bnd) {b n : ℕ} (hb : bnd b) (hbn : b ≤ n) {X : Wk K} {s : Finset ℕ}
    {i j : ℕ} (hj : j < b) : kS κ X s (Finset.range n) i j = kS κ X s (Finset.range b) i j := by
  unfold kS
  refine Finset.sum_congr rfl fun k _ => ?_
  refine (Finset.sum_subset (Finset.range_mono hbn) fun l _ hl => ?_).symm
  rw [h.tri' hb _ _ _ _ hj (by simpa using hl), zero_mul]

theorem kS_split_left {κ : Kern K} {X : Wk K} {a b : ℕ} (hab : a ≤ b) (t : Finset ℕ) (i j : ℕ) :
    kS κ X (Finset.range b) t i j = kS κ X (Finset.range a) t i j + kS κ X (Finset.Ico a b) t i j := by
  unfold kS; exact (Finset.sum_range_add_sum_Ico _ hab).symm

theorem kS_split_right {κ : Kern K} {X : Wk K} {a b : ℕ} (hab : a ≤ b) (s : Finset ℕ) (i j : ℕ) :
    kS κ X s (Finset.range b) i j = kS κ X s (Finset.range a) i j + kS κ X s (Finset.Ico a b) i j := by
  unfold kS
  rw [← Finset.sum_add_distrib]
  exact Finset.sum_congr rfl fun k _ => (Finset.sum_range_add_sum_Ico _ hab).symm

theorem kS_swap {κ : Kern K} {bnd : ℕ → Prop} (h : KTri κ bnd) {X : Wk K} {s t : Finset ℕ} {i j : ℕ}
    (hX : ∀ k ∈ s, ∀ l ∈ t, X k l ≠ X l k → κ k i l j = 0) : kS κ X s t i j = kS κ X t s j i := by
  unfold kS
  rw [Finset.sum_comm]
  refine Finset.sum_congr rfl fun l hl => Finset.sum_congr rfl fun k hk => ?_
  rw [← h.symm k i l j]
  by_cases hx : X k l = X l k
  · rw [hx]
  · rw [hX k hk l hl hx, zero_mul, zero_mul]

/-- Before the row that starts at `a`. -/
structure RowInv (κ : Kern K) (bnd : ℕ → Prop) (n : ℕ) (Y0 : Wk K) (a : ℕ) (X Y : Wk K) : Prop where
  sym : ∀ i j, i < n → j < n → i < a ∨ j < a → X i j = X j i
  eqn : ∀ i j, i < n → j < n → i < a ∨ j < a → kS κ X (Finset.range n) (Finset.range n) i j + Y0 i j = 0
  acc : ∀ i j, a ≤ i → i < n → j < n → (∀ b, bnd b → b ≤ i → b ≤ j) → Y i j = Y0 i j + kS κ X (Finset.range a) (Finset.range n) i j

/-- Within the row `[r0, r1)`, before the column block that starts at `c`. -/
structure ColInv (κ : Kern K) (bnd : ℕ → Prop) (n : ℕ) (Y0 : Wk K) (r0 r1 c : ℕ) (X Y : Wk K) : Prop where
  sym : ∀ i j, i < n → j < n → i < r0 ∨ j < r0 → X i j = X j i
  sym' : ∀ i j, r0 ≤ i → i < r1 → r0 ≤ j → j < c → X i j = X j i
  eqn : ∀ i j, i < n → j < n → i < r0 ∨ j < r0 → kS κ X (Finset.range n) (Finset.range n) i j + Y0 i j = 0
  eqn' : ∀ i j, r0 ≤ i → i < r1 → r0 ≤ j → j < c → kS κ X (Finset.range n) (Finset.range n) i j + Y0 i j = 0
  row : ∀ i j, r0 ≤ i → i < r1 → c ≤ j → j < n →
    Y i j = Y0 i j + kS κ X (Finset.range r0) (Finset.range n) i j + kS κ X (Finset.Ico r0 r1) (Finset.range c) i j
  done : ∀ i j, r1 ≤ i → i < n → j < c → (∀ b, bnd b → b ≤ i → b ≤ j) →
    Y i j = Y0 i j + kS κ X (Finset.range r1) (Finset.range n) i j
  todo : ∀ i j, r1 ≤ i → i < n → c ≤ j → j < n → (∀ b, bnd b → b ≤ i → b ≤ j) →
    Y i j = Y0 i j + kS κ X (Finset.range r0) (Finset.range n) i j

variable {κ : Kern K} {bnd : ℕ → Prop} {n : ℕ} {Y0 X X' Y Y' : Wk K} {r0 r1 c0 c1 : ℕ}

/-- The right-hand side of the diagonal equation is symmetric. -/
theorem RowInv.diag_symm (h : KTri κ bnd) (hY : ∀ i j, i < n → j < n → Y0 i j = Y0 j i) (hI : RowInv κ bnd n Y0 r0 X Y) (h1 : bnd r1)
    (hr : r0 ≤ r1) (hn : r1 ≤ n) {i j : ℕ} (hi : r0 ≤ i) (hi' : i < r1) (hj : r0 ≤ j) (hj' : j < r1)
    (hV : ∀ i j, r0 ≤ i → i < r1 → r0 ≤ j → ∀ b, bnd b → b ≤ i → b ≤ j) :
    Y i j + kS κ X (Finset.Ico r0 r1) (Finset.range r0) i j = Y j i + kS κ X (Finset.Ico r0 r1) (Finset.range r0) j i := by
  have e : ∀ i j, r0 ≤ i → i < r1 → r0 ≤ j → j < r1 → Y i j + kS κ X (Finset.Ico r0 r1) (Finset.range r0) i j =
      Y0 i j + kS κ X (Finset.range r0) (Finset.range r0) i j + kS κ X (Finset.range r0) (Finset.Ico r0 r1) i j +
        kS κ X (Finset.Ico r0 r1) (Finset.range r0) i j := fun i j hi hi' hj hj' => by
    rw [hI.acc i j hi (by omega) (by omega) (hV i j hi hi' hj), kS_range_right h h1 hn hj', kS_split_right hr]
    ring
  rw [e i j hi hi' hj hj', e j i hj hj' hi hi', hY i j (by omega) (by omega)]
  have s1 : kS κ X (Finset.range r0) (Finset.range r0) i j = kS κ X (Finset.range r0) (Finset.range r0) j i :=
    kS_swap h fun k hk l hl hx => absurd (hI.sym k l (by simp at hk; omega) (by simp at hl; omega) (Or.inl (by simpa using hk))) hx
  have s2 : kS κ X (Finset.range r0) (Finset.Ico r0 r1) i j = kS κ X (Finset.Ico r0 r1) (Finset.range r0) j i :=
    kS_swap h fun k hk l hl hx => absurd (hI.sym k l (by simp at hk; omega) (by simp at hl; omega) (Or.inl (by simpa using hk))) hx
  have s3 : kS κ X (Finset.Ico r0 r1) (Finset.range r0) i j = kS κ X (Finset.range r0) (Finset.Ico r0 r1) j i :=
    kS_swap h fun k hk l hl hx => absurd (hI.sym k l (by simp at hk; omega) (by simp at hl; omega) (Or.inr (by simpa using hl))) hx
  rw [s1, s2, s3]; ring

/-- The diagonal step. -/
theorem RowInv.start (h : KTri κ bnd) (hI : RowInv κ bnd n Y0 r0 X Y) (h0 : bnd r0) (h1 : bnd r1)
    (hr : r0 ≤ r1) (hn : r1 ≤ n) (hV : ∀ i j, r0 ≤ i → i < r1 → r0 ≤ j → ∀ b, bnd b → b ≤ i → b ≤ j)
    (hX : ∀ i j, ¬ ((r0 ≤ i ∧ i < r1) ∧ (r0 ≤ j ∧ j < r1)) → X' i j = X i j)
    (hs : ∀ i j, r0 ≤ i → i < r1 → r0 ≤ j → j < r1 → X' i j = X' j i)
    (he : ∀ i j, r0 ≤ i → i < r1 → r0 ≤ j → j < r1 → kS κ X' (Finset.Ico r0 r1) (Finset.range r1) i j + Y i j = 0)
    (hY1 : ∀ i j, r0 ≤ i → i < r1 → r1 ≤ j → j < n → Y' i j = Y i j + kS κ X' (Finset.Ico r0 r1) (Finset.range r1) i j)
    (hY2 : ∀ i j, r1 ≤ i → Y' i j = Y i j) : ColInv κ bnd n Y0 r0 r1 r1 X' Y' := by
  have k0 : ∀ t i j, kS κ X' (Finset.range r0) t i j = kS κ X (Finset.range r0) t i j := fun t i j =>
    kS_congr fun k hk l _ hx => absurd (hX k l (by simp at hk; omega)) hx
  refine ⟨fun i j hi hj hij => ?_, hs, fun i j hi hj hij => ?_, fun i j hi hi' hj hj' => ?_, fun i j hi hi' hj hj' => ?_,
    fun i j hi hi' hj hb => ?_, fun i j hi hi' hj hj' hb => ?_⟩
  · rw [hX i j (by omega), hX j i (by omega)]; exact hI.sym i j hi hj hij
  · rw [← hI.eqn i j hi hj hij]
    congr 1
    refine kS_congr fun k _ l _ hx => ?_
    have : (r0 ≤ k ∧ k < r1) ∧ (r0 ≤ l ∧ l < r1) := by by_contra hc; exact hx (hX k l hc)
    rcases hij with hi | hj
    · exact h.tri r0 h0 _ _ _ _ hi this.1.1
    · exact h.tri' h0 _ _ _ _ hj this.2.1
  · rw [kS_range_left h h1 hn hi', kS_split_left hr, k0, kS_range_right h h1 hn hj' (s := Finset.Ico r0 r1)]
    have := he i j hi hi' hj hj'
    rw [hI.acc i j hi (by omega) (by omega) (hV i j hi hi' hj)] at this
    linear_combination this
  · rw [hY1 i j hi hi' hj hj', hI.acc i j hi (by omega) hj' (hV i j hi hi' (by omega)), k0]
  · exact absurd (hb r1 h1 hi) (by omega)
  · rw [hY2 i j hi, hI.acc i j (by omega) hi' hj' hb, k0]

/-- The off-diagonal step. -/
theorem ColInv.step (h : KTri κ bnd) (hI : ColInv κ bnd n Y0 r0 r1 c0 X Y) (h0 : bnd r0) (h1 : bnd r1) (hc0 : bnd c0) (hc1 : bnd c1)
    (hr : r0 ≤ r1) (hrc : r1 ≤ c0) (hc : c0 ≤ c1) (hn : c1 ≤ n)
    (hX : ∀ i j, ¬ ((r0 ≤ i ∧ i < r1) ∧ (c0 ≤ j ∧ j < c1)) → ¬ ((c0 ≤ i ∧ i < c1) ∧ (r0 ≤ j ∧ j < r1)) → X' i j = X i j)
    (hs : ∀ i j, r0 ≤ i → i < r1 → c0 ≤ j → j < c1 → X' i j = X' j i)
    (he : ∀ i j, r0 ≤ i → i < r1 → c0 ≤ j → j < c1 → kS κ X' (Finset.Ico r0 r1) (Finset.Ico c0 c1) i j + Y i j = 0)
    (hY1 : ∀ i j, r0 ≤ i → i < r1 → c1 ≤ j → j < n → Y' i j = Y i j + kS κ X' (Finset.Ico r0 r1) (Finset.Ico c0 c1) i j)
    (hY2 : ∀ i j, r1 ≤ i → i < c1 → c0 ≤ j → j < c1 → Y' i j = Y i j + kS κ X' (Finset.Ico r0 r1) (Finset.range c1) i j)
    (hY3 : ∀ i j, r1 ≤ i → i < n → j < c0 ∨ c1 ≤ j → j < n → Y' i j = Y i j) : ColInv κ bnd n Y0 r0 r1 c1 X' Y' := by
  have k0 : ∀ t i j, kS κ X' (Finset.range r0) t i j = kS κ X (Finset.range r0) t i j := fun t i j =>
    kS_congr fun k hk l _ hx => absurd (hX k l (by simp at hk; omega) (by simp at hk; omega)) hx
  have k1 : ∀ i j, kS κ X' (Finset.Ico r0 r1) (Finset.range c0) i j = kS κ X (Finset.Ico r0 r1) (Finset.range c0) i j := fun i j =>
    kS_congr fun k hk l hl hx => absurd (hX k l (by simp at hl; omega) (by simp at hk; omega)) hx
  refine ⟨fun i j hi hj hij => ?_, fun i j hi hi' hj hj' => ?_, fun i j hi hj hij => ?_, fun i j hi hi' hj hj' => ?_,
    fun i j hi hi' hj hj' => ?_, fun i j hi hi' hj hb => ?_, fun i j hi hi' hj hj' hb => ?_⟩
  · rw [hX i j (by omega) (by omega), hX j i (by omega) (by omega)]; exact hI.sym i j hi hj hij
  · rcases Nat.lt_or_ge j c0 with hjc | hjc
    · rw [hX i j (by omega) (by omega), hX j i (by omega) (by omega)]; exact hI.sym' i j hi hi' hj hjc
    · exact hs i j hi hi' hjc hj'
  · rw [← hI.eqn i j hi hj hij]
    congr 1
    refine kS_congr fun k _ l _ hx => ?_
    have : r0 ≤ k ∧ r0 ≤ l := by
      by_contra hc; exact hx (hX k l (by omega) (by omega))
    rcases hij with hi | hj
    · exact h.tri r0 h0 _ _ _ _ hi this.1
    · exact h.tri' h0 _ _ _ _ hj this.2
  · rcases Nat.lt_or_ge j c0 with hjc | hjc
    · rw [← hI.eqn' i j hi hi' hj hjc]
      congr 1
      refine kS_congr fun k _ l _ hx => ?_
      rcases Nat.lt_or_ge k r1 with hk | hk
      · refine h.tri' hc0 _ _ _ _ hjc ?_
        by_contra hl
        exact hx (hX k l (by omega) (by omega))
      · exact h.tri r1 h1 _ _ _ _ hi' hk
    · rw [kS_range_left h h1 (by omega) hi', kS_split_left hr, k0, kS_range_right h hc1 hn hj' (s := Finset.Ico r0 r1), kS_split_right hc, k1]
      have := he i j hi hi' hjc hj'
      rw [hI.row i j hi hi' hjc (by omega)] at this
      linear_combination this
  · rw [hY1 i j hi hi' hj hj', hI.row i j hi hi' (by omega) hj', k0, kS_split_right hc, k1]
    ring
  · rcases Nat.lt_or_ge j c0 with hjc | hjc
    · rw [hY3 i j hi hi' (Or.inl hjc) (by omega), hI.done i j hi hi' hjc hb]
      congr 1
      refine kS_congr fun k hk l _ hx => ?_
      refine h.tri' hc0 _ _ _ _ hjc ?_
      by_contra hl
      simp at hk
      exact hx (hX k l (by omega) (by omega)).symm
    · have hic : i < c1 := by
        by_contra hic
        exact absurd (hb c1 hc1 (by omega)) (by omega)
      rw [hY2 i j hi hic hjc hj, hI.todo i j hi hi' hjc (by omega) hb, kS_split_left hr, k0, kS_range_right h hc1 hn hj (s := Finset.Ico r0 r1)]
      ring
  · rw [hY3 i j hi hi' (Or.inr hj) hj', hI.todo i j hi hi' (by omega) hj' hb, k0]

/-- The end of a row. -/
theorem ColInv.finish (h : KTri κ bnd) (hY : ∀ i j, i < n → j < n → Y0 i j = Y0 j i) (hI : ColInv κ bnd n Y0 r0 r1 n X Y) (h1 : bnd r1)
    : RowInv κ bnd n Y0 r1 X Y := by
  have hs : ∀ i j, i < n → j < n → i < r1 ∨ j < r1 → X i j = X j i := fun i j hi hj hij => by
    by_cases h1 : i < r0 ∨ j < r0
    · exact hI.sym i j hi hj h1
    · rcases hij with h2 | h2
      · exact hI.sym' i j (by omega) h2 (by omega) hj
      · exact (hI.sym' j i (by omega) h2 (by omega) hi).symm
  refine ⟨hs, fun i j hi hj hij => ?_, fun i j hi hi' hj hb => hI.done i j hi hi' hj hb⟩
  by_cases h2 : i < r0 ∨ j < r0
  · exact hI.eqn i j hi hj h2
  · rcases Nat.lt_or_ge i r1 with h3 | h3
    · exact hI.eqn' i j (by omega) h3 (by omega) hj
    · have h4 : j < r1 := by omega
      rw [hY i j hi hj, ← hI.eqn' j i (by omega) h4 (by omega) hi]
      congr 1
      refine kS_swap h fun k hk l hl hx => ?_
      rcases Nat.lt_or_ge l r1 with h5 | h5
      · exact absurd (hs k l (by simpa using hk) (by simpa using hl) (Or.inr h5)) hx
      · exact h.tri' h1 _ _ _ _ h4 h5

end Harold
