import Verif.Model.Lyap
import Mathlib.Data.List.Basic
import Mathlib.Tactic.Ring

/-!
# The partition into 1x1 and 2x2 blocks
-/

namespace Harold

/-- `bl` cuts `[a, n)` into consecutive blocks of size one or two, never at a place where `sub` holds. -/
def Chain (sub : ℕ → Prop) (n : ℕ) : ℕ → List (ℕ × ℕ) → Prop
  | a, [] => a = n
  | a, b :: rest => b.1 = a ∧ (1 ≤ a → ¬ sub (a - 1)) ∧ (b.2 = a + 1 ∨ b.2 = a + 2) ∧ Chain sub n b.2 rest

/-- The start points of the blocks and the end. -/
def Bnd (n : ℕ) (bl : List (ℕ × ℕ)) (b : ℕ) : Prop := b = n ∨ ∃ p ∈ bl, p.1 = b

theorem Chain.le {sub : ℕ → Prop} {n : ℕ} : ∀ {bl : List (ℕ × ℕ)} {a : ℕ}, Chain sub n a bl → a ≤ n
  | [], a, h => by rw [Chain] at h; omega
  | b :: rest, a, h => by
    obtain ⟨h1, -, h2, h3⟩ := h
    have := h3.le
    omega

theorem Chain.start_le {sub : ℕ → Prop} {n : ℕ} : ∀ {bl : List (ℕ × ℕ)} {a : ℕ}, Chain sub n a bl → ∀ p ∈ bl, a ≤ p.1 ∧ p.2 ≤ n ∧
    (p.2 = p.1 + 1 ∨ p.2 = p.1 + 2)
  | [], a, h => by simp
  | b :: rest, a, h => by
    intro p hp
    obtain ⟨h1, -, h2, h3⟩ := h
    rcases List.mem_cons.mp hp with rfl | hp
    · have := h3.le
      omega
    · have := h3.start_le p hp
      omega

theorem Chain.not_sub {sub : ℕ → Prop} {n : ℕ} : ∀ {bl : List (ℕ × ℕ)} {a : ℕ}, Chain sub n a bl → ∀ p ∈ bl, 1 ≤ p.1 → ¬ sub (p.1 - 1)
  | [], a, h => by simp
  | b :: rest, a, h => by
    intro p hp
    obtain ⟨h1, h0, h2, h3⟩ := h
    rcases List.mem_cons.mp hp with rfl | hp
    · rw [h1]; exact h0
    · exact h3.not_sub p hp

theorem Bnd.head {n : ℕ} {b : ℕ × ℕ} {rest : List (ℕ × ℕ)} : Bnd n (b :: rest) b.1 := Or.inr ⟨b, List.mem_cons_self, rfl⟩

theorem Chain.bnd_start {sub : ℕ → Prop} {n : ℕ} {bl : List (ℕ × ℕ)} {a : ℕ} (h : Chain sub n a bl) : Bnd n bl a := by
  cases bl with
  | nil => exact Or.inl h
  | cons b rest => exact Or.inr ⟨b, List.mem_cons_self, h.1⟩

theorem Bnd.tail {n : ℕ} {b : ℕ × ℕ} {rest : List (ℕ × ℕ)} {x : ℕ} (h : Bnd n rest x) : Bnd n (b :: rest) x := by
  rcases h with h | ⟨p, hp, h⟩
  · exact Or.inl h
  · exact Or.inr ⟨p, List.mem_cons_of_mem _ hp, h⟩

/-- No cut strictly inside a block. -/
theorem Chain.gap {sub : ℕ → Prop} {n : ℕ} : ∀ {bl : List (ℕ × ℕ)} {a : ℕ}, Chain sub n a bl → ∀ p ∈ bl, ∀ b, Bnd n bl b → b < p.2 → b ≤ p.1
  | [], a, h => by simp
  | q :: rest, a, h => by
    intro p hp b hb hlt
    obtain ⟨h1, h0, h2, h3⟩ := h
    rcases List.mem_cons.mp hp with rfl | hp
    · rcases hb with rfl | ⟨p', hp', rfl⟩
      · have := h3.le; omega
      · rcases List.mem_cons.mp hp' with rfl | hp'
        · exact le_rfl
        · have := (h3.start_le p' hp').1; omega
    · have := (h3.start_le p hp).1
      rcases hb with rfl | ⟨p', hp', rfl⟩
      · exact h3.gap p hp _ (Or.inl rfl) hlt
      · rcases List.mem_cons.mp hp' with rfl | hp'
        · omega
        · exact h3.gap p hp _ (Or.inr ⟨p', hp', rfl⟩) hlt

/-! ## The list computation -/

/-- The marks after the indices below `m` have been treated. -/
def mark (sub : ℕ → Prop) [DecidablePred sub] (m i : ℕ) : Option ℕ :=
  if i < m ∧ sub i then some 2 else if 1 ≤ i ∧ i - 1 < m ∧ sub (i - 1) then none else some 1

theorem foldl_mark (sub : ℕ → Prop) [DecidablePred sub] (n : ℕ) (hsub : ∀ x, sub x → ¬ sub (x + 1)) : ∀ m, m ≤ n - 1 →
    ((List.range m).filter fun x => decide (sub x)).foldl (fun bz x => (bz.set x (some 2)).set (x + 1) none) (List.replicate n (some 1)) =
      (List.range n).map (mark sub m)
  | 0, _ => by
    refine List.ext_getElem (by simp) fun i h1 h2 => ?_
    simp [mark]
  | m + 1, hm => by
    rw [List.range_succ, List.filter_append, List.foldl_append, foldl_mark sub n hsub m (by omega)]
    by_cases h : sub m
    · rw [List.filter_cons_of_pos (by simpa using h), List.filter_nil, List.foldl_cons, List.foldl_nil]
      refine List.ext_getElem (by simp) fun i h1 h2 => ?_
      simp only [List.length_set, List.length_map, List.length_range] at h1
      rw [List.getElem_set, List.getElem_set]
      simp only [List.getElem_map, List.getElem_range]
      unfold mark
      have h' := hsub m h
      by_cases e1 : m + 1 = i
      · subst e1
        simp [h, h']
      · rw [if_neg e1]
        by_cases e2 : m = i
        · subst e2
          simp [h]
        · rw [if_neg e2]
          have e3 : (i < m + 1 ∧ sub i) ↔ (i < m ∧ sub i) := by
            constructor
            · rintro ⟨a, b⟩; exact ⟨by omega, b⟩
            · rintro ⟨a, b⟩; exact ⟨by omega, b⟩
          have e4 : (1 ≤ i ∧ i - 1 < m + 1 ∧ sub (i - 1)) ↔ (1 ≤ i ∧ i - 1 < m ∧ sub (i - 1)) := by
            constructor
            · rintro ⟨a, b, c⟩; exact ⟨a, by omega, c⟩
            · rintro ⟨a, b, c⟩; exact ⟨a, by omega, c⟩
          simp only [e3, e4]
    · rw [List.filter_cons_of_neg (by simpa using h), List.filter_nil, List.foldl_nil]
      refine List.map_congr_left fun i _ => ?_
      unfold mark
      have e3 : (i < m + 1 ∧ sub i) ↔ (i < m ∧ sub i) := by
        constructor
        · rintro ⟨a, b⟩
          refine ⟨?_, b⟩
          rcases Nat.lt_or_ge i m with h3 | h3
          · exact h3
          · exact absurd ((show i = m by omega) ▸ b) h
        · rintro ⟨a, b⟩; exact ⟨by omega, b⟩
      have e4 : (1 ≤ i ∧ i - 1 < m + 1 ∧ sub (i - 1)) ↔ (1 ≤ i ∧ i - 1 < m ∧ sub (i - 1)) := by
        constructor
        · rintro ⟨a, b, c⟩
          refine ⟨a, ?_, c⟩
          rcases Nat.lt_or_ge (i - 1) m with h3 | h3
          · exact h3
          · exact absurd ((show i - 1 = m by omega) ▸ c) h
        · rintro ⟨a, b, c⟩; exact ⟨a, by omega, c⟩
      simp only [e3, e4]

def pairsFrom (n : ℕ) : ℕ → List ℕ → List (ℕ × ℕ)
  | _, [] => []
  | a, [_] => [(a, n)]
  | a, k :: l :: rest => (a, a + k) :: pairsFrom n (a + k) (l :: rest)

theorem scanl_pairs (n : ℕ) : ∀ (bz : List ℕ) (a : ℕ), bz ≠ [] →
    (bz.dropLast.scanl (· + ·) a).zip ((bz.dropLast.scanl (· + ·) a).tail ++ [n]) = pairsFrom n a bz
  | [], a, h => absurd rfl h
  | [k], a, _ => by simp [pairsFrom]
  | k :: l :: rest, a, _ => by
    have ih := scanl_pairs n (l :: rest) (a + k) (by simp)
    rw [List.dropLast_cons_of_ne_nil (by simp), List.scanl_cons, pairsFrom, ← ih]
    simp only [List.tail_cons]
    generalize hS : List.scanl (· + ·) (a + k) (l :: rest).dropLast = S
    have : ∃ S', S = (a + k) :: S' := by
      rw [← hS]
      cases (l :: rest).dropLast with
      | nil => exact ⟨[], rfl⟩
      | cons x y => exact ⟨_, List.scanl_cons⟩
    obtain ⟨S', rfl⟩ := this
    simp

theorem chain_pairs (sub : ℕ → Prop) [DecidablePred sub] (n : ℕ) (hsub : ∀ x, sub x → ¬ sub (x + 1)) : ∀ (d a : ℕ), a + d = n → 0 < d →
    (1 ≤ a → ¬ sub (a - 1)) → Chain sub n a (pairsFrom n a ((List.range' a d).filterMap (mark sub (n - 1))))
  | 0, a, _, h, _ => absurd h (by omega)
  | 1, a, h, _, h0 => by
    have : mark sub (n - 1) a = some 1 := by
      unfold mark
      rw [if_neg (by omega), if_neg (fun h => h0 h.1 h.2.2)]
    simp only [List.range'_one, List.filterMap_cons, this, List.filterMap_nil, pairsFrom]
    exact ⟨rfl, h0, Or.inl (by simp; omega), rfl⟩
  | d + 2, a, h, _, h0 => by
    have e : List.range' a (d + 2) = a :: List.range' (a + 1) (d + 1) := by rw [List.range'_succ]
    have e' : List.range' (a + 1) (d + 1) = (a + 1) :: List.range' (a + 2) d := by rw [List.range'_succ]
    by_cases hs : sub a
    · have m1 : mark sub (n - 1) a = some 2 := by unfold mark; rw [if_pos ⟨by omega, hs⟩]
      have m2 : mark sub (n - 1) (a + 1) = none := by
        unfold mark
        rw [if_neg (fun h => hsub a hs h.2), if_pos ⟨by omega, by simp; omega, by simpa using hs⟩]
      rw [e, e', List.filterMap_cons, m1]
      simp only [List.filterMap_cons, m2]
      rcases Nat.eq_zero_or_pos d with rfl | hd
      · simp only [List.range'_zero, List.filterMap_nil, pairsFrom]
        exact ⟨rfl, h0, Or.inr (by simp; omega), rfl⟩
      · have ih := chain_pairs sub n hsub d (a + 2) (by omega) hd (fun _ => by simpa using hsub a hs)
        cases hl : List.filterMap (mark sub (n - 1)) (List.range' (a + 2) d) with
        | nil =>
          rw [hl] at ih
          simp only [pairsFrom, Chain] at ih
          omega
        | cons x y =>
          rw [hl] at ih
          exact ⟨rfl, h0, Or.inr rfl, ih⟩
    · have m1 : mark sub (n - 1) a = some 1 := by
        unfold mark
        rw [if_neg (fun h => hs h.2), if_neg (fun h => h0 h.1 h.2.2)]
      rw [e, List.filterMap_cons, m1]
      have ih := chain_pairs sub n hsub (d + 1) (a + 1) (by omega) (by omega) (fun _ => by simpa using hs)
      cases hl : List.filterMap (mark sub (n - 1)) (List.range' (a + 1) (d + 1)) with
      | nil =>
        rw [hl] at ih
        simp only [pairsFrom, Chain] at ih
        omega
      | cons x y =>
        rw [hl] at ih
        exact ⟨rfl, h0, Or.inl rfl, ih⟩

/-- For a quasi-triangular matrix the list of blocks is a partition. -/
theorem chain_blocks {K : Type} [Field K] [LinearOrder K] {tol : K} {n : ℕ} (hn : 0 < n) (A : Wk K)
    (h : ∀ x, |A (x + 1) x| > tol → ¬ |A (x + 2) (x + 1)| > tol) :
    Chain (fun x => |A (x + 1) x| > tol) n 0 (blockPairs n (blockSizes n (subdiagIndices tol n A))) := by
  have h1 := foldl_mark (fun x => |A (x + 1) x| > tol) n h (n - 1) le_rfl
  have h2 := chain_pairs (fun x => |A (x + 1) x| > tol) n h n 0 (by omega) hn (by omega)
  have h3 : blockSizes n (subdiagIndices tol n A) = (List.range' 0 n).filterMap (mark (fun x => |A (x + 1) x| > tol) (n - 1)) := by
    unfold blockSizes subdiagIndices
    rw [h1, ← List.range_eq_range', List.filterMap_map]
    rfl
  unfold blockPairs
  rw [h3]
  have h4 : (List.range' 0 n).filterMap (mark (fun x => |A (x + 1) x| > tol) (n - 1)) ≠ [] := by
    intro h0
    rw [h0, pairsFrom, Chain] at h2
    omega
  rw [show (let starts := List.scanl (· + ·) 0 ((List.range' 0 n).filterMap (mark (fun x => |A (x + 1) x| > tol) (n - 1))).dropLast
    starts.zip (starts.tail ++ [n])) = _ from scanl_pairs n _ 0 h4]
  exact h2

end Harold
