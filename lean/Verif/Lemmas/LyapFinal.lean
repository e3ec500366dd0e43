import Verif.Lemmas.LyapLoop
import Verif.Spec.Lyap

/-!
# From the block loops to matrix equations
-/

namespace Harold

open Matrix Spec

variable {K : Type} [Field K] [LinearOrder K] {κ κ' : Kern K} {n : ℕ}

theorem Chain.suffix {sub : ℕ → Prop} : ∀ {bl : List (ℕ × ℕ)} {a : ℕ}, Chain sub n a bl → ∀ {r rest}, r :: rest <:+ bl → Chain sub n r.1 (r :: rest)
  | [], a, h, r, rest, hs => by simp at hs
  | b :: bl, a, h, r, rest, hs => by
    rcases List.suffix_cons_iff.mp hs with e | e
    · cases e
      exact ⟨rfl, h.1 ▸ h.2⟩
    · exact h.2.2.2.suffix e

theorem Chain.bnd_end {sub : ℕ → Prop} : ∀ {bl : List (ℕ × ℕ)} {a : ℕ}, Chain sub n a bl → ∀ p ∈ bl, Bnd n bl p.2
  | [], a, h => by simp
  | b :: bl, a, h => by
    intro p hp
    rcases List.mem_cons.mp hp with rfl | hp
    · exact h.2.2.2.bnd_start.tail
    · exact (h.2.2.2.bnd_end p hp).tail

theorem loop_ok {sub : ℕ → Prop} {bl : List (ℕ × ℕ)} (hch : Chain sub n 0 bl) {X0 Y0 : Wk K}
    {row : ℕ × ℕ → List (ℕ × ℕ) → Wk K × Wk K → Option (Wk K × Wk K)}
    (hstep : ∀ r rest s s', RowInv κ (Bnd n bl) n Y0 r.1 s.1 s.2 → Bnd n bl r.1 → Bnd n bl r.2 → (r.2 = r.1 + 1 ∨ r.2 = r.1 + 2) → r.2 ≤ n →
      (∀ b, Bnd n bl b → b < r.2 → b ≤ r.1) → Chain sub n r.2 rest → (∀ c ∈ rest, Bnd n bl c.1 ∧ Bnd n bl c.2) → row r rest s = some s' →
      RowInv κ (Bnd n bl) n Y0 r.2 s'.1 s'.2) {s' : Wk K × Wk K} (h : blockLoop row bl (X0, Y0) = some s') :
    (∀ i j, i < n → j < n → s'.1 i j = s'.1 j i) ∧
    ∀ i j, i < n → j < n → kS κ s'.1 (Finset.range n) (Finset.range n) i j + Y0 i j = 0 := by
  have h0 : RowInv κ (Bnd n bl) n Y0 0 X0 Y0 := ⟨fun i j _ _ h => by omega, fun i j _ _ h => by omega, fun i j _ _ _ _ => by simp [kS]⟩
  have := blockLoop_inv (P := fun a s => RowInv κ (Bnd n bl) n Y0 a s.1 s.2) hch h0 (fun r rest hs hc s s' hI hr => by
    have hm : r ∈ bl := hs.subset List.mem_cons_self
    have := hch.start_le r hm
    exact hstep r rest s s' hI (Or.inr ⟨r, hm, rfl⟩) (hch.bnd_end r hm) this.2.2 this.2.1 (hch.gap r hm) hc
      (fun c hc' => ⟨Or.inr ⟨c, hs.subset (List.mem_cons_of_mem _ hc'), rfl⟩, hch.bnd_end c (hs.subset (List.mem_cons_of_mem _ hc'))⟩) hr) h
  exact ⟨fun i j hi hj => this.sym i j hi hj (Or.inl hi), fun i j hi hj => this.eqn i j hi hj (Or.inl hi)⟩

theorem ker_absurd {bnd : ℕ → Prop} (h : KTri κ bnd) {r0 c0 p q : ℕ} (h0 : bnd r0) (h1 : bnd (r0 + p)) (hc0 : bnd c0) (hc1 : bnd (c0 + q))
    (hn : r0 + p ≤ n) (hcn : c0 + q ≤ n) (inj : Function.Injective (kL κ n))
    (hκ : ∀ k i l j, κ (r0 + k) (r0 + i) (c0 + l) (c0 + j) = κ' k i l j)
    (hs : ∃ x : Wk K, (∃ i j, i < p ∧ j < q ∧ x i j ≠ 0) ∧
      ∀ i j, i < p → j < q → kS κ' x (Finset.range p) (Finset.range q) i j = 0) : False := by
  obtain ⟨x, ⟨i, j, hi, hj, hx⟩, hk⟩ := hs
  refine hx ?_
  have := block_kernel h h0 h1 hc0 hc1 hn hcn inj (x := x.off r0 c0) (fun i j a b d e => ?_) (i := r0 + i) (j := c0 + j) (by omega) (by omega)
    (by omega) (by omega)
  · simpa [Wk.off] using this
  · obtain ⟨i, rfl⟩ := Nat.exists_eq_add_of_le a
    obtain ⟨j, rfl⟩ := Nat.exists_eq_add_of_le d
    rw [kS_rel hκ (x := x) fun k l _ _ => by simp [Wk.off]]
    exact hk i j (by omega) (by omega)

/-! ## Blocks of a quasi-triangular matrix -/

theorem wk_of {m : ℕ} (T : Matrix (Fin n) (Fin m) K) (i : Fin n) (j : Fin m) : (Arr.of T).wk i j = T i j := by
  simp [Arr.wk]

theorem wk_of_lt {m : ℕ} (T : Matrix (Fin n) (Fin m) K) {i j : ℕ} (hi : i < n) (hj : j < m) : (Arr.of T).wk i j = T ⟨i, hi⟩ ⟨j, hj⟩ :=
  wk_of T ⟨i, hi⟩ ⟨j, hj⟩

theorem wk_of_out {m : ℕ} (T : Matrix (Fin n) (Fin m) K) {i j : ℕ} (h : ¬ (i < n ∧ j < m)) : (Arr.of T).wk i j = 0 := by
  simp only [Arr.wk]
  rw [dif_neg h]

/-- The blocks the solver finds in `T`. -/
abbrev blocksOf (tol : K) (T : Matrix (Fin n) (Fin n) K) : List (ℕ × ℕ) :=
  blockPairs n (blockSizes n (subdiagIndices tol n (Arr.of T).wk))

theorem _root_.Harold.Spec.QuasiTri.chain [IsStrictOrderedRing K] {tol : K} (ht : 0 ≤ tol) {T : Matrix (Fin n) (Fin n) K} (h : QuasiTri tol T) (hn : 0 < n) :
    Chain (fun x => |(Arr.of T).wk (x + 1) x| > tol) n 0 (blocksOf tol T) := by
  refine chain_blocks hn _ fun x h1 h2 => ?_
  by_cases hx : x + 2 < n
  · rw [wk_of_lt T (by omega) (by omega)] at h1 h2
    exact h.isolated ⟨x, by omega⟩ ⟨x + 1, by omega⟩ ⟨x + 2, hx⟩ rfl rfl h1 h2
  · rw [wk_of_out T (by omega), abs_zero] at h2
    exact absurd h2 (not_lt.mpr ht)

theorem _root_.Harold.Spec.QuasiTri.zero [IsStrictOrderedRing K] {tol : K} (ht : 0 ≤ tol) {T : Matrix (Fin n) (Fin n) K} (h : QuasiTri tol T) (hn : 0 < n) :
    ∀ b, Bnd n (blocksOf tol T) b → ∀ k i, i < b → b ≤ k → (Arr.of T).wk k i = 0 := by
  intro b hb k i hi hk
  by_cases hkn : k < n
  · have hin : i < n := by omega
    rw [wk_of_lt T hkn hin]
    rcases hb with rfl | ⟨q, hq, rfl⟩
    · omega
    · by_cases e : k = i + 1
      · have := (h.chain ht hn).not_sub q hq (by omega)
        have e2 : q.1 - 1 = i := by omega
        rw [e2, ← e, wk_of_lt T hkn hin] at this
        by_contra hz
        exact this (h.subdiag ⟨k, hkn⟩ ⟨i, hin⟩ e hz)
      · exact h.below ⟨k, hkn⟩ ⟨i, hin⟩ (by simp only; omega)
  · exact wk_of_out T (by omega)

theorem upper_zero {bl : List (ℕ × ℕ)} {T : Matrix (Fin n) (Fin n) K} (h : ∀ i j : Fin n, j < i → T i j = 0) :
    ∀ b, Bnd n bl b → ∀ k i, i < b → b ≤ k → (Arr.of T).wk k i = 0 := by
  intro b _ k i hi hk
  by_cases hkn : k < n ∧ i < n
  · rw [wk_of_lt T hkn.1 hkn.2]
    exact h _ _ (by show i < k; omega)
  · exact wk_of_out T hkn

/-! ## From entries to matrices -/

/-- The matrix in a work array. -/
def Wk.mat (n : ℕ) (X : Wk K) : Matrix (Fin n) (Fin n) K := Matrix.of fun i j => X i j

theorem inj_of_op {op : Matrix (Fin n) (Fin n) K → Matrix (Fin n) (Fin n) K} (hop : ∀ X i j, op X i j = ∑ k : Fin n, ∑ l : Fin n, κ k i l j * X k l)
    (h : ∀ X, op X = 0 → X = 0) : Function.Injective (kL κ n) := by
  rw [injective_iff_map_eq_zero]
  intro X hX
  have := h (Matrix.of X) (Matrix.ext fun i j => by
    rw [hop]
    exact congrFun (congrFun hX i) j)
  exact funext fun i => funext fun j => congrFun (congrFun this i) j

theorem eqn_op {op : Matrix (Fin n) (Fin n) K → Matrix (Fin n) (Fin n) K} (hop : ∀ X i j, op X i j = ∑ k : Fin n, ∑ l : Fin n, κ k i l j * X k l)
    {Y : Matrix (Fin n) (Fin n) K} {X : Wk K}
    (h : (∀ i j, i < n → j < n → X i j = X j i) ∧ ∀ i j, i < n → j < n → kS κ X (Finset.range n) (Finset.range n) i j + (Arr.of Y).wk i j = 0) :
    op (X.mat n) + Y = 0 ∧ (X.mat n)ᵀ = X.mat n := by
  refine ⟨Matrix.ext fun i j => ?_, Matrix.ext fun i j => h.1 j i j.2 i.2⟩
  have := h.2 i j i.2 j.2
  rw [kS_fin, wk_of] at this
  rw [Matrix.add_apply, hop]
  exact this

theorem op_C (A : Matrix (Fin n) (Fin n) K) (X : Matrix (Fin n) (Fin n) K) (i j : Fin n) :
    (Aᵀ * X + X * A) i j = ∑ k : Fin n, ∑ l : Fin n, kC (Arr.of A).wk (Arr.of A).wk k i l j * X k l := by
  have h : ∀ k l : Fin n, X k l = toWk X k l := fun k l => (toWk_fin X k l).symm
  simp only [h]
  rw [← kS_fin, kS_kC, if_pos (by simp), if_pos (by simp), Finset.sum_range, Finset.sum_range]
  simp [Matrix.mul_apply, ← h, wk_of]

theorem op_D (A : Matrix (Fin n) (Fin n) K) (X : Matrix (Fin n) (Fin n) K) (i j : Fin n) :
    (Aᵀ * X * A - X) i j = ∑ k : Fin n, ∑ l : Fin n, kD (Arr.of A).wk (Arr.of A).wk k i l j * X k l := by
  have h : ∀ k l : Fin n, X k l = toWk X k l := fun k l => (toWk_fin X k l).symm
  simp only [h]
  rw [← kS_fin, kS_kD, if_pos (by simp), if_pos (by simp), Finset.sum_range]
  rw [Matrix.mul_assoc]
  simp [Matrix.mul_apply, ← h, wk_of, Finset.sum_range]

theorem op_GC (A E : Matrix (Fin n) (Fin n) K) (X : Matrix (Fin n) (Fin n) K) (i j : Fin n) :
    (Aᵀ * X * E + Eᵀ * X * A) i j =
      ∑ k : Fin n, ∑ l : Fin n, kGC (Arr.of A).wk (Arr.of E).wk (Arr.of A).wk (Arr.of E).wk k i l j * X k l := by
  have h : ∀ k l : Fin n, X k l = toWk X k l := fun k l => (toWk_fin X k l).symm
  simp only [h]
  rw [← kS_fin, kS_kGC, Finset.sum_range, Finset.sum_range, Matrix.mul_assoc, Matrix.mul_assoc]
  simp [Matrix.mul_apply, ← h, wk_of, Finset.sum_range]

theorem op_GD (A E : Matrix (Fin n) (Fin n) K) (X : Matrix (Fin n) (Fin n) K) (i j : Fin n) :
    (Aᵀ * X * A - Eᵀ * X * E) i j =
      ∑ k : Fin n, ∑ l : Fin n, kGD (Arr.of A).wk (Arr.of E).wk (Arr.of A).wk (Arr.of E).wk k i l j * X k l := by
  have h : ∀ k l : Fin n, X k l = toWk X k l := fun k l => (toWk_fin X k l).symm
  simp only [h]
  rw [← kS_fin, kS_kGD, Finset.sum_range, Finset.sum_range, Matrix.mul_assoc, Matrix.mul_assoc]
  simp [Matrix.mul_apply, ← h, wk_of, Finset.sum_range]

/-! ## Success -/

theorem contCol_ne_none {cast : K → K} {bnd : ℕ → Prop} {A : Wk K} (h : ∀ b, bnd b → ∀ k i, i < b → b ≤ k → A k i = 0) {r0 r1 : ℕ} {c : ℕ × ℕ} {s : Wk K × Wk K}
    (h0 : bnd r0) (h1 : bnd r1) (hc0 : bnd c.1) (hc1 : bnd c.2) (hr : r1 = r0 + 1 ∨ r1 = r0 + 2) (hn' : r1 ≤ n)
    (hc : c.2 = c.1 + 1 ∨ c.2 = c.1 + 2) (hn : c.2 ≤ n) (inj : Function.Injective (kL (kC A A) n)) : contCol cast n A r0 r1 c s ≠ none := by
  intro he
  unfold contCol at he
  have hsp := miniCn_spec (p := r1 - r0) (q := c.2 - c.1) (by omega) (by omega) (A.at r0 r0) (A.at c.1 c.1) (s.2.at r0 c.1)
  cases hm : miniCn (c.2 - c.1) (A.at c.1 c.1) (s.2.at r0 c.1) (r1 - r0) (A.at r0 r0) with
  | none =>
    refine ker_absurd (kC_tri h) h0 (p := r1 - r0) ?_ hc0 (q := c.2 - c.1) ?_ ?_ ?_ inj ?_ (hsp.2 hm)
    · rwa [show r0 + (r1 - r0) = r1 by omega]
    · rwa [show c.1 + (c.2 - c.1) = c.2 by omega]
    · omega
    · omega
    · intro k i l j
      simp only [kC, Wk.at, dlt_add]
  | some x => rw [hm] at he; cases he

theorem contRow_ne_none {cast : K → K} {bnd : ℕ → Prop} {A : Wk K} (h : ∀ b, bnd b → ∀ k i, i < b → b ≤ k → A k i = 0) {r : ℕ × ℕ} {rest : List (ℕ × ℕ)} {s : Wk K × Wk K}
    (h0 : bnd r.1) (h1 : bnd r.2) (hr : r.2 = r.1 + 1 ∨ r.2 = r.1 + 2) (hn : r.2 ≤ n)
    (hb : ∀ c ∈ rest, bnd c.1 ∧ bnd c.2 ∧ (c.2 = c.1 + 1 ∨ c.2 = c.1 + 2) ∧ c.2 ≤ n)
    (inj : Function.Injective (kL (kC A A) n)) : contRow cast n A r rest s ≠ none := by
  intro he
  unfold contRow at he
  dsimp only at he
  generalize (if r.1 ≠ 0 then _ else s.2 : Wk K) = Y at he
  have hsp := miniCs_spec (k := r.2 - r.1) (by omega) (A.at r.1 r.1) (Y.at r.1 r.1)
  cases hm : miniCs (r.2 - r.1) (A.at r.1 r.1) (Y.at r.1 r.1) with
  | none =>
    refine ker_absurd (kC_tri h) h0 (p := r.2 - r.1) ?_ h0 (q := r.2 - r.1) ?_ ?_ ?_ inj ?_ (hsp.2 hm)
    · rwa [show r.1 + (r.2 - r.1) = r.2 by omega]
    · rwa [show r.1 + (r.2 - r.1) = r.2 by omega]
    · omega
    · omega
    · intro k i l j
      simp only [kC, Wk.at, dlt_add]
  | some x =>
    rw [hm] at he
    simp only [bind, Option.bind] at he
    obtain ⟨c, hc, s', hs⟩ := foldlM_none he
    obtain ⟨b0, b1, b2, b3⟩ := hb c hc
    exact contCol_ne_none h h0 h1 b0 b1 hr hn b2 b3 inj hs

theorem discCol_ne_none {cast : K → K} {bnd : ℕ → Prop} {A : Wk K} (h : ∀ b, bnd b → ∀ k i, i < b → b ≤ k → A k i = 0) {r0 r1 : ℕ} {c : ℕ × ℕ} {s : Wk K × Wk K × Wk K}
    (h0 : bnd r0) (h1 : bnd r1) (hc0 : bnd c.1) (hc1 : bnd c.2) (hr : r1 = r0 + 1 ∨ r1 = r0 + 2) (hn' : r1 ≤ n)
    (hc : c.2 = c.1 + 1 ∨ c.2 = c.1 + 2) (hn : c.2 ≤ n) (inj : Function.Injective (kL (kD A A) n)) : discCol cast n A r0 r1 c s ≠ none := by
  intro he
  unfold discCol at he
  have hsp := miniDn_spec (p := r1 - r0) (q := c.2 - c.1) (by omega) (by omega) (A.at r0 r0) (A.at c.1 c.1) (s.2.1.at r0 c.1)
  cases hm : miniDn (r1 - r0) (A.at r0 r0) (s.2.1.at r0 c.1) (c.2 - c.1) (A.at c.1 c.1) with
  | none =>
    refine ker_absurd (kD_tri h) h0 (p := r1 - r0) ?_ hc0 (q := c.2 - c.1) ?_ ?_ ?_ inj ?_ (hsp.2 hm)
    · rwa [show r0 + (r1 - r0) = r1 by omega]
    · rwa [show c.1 + (c.2 - c.1) = c.2 by omega]
    · omega
    · omega
    · intro k i l j
      simp only [kD, Wk.at, dlt_add]
  | some x => rw [hm] at he; cases he

theorem discRow_ne_none {cast : K → K} {bnd : ℕ → Prop} {A : Wk K} (h : ∀ b, bnd b → ∀ k i, i < b → b ≤ k → A k i = 0) {r : ℕ × ℕ} {rest : List (ℕ × ℕ)} {s : Wk K × Wk K}
    (h0 : bnd r.1) (h1 : bnd r.2) (hr : r.2 = r.1 + 1 ∨ r.2 = r.1 + 2) (hn : r.2 ≤ n)
    (hb : ∀ c ∈ rest, bnd c.1 ∧ bnd c.2 ∧ (c.2 = c.1 + 1 ∨ c.2 = c.1 + 2) ∧ c.2 ≤ n)
    (inj : Function.Injective (kL (kD A A) n)) : discRow cast n A r rest s ≠ none := by
  intro he
  unfold discRow at he
  dsimp only at he
  generalize (if r.1 ≠ 0 then _ else s.2 : Wk K) = Y at he
  have hsp := miniDs_spec (k := r.2 - r.1) (by omega) (A.at r.1 r.1) (Y.at r.1 r.1)
  cases hm : miniDs (r.2 - r.1) (A.at r.1 r.1) (Y.at r.1 r.1) with
  | none =>
    refine ker_absurd (kD_tri h) h0 (p := r.2 - r.1) ?_ h0 (q := r.2 - r.1) ?_ ?_ ?_ inj ?_ (hsp.2 hm)
    · rwa [show r.1 + (r.2 - r.1) = r.2 by omega]
    · rwa [show r.1 + (r.2 - r.1) = r.2 by omega]
    · omega
    · omega
    · intro k i l j
      simp only [kD, Wk.at, dlt_add]
  | some x =>
    rw [hm] at he
    simp only [bind, Option.bind] at he
    generalize hf : (List.foldlM _ _ rest : Option (Wk K × Wk K × Wk K)) = o at he
    cases o with
    | some _ => cases he
    | none =>
      obtain ⟨c, hc, s', hs⟩ := foldlM_none hf
      obtain ⟨b0, b1, b2, b3⟩ := hb c hc
      exact discCol_ne_none h h0 h1 b0 b1 hr hn b2 b3 inj hs

theorem gcontCol_ne_none {cast : K → K} {bnd : ℕ → Prop} {A E : Wk K} (h : ∀ b, bnd b → ∀ k i, i < b → b ≤ k → A k i = 0) (h' : ∀ b, bnd b → ∀ k i, i < b → b ≤ k → E k i = 0) {r0 r1 : ℕ} {c : ℕ × ℕ} {s : Wk K × Wk K × Wk K × Wk K}
    (h0 : bnd r0) (h1 : bnd r1) (hc0 : bnd c.1) (hc1 : bnd c.2) (hr : r1 = r0 + 1 ∨ r1 = r0 + 2) (hn' : r1 ≤ n)
    (hc : c.2 = c.1 + 1 ∨ c.2 = c.1 + 2) (hn : c.2 ≤ n) (inj : Function.Injective (kL (kGC A E A E) n)) : gcontCol cast n A E r0 r1 c s ≠ none := by
  intro he
  unfold gcontCol at he
  have hsp := miniGCn_spec (p := r1 - r0) (q := c.2 - c.1) (by omega) (by omega) (A.at r0 r0) (E.at r0 r0) (A.at c.1 c.1) (E.at c.1 c.1) (s.2.1.at r0 c.1)
  cases hm : miniGCn (r1 - r0) (A.at r0 r0) (c.2 - c.1) (E.at c.1 c.1) (s.2.1.at r0 c.1) (E.at r0 r0) (A.at c.1 c.1) with
  | none =>
    refine ker_absurd (kGC_tri h h') h0 (p := r1 - r0) ?_ hc0 (q := c.2 - c.1) ?_ ?_ ?_ inj ?_ (hsp.2 hm)
    · rwa [show r0 + (r1 - r0) = r1 by omega]
    · rwa [show c.1 + (c.2 - c.1) = c.2 by omega]
    · omega
    · omega
    · intro k i l j
      simp only [kGC, Wk.at, dlt_add]
  | some x => rw [hm] at he; cases he

theorem gcontRow_ne_none {cast : K → K} {bnd : ℕ → Prop} {A E : Wk K} (h : ∀ b, bnd b → ∀ k i, i < b → b ≤ k → A k i = 0) (h' : ∀ b, bnd b → ∀ k i, i < b → b ≤ k → E k i = 0) {r : ℕ × ℕ} {rest : List (ℕ × ℕ)} {s : Wk K × Wk K}
    (h0 : bnd r.1) (h1 : bnd r.2) (hr : r.2 = r.1 + 1 ∨ r.2 = r.1 + 2) (hn : r.2 ≤ n)
    (hb : ∀ c ∈ rest, bnd c.1 ∧ bnd c.2 ∧ (c.2 = c.1 + 1 ∨ c.2 = c.1 + 2) ∧ c.2 ≤ n)
    (inj : Function.Injective (kL (kGC A E A E) n)) : gcontRow cast n A E r rest s ≠ none := by
  intro he
  unfold gcontRow at he
  dsimp only at he
  generalize (if r.1 ≠ 0 then _ else s.2 : Wk K) = Y at he
  have hsp := miniGCs_spec (k := r.2 - r.1) (by omega) (A.at r.1 r.1) (E.at r.1 r.1) (Y.at r.1 r.1)
  cases hm : miniGCs (r.2 - r.1) (A.at r.1 r.1) (E.at r.1 r.1) (Y.at r.1 r.1) with
  | none =>
    refine ker_absurd (kGC_tri h h') h0 (p := r.2 - r.1) ?_ h0 (q := r.2 - r.1) ?_ ?_ ?_ inj ?_ (hsp.2 hm)
    · rwa [show r.1 + (r.2 - r.1) = r.2 by omega]
    · rwa [show r.1 + (r.2 - r.1) = r.2 by omega]
    · omega
    · omega
    · intro k i l j
      simp only [kGC, Wk.at, dlt_add]
  | some x =>
    rw [hm] at he
    simp only [bind, Option.bind] at he
    generalize hf : (List.foldlM _ _ rest : Option (Wk K × Wk K × Wk K × Wk K)) = o at he
    cases o with
    | some _ => cases he
    | none =>
      obtain ⟨c, hc, s', hs⟩ := foldlM_none hf
      obtain ⟨b0, b1, b2, b3⟩ := hb c hc
      exact gcontCol_ne_none h h' h0 h1 b0 b1 hr hn b2 b3 inj hs

theorem gdiscCol_ne_none {cast : K → K} {bnd : ℕ → Prop} {A E : Wk K} (h : ∀ b, bnd b → ∀ k i, i < b → b ≤ k → A k i = 0) (h' : ∀ b, bnd b → ∀ k i, i < b → b ≤ k → E k i = 0) {r0 r1 : ℕ} {c : ℕ × ℕ} {s : Wk K × Wk K × Wk K × Wk K}
    (h0 : bnd r0) (h1 : bnd r1) (hc0 : bnd c.1) (hc1 : bnd c.2) (hr : r1 = r0 + 1 ∨ r1 = r0 + 2) (hn' : r1 ≤ n)
    (hc : c.2 = c.1 + 1 ∨ c.2 = c.1 + 2) (hn : c.2 ≤ n) (inj : Function.Injective (kL (kGD A E A E) n)) : gdiscCol cast n A E r0 r1 c s ≠ none := by
  intro he
  unfold gdiscCol at he
  have hsp := miniGDn_spec (p := r1 - r0) (q := c.2 - c.1) (by omega) (by omega) (A.at r0 r0) (E.at r0 r0) (A.at c.1 c.1) (E.at c.1 c.1) (s.2.1.at r0 c.1)
  cases hm : miniGDn (c.2 - c.1) (A.at c.1 c.1) (E.at c.1 c.1) (s.2.1.at r0 c.1) (r1 - r0) (A.at r0 r0) (E.at r0 r0) with
  | none =>
    refine ker_absurd (kGD_tri h h') h0 (p := r1 - r0) ?_ hc0 (q := c.2 - c.1) ?_ ?_ ?_ inj ?_ (hsp.2 hm)
    · rwa [show r0 + (r1 - r0) = r1 by omega]
    · rwa [show c.1 + (c.2 - c.1) = c.2 by omega]
    · omega
    · omega
    · intro k i l j
      simp only [kGD, Wk.at, dlt_add]
  | some x => rw [hm] at he; cases he

theorem gdiscRow_ne_none {cast : K → K} {bnd : ℕ → Prop} {A E : Wk K} (h : ∀ b, bnd b → ∀ k i, i < b → b ≤ k → A k i = 0) (h' : ∀ b, bnd b → ∀ k i, i < b → b ≤ k → E k i = 0) {r : ℕ × ℕ} {rest : List (ℕ × ℕ)} {s : Wk K × Wk K}
    (h0 : bnd r.1) (h1 : bnd r.2) (hr : r.2 = r.1 + 1 ∨ r.2 = r.1 + 2) (hn : r.2 ≤ n)
    (hb : ∀ c ∈ rest, bnd c.1 ∧ bnd c.2 ∧ (c.2 = c.1 + 1 ∨ c.2 = c.1 + 2) ∧ c.2 ≤ n)
    (inj : Function.Injective (kL (kGD A E A E) n)) : gdiscRow cast n A E r rest s ≠ none := by
  intro he
  unfold gdiscRow at he
  dsimp only at he
  generalize (if r.1 ≠ 0 then _ else s.2 : Wk K) = Y at he
  have hsp := miniGDs_spec (k := r.2 - r.1) (by omega) (A.at r.1 r.1) (E.at r.1 r.1) (Y.at r.1 r.1)
  cases hm : miniGDs (r.2 - r.1) (A.at r.1 r.1) (E.at r.1 r.1) (Y.at r.1 r.1) with
  | none =>
    refine ker_absurd (kGD_tri h h') h0 (p := r.2 - r.1) ?_ h0 (q := r.2 - r.1) ?_ ?_ ?_ inj ?_ (hsp.2 hm)
    · rwa [show r.1 + (r.2 - r.1) = r.2 by omega]
    · rwa [show r.1 + (r.2 - r.1) = r.2 by omega]
    · omega
    · omega
    · intro k i l j
      simp only [kGD, Wk.at, dlt_add]
  | some x =>
    rw [hm] at he
    simp only [bind, Option.bind] at he
    generalize hf : (List.foldlM _ _ rest : Option (Wk K × Wk K × Wk K × Wk K)) = o at he
    cases o with
    | some _ => cases he
    | none =>
      obtain ⟨c, hc, s', hs⟩ := foldlM_none hf
      obtain ⟨b0, b1, b2, b3⟩ := hb c hc
      exact gdiscCol_ne_none h h' h0 h1 b0 b1 hr hn b2 b3 inj hs

theorem loop_ne_none {sub : ℕ → Prop} {bl : List (ℕ × ℕ)} (hch : Chain sub n 0 bl) {s : Wk K × Wk K}
    {row : ℕ × ℕ → List (ℕ × ℕ) → Wk K × Wk K → Option (Wk K × Wk K)}
    (hrow : ∀ r rest s, Bnd n bl r.1 → Bnd n bl r.2 → (r.2 = r.1 + 1 ∨ r.2 = r.1 + 2) → r.2 ≤ n →
      (∀ c ∈ rest, Bnd n bl c.1 ∧ Bnd n bl c.2 ∧ (c.2 = c.1 + 1 ∨ c.2 = c.1 + 2) ∧ c.2 ≤ n) → row r rest s ≠ none) :
    blockLoop row bl s ≠ none := by
  intro h
  obtain ⟨r, rest, s', hs, hr⟩ := blockLoop_none h
  have hm : r ∈ bl := hs.subset List.mem_cons_self
  have := hch.start_le r hm
  refine hrow r rest s' (Or.inr ⟨r, hm, rfl⟩) (hch.bnd_end r hm) this.2.2 this.2.1 (fun c hc => ?_) hr
  have hcm : c ∈ bl := hs.subset (List.mem_cons_of_mem _ hc)
  have := hch.start_le c hcm
  exact ⟨Or.inr ⟨c, hcm, rfl⟩, hch.bnd_end c hcm, this.2.2, this.2.1⟩

/-! ## The loops on a quasi-triangular matrix -/

section
variable [IsStrictOrderedRing K]

theorem cont_loop {tol : K} (ht : 0 ≤ tol) {A Y : Matrix (Fin n) (Fin n) K} (hA : QuasiTri tol A) (hn : 0 < n) (hY : Yᵀ = Y) {X0 : Wk K}
    {s : Wk K × Wk K} (h : blockLoop (contRow id n (Arr.of A).wk) (blocksOf tol A) (X0, (Arr.of Y).wk) = some s) :
    Aᵀ * s.1.mat n + s.1.mat n * A + Y = 0 ∧ (s.1.mat n)ᵀ = s.1.mat n := by
  refine eqn_op (op := fun X => Aᵀ * X + X * A) (op_C A) (loop_ok (hA.chain ht hn) (fun r rest s s' hI h0 h1 hr hrn hV hch hb he => ?_) h)
  exact contRow_step (hA.zero ht hn) (fun i j hi hj => by
    rw [wk_of_lt Y hi hj, wk_of_lt Y hj hi]
    exact congrFun (congrFun hY.symm _) _) hI h0 h1 hr hrn hV hch hb he

theorem cont_loop_ne_none {cast : K → K} {tol : K} (ht : 0 ≤ tol) {A : Matrix (Fin n) (Fin n) K} (hA : QuasiTri tol A) (hn : 0 < n) {s : Wk K × Wk K}
    (hu : ∀ X : Matrix (Fin n) (Fin n) K, Aᵀ * X + X * A = 0 → X = 0) :
    blockLoop (contRow cast n (Arr.of A).wk) (blocksOf tol A) s ≠ none :=
  loop_ne_none (hA.chain ht hn) fun r rest s h0 h1 hr hrn hb =>
    contRow_ne_none (hA.zero ht hn) h0 h1 hr hrn hb (inj_of_op (op := fun X => Aᵀ * X + X * A) (op_C A) hu)

theorem cont_small {A Y : Matrix (Fin n) (Fin n) K} (hn : n = 1 ∨ n = 2) (hY : Yᵀ = Y) {X : Wk K} (h : miniCs n (Arr.of A).wk (Arr.of Y).wk = some X) :
    Aᵀ * X.mat n + X.mat n * A + Y = 0 ∧ (X.mat n)ᵀ = X.mat n := by
  refine eqn_op (op := fun X => Aᵀ * X + X * A) (op_C A) ?_
  refine (miniCs_spec hn _ _).1 X h fun e => ?_
  subst e
  exact congrFun (congrFun hY.symm 0) 1

theorem cont_small_ne_none {A Y : Matrix (Fin n) (Fin n) K} (hn : n = 1 ∨ n = 2)
    (hu : ∀ X : Matrix (Fin n) (Fin n) K, Aᵀ * X + X * A = 0 → X = 0) : miniCs n (Arr.of A).wk (Arr.of Y).wk ≠ none := by
  intro h
  obtain ⟨x, ⟨i, j, hi, hj, hx⟩, hk⟩ := (miniCs_spec hn _ _).2 h
  have := hu (x.mat n) (Matrix.ext fun i j => by
    rw [op_C A (x.mat n) i j, Matrix.zero_apply, ← hk i j i.2 j.2, kS_fin]
    rfl)
  exact hx (congrFun (congrFun this ⟨i, hi⟩) ⟨j, hj⟩)

theorem disc_loop {tol : K} (ht : 0 ≤ tol) {A Y : Matrix (Fin n) (Fin n) K} (hA : QuasiTri tol A) (hn : 0 < n) (hY : Yᵀ = Y) {X0 : Wk K}
    {s : Wk K × Wk K} (h : blockLoop (discRow id n (Arr.of A).wk) (blocksOf tol A) (X0, (Arr.of Y).wk) = some s) :
    Aᵀ * s.1.mat n * A - s.1.mat n + Y = 0 ∧ (s.1.mat n)ᵀ = s.1.mat n := by
  refine eqn_op (op := fun X => Aᵀ * X * A - X) (op_D A) (loop_ok (hA.chain ht hn) (fun r rest s s' hI h0 h1 hr hrn hV hch hb he => ?_) h)
  exact discRow_step (hA.zero ht hn) (fun i j hi hj => by
    rw [wk_of_lt Y hi hj, wk_of_lt Y hj hi]
    exact congrFun (congrFun hY.symm _) _) hI h0 h1 hr hrn hV hch hb he

theorem disc_loop_ne_none {cast : K → K} {tol : K} (ht : 0 ≤ tol) {A : Matrix (Fin n) (Fin n) K} (hA : QuasiTri tol A) (hn : 0 < n) {s : Wk K × Wk K}
    (hu : ∀ X : Matrix (Fin n) (Fin n) K, Aᵀ * X * A - X = 0 → X = 0) :
    blockLoop (discRow cast n (Arr.of A).wk) (blocksOf tol A) s ≠ none :=
  loop_ne_none (hA.chain ht hn) fun r rest s h0 h1 hr hrn hb =>
    discRow_ne_none (hA.zero ht hn) h0 h1 hr hrn hb (inj_of_op (op := fun X => Aᵀ * X * A - X) (op_D A) hu)

theorem disc_small {A Y : Matrix (Fin n) (Fin n) K} (hn : n = 1 ∨ n = 2) (hY : Yᵀ = Y) {X : Wk K} (h : miniDs n (Arr.of A).wk (Arr.of Y).wk = some X) :
    Aᵀ * X.mat n * A - X.mat n + Y = 0 ∧ (X.mat n)ᵀ = X.mat n := by
  refine eqn_op (op := fun X => Aᵀ * X * A - X) (op_D A) ?_
  refine (miniDs_spec hn _ _).1 X h fun e => ?_
  subst e
  exact congrFun (congrFun hY.symm 0) 1

theorem disc_small_ne_none {A Y : Matrix (Fin n) (Fin n) K} (hn : n = 1 ∨ n = 2)
    (hu : ∀ X : Matrix (Fin n) (Fin n) K, Aᵀ * X * A - X = 0 → X = 0) : miniDs n (Arr.of A).wk (Arr.of Y).wk ≠ none := by
  intro h
  obtain ⟨x, ⟨i, j, hi, hj, hx⟩, hk⟩ := (miniDs_spec hn _ _).2 h
  have := hu (x.mat n) (Matrix.ext fun i j => by
    rw [op_D A (x.mat n) i j, Matrix.zero_apply, ← hk i j i.2 j.2, kS_fin]
    rfl)
  exact hx (congrFun (congrFun this ⟨i, hi⟩) ⟨j, hj⟩)

theorem gcont_loop {tol : K} (ht : 0 ≤ tol) {A E Y : Matrix (Fin n) (Fin n) K} (hA : QuasiTri tol A) (hE : ∀ i j : Fin n, j < i → E i j = 0) (hn : 0 < n) (hY : Yᵀ = Y) {X0 : Wk K}
    {s : Wk K × Wk K} (h : blockLoop (gcontRow id n (Arr.of A).wk (Arr.of E).wk) (blocksOf tol A) (X0, (Arr.of Y).wk) = some s) :
    Aᵀ * s.1.mat n * E + Eᵀ * s.1.mat n * A + Y = 0 ∧ (s.1.mat n)ᵀ = s.1.mat n := by
  refine eqn_op (op := fun X => Aᵀ * X * E + Eᵀ * X * A) (op_GC A E) (loop_ok (hA.chain ht hn) (fun r rest s s' hI h0 h1 hr hrn hV hch hb he => ?_) h)
  exact gcontRow_step (hA.zero ht hn) (upper_zero hE) (fun i j hi hj => by
    rw [wk_of_lt Y hi hj, wk_of_lt Y hj hi]
    exact congrFun (congrFun hY.symm _) _) hI h0 h1 hr hrn hV hch hb he

theorem gcont_loop_ne_none {cast : K → K} {tol : K} (ht : 0 ≤ tol) {A E : Matrix (Fin n) (Fin n) K} (hA : QuasiTri tol A) (hE : ∀ i j : Fin n, j < i → E i j = 0) (hn : 0 < n) {s : Wk K × Wk K}
    (hu : ∀ X : Matrix (Fin n) (Fin n) K, Aᵀ * X * E + Eᵀ * X * A = 0 → X = 0) :
    blockLoop (gcontRow cast n (Arr.of A).wk (Arr.of E).wk) (blocksOf tol A) s ≠ none :=
  loop_ne_none (hA.chain ht hn) fun r rest s h0 h1 hr hrn hb =>
    gcontRow_ne_none (hA.zero ht hn) (upper_zero hE) h0 h1 hr hrn hb (inj_of_op (op := fun X => Aᵀ * X * E + Eᵀ * X * A) (op_GC A E) hu)

theorem gcont_small {A E Y : Matrix (Fin n) (Fin n) K} (hn : n = 1 ∨ n = 2) (hY : Yᵀ = Y) {X : Wk K} (h : miniGCs n (Arr.of A).wk (Arr.of E).wk (Arr.of Y).wk = some X) :
    Aᵀ * X.mat n * E + Eᵀ * X.mat n * A + Y = 0 ∧ (X.mat n)ᵀ = X.mat n := by
  refine eqn_op (op := fun X => Aᵀ * X * E + Eᵀ * X * A) (op_GC A E) ?_
  refine (miniGCs_spec hn _ _ _).1 X h fun e => ?_
  subst e
  exact congrFun (congrFun hY.symm 0) 1

theorem gcont_small_ne_none {A E Y : Matrix (Fin n) (Fin n) K} (hn : n = 1 ∨ n = 2)
    (hu : ∀ X : Matrix (Fin n) (Fin n) K, Aᵀ * X * E + Eᵀ * X * A = 0 → X = 0) : miniGCs n (Arr.of A).wk (Arr.of E).wk (Arr.of Y).wk ≠ none := by
  intro h
  obtain ⟨x, ⟨i, j, hi, hj, hx⟩, hk⟩ := (miniGCs_spec hn _ _ _).2 h
  have := hu (x.mat n) (Matrix.ext fun i j => by
    rw [op_GC A E (x.mat n) i j, Matrix.zero_apply, ← hk i j i.2 j.2, kS_fin]
    rfl)
  exact hx (congrFun (congrFun this ⟨i, hi⟩) ⟨j, hj⟩)

theorem gdisc_loop {tol : K} (ht : 0 ≤ tol) {A E Y : Matrix (Fin n) (Fin n) K} (hA : QuasiTri tol A) (hE : ∀ i j : Fin n, j < i → E i j = 0) (hn : 0 < n) (hY : Yᵀ = Y) {X0 : Wk K}
    {s : Wk K × Wk K} (h : blockLoop (gdiscRow id n (Arr.of A).wk (Arr.of E).wk) (blocksOf tol A) (X0, (Arr.of Y).wk) = some s) :
    Aᵀ * s.1.mat n * A - Eᵀ * s.1.mat n * E + Y = 0 ∧ (s.1.mat n)ᵀ = s.1.mat n := by
  refine eqn_op (op := fun X => Aᵀ * X * A - Eᵀ * X * E) (op_GD A E) (loop_ok (hA.chain ht hn) (fun r rest s s' hI h0 h1 hr hrn hV hch hb he => ?_) h)
  exact gdiscRow_step (hA.zero ht hn) (upper_zero hE) (fun i j hi hj => by
    rw [wk_of_lt Y hi hj, wk_of_lt Y hj hi]
    exact congrFun (congrFun hY.symm _) _) hI h0 h1 hr hrn hV hch hb he

theorem gdisc_loop_ne_none {cast : K → K} {tol : K} (ht : 0 ≤ tol) {A E : Matrix (Fin n) (Fin n) K} (hA : QuasiTri tol A) (hE : ∀ i j : Fin n, j < i → E i j = 0) (hn : 0 < n) {s : Wk K × Wk K}
    (hu : ∀ X : Matrix (Fin n) (Fin n) K, Aᵀ * X * A - Eᵀ * X * E = 0 → X = 0) :
    blockLoop (gdiscRow cast n (Arr.of A).wk (Arr.of E).wk) (blocksOf tol A) s ≠ none :=
  loop_ne_none (hA.chain ht hn) fun r rest s h0 h1 hr hrn hb =>
    gdiscRow_ne_none (hA.zero ht hn) (upper_zero hE) h0 h1 hr hrn hb (inj_of_op (op := fun X => Aᵀ * X * A - Eᵀ * X * E) (op_GD A E) hu)

theorem gdisc_small {A E Y : Matrix (Fin n) (Fin n) K} (hn : n = 1 ∨ n = 2) (hY : Yᵀ = Y) {X : Wk K} (h : miniGDs n (Arr.of A).wk (Arr.of E).wk (Arr.of Y).wk = some X) :
    Aᵀ * X.mat n * A - Eᵀ * X.mat n * E + Y = 0 ∧ (X.mat n)ᵀ = X.mat n := by
  refine eqn_op (op := fun X => Aᵀ * X * A - Eᵀ * X * E) (op_GD A E) ?_
  refine (miniGDs_spec hn _ _ _).1 X h fun e => ?_
  subst e
  exact congrFun (congrFun hY.symm 0) 1

theorem gdisc_small_ne_none {A E Y : Matrix (Fin n) (Fin n) K} (hn : n = 1 ∨ n = 2)
    (hu : ∀ X : Matrix (Fin n) (Fin n) K, Aᵀ * X * A - Eᵀ * X * E = 0 → X = 0) : miniGDs n (Arr.of A).wk (Arr.of E).wk (Arr.of Y).wk ≠ none := by
  intro h
  obtain ⟨x, ⟨i, j, hi, hj, hx⟩, hk⟩ := (miniGDs_spec hn _ _ _).2 h
  have := hu (x.mat n) (Matrix.ext fun i j => by
    rw [op_GD A E (x.mat n) i j, Matrix.zero_apply, ← hk i j i.2 j.2, kS_fin]
    rfl)
  exact hx (congrFun (congrFun this ⟨i, hi⟩) ⟨j, hj⟩)

end

end Harold
