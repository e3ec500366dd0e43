import Verif.Spec.CtrbIdx

/-!
# The Gram-Schmidt process of `controllability_indices`
-/

namespace Harold

open Matrix Spec

variable {n m : ℕ}

/-- Orthonormal vectors. -/
def Ortho (q : List (Fin n → ℝ)) : Prop := q.Pairwise (fun v w => v ⬝ᵥ w = 0) ∧ ∀ v ∈ q, v ⬝ᵥ v = 1

/-- The space spanned by the vectors of a list. -/
def sp (q : List (Fin n → ℝ)) : Submodule ℝ (Fin n → ℝ) := Submodule.span ℝ {v | v ∈ q}

theorem mem_sp {q : List (Fin n → ℝ)} {v : Fin n → ℝ} (h : v ∈ q) : v ∈ sp q := Submodule.subset_span h

theorem sp_append (q l : List (Fin n → ℝ)) : sp (q ++ l) = sp q ⊔ sp l := by
  unfold sp
  rw [← Submodule.span_union]
  congr 1
  ext v
  simp

theorem sp_nil : sp ([] : List (Fin n → ℝ)) = ⊥ := by simp [sp]

theorem Ortho.tail {v : Fin n → ℝ} {q : List (Fin n → ℝ)} (h : Ortho (v :: q)) : Ortho q :=
  ⟨(List.pairwise_cons.mp h.1).2, fun w hw => h.2 w (List.mem_cons_of_mem _ hw)⟩

theorem sum_mem_sp (q : List (Fin n → ℝ)) (w : Fin n → ℝ) : (q.map fun v => (v ⬝ᵥ w) • v).sum ∈ sp q := by
  refine list_sum_mem fun x hx => ?_
  obtain ⟨v, hv, rfl⟩ := List.mem_map.mp hx
  exact Submodule.smul_mem _ _ (mem_sp hv)

theorem dot_sum {u : Fin n → ℝ} : ∀ (q : List (Fin n → ℝ)) (w : Fin n → ℝ), (∀ v ∈ q, u ⬝ᵥ v = 0) → u ⬝ᵥ (q.map fun v => (v ⬝ᵥ w) • v).sum = 0
  | [], w, _ => by simp
  | v :: q, w, h => by
    rw [List.map_cons, List.sum_cons, dotProduct_add, dotProduct_smul, h v (by simp), smul_zero, zero_add]
    exact dot_sum q w fun x hx => h x (by simp [hx])

theorem Ortho.dot {q : List (Fin n → ℝ)} (h : Ortho q) (w : Fin n → ℝ) {u : Fin n → ℝ} (hu : u ∈ q) : u ⬝ᵥ (q.map fun v => (v ⬝ᵥ w) • v).sum = u ⬝ᵥ w := by
  induction q with
  | nil => simp at hu
  | cons v q ih =>
    have h1 := (List.pairwise_cons.mp h.1).1
    rw [List.map_cons, List.sum_cons, dotProduct_add, dotProduct_smul]
    rcases List.mem_cons.mp hu with rfl | hu
    · rw [h.2 u (by simp), dot_sum q w h1]
      simp
    · rw [dotProduct_comm u v, h1 u hu, ih h.tail hu]
      simp

theorem Ortho.deflate {q : List (Fin n → ℝ)} (h : Ortho q) (w : Fin n → ℝ) {u : Fin n → ℝ} (hu : u ∈ q) : u ⬝ᵥ ciDeflate q w = 0 := by
  unfold ciDeflate
  rw [dotProduct_sub, h.dot w hu, sub_self]

theorem Ortho.deflate_twice {q : List (Fin n → ℝ)} (h : Ortho q) (w : Fin n → ℝ) : ciDeflate q (ciDeflate q w) = ciDeflate q w := by
  conv_lhs => unfold ciDeflate
  have : (q.map fun v => (v ⬝ᵥ ciDeflate q w) • v) = q.map fun _ => 0 := List.map_congr_left fun v hv => by rw [h.deflate w hv, zero_smul]
  have h2 : (q.map fun v => (v ⬝ᵥ ciDeflate q w) • v).sum = 0 := by
    rw [this]
    simp
  unfold ciDeflate at h2
  rw [h2, sub_zero]
  rfl

/-- Orthonormal vectors are independent. -/
theorem Ortho.finrank {q : List (Fin n → ℝ)} (h : Ortho q) : Module.finrank ℝ (sp q) = q.length := by
  have h1 : LinearIndependent ℝ q.get := by
    rw [Fintype.linearIndependent_iff]
    intro g hg i
    have h2 := congrArg (q.get i ⬝ᵥ ·) hg
    simp only [dotProduct_sum, dotProduct_smul, dotProduct_zero] at h2
    rw [Finset.sum_eq_single i] at h2
    · rw [h.2 _ (List.get_mem q i)] at h2
      simpa using h2
    · intro j _ hj
      have h3 := List.pairwise_iff_get.mp h.1
      rcases lt_or_gt_of_ne hj with h4 | h4
      · rw [dotProduct_comm, h3 j i h4, smul_zero]
      · rw [h3 i j h4, smul_zero]
    · simp
  have h2 := finrank_span_eq_card h1
  rw [Fintype.card_fin] at h2
  have h3 : {v | v ∈ q} = Set.range q.get := by ext v; simp [List.mem_iff_get]
  rw [← h2, sp, h3]

/-- One test vector. -/
theorem ciStep_spec {s : CiState n m} (h : Ortho s.q) (col : Fin m) (w : Fin n → ℝ) :
    (w ∈ sp s.q ∧ ciStep 0 s col w = { s with rem := s.rem.erase col }) ∨
    ∃ v, ciStep 0 s col w = { s with q := s.q ++ [v], ind := Function.update s.ind col (s.ind col + 1) } ∧ Ortho (s.q ++ [v]) ∧
      sp (s.q ++ [v]) = sp s.q ⊔ Submodule.span ℝ {w} := by
  unfold ciStep
  simp only
  rw [h.deflate_twice]
  set d := ciDeflate s.q w with hd
  have hw : w - d ∈ sp s.q := by
    rw [hd]
    unfold ciDeflate
    rw [sub_sub_cancel]
    exact sum_mem_sp _ _
  have hd0 : 0 ≤ d ⬝ᵥ d := Finset.sum_nonneg fun i _ => mul_self_nonneg _
  by_cases h1 : √(d ⬝ᵥ d) ≤ 0
  · left
    rw [if_pos h1]
    have h2 : d = 0 := by
      have h3 : √(d ⬝ᵥ d) = 0 := le_antisymm h1 (Real.sqrt_nonneg _)
      rw [Real.sqrt_eq_zero hd0] at h3
      exact dotProduct_self_eq_zero.mp h3
    rw [h2, sub_zero] at hw
    exact ⟨hw, rfl⟩
  · right
    rw [if_neg h1]
    push Not at h1
    have hne := h1.ne'
    refine ⟨_, rfl, ⟨?_, ?_⟩, ?_⟩
    · rw [List.pairwise_append]
      refine ⟨h.1, by simp, fun u hu v hv => ?_⟩
      rw [List.mem_singleton.mp hv, dotProduct_smul, hd, h.deflate w hu, smul_zero]
    · intro v hv
      rcases List.mem_append.mp hv with hv | hv
      · exact h.2 v hv
      · rw [List.mem_singleton.mp hv, smul_dotProduct, dotProduct_smul, smul_eq_mul, smul_eq_mul]
        nth_rw 3 [← Real.mul_self_sqrt hd0]
        field_simp
    · rw [sp_append]
      have hs : sp [(√(d ⬝ᵥ d))⁻¹ • d] = Submodule.span ℝ {d} := by
        unfold sp
        rw [show {v | v ∈ [(√(d ⬝ᵥ d))⁻¹ • d]} = {(√(d ⬝ᵥ d))⁻¹ • d} from by ext; simp]
        exact Submodule.span_singleton_smul_eq (IsUnit.mk0 _ (inv_ne_zero hne)) d
      rw [hs]
      apply le_antisymm
      · refine sup_le le_sup_left ?_
        rw [Submodule.span_singleton_le_iff_mem]
        have : d = w - (w - d) := by abel
        rw [this]
        exact Submodule.sub_mem _ (Submodule.mem_sup_right (Submodule.mem_span_singleton_self _)) (Submodule.mem_sup_left hw)
      · refine sup_le le_sup_left ?_
        rw [Submodule.span_singleton_le_iff_mem]
        have : w = (w - d) + d := by abel
        rw [this]
        exact Submodule.add_mem _ (Submodule.mem_sup_left hw) (Submodule.mem_sup_right (Submodule.mem_span_singleton_self _))

/-- The loop over the remaining columns. -/
theorem ciInner_spec : ∀ (l : List (Fin m × (Fin n → ℝ))) (s : CiState n m), Ortho s.q → (l.map Prod.fst).Nodup → s.rem.Nodup → (∀ c ∈ l.map Prod.fst, c ∈ s.rem) →
    ∃ (new : List (Fin n → ℝ)) (kept : List (Fin m)), (ciInner 0 l s).q = s.q ++ new ∧ Ortho (s.q ++ new) ∧ sp (s.q ++ new) = sp s.q ⊔ sp (l.map Prod.snd) ∧
      new.length = kept.length ∧ kept.Nodup ∧ kept ⊆ l.map Prod.fst ∧ (ciInner 0 l s).rem.Nodup ∧
      (∀ c, c ∈ (ciInner 0 l s).rem ↔ c ∈ s.rem ∧ (c ∉ l.map Prod.fst ∨ c ∈ kept)) ∧ ∀ c, (ciInner 0 l s).ind c = s.ind c + if c ∈ kept then 1 else 0
  | [], s, h1, _, h3, _ => ⟨[], [], by simp [ciInner], by simpa using h1, by simp [sp_nil], rfl, by simp, by simp, h3, by simp [ciInner], by simp [ciInner]⟩
  | (col, w) :: l, s, h1, h2, h3, h4 => by
    rw [List.map_cons, List.nodup_cons] at h2
    obtain ⟨h2a, h2b⟩ := h2
    simp only at h2a
    unfold ciInner
    rcases ciStep_spec h1 col w with ⟨h5, h6⟩ | ⟨v, h6, h7, h8⟩
    · rw [h6]
      have hsub : ∀ c ∈ l.map Prod.fst, c ∈ s.rem.erase col := fun c hc => by
        rw [h3.mem_erase_iff]
        exact ⟨fun e => h2a (e ▸ hc), h4 c (by rw [List.map_cons]; exact List.mem_cons_of_mem _ hc)⟩
      obtain ⟨new, kept, i1, i2, i3, i4, i5, i6, i7, i8, i9⟩ := ciInner_spec l { s with rem := s.rem.erase col } h1 h2b (h3.erase col) hsub
      refine ⟨new, kept, i1, i2, ?_, i4, i5, fun c hc => by rw [List.map_cons]; exact List.mem_cons_of_mem _ (i6 hc), i7, fun c => ?_, i9⟩
      · rw [i3, List.map_cons, ← List.singleton_append, sp_append]
        simp only
        have h9 : sp [w] ≤ sp s.q := by
          unfold sp
          rw [Submodule.span_le]
          intro x hx
          rw [List.mem_singleton.mp hx]
          exact h5
        rw [← sup_assoc, sup_eq_left.mpr h9]
      · rw [i8, h3.mem_erase_iff, List.map_cons, List.mem_cons]
        constructor
        · rintro ⟨⟨a, b⟩, c⟩
          exact ⟨b, c.imp (fun h => not_or.mpr ⟨a, h⟩) id⟩
        · rintro ⟨a, b⟩
          have hk : c ∈ kept → c ≠ col := fun h e => h2a (e ▸ i6 h)
          rcases b with b | b
          · exact ⟨⟨(not_or.mp b).1, a⟩, Or.inl (not_or.mp b).2⟩
          · exact ⟨⟨hk b, a⟩, Or.inr b⟩
    · rw [h6]
      obtain ⟨new, kept, i1, i2, i3, i4, i5, i6, i7, i8, i9⟩ := ciInner_spec l
        { s with q := s.q ++ [v], ind := Function.update s.ind col (s.ind col + 1) } h7 h2b h3 (fun c hc => h4 c (by rw [List.map_cons]; exact List.mem_cons_of_mem _ hc))
      have hcol : col ∉ kept := fun h => h2a (i6 h)
      refine ⟨v :: new, col :: kept, ?_, ?_, ?_, by simp [i4], List.nodup_cons.mpr ⟨hcol, i5⟩, ?_, i7, fun c => ?_, fun c => ?_⟩
      · rw [i1]
        simp
      · simpa using i2
      · have e : s.q ++ v :: new = s.q ++ [v] ++ new := by simp
        rw [e, i3, h8, List.map_cons, ← List.singleton_append, sp_append]
        have e2 : sp [w] = Submodule.span ℝ {w} := by
          unfold sp
          congr 1
          ext
          simp
        rw [e2, sup_assoc]
      · rw [List.map_cons]
        exact List.cons_subset_cons _ i6
      · rw [i8, List.map_cons, List.mem_cons, List.mem_cons]
        simp only
        constructor
        · rintro ⟨a, b⟩
          refine ⟨a, ?_⟩
          by_cases e : c = col
          · exact Or.inr (Or.inl e)
          · exact b.imp (fun h => not_or.mpr ⟨e, h⟩) Or.inr
        · rintro ⟨a, b⟩
          refine ⟨a, ?_⟩
          rcases b with b | b | b
          · exact Or.inl (not_or.mp b).2
          · rw [b]
            exact Or.inl h2a
          · exact Or.inr b
      · rw [i9]
        simp only [List.mem_cons]
        by_cases e : c = col
        · subst e
          simp [hcol]
        · simp [e]

theorem krylov_map (A : Matrix (Fin n) (Fin n) ℝ) (B : Matrix (Fin n) (Fin m) ℝ) (k : ℕ) {x : Fin n → ℝ} (hx : x ∈ krySpace A B k) : A *ᵥ x ∈ krySpace A B (k + 1) := by
  have h : krySpace A B k ≤ (krySpace A B (k + 1)).comap A.mulVecLin := by
    refine krylov_le fun i hi u => ?_
    rw [Submodule.mem_comap, mulVecLin_apply, mulVec_mulVec, ← Matrix.mul_assoc, ← pow_succ']
    exact mem_krylov A B (by omega) u
  exact h hx

/-- If the Krylov space does not grow it is invariant. -/
theorem krylov_const {A : Matrix (Fin n) (Fin n) ℝ} {B : Matrix (Fin n) (Fin m) ℝ} {k : ℕ} (h : ∀ x ∈ krySpace A B k, A *ᵥ x ∈ krySpace A B k) :
    ∀ j, k ≤ j → krySpace A B j = krySpace A B k := fun j hj => by
  apply le_antisymm
  · have h1 : ∀ i u, (A ^ i * B) *ᵥ u ∈ krySpace A B k := fun i => by
      induction i with
      | zero => exact fun u => mem_krylov A B (Nat.zero_le _) u
      | succ i ih =>
        intro u
        rw [pow_succ', Matrix.mul_assoc, ← mulVec_mulVec]
        exact h _ (ih u)
    exact krylov_le fun i _ u => h1 i u
  · exact krylov_le fun i hi u => mem_krylov A B (hi.trans hj) u

theorem kdim_succ (A : Matrix (Fin n) (Fin n) ℝ) (B : Matrix (Fin n) (Fin m) ℝ) (k : ℕ) : kdim A B (k + 1) = Module.finrank ℝ (krySpace A B k) := rfl

/-- The invariant of the outer loop after `k` rounds. -/
structure CiInv (A : Matrix (Fin n) (Fin n) ℝ) (B : Matrix (Fin n) (Fin m) ℝ) (k : ℕ) (s : CiState n m) : Prop where
  ortho : Ortho s.q
  span : sp s.q = krySpace A B k
  nodup : s.rem.Nodup
  len : s.rem.length ≤ s.q.length
  step : ∀ x ∈ sp s.q, A *ᵥ x ∈ sp s.q ⊔ sp ((s.q.drop (s.q.length - s.rem.length)).map (A *ᵥ ·))
  mem : ∀ c, c ∈ s.rem ↔ s.ind c = k + 1
  le : ∀ c, s.ind c ≤ k + 1
  count : ∀ j ≤ k, kdim A B j + (Finset.univ.filter fun c => j < s.ind c).card = kdim A B (j + 1)

theorem map_span_le {A : Matrix (Fin n) (Fin n) ℝ} {l : List (Fin n → ℝ)} {x : Fin n → ℝ} (hx : x ∈ sp l) : A *ᵥ x ∈ sp (l.map (A *ᵥ ·)) := by
  have h : sp l ≤ (sp (l.map (A *ᵥ ·))).comap A.mulVecLin := by
    unfold sp
    rw [Submodule.span_le]
    intro v hv
    exact Submodule.subset_span (List.mem_map_of_mem hv)
  exact h hx

theorem CiInv.round {A : Matrix (Fin n) (Fin n) ℝ} {B : Matrix (Fin n) (Fin m) ℝ} {k : ℕ} {s : CiState n m} (h : CiInv A B k s) :
    CiInv A B (k + 1) (ciInner 0 (s.rem.zip ((s.q.drop (s.q.length - s.rem.length)).map (A *ᵥ ·))) s) := by
  set bank := (s.q.drop (s.q.length - s.rem.length)).map (A *ᵥ ·) with hbank
  have hlen : bank.length = s.rem.length := by
    have := h.len
    rw [hbank, List.length_map, List.length_drop]
    omega
  have hfst : (s.rem.zip bank).map Prod.fst = s.rem := List.map_fst_zip hlen.ge
  have hsnd : (s.rem.zip bank).map Prod.snd = bank := List.map_snd_zip hlen.le
  obtain ⟨new, kept, i1, i2, i3, i4, i5, i6, i7, i8, i9⟩ := ciInner_spec (s.rem.zip bank) s h.ortho (by rw [hfst]; exact h.nodup) h.nodup (by rw [hfst]; exact fun c hc => hc)
  rw [hfst] at i6 i8
  rw [hsnd] at i3
  set s' := ciInner 0 (s.rem.zip bank) s
  have hk : ∀ c, c ∈ s'.rem ↔ c ∈ kept := fun c => by
    rw [i8]
    constructor
    · rintro ⟨a, b⟩
      exact b.resolve_left (not_not.mpr a)
    · exact fun h => ⟨i6 h, Or.inr h⟩
  have hperm : s'.rem.Perm kept := (List.perm_ext_iff_of_nodup i7 i5).mpr hk
  have hrl : s'.rem.length = new.length := by rw [hperm.length_eq, i4]
  have hspan : sp (s.q ++ new) = krySpace A B (k + 1) := by
    rw [i3, krylov_succ, h.span]
    have hb : sp bank ≤ krySpace A B (k + 1) := by
      unfold sp
      rw [Submodule.span_le]
      intro v hv
      obtain ⟨u, hu, rfl⟩ := List.mem_map.mp hv
      refine krylov_map A B k ?_
      rw [← h.span]
      exact mem_sp (List.mem_of_mem_drop hu)
    apply le_antisymm
    · refine sup_le le_sup_left ?_
      rw [← krylov_succ]
      exact hb
    · refine sup_le le_sup_left ?_
      rintro _ ⟨u, rfl⟩
      rw [mulVecLin_apply, pow_succ', Matrix.mul_assoc, ← mulVec_mulVec]
      have := h.step _ (by rw [h.span]; exact mem_krylov A B (le_refl k) u)
      rwa [h.span] at this
  have hind : ∀ c, k + 1 < s'.ind c ↔ c ∈ s'.rem := fun c => by
    rw [hk, i9]
    have h1 := h.le c
    constructor
    · intro h2
      by_contra h3
      rw [if_neg h3] at h2
      omega
    · intro h2
      rw [if_pos h2, (h.mem c).mp (i6 h2)]
      omega
  refine ⟨by rw [i1]; exact i2, by rw [i1]; exact hspan, i7, by rw [i1, List.length_append]; omega, ?_, fun c => ?_, fun c => ?_, fun j hj => ?_⟩
  · intro x hx
    rw [i1] at hx ⊢
    rw [List.length_append, hrl, Nat.add_sub_cancel, List.drop_left]
    have h1 := hx
    rw [sp_append] at h1
    obtain ⟨y, hy, z, hz, rfl⟩ := Submodule.mem_sup.mp h1
    rw [mulVec_add]
    refine Submodule.add_mem _ (Submodule.mem_sup_left ?_) (Submodule.mem_sup_right (map_span_le hz))
    rw [i3]
    exact h.step y hy
  · rw [← hind]
    have h1 : s'.ind c ≤ k + 2 := by
      rw [i9]
      have := h.le c
      split_ifs <;> omega
    omega
  · rw [i9]
    have := h.le c
    split_ifs <;> omega
  · rcases Nat.lt_or_ge k j with h1 | h1
    · obtain rfl : j = k + 1 := by omega
      have h2 : (Finset.univ.filter fun c => k + 1 < s'.ind c) = s'.rem.toFinset := by
        ext c
        simp [hind]
      rw [h2, List.toFinset_card_of_nodup i7, hrl, kdim_succ, kdim_succ, ← h.span, ← hspan, h.ortho.finrank, i2.finrank, List.length_append]
    · rw [← h.count j h1]
      congr 2
      ext c
      simp only [Finset.mem_filter, Finset.mem_univ, true_and]
      rw [i9]
      constructor
      · intro h2
        by_cases h3 : c ∈ kept
        · have := (h.mem c).mp (i6 h3)
          omega
        · rw [if_neg h3] at h2
          omega
      · intro h2
        omega

/-- The indices after the loop. -/
theorem ciOuter_spec {A : Matrix (Fin n) (Fin n) ℝ} {B : Matrix (Fin n) (Fin m) ℝ} (l : ℕ) : ∀ (k : ℕ) (s : CiState n m), CiInv A B k s → k + l = n - 1 →
    CtrbIndices A B (ciOuter 0 A l s).ind := by
  induction l with
  | zero =>
    intro k s h hk
    intro j
    unfold ciOuter
    rcases Nat.lt_or_ge k j with h1 | h1
    · have h2 : (Finset.univ.filter fun c => j < s.ind c) = ∅ := by
        rw [Finset.filter_eq_empty_iff]
        intro c _
        have := h.le c
        omega
      have h3 := krylov_const (A := A) (B := B) (k := k) (fun x hx => by
        have e : k = n - 1 := by omega
        subst e
        exact krylov_invariant A B hx)
      obtain ⟨i, rfl⟩ : ∃ i, j = i + 1 := ⟨j - 1, by omega⟩
      rw [h2, Finset.card_empty, kdim_succ, kdim_succ, h3 i (by omega), h3 (i + 1) (by omega), Nat.add_zero]
    · exact h.count j h1
  | succ l ih =>
    intro k s h hk
    unfold ciOuter
    simp only
    have h1 := h.round
    set s' := ciInner 0 (s.rem.zip ((s.q.drop (s.q.length - s.rem.length)).map (A *ᵥ ·))) s
    by_cases h2 : s'.rem = []
    · rw [if_pos h2]
      intro j
      rcases Nat.lt_or_ge (k + 1) j with h3 | h3
      · have h4 : (Finset.univ.filter fun c => j < s'.ind c) = ∅ := by
          rw [Finset.filter_eq_empty_iff]
          intro c _
          have := h1.le c
          omega
        have h5 := krylov_const (A := A) (B := B) (k := k + 1) (fun x hx => by
          rw [← h1.span] at hx ⊢
          have := h1.step x hx
          rw [h2] at this
          simpa [sp_nil] using this)
        obtain ⟨i, rfl⟩ : ∃ i, j = i + 1 := ⟨j - 1, by omega⟩
        rw [h4, Finset.card_empty, kdim_succ, kdim_succ, h5 i (by omega), h5 (i + 1) (by omega), Nat.add_zero]
      · exact h1.count j h3
    · rw [if_neg h2]
      exact ih (k + 1) s' h1 (by omega)

/-- The start in exact arithmetic. -/
theorem ciStart_spec {N : QrpNum} {B : Matrix (Fin n) (Fin m) ℝ} (hN : QrpOk N B) (ht : N.thr B = 0) (A : Matrix (Fin n) (Fin n) ℝ) : CiInv A B 0 (ciStart N B) := by
  obtain ⟨h1, h2, h3, h4⟩ := hN
  set Q := (N.qr B).1 with hQ
  set R := (N.qr B).2.1 with hR
  set σ := (N.qr B).2.2 with hσ
  set e : Fin (min n m) → Fin m := Fin.castLE (min_le_right n m) with he
  set r := (Finset.univ.filter fun i : Fin (min n m) => N.thr B < |R i (e i)|).card with hr
  have hrk : r ≤ min n m := by
    rw [hr]
    exact (Finset.card_le_univ _).trans (by simp)
  -- the elements counted are the first ones
  have hdown : ∀ i l : Fin (min n m), (i : ℕ) ≤ l → R l (e l) ≠ 0 → R i (e i) ≠ 0 := fun i l hil hl hi => by
    have := h4 i l (e l) hil (by simpa [he] using hil)
    rw [hi, abs_zero] at this
    exact hl (abs_eq_zero.mp (le_antisymm this (abs_nonneg _)))
  have hset : ∀ i : Fin (min n m), R i (e i) ≠ 0 ↔ (i : ℕ) < r := by
    have hS : (Finset.univ.filter fun i : Fin (min n m) => N.thr B < |R i (e i)|) = Finset.univ.filter fun i => R i (e i) ≠ 0 := by
      ext i
      simp [ht]
    rw [hS] at hr
    intro i
    constructor
    · intro hi
      have h5 : Finset.Iic i ⊆ Finset.univ.filter fun i => R i (e i) ≠ 0 := fun l hl => by
        rw [Finset.mem_filter]
        exact ⟨Finset.mem_univ _, hdown l i (Fin.le_def.mp (Finset.mem_Iic.mp hl)) hi⟩
      have h6 := Finset.card_le_card h5
      rw [← hr, Fin.card_Iic] at h6
      omega
    · intro hi h5
      have h6 : (Finset.univ.filter fun i => R i (e i) ≠ 0) ⊆ Finset.Iio i := fun l hl => by
        rw [Finset.mem_Iio]
        by_contra h7
        exact hdown i l (not_lt.mp h7) (Finset.mem_filter.mp hl).2 h5
      have h7 := Finset.card_le_card h6
      rw [← hr, Fin.card_Iio] at h7
      omega
  have hzero : ∀ (l : Fin (min n m)) (j : Fin m), r ≤ (l : ℕ) → R l j = 0 := fun l j hl => by
    rcases Nat.lt_or_ge (j : ℕ) l with h5 | h5
    · exact h3 l j h5
    · have h6 : ¬ R l (e l) ≠ 0 := fun h => by
        have := (hset l).mp h
        omega
      have h7 := h4 l l j (le_refl _) h5
      rw [not_not.mp h6, abs_zero] at h7
      exact abs_eq_zero.mp (le_antisymm h7 (abs_nonneg _))
  set q : List (Fin n → ℝ) := ((List.finRange (min n m)).map fun j i => Q i j).take r with hq
  have hmemq : ∀ v, v ∈ q ↔ ∃ j : Fin (min n m), (j : ℕ) < r ∧ v = fun i => Q i j := fun v => by
    rw [hq, List.mem_take_iff_getElem]
    constructor
    · rintro ⟨i, hi, rfl⟩
      simp only [List.length_map, List.length_finRange, lt_min_iff] at hi
      exact ⟨⟨i, by omega⟩, by simpa using by omega, by simp⟩
    · rintro ⟨j, hj, rfl⟩
      exact ⟨j, by simp; omega, by simp⟩
  have horth : Ortho q := by
    have hQQ : ∀ i j : Fin (min n m), (fun l => Q l i) ⬝ᵥ (fun l => Q l j) = if i = j then 1 else 0 := fun i j => by
      have := congrFun (congrFun h1 i) j
      rw [Matrix.one_apply] at this
      rw [← this]
      rfl
    constructor
    · rw [hq]
      refine List.Pairwise.take ?_
      rw [List.pairwise_map]
      refine (List.pairwise_lt_finRange _).imp fun {i j} hij => ?_
      rw [hQQ, if_neg hij.ne]
    · intro v hv
      obtain ⟨j, -, rfl⟩ := (hmemq v).mp hv
      rw [hQQ, if_pos rfl]
  have hlenq : q.length = r := by
    rw [hq, List.length_take, List.length_map, List.length_finRange]
    omega
  have hBj : ∀ j, (fun i => B i (σ j)) = ∑ l, R l j • fun i => Q i l := fun j => by
    ext i
    rw [h2, Matrix.mul_apply, Finset.sum_apply]
    exact Finset.sum_congr rfl fun l _ => by rw [Pi.smul_apply, smul_eq_mul, mul_comm]
  have hBq : ∀ c, (fun i => B i c) ∈ sp q := fun c => by
    have := hBj (σ.symm c)
    rw [Equiv.apply_symm_apply] at this
    rw [this]
    refine Submodule.sum_mem _ fun l _ => ?_
    by_cases hl : (l : ℕ) < r
    · exact Submodule.smul_mem _ _ (mem_sp ((hmemq _).mpr ⟨l, hl, rfl⟩))
    · rw [hzero l _ (by omega), zero_smul]
      exact Submodule.zero_mem _
  have hcol : ∀ c, (fun i => B i c) ∈ krySpace A B 0 := fun c => ⟨Pi.single c 1, by
    rw [mulVecLin_apply]
    exact mulVec_single_one _ _⟩
  have hQk : ∀ (k : ℕ) (j : Fin (min n m)), (j : ℕ) = k → (j : ℕ) < r → (fun i => Q i j) ∈ krySpace A B 0 := fun k => by
    induction k using Nat.strong_induction_on with
    | _ k ih =>
      intro j hjk hj
      have h5 := hBj (e j)
      rw [← Finset.add_sum_erase _ _ (Finset.mem_univ j)] at h5
      have h6 : (fun i => Q i j) = (R j (e j))⁻¹ • ((fun i => B i (σ (e j))) - ∑ l ∈ Finset.univ.erase j, R l (e j) • fun i => Q i l) := by
        rw [h5, add_sub_cancel_right, smul_smul, inv_mul_cancel₀ ((hset j).mpr hj), one_smul]
      rw [h6]
      refine Submodule.smul_mem _ _ (Submodule.sub_mem _ (hcol _) (Submodule.sum_mem _ fun l hl => ?_))
      have hlj : l ≠ j := by simpa using hl
      rcases Nat.lt_or_ge (l : ℕ) j with h7 | h7
      · exact Submodule.smul_mem _ _ (ih l (by omega) l rfl (by omega))
      · have h8 : (l : ℕ) ≠ j := fun h => hlj (Fin.ext h)
        rw [h3 l (e j) (by simp [he]; omega), zero_smul]
        exact Submodule.zero_mem _
  have hsp : sp q = krySpace A B 0 := by
    apply le_antisymm
    · unfold sp
      rw [Submodule.span_le]
      intro v hv
      obtain ⟨j, hj, rfl⟩ := (hmemq v).mp hv
      exact hQk j j rfl hj
    · rintro _ ⟨u, rfl⟩
      show (B *ᵥ u) ∈ sp q
      have : B *ᵥ u = ∑ c, u c • fun i => B i c := by
        ext i
        rw [Finset.sum_apply]
        show ∑ c, B i c * u c = _
        exact Finset.sum_congr rfl fun c _ => by rw [Pi.smul_apply, smul_eq_mul, mul_comm]
      rw [this]
      exact Submodule.sum_mem _ fun c _ => Submodule.smul_mem _ _ (hBq c)
  have hlenr : (((List.finRange m).map σ).take r).length = r := by
    rw [List.length_take, List.length_map, List.length_finRange]
    omega
  have hnd : (((List.finRange m).map σ).take r).Nodup := ((List.nodup_finRange m).map σ.injective).sublist (List.take_sublist _ _)
  show CiInv A B 0 ⟨q, ((List.finRange m).map σ).take r, fun c => if c ∈ ((List.finRange m).map σ).take r then 1 else 0⟩
  refine ⟨horth, hsp, hnd, by rw [hlenr, hlenq], ?_, fun c => ?_, fun c => ?_, fun j hj => ?_⟩
  · intro x hx
    rw [hlenr, hlenq, Nat.sub_self, List.drop_zero]
    exact Submodule.mem_sup_right (map_span_le hx)
  · simp only
    split_ifs with h <;> simp [h]
  · simp only
    split_ifs <;> omega
  · obtain rfl : j = 0 := by omega
    rw [kdim_succ, ← hsp, horth.finrank, hlenq]
    show 0 + _ = _
    rw [Nat.zero_add]
    have : (Finset.univ.filter fun c => 0 < if c ∈ ((List.finRange m).map σ).take r then 1 else 0) = (((List.finRange m).map σ).take r).toFinset := by
      ext c
      simp only [Finset.mem_filter, Finset.mem_univ, true_and, List.mem_toFinset]
      split_ifs with h <;> simp [h]
    rw [this, List.toFinset_card_of_nodup hnd, hlenr]

end Harold
