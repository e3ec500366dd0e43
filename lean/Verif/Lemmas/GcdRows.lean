import Verif.Lemmas.Gcd
import Mathlib.LinearAlgebra.Matrix.ToLin

/-!
# The rows of the generalised Sylvester array and of its triangular factor
-/

namespace Harold

open Polynomial Spec

variable {K : Type} [Field K] [LinearOrder K]

/-- The polynomials of given rows of coefficients span this space. -/
noncomputable def rowSpan (rows : List (List K)) : Submodule K K[X] :=
  Submodule.span K {q | ∃ r ∈ rows, toPoly r = q}

theorem rowSpan_append (a b : List (List K)) : rowSpan (a ++ b) = rowSpan a ⊔ rowSpan b := by
  rw [rowSpan, rowSpan, rowSpan, ← Submodule.span_union]
  congr 1
  ext q
  simp only [List.mem_append, Set.mem_setOf_eq, Set.mem_union]
  grind

theorem length_rollRight (x : List K) (k : ℕ) : (rollRight x k).length = x.length := by
  simp [rollRight]

theorem toPoly_rollRight (x : List K) (pad r : ℕ) (h : r ≤ pad) :
    toPoly (rollRight (x ++ List.replicate pad 0) r) = toPoly x * X ^ (pad - r) := by
  rcases Nat.lt_or_ge r (x.length + pad) with hr | hr
  · have hlen : (x ++ List.replicate pad (0 : K)).length = x.length + pad := by simp
    have hk : x.length + pad - r = x.length + (pad - r) := by omega
    rw [rollRight, hlen, Nat.mod_eq_of_lt hr, List.rotate_eq_drop_append_take (by rw [hlen]; omega),
      hk, List.drop_append, List.take_append, List.drop_eq_nil_of_le (Nat.le_add_right _ _),
      List.take_of_length_le (Nat.le_add_right _ _), toPoly_append, List.nil_append,
      List.drop_replicate, toPoly_replicate_zero, zero_mul, zero_add, toPoly_append,
      List.take_replicate, toPoly_replicate_zero, add_zero, List.length_replicate]
    congr 2
    omega
  · have hx : x = [] := List.eq_nil_of_length_eq_zero (by omega)
    subst hx
    rw [toPoly_nil, zero_mul, toPoly_eq_zero_iff]
    intro a ha
    rw [rollRight, List.mem_rotate] at ha
    simp only [List.nil_append] at ha
    exact List.eq_of_mem_replicate ha

/-- Coefficients without leading zeros. -/
def NoLead (x : List K) : Prop := x = [] ∨ ∃ a t, x = a :: t ∧ a ≠ 0

theorem noLead_trimZeros (x : List K) : NoLead (trimZeros x) := by
  rcases h : trimZeros x with _ | ⟨a, t⟩
  · exact .inl rfl
  · refine .inr ⟨a, t, rfl, ?_⟩
    have := List.head_dropWhile_not (fun b : K => decide (b = 0)) (l := x) (by
      intro h0; unfold trimZeros at h; rw [h] at h0; cases h0)
    unfold trimZeros at h
    simp only [h, List.head_cons, decide_eq_false_iff_not] at this
    exact this

theorem natDegree_noLead {x : List K} (h : NoLead x) : (toPoly x).natDegree = x.length - 1 := by
  rcases h with rfl | ⟨a, t, rfl, ha⟩
  · simp
  · have := degree_toPoly_cons ha t
    rw [natDegree_eq_of_degree_eq_some this]; simp

theorem rowSpan_sylBlock {x : List K} (hx : NoLead x) (pad : ℕ) :
    rowSpan (sylBlock x pad (pad + 1)) = multSpace (x.length + pad) (toPoly x) := by
  have hset : {q | ∃ r ∈ sylBlock x pad (pad + 1), toPoly r = q} =
      {q | ∃ r ≤ pad, toPoly x * X ^ (pad - r) = q} := by
    ext q
    simp only [sylBlock, List.mem_map, List.mem_range, Set.mem_setOf_eq]
    constructor
    · rintro ⟨_, ⟨r, hr, rfl⟩, rfl⟩
      exact ⟨r, by omega, (toPoly_rollRight x pad r (by omega)).symm⟩
    · rintro ⟨r, hr, rfl⟩
      exact ⟨_, ⟨r, by omega, rfl⟩, toPoly_rollRight x pad r hr⟩
  rw [rowSpan, hset]
  by_cases h0 : toPoly x = 0
  · have hb : multSpace (x.length + pad) (toPoly x) = ⊥ := by
      rw [eq_bot_iff]
      intro q hq
      rw [mem_multSpace, h0, zero_dvd_iff] at hq
      exact hq.1
    rw [hb, Submodule.span_eq_bot]
    rintro q ⟨r, -, rfl⟩
    rw [h0, zero_mul]
  · rw [multSpace_eq_span _ h0]
    have hxl : 0 < x.length := by
      rcases x with _ | ⟨a, t⟩
      · exact absurd toPoly_nil h0
      · simp
    have hd := natDegree_noLead hx
    congr 1
    ext q
    simp only [Set.mem_setOf_eq, Set.mem_range]
    constructor
    · rintro ⟨r, hr, rfl⟩
      exact ⟨⟨pad - r, by omega⟩, rfl⟩
    · rintro ⟨⟨r, hr⟩, rfl⟩
      exact ⟨pad - r, by omega, by rw [show pad - (pad - r) = r by omega]⟩

theorem length_of_mem_sylBlock {x r : List K} {pad k : ℕ} (h : r ∈ sylBlock x pad k) :
    r.length = x.length + pad := by
  simp only [sylBlock, List.mem_map] at h
  obtain ⟨i, -, rfl⟩ := h
  rw [length_rollRight]; simp

theorem length_sylBlock (x : List K) (pad k : ℕ) : (sylBlock x pad k).length = k := by
  simp [sylBlock]

/-- The blocks of the remaining polynomials. -/
theorem rowSpan_flatMap (N : ℕ) (l : List (List K)) (hl : ∀ x ∈ l, NoLead x ∧ x.length ≤ N) :
    rowSpan (l.flatMap fun x => sylBlock x (N - x.length) (N - x.length + 1)) =
      sumSpace N (l.map toPoly) := by
  induction l with
  | nil =>
    simp [rowSpan, sumSpace]
  | cons x l ih =>
    rw [List.flatMap_cons, rowSpan_append, ih fun y hy => hl y (List.mem_cons_of_mem _ hy),
      rowSpan_sylBlock (hl x (by simp)).1, List.map_cons]
    have := (hl x (by simp)).2
    rw [Nat.add_sub_cancel' this]
    rfl

/-- A row as a polynomial. -/
noncomputable def rowMap (N : ℕ) : (Fin N → K) →ₗ[K] K[X] where
  toFun v := toPoly (List.ofFn v)
  map_add' v w := by
    have : List.ofFn (v + w) = List.zipWith (· + ·) (List.ofFn v) (List.ofFn w) := by
      apply List.ext_getElem <;> simp
    rw [this, toPoly_zipWith_add (by simp)]
  map_smul' c v := by
    have : List.ofFn (c • v) = (List.ofFn v).map (fun x => c * x) := by
      apply List.ext_getElem <;> simp
    rw [this, toPoly_map_mul, RingHom.id_apply, smul_eq_C_mul]

theorem rowMap_apply {N : ℕ} (v : Fin N → K) : rowMap N v = toPoly (List.ofFn v) := rfl

theorem rowMap_injective (N : ℕ) : Function.Injective (rowMap (K := K) N) := by
  rw [← LinearMap.ker_eq_bot, LinearMap.ker_eq_bot']
  intro v hv
  rw [rowMap_apply, toPoly_eq_zero_iff] at hv
  funext i
  exact hv (v i) (List.mem_ofFn' .. |>.2 ⟨i, rfl⟩)

theorem coeff_rowMap {N : ℕ} (v : Fin N → K) (i : Fin N) :
    (rowMap N v).coeff (N - 1 - i.val) = v i := by
  rw [rowMap_apply, coeff_toPoly_lt (by simp; omega)]
  rw [List.getD_eq_getElem _ _ (by simp; omega)]
  simp only [List.getElem_ofFn]
  congr 1
  apply Fin.ext
  simp
  omega

theorem degree_rowMap_lt {N i : ℕ} (v : Fin N → K) (h : ∀ j : Fin N, j.val < i → v j = 0) :
    (rowMap N v).degree < ((N - i : ℕ) : WithBot ℕ) := by
  rw [degree_lt_iff_coeff_zero]
  intro m hm
  rcases Nat.lt_or_ge m N with h1 | h1
  · have := coeff_rowMap v ⟨N - 1 - m, by omega⟩
    simp only at this
    rw [show N - 1 - (N - 1 - m) = m by omega] at this
    rw [this]
    exact h _ (by simp only; omega)
  · rw [rowMap_apply]
    exact coeff_toPoly_ge (by simpa using h1)

/-- The row space of an array, as a space of polynomials. -/
noncomputable def polySpace {M N : ℕ} (S : Matrix (Fin M) (Fin N) K) : Submodule K K[X] :=
  Submodule.span K (Set.range fun i => rowMap N (S i))

theorem polySpace_rowsMat {rows : List (List K)} {N : ℕ} (h : ∀ r ∈ rows, r.length = N) :
    polySpace (rowsMat rows N) = rowSpan rows := by
  have hrow : ∀ i : Fin rows.length, List.ofFn (rowsMat rows N i) = rows.get i := by
    intro i
    have hl := h _ (List.get_mem rows i)
    apply List.ext_getElem
    · rw [List.length_ofFn, hl]
    · intro j h1 h2
      rw [List.getElem_ofFn]
      simp only [rowsMat]
      rw [List.getD_eq_getElem _ _ h2]
  rw [polySpace, rowSpan]
  congr 1
  ext q
  simp only [Set.mem_range, Set.mem_setOf_eq, rowMap_apply, hrow]
  constructor
  · rintro ⟨i, rfl⟩; exact ⟨_, List.get_mem rows i, rfl⟩
  · rintro ⟨r, hr, rfl⟩
    obtain ⟨i, rfl⟩ := List.get_of_mem hr
    exact ⟨i, rfl⟩

theorem rank_eq_finrank_polySpace {M N : ℕ} (S : Matrix (Fin M) (Fin N) K) :
    S.rank = Module.finrank K (polySpace S) := by
  have : polySpace S = (Submodule.span K (Set.range S.row)).map (rowMap N) := by
    rw [Submodule.map_span, ← Set.range_comp]; rfl
  rw [Matrix.rank_eq_finrank_span_row, this]
  exact (LinearEquiv.finrank_eq (Submodule.equivMapOfInjective _ (rowMap_injective N) _))

/-- A triangular factor has the row space of the array. -/
theorem polySpace_lu {M N : ℕ} {S : Matrix (Fin M) (Fin N) K}
    {U : Matrix (Fin (min M N)) (Fin N) K} (h : IsLuFactor S U) : polySpace U = polySpace S := by
  obtain ⟨-, σ, L, hlow, hone, hSU⟩ := h
  have hrow : ∀ i, S (σ i) = ∑ j, L i j • U j := by
    intro i
    have := congrFun hSU i
    funext c
    have h2 := congrFun this c
    rw [Matrix.submatrix_apply, Matrix.mul_apply] at h2
    simpa [Finset.sum_apply] using h2
  refine le_antisymm ?_ ?_
  · rw [polySpace, Submodule.span_le]
    have key : ∀ k : ℕ, ∀ i : Fin (min M N), i.val = k → rowMap N (U i) ∈ polySpace S := by
      intro k
      induction k using Nat.strong_induction_on with
      | _ k ih =>
        intro i hik
        have hiM : i.val < M := lt_of_lt_of_le i.2 (min_le_left _ _)
        have h1 := hrow ⟨i.val, hiM⟩
        rw [← Finset.add_sum_erase _ _ (Finset.mem_univ i), hone _ _ rfl, one_smul] at h1
        have h2 : U i = S (σ ⟨i.val, hiM⟩) - ∑ j ∈ Finset.univ.erase i, L ⟨i.val, hiM⟩ j • U j := by
          rw [h1]; abel
        rw [h2, map_sub, map_sum]
        refine Submodule.sub_mem _ (Submodule.subset_span ⟨_, rfl⟩)
          (Submodule.sum_mem _ fun j hj => ?_)
        rw [map_smul]
        rcases lt_trichotomy j.val i.val with hlt | heq | hgt
        · exact Submodule.smul_mem _ _ (ih j.val (by omega) j rfl)
        · exact absurd (Fin.ext heq) (Finset.ne_of_mem_erase hj)
        · rw [hlow _ _ hgt, zero_smul]; exact Submodule.zero_mem _
    rintro _ ⟨i, rfl⟩
    exact key i.val i rfl
  · rw [polySpace, Submodule.span_le]
    rintro _ ⟨i, rfl⟩
    have := hrow (σ.symm i)
    rw [Equiv.apply_symm_apply] at this
    show rowMap N (S i) ∈ polySpace U
    rw [this, map_sum]
    exact Submodule.sum_mem _ fun j _ => by
      rw [map_smul]
      exact Submodule.smul_mem _ _ (Submodule.subset_span ⟨j, rfl⟩)

end Harold
