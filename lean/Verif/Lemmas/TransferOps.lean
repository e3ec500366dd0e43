import Verif.Model.TransferOps
import Verif.Lemmas.TransferMk

/-!
# Values of the results of `Transfer` arithmetic
-/

namespace Harold

open Matrix Spec Polynomial

section basics
variable {K L : Type} [Field K] [LinearOrder K] [Field L] [Algebra K L]

theorem mkList_val {E : TNum K} {p m : ℕ} {X : Matrix (Fin p) (Fin m) K} {dt : Option K}
    {F : TransferM K} (h : mkList E (Arr.of X) dt = .ok F) (s : L) :
    HasVal F p m s (X.map (algebraMap K L)) ∧ F.dt = dt ∧ DenLead F := by
  obtain ⟨h1, h2, -⟩ := mkTransfer_inv (h : mkTransfer E (.lists (Arr.of (Matrix.of fun i j => [X i j]))) .none dt = .ok F)
  obtain ⟨e1, e2, -⟩ := validate_gainList h1
  refine ⟨hasVal_of e1 e2 fun i j => ?_, h2, (denLead_of e2).mpr fun i j => by simp⟩
  simp [polyAt_const]

theorem mkEntries_inv {E : TNum K} {p m : ℕ} {f : Fin p → Fin m → Res (List K × List K)}
    {dt : Option K} {F : TransferM K} (h : mkEntries E p m f dt = .ok F) :
    ∃ e : Fin p → Fin m → List K × List K, (∀ i j, f i j = .ok (e i j)) ∧
      F.num = Arr.of (Matrix.of fun i j => (e i j).1) ∧ F.den = Arr.of (Matrix.of fun i j => (e i j).2) ∧
      F.dt = dt := by
  unfold mkEntries at h
  obtain ⟨e, h1, h⟩ := bind_ok' h
  obtain ⟨h2, h3, h4⟩ := mkTransfer_lists h
  exact ⟨e, matM_ok.mp h1, h2, h3, h4⟩

/-- `n / d` is defined at `s`, has the value `v` there, and `d` does not start with a zero. -/
def EntryVal (s : L) (e : List K × List K) (v : L) : Prop :=
  polyAt s e.2 ≠ 0 ∧ v = polyAt s e.1 / polyAt s e.2 ∧ e.2.getD 0 0 ≠ 0

theorem mkEntries_val {E : TNum K} {p m : ℕ} {f : Fin p → Fin m → Res (List K × List K)}
    {dt : Option K} {F : TransferM K} (h : mkEntries E p m f dt = .ok F) {s : L}
    {M : Matrix (Fin p) (Fin m) L} (hf : ∀ i j e, f i j = .ok e → EntryVal s e (M i j)) :
    HasVal F p m s M ∧ F.dt = dt ∧ DenLead F := by
  obtain ⟨e, h1, h2, h3, h4⟩ := mkEntries_inv h
  exact ⟨hasVal_of h2 h3 fun i j => ⟨(hf i j _ (h1 i j)).1, (hf i j _ (h1 i j)).2.1⟩, h4,
    (denLead_of h3).mpr fun i j => (hf i j _ (h1 i j)).2.2⟩

theorem scaleEntry_val {s : L} {n d : List K} {v : L} (k : K) (h : EntryVal s (n, d) v) :
    EntryVal s (TransferM.scaleEntry k n d) (algebraMap K L k * v) := by
  unfold TransferM.scaleEntry
  split_ifs with hk
  · subst hk; simp [EntryVal, polyAt_const]
  · refine ⟨h.1, ?_, h.2.2⟩
    simp only
    rw [polyAt_map_mul, h.2.1, mul_div_assoc]

theorem mulEntry_val {s : L} {n₁ d₁ n₂ d₂ : List K} {v₁ v₂ : L} (h₁ : EntryVal s (n₁, d₁) v₁)
    (h₂ : EntryVal s (n₂, d₂) v₂) {e : List K × List K}
    (h : TransferM.mulEntry n₁ d₁ n₂ d₂ = .ok e) : EntryVal s e (v₁ * v₂) := by
  obtain ⟨a1, a2, a3⟩ := h₁
  obtain ⟨b1, b2, b3⟩ := h₂
  unfold TransferM.mulEntry at h
  split_ifs at h with hz
  · simp only [Except.ok.injEq] at h
    subst h
    refine ⟨by simp [polyAt_const], ?_, by simp⟩
    rcases hz with hz | hz
    · rw [← toPoly_eq_zero_iff] at hz
      simp [a2, polyAt, hz]
    · rw [← toPoly_eq_zero_iff] at hz
      simp [b2, polyAt, hz]
  · push Not at hz
    have hn1 : toPoly n₁ ≠ 0 := fun e => by
      rw [toPoly_eq_zero_iff] at e; obtain ⟨⟨x, hx, hx'⟩, -⟩ := hz; exact hx' (e x hx)
    have hd1 : toPoly d₁ ≠ 0 := fun e => a1 (by simp [polyAt, e])
    have hd2 : toPoly d₂ ≠ 0 := fun e => b1 (by simp [polyAt, e])
    obtain ⟨n, e1, e2, -⟩ := C01_polymul_partial n₁ [n₂] (Or.inl hn1)
    obtain ⟨d, e3, e4, e5⟩ := C01_polymul_partial d₁ [d₂] (Or.inl hd1)
    simp only [e1, e3, bind, Except.bind, Except.ok.injEq] at h
    subst h
    have hn : polyAt s n = polyAt s n₁ * polyAt s n₂ := by simp [polyAt, e2]
    have hd : polyAt s d = polyAt s d₁ * polyAt s d₂ := by simp [polyAt, e4]
    simp only at a1 a2 b1 b2
    refine ⟨by simp only [hd]; exact mul_ne_zero a1 b1, ?_, ?_⟩
    · simp only [hn, hd, a2, b2]
      field_simp
    · rcases e5 with rfl | ⟨a, t, rfl, ha⟩
      · simp at e4
        rcases e4 with e4 | e4
        · exact absurd e4 hd1
        · exact absurd e4 hd2
      · simpa using ha

end basics

section add
variable {K L : Type} [Field K] [LinearOrder K] [IsStrictOrderedRing K] [Field L] [Algebra K L]

/-- The polynomials behind the sum of two entries. -/
theorem addEntry_spec {E : TNum K} (hbal : ∀ polys i, E.bal polys i ≠ 0)
    (n₁ d₁ n₂ d₂ : List K) (hthr : CoarseLcm E.lcmTol [toPoly d₁, toPoly d₂]) (h₁ : d₁.getD 0 0 ≠ 0) (h₂ : d₂.getD 0 0 ≠ 0) :
    ((n₁ = [] ∨ n₂ = []) ∧ TransferM.addEntry E n₁ d₁ n₂ d₂ = .error .value) ∨
    ∃ n d, n₁ ≠ [] ∧ n₂ ≠ [] ∧ TransferM.addEntry E n₁ d₁ n₂ d₂ = .ok (n, d) ∧ d.getD 0 0 ≠ 0 ∧
      toPoly n * (toPoly d₁ * toPoly d₂) = toPoly d * (toPoly n₁ * toPoly d₂ + toPoly n₂ * toPoly d₁) ∧
      (∀ M : K[X], toPoly d₁ ∣ M → toPoly d₂ ∣ M → toPoly d ∣ M) ∧
      (∃ x y : K[X], toPoly n = x + y ∧ x * toPoly d₁ = toPoly n₁ * toPoly d ∧
        y * toPoly d₂ = toPoly n₂ * toPoly d ∧
        (∀ k : ℕ, x.degree < k → y.degree < k → n.length ≤ k) ∧
        (x.degree < n.length ∧ y.degree < n.length)) := by
  obtain ⟨c₀, t₀, rfl⟩ : ∃ a t, d₁ = a :: t := by
    cases d₁ with
    | nil => simp at h₁
    | cons a t => exact ⟨a, t, rfl⟩
  obtain ⟨c₁, t₁, rfl⟩ : ∃ a t, d₂ = a :: t := by
    cases d₂ with
    | nil => simp at h₂
    | cons a t => exact ⟨a, t, rfl⟩
  simp only [List.getD_cons_zero] at h₁ h₂
  have hargs : ∀ p ∈ [c₀ :: t₀, c₁ :: t₁], p.getD 0 0 ≠ 0 := by
    intro p hp; simp at hp; rcases hp with rfl | rfl <;> simpa
  obtain ⟨l, mults, e1, e2, e3, e4⟩ := lcm_core E.bal hbal (le_refl (0 : K)) [c₀ :: t₀, c₁ :: t₁] (by simp) hargs
  have hl := lcm_head le_rfl e1
  rw [← lcm_coarse E.bal hbal (thr := E.lcmTol) _ (by simp) hargs (by simpa using hthr)] at e1
  obtain ⟨m₀, m₁, rfl, f0, f1⟩ : ∃ m₀ m₁, mults = [m₀, m₁] ∧
      toPoly m₀ * (C c₀⁻¹ * toPoly (c₀ :: t₀)) = toPoly l ∧ toPoly m₁ * (C c₁⁻¹ * toPoly (c₁ :: t₁)) = toPoly l := by
    cases e3 with
    | cons a b =>
      cases b with
      | cons a' b' =>
        cases b'
        exact ⟨_, _, rfl, by simpa using a, by simpa using a'⟩
  have hl0 : toPoly l ≠ 0 := e2.ne_zero
  have hm0 : m₀ ≠ [] := by rintro rfl; simp at f0; exact hl0 f0.symm
  have hm1 : m₁ ≠ [] := by rintro rfl; simp at f1; exact hl0 f1.symm
  unfold TransferM.addEntry
  simp only [e1, bind, Except.bind, List.getD_cons_zero, List.getD_cons_succ]
  by_cases hn1 : n₁ = []
  · exact Or.inl ⟨Or.inl hn1, by simp [hn1, convolve]⟩
  obtain ⟨x, g1, g2, -⟩ := convolve_ok (p := n₁) (x := m₀.map fun x => x * c₁) hn1 (by simpa using hm0)
  by_cases hn2 : n₂ = []
  · exact Or.inl ⟨Or.inr hn2, by simp only [g1]; simp [hn2, convolve]⟩
  obtain ⟨y, g3, g4, -⟩ := convolve_ok (p := n₂) (x := m₁.map fun x => x * c₀) hn2 (by simpa using hm1)
  obtain ⟨n, g5, g6, g7, g8⟩ := C02_polyadd [x, y] true (by simp)
  right
  simp only [g1, g3, g5]
  have hC0 : C c₀ * C c₀⁻¹ = (1 : K[X]) := by rw [← C_mul, mul_inv_cancel₀ h₁, C_1]
  have hC1 : C c₁ * C c₁⁻¹ = (1 : K[X]) := by rw [← C_mul, mul_inv_cancel₀ h₂, C_1]
  have hd : toPoly (l.map fun x => x * c₀ * c₁) = C c₀ * C c₁ * toPoly l := by
    rw [← C_mul, ← toPoly_map_mul]
    congr 1
    exact List.map_congr_left fun a _ => by ring
  have hmul : ∀ (c : K) (m : List K), toPoly (m.map fun x => x * c) = C c * toPoly m := fun c m => by
    rw [← toPoly_map_mul]
    congr 1
    exact List.map_congr_left fun a _ => by ring
  rw [hmul] at g2 g4
  have hx : toPoly x * toPoly (c₀ :: t₀) = toPoly n₁ * (C c₀ * C c₁ * toPoly l) := by
    rw [g2, ← f0]
    linear_combination (- toPoly n₁ * C c₁ * toPoly m₀ * toPoly (c₀ :: t₀)) * hC0
  have hy : toPoly y * toPoly (c₁ :: t₁) = toPoly n₂ * (C c₀ * C c₁ * toPoly l) := by
    rw [g4, ← f1]
    linear_combination (- toPoly n₂ * C c₀ * toPoly m₁ * toPoly (c₁ :: t₁)) * hC1
  simp only [List.map_cons, List.map_nil, List.sum_cons, List.sum_nil, add_zero] at g6
  simp only [if_true, List.mem_cons, List.not_mem_nil, or_false, forall_eq_or_imp, forall_eq,
    exists_eq_or_imp, exists_eq_left] at g7 g8
  have hdeg : ∀ (z : List K) (k : ℕ), (toPoly z).degree < k → (trimZeros z).length ≤ k := fun z k h => by
    rcases trimZeros_cases z with ⟨e, -⟩ | ⟨b, u, e, hb⟩
    · rw [e]; simp
    · rw [← toPoly_trimZeros, e, degree_toPoly_cons hb] at h
      rw [e]
      norm_cast at h
  refine ⟨_, _, hn1, hn2, rfl, ?_, ?_, ?_, toPoly x, toPoly y, g6, ?_, ?_, ?_, ?_, ?_⟩
  · cases l with
    | nil => simp at hl
    | cons a t =>
      simp only [List.getD_cons_zero] at hl
      simp [hl, h₁, h₂]
  · rw [hd, g6]
    linear_combination toPoly (c₁ :: t₁) * hx + toPoly (c₀ :: t₀) * hy
  · intro M hM1 hM2
    rw [hd, ← C_mul]
    rw [C_mul_dvd (mul_ne_zero h₁ h₂)]
    apply e4
    intro p hp
    simp at hp
    rcases hp with rfl | rfl
    · exact hM1
    · exact hM2
  · rw [hd]; exact hx
  · rw [hd]; exact hy
  · intro k h1 h2
    rcases g8 with h | h
    · rw [← h]; exact hdeg x k h1
    · rw [← h]; exact hdeg y k h2
  · rw [← toPoly_trimZeros x]
    exact (degree_toPoly_lt _).trans_le (by exact_mod_cast g7.1)
  · rw [← toPoly_trimZeros y]
    exact (degree_toPoly_lt _).trans_le (by exact_mod_cast g7.2)

theorem addEntry_val {E : TNum K} (hbal : ∀ polys i, E.bal polys i ≠ 0)
    {s : L} {n₁ d₁ n₂ d₂ : List K} (hthr : CoarseLcm E.lcmTol [toPoly d₁, toPoly d₂]) {v₁ v₂ : L} (h₁ : EntryVal s (n₁, d₁) v₁)
    (h₂ : EntryVal s (n₂, d₂) v₂) {e : List K × List K}
    (h : TransferM.addEntry E n₁ d₁ n₂ d₂ = .ok e) : EntryVal s e (v₁ + v₂) := by
  obtain ⟨a1, a2, a3⟩ := h₁
  obtain ⟨b1, b2, b3⟩ := h₂
  simp only at a1 a2 a3 b1 b2 b3
  rcases addEntry_spec hbal n₁ d₁ n₂ d₂ hthr a3 b3 with ⟨-, h'⟩ | ⟨n, d, -, -, h', h3, h4, h5, -⟩
  · rw [h'] at h; cases h
  · rw [h'] at h
    simp only [Except.ok.injEq] at h
    subst h
    obtain ⟨q, h5⟩ := h5 _ (dvd_mul_right (toPoly d₁) (toPoly d₂)) (dvd_mul_left _ _)
    have k5 : polyAt s d₁ * polyAt s d₂ = polyAt s d * aeval s q := by
      have := congrArg (aeval s) h5
      simpa [polyAt] using this
    have k4 : polyAt s n * (polyAt s d₁ * polyAt s d₂)
        = polyAt s d * (polyAt s n₁ * polyAt s d₂ + polyAt s n₂ * polyAt s d₁) := by
      have := congrArg (aeval s) h4
      simpa [polyAt] using this
    have hd : polyAt s d ≠ 0 := by
      intro e
      rw [e, zero_mul] at k5
      exact mul_ne_zero a1 b1 k5
    refine ⟨hd, ?_, h3⟩
    simp only
    rw [a2, b2, eq_div_iff hd]
    field_simp
    linear_combination -k4

end add

end Harold
