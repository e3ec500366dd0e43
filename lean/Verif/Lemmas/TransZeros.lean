import Verif.Spec.TransZeros
import Mathlib.LinearAlgebra.Matrix.ToLin
import Mathlib.LinearAlgebra.Dimension.RankNullity
import Mathlib.LinearAlgebra.FiniteDimensional.Lemmas

/-!
# One step of the deflation

The kernel of the system pencil is not changed by a step, so its rank changes by a number that does not depend on `s`; the determinant changes by a constant.
-/

namespace Harold

open Matrix Spec

variable {n m p ν p' : ℕ}

/-- What one step of the deflation does: `Q` and `U` are orthogonal, `Uᵀ D` vanishes below row `σ`, and `UᵀCQ` has below row `σ` the shape `[0, T]` with
`T` of full column rank. -/
structure DeflStep (A : Matrix (Fin n) (Fin n) ℝ) (B : Matrix (Fin n) (Fin m) ℝ) (C : Matrix (Fin p) (Fin n) ℝ) (D : Matrix (Fin p) (Fin m) ℝ)
    (A' : Matrix (Fin ν) (Fin ν) ℝ) (B' : Matrix (Fin ν) (Fin m) ℝ) (C' : Matrix (Fin p') (Fin ν) ℝ) (D' : Matrix (Fin p') (Fin m) ℝ)
    (Q : Matrix (Fin n) (Fin n) ℝ) (U : Matrix (Fin p) (Fin p) ℝ) (σ : ℕ) : Prop where
  q : Qᵀ * Q = 1
  u : Uᵀ * U = 1
  le : ν ≤ n
  σle : σ ≤ p
  card : p' + ν = n + σ
  a : ∀ i j, A' i j = (Qᵀ * A * Q) (i.castLE le) (j.castLE le)
  b : ∀ i j, B' i j = (Qᵀ * B) (i.castLE le) j
  c1 : ∀ (i : Fin p') (j : Fin ν), ∀ h : ν + (i : ℕ) < n, C' i j = (Qᵀ * A * Q) ⟨ν + i, h⟩ (j.castLE le)
  c2 : ∀ (i : Fin p') (j : Fin ν), ∀ h : n ≤ ν + (i : ℕ), C' i j = (Uᵀ * C * Q) ⟨ν + i - n, by omega⟩ (j.castLE le)
  d1 : ∀ (i : Fin p') (j : Fin m), ∀ h : ν + (i : ℕ) < n, D' i j = (Qᵀ * B) ⟨ν + i, h⟩ j
  d2 : ∀ (i : Fin p') (j : Fin m), ∀ h : n ≤ ν + (i : ℕ), D' i j = (Uᵀ * D) ⟨ν + i - n, by omega⟩ j
  d0 : ∀ (i : Fin p) (j : Fin m), σ ≤ (i : ℕ) → (Uᵀ * D) i j = 0
  c0 : ∀ (i : Fin p) (j : Fin n), σ ≤ (i : ℕ) → (j : ℕ) < ν → (Uᵀ * C * Q) i j = 0
  inj : ∀ y : Fin n → ℝ, (∀ j : Fin n, (j : ℕ) < ν → y j = 0) → (∀ i : Fin p, σ ≤ (i : ℕ) → ((Uᵀ * C * Q) *ᵥ y) i = 0) → y = 0

/-- Continuation by zero. -/
def padZ {R : Type} [Zero R] (n : ℕ) (y : Fin ν → R) : Fin n → R := fun i => if h : (i : ℕ) < ν then y ⟨i, h⟩ else 0

theorem padZ_castLE {R : Type} [Zero R] (h : ν ≤ n) (y : Fin ν → R) (i : Fin ν) : padZ n y (i.castLE h) = y i := dif_pos i.2

theorem padZ_ge {R : Type} [Zero R] (y : Fin ν → R) {i : Fin n} (h : ν ≤ (i : ℕ)) : padZ n y i = 0 := dif_neg (by omega)

theorem sum_padZ {R : Type} [NonUnitalNonAssocSemiring R] (h : ν ≤ n) (f : Fin n → R) (y : Fin ν → R) :
    ∑ j, f j * padZ n y j = ∑ j : Fin ν, f (j.castLE h) * y j := by
  have e : ∑ j : Fin ν, f (j.castLE h) * y j = ∑ j : Fin ν, f (j.castLE h) * padZ n y (j.castLE h) :=
    Finset.sum_congr rfl fun j _ => by rw [padZ_castLE]
  rw [e]
  refine Eq.trans ?_ (Finset.sum_map Finset.univ (Fin.castLEEmb h) (fun j => f j * padZ n y j))
  refine (Finset.sum_subset (Finset.subset_univ _) fun j _ hj => ?_).symm
  have : ν ≤ (j : ℕ) := by
    by_contra hlt
    exact hj (Finset.mem_map.mpr ⟨⟨j, by omega⟩, Finset.mem_univ _, rfl⟩)
  rw [padZ_ge _ this, mul_zero]

/-- A real matrix applied to a complex vector. -/
theorem map_mulVec_re (M : Matrix (Fin p) (Fin n) ℝ) (y : Fin n → ℂ) (i : Fin p) :
    ((M.map Complex.ofReal *ᵥ y) i).re = (M *ᵥ fun j => (y j).re) i := by
  simp [mulVec, dotProduct]

theorem map_mulVec_im (M : Matrix (Fin p) (Fin n) ℝ) (y : Fin n → ℂ) (i : Fin p) :
    ((M.map Complex.ofReal *ᵥ y) i).im = (M *ᵥ fun j => (y j).im) i := by
  simp [mulVec, dotProduct]

theorem map_mulC {r k c : ℕ} (M : Matrix (Fin r) (Fin k) ℝ) (N : Matrix (Fin k) (Fin c) ℝ) :
    (M * N).map Complex.ofReal = M.map Complex.ofReal * N.map Complex.ofReal := Matrix.map_mul (f := Complex.ofRealHom)

theorem map_oneC {k : ℕ} : (1 : Matrix (Fin k) (Fin k) ℝ).map Complex.ofReal = 1 :=
  Matrix.map_one Complex.ofReal Complex.ofReal_zero Complex.ofReal_one

theorem mulVec_sum {α β R : Type} [Fintype β] [NonUnitalNonAssocSemiring R] (M : Matrix α β R) (y : β → R) (i : α) : (M *ᵥ y) i = ∑ j, M i j * y j := rfl

theorem mulVec_row_zero {α β R : Type} [Fintype β] [NonUnitalNonAssocSemiring R] {M : Matrix α β R} {i : α} (h : ∀ j, M i j = 0) (y : β → R) :
    (M *ᵥ y) i = 0 := by
  rw [mulVec_sum]
  exact Finset.sum_eq_zero fun j _ => by rw [h j, zero_mul]

theorem mulVec_row_eq {α α' β R : Type} [Fintype β] [NonUnitalNonAssocSemiring R] {M : Matrix α β R} {N : Matrix α' β R} {i : α} {i' : α'}
    (h : ∀ j, M i j = N i' j) (y : β → R) : (M *ᵥ y) i = (N *ᵥ y) i' := by
  rw [mulVec_sum, mulVec_sum]
  exact Finset.sum_congr rfl fun j _ => by rw [h j]

/-- The kernel of the system pencil, written out. -/
theorem sysPencil_ker (A : Matrix (Fin n) (Fin n) ℝ) (B : Matrix (Fin n) (Fin m) ℝ) (C : Matrix (Fin p) (Fin n) ℝ) (D : Matrix (Fin p) (Fin m) ℝ) (s : ℂ)
    (z : Fin n ⊕ Fin m → ℂ) : sysPencil A B C D s *ᵥ z = 0 ↔
      (A.map Complex.ofReal *ᵥ (z ∘ Sum.inl) + B.map Complex.ofReal *ᵥ (z ∘ Sum.inr) = s • (z ∘ Sum.inl)) ∧
      (C.map Complex.ofReal *ᵥ (z ∘ Sum.inl) + D.map Complex.ofReal *ᵥ (z ∘ Sum.inr) = 0) := by
  unfold sysPencil
  rw [fromBlocks_mulVec]
  constructor
  · intro h
    have h1 : ∀ i, _ := fun i => congrFun h (Sum.inl i)
    have h2 : ∀ i, _ := fun i => congrFun h (Sum.inr i)
    simp only [Sum.elim_inl, Sum.elim_inr, Pi.zero_apply, sub_mulVec, smul_mulVec, one_mulVec] at h1 h2
    constructor
    · ext i
      have := h1 i
      simp only [Pi.add_apply, Pi.sub_apply] at this ⊢
      linear_combination this
    · ext i
      exact h2 i
  · rintro ⟨h1, h2⟩
    ext i
    rcases i with i | i
    · have := congrFun h1 i
      simp only [Sum.elim_inl, Pi.zero_apply, sub_mulVec, smul_mulVec, one_mulVec, Pi.add_apply, Pi.sub_apply] at this ⊢
      linear_combination this
    · exact congrFun h2 i

section step
variable {A : Matrix (Fin n) (Fin n) ℝ} {B : Matrix (Fin n) (Fin m) ℝ} {C : Matrix (Fin p) (Fin n) ℝ} {D : Matrix (Fin p) (Fin m) ℝ}
  {A' : Matrix (Fin ν) (Fin ν) ℝ} {B' : Matrix (Fin ν) (Fin m) ℝ} {C' : Matrix (Fin p') (Fin ν) ℝ} {D' : Matrix (Fin p') (Fin m) ℝ}
  {Q : Matrix (Fin n) (Fin n) ℝ} {U : Matrix (Fin p) (Fin p) ℝ} {σ : ℕ}

/-- The injectivity of `T` for complex vectors. -/
theorem DeflStep.injC (h : DeflStep A B C D A' B' C' D' Q U σ) (y : Fin n → ℂ) (h1 : ∀ j : Fin n, (j : ℕ) < ν → y j = 0)
    (h2 : ∀ i : Fin p, σ ≤ (i : ℕ) → ((Uᵀ * C * Q).map Complex.ofReal *ᵥ y) i = 0) : y = 0 := by
  have hr : (fun j => (y j).re) = 0 := h.inj _ (fun j hj => by rw [h1 j hj]; rfl) fun i hi => by
    rw [← map_mulVec_re, h2 i hi]; rfl
  have hi : (fun j => (y j).im) = 0 := h.inj _ (fun j hj => by rw [h1 j hj]; rfl) fun i hi => by
    rw [← map_mulVec_im, h2 i hi]; rfl
  ext j
  exact Complex.ext (congrFun hr j) (congrFun hi j)

theorem castLE_cases {r : ℕ} (hr : ν ≤ n) (hp : p' + ν = n + r) {P : Fin n → Prop} {R : Fin r → Prop} :
    ((∀ i : Fin ν, P (i.castLE hr)) ∧ (∀ i : Fin p', (∀ h : ν + (i : ℕ) < n, P ⟨ν + i, h⟩) ∧ ∀ h : n ≤ ν + (i : ℕ), R ⟨ν + i - n, by omega⟩)) ↔
      (∀ i, P i) ∧ ∀ i, R i := by
  constructor
  · rintro ⟨h1, h2⟩
    constructor
    · intro i
      by_cases hi : (i : ℕ) < ν
      · exact h1 ⟨i, hi⟩
      · have := (h2 ⟨i - ν, by omega⟩).1 (by simp only; omega)
        have e : (⟨ν + (i - ν), by omega⟩ : Fin n) = i := Fin.ext (by simp only; omega)
        rw [e] at this
        exact this
    · intro i
      have := (h2 ⟨i + n - ν, by omega⟩).2 (by simp only; omega)
      have e : (⟨ν + (i + n - ν) - n, by omega⟩ : Fin r) = i := Fin.ext (by simp only; omega)
      rw [e] at this
      exact this
  · rintro ⟨h1, h2⟩
    exact ⟨fun i => h1 _, fun i => ⟨fun h => h1 _, fun h => h2 _⟩⟩

/-- `(y, u)` is in the kernel of the new pencil exactly if `(Q y, u)` is in the kernel of the old one. -/
theorem DeflStep.ker_iff (h : DeflStep A B C D A' B' C' D' Q U σ) (s : ℂ) (y : Fin ν → ℂ) (u : Fin m → ℂ) :
    sysPencil A' B' C' D' s *ᵥ Sum.elim y u = 0 ↔
      sysPencil A B C D s *ᵥ Sum.elim (Q.map Complex.ofReal *ᵥ padZ n y) u = 0 := by
  rw [sysPencil_ker, sysPencil_ker]
  simp only [Sum.elim_comp_inl, Sum.elim_comp_inr]
  have hQ : (Qᵀ).map Complex.ofReal * Q.map Complex.ofReal = 1 := by rw [← map_mulC, h.q, map_oneC]
  have hQ' : Q.map Complex.ofReal * (Qᵀ).map Complex.ofReal = 1 := mul_eq_one_comm.mp hQ
  have hU : (Uᵀ).map Complex.ofReal * U.map Complex.ofReal = 1 := by rw [← map_mulC, h.u, map_oneC]
  have hU' : U.map Complex.ofReal * (Uᵀ).map Complex.ofReal = 1 := mul_eq_one_comm.mp hU
  -- the old kernel in the new coordinates
  have e1 : (A.map Complex.ofReal *ᵥ (Q.map Complex.ofReal *ᵥ padZ n y) + B.map Complex.ofReal *ᵥ u = s • Q.map Complex.ofReal *ᵥ padZ n y) ↔
      ((Qᵀ * A * Q).map Complex.ofReal *ᵥ padZ n y + (Qᵀ * B).map Complex.ofReal *ᵥ u = s • padZ n y) := by
    constructor
    · intro h
      have := congrArg (fun x => (Qᵀ).map Complex.ofReal *ᵥ x) h
      simpa only [mulVec_add, mulVec_smul, mulVec_mulVec, map_mulC, hQ, one_mulVec, Matrix.mul_assoc] using this
    · intro h
      have := congrArg (fun x => Q.map Complex.ofReal *ᵥ x) h
      simpa only [mulVec_add, mulVec_smul, mulVec_mulVec, map_mulC, ← Matrix.mul_assoc, hQ', one_mulVec, Matrix.one_mul] using this
  have e2 : (C.map Complex.ofReal *ᵥ (Q.map Complex.ofReal *ᵥ padZ n y) + D.map Complex.ofReal *ᵥ u = 0) ↔
      ((Uᵀ * C * Q).map Complex.ofReal *ᵥ padZ n y + (Uᵀ * D).map Complex.ofReal *ᵥ u = 0) := by
    constructor
    · intro h
      have := congrArg (fun x => (Uᵀ).map Complex.ofReal *ᵥ x) h
      simpa only [mulVec_add, mulVec_smul, mulVec_mulVec, map_mulC, mulVec_zero, Matrix.mul_assoc] using this
    · intro h
      have := congrArg (fun x => U.map Complex.ofReal *ᵥ x) h
      simpa only [mulVec_add, mulVec_smul, mulVec_mulVec, map_mulC, ← Matrix.mul_assoc, hU', one_mulVec, Matrix.one_mul, mulVec_zero] using this
  rw [e1, e2]
  have hs : ∀ (k : ℕ) (M : Matrix (Fin k) (Fin n) ℝ) (i : Fin k), (M.map Complex.ofReal *ᵥ padZ n y) i = ∑ j : Fin ν, (M i (j.castLE h.le) : ℂ) * y j :=
    fun k M i => sum_padZ h.le (fun j => (M i j : ℂ)) y
  have key := castLE_cases (n := n) (p' := p') h.le (r := σ) h.card
    (P := fun i => ((Qᵀ * A * Q).map Complex.ofReal *ᵥ padZ n y + (Qᵀ * B).map Complex.ofReal *ᵥ u) i = (s • padZ n y) i)
    (R := fun i => ((Uᵀ * C * Q).map Complex.ofReal *ᵥ padZ n y + (Uᵀ * D).map Complex.ofReal *ᵥ u) (i.castLE h.σle) = 0)
  have r1 : (∀ i, ((Uᵀ * C * Q).map Complex.ofReal *ᵥ padZ n y + (Uᵀ * D).map Complex.ofReal *ᵥ u) i = 0) ↔
      ∀ i : Fin σ, ((Uᵀ * C * Q).map Complex.ofReal *ᵥ padZ n y + (Uᵀ * D).map Complex.ofReal *ᵥ u) (i.castLE h.σle) = 0 := by
    refine ⟨fun hh i => hh _, fun hh i => ?_⟩
    by_cases hi : (i : ℕ) < σ
    · exact hh ⟨i, hi⟩
    · rw [Pi.add_apply, hs]
      have z1 : ∑ j : Fin ν, (((Uᵀ * C * Q) i (j.castLE h.le) : ℝ) : ℂ) * y j = 0 := Finset.sum_eq_zero fun j _ => by
        rw [h.c0 i _ (by omega) j.2, Complex.ofReal_zero, zero_mul]
      have z2 : ((Uᵀ * D).map Complex.ofReal *ᵥ u) i = 0 := mulVec_row_zero (fun j => by
        rw [map_apply, h.d0 i j (by omega), Complex.ofReal_zero]) u
      rw [z1, z2, add_zero]
  rw [funext_iff (f := (Qᵀ * A * Q).map Complex.ofReal *ᵥ padZ n y + _), funext_iff (f := (Uᵀ * C * Q).map Complex.ofReal *ᵥ padZ n y + _)]
  simp only [Pi.zero_apply] at r1 ⊢
  rw [r1, ← key]
  refine and_congr ?_ ?_
  · rw [funext_iff]
    refine forall_congr' fun i => ?_
    rw [Pi.add_apply, Pi.add_apply, hs, Pi.smul_apply, Pi.smul_apply, padZ_castLE]
    have t1 : (A'.map Complex.ofReal *ᵥ y) i = ∑ j : Fin ν, (((Qᵀ * A * Q) (i.castLE h.le) (j.castLE h.le) : ℝ) : ℂ) * y j := by
      rw [mulVec_sum]
      exact Finset.sum_congr rfl fun j _ => by rw [map_apply, h.a]
    have t2 : (B'.map Complex.ofReal *ᵥ u) i = ((Qᵀ * B).map Complex.ofReal *ᵥ u) (i.castLE h.le) :=
      mulVec_row_eq (fun j => by rw [map_apply, h.b, map_apply]) u
    rw [t1, t2]
  · rw [funext_iff]
    refine forall_congr' fun i => ?_
    by_cases hi : ν + (i : ℕ) < n
    · have t1 : (C'.map Complex.ofReal *ᵥ y) i = ∑ j : Fin ν, (((Qᵀ * A * Q) ⟨ν + i, hi⟩ (j.castLE h.le) : ℝ) : ℂ) * y j := by
        rw [mulVec_sum]
        exact Finset.sum_congr rfl fun j _ => by rw [map_apply, h.c1 i j hi]
      have t2 : (D'.map Complex.ofReal *ᵥ u) i = ((Qᵀ * B).map Complex.ofReal *ᵥ u) ⟨ν + i, hi⟩ :=
        mulVec_row_eq (fun j => by rw [map_apply, h.d1 i j hi, map_apply]) u
      rw [Pi.add_apply, Pi.zero_apply, t1, t2, ← hs]
      constructor
      · intro hh
        refine ⟨fun _ => ?_, fun h2 => absurd hi (by omega)⟩
        rw [Pi.add_apply, hh, Pi.smul_apply, padZ_ge _ (by simp only; omega), smul_zero]
      · intro hh
        have := hh.1 hi
        rw [Pi.add_apply, Pi.smul_apply, padZ_ge _ (by simp only; omega), smul_zero] at this
        exact this
    · have t1 : (C'.map Complex.ofReal *ᵥ y) i = ∑ j : Fin ν, (((Uᵀ * C * Q) ⟨ν + i - n, by have := h.card; have := h.σle; omega⟩ (j.castLE h.le) : ℝ) : ℂ) * y j := by
        rw [mulVec_sum]
        exact Finset.sum_congr rfl fun j _ => by rw [map_apply, h.c2 i j (by omega)]
      have t2 : (D'.map Complex.ofReal *ᵥ u) i = ((Uᵀ * D).map Complex.ofReal *ᵥ u) ⟨ν + i - n, by have := h.card; have := h.σle; omega⟩ :=
        mulVec_row_eq (fun j => by rw [map_apply, h.d2 i j (by omega), map_apply]) u
      rw [Pi.add_apply, Pi.zero_apply, t1, t2, ← hs]
      constructor
      · intro hh
        exact ⟨fun h2 => absurd h2 hi, fun _ => hh⟩
      · intro hh
        exact hh.2 (by omega)

/-- Every vector of the old kernel has the form `(Q y, u)`. -/
theorem DeflStep.ker_form (h : DeflStep A B C D A' B' C' D' Q U σ) (s : ℂ) (z : Fin n ⊕ Fin m → ℂ) (hz : sysPencil A B C D s *ᵥ z = 0) :
    ∃ y : Fin ν → ℂ, z = Sum.elim (Q.map Complex.ofReal *ᵥ padZ n y) (z ∘ Sum.inr) := by
  have hQ : (Qᵀ).map Complex.ofReal * Q.map Complex.ofReal = 1 := by rw [← map_mulC, h.q, map_oneC]
  have hQ' : Q.map Complex.ofReal * (Qᵀ).map Complex.ofReal = 1 := mul_eq_one_comm.mp hQ
  rw [sysPencil_ker] at hz
  set w : Fin n → ℂ := (Qᵀ).map Complex.ofReal *ᵥ (z ∘ Sum.inl) with hw
  have hzw : z ∘ Sum.inl = Q.map Complex.ofReal *ᵥ w := by rw [hw, mulVec_mulVec, hQ', one_mulVec]
  set y : Fin ν → ℂ := fun i => w (i.castLE h.le) with hy
  have hC : (Uᵀ * C * Q).map Complex.ofReal *ᵥ w + (Uᵀ * D).map Complex.ofReal *ᵥ (z ∘ Sum.inr) = 0 := by
    have := congrArg (fun x => (Uᵀ).map Complex.ofReal *ᵥ x) hz.2
    rw [hzw] at this
    simpa only [mulVec_add, mulVec_mulVec, map_mulC, mulVec_zero, Matrix.mul_assoc] using this
  have hwy : w = padZ n y := by
    have h0 : w - padZ n y = 0 := by
      refine h.injC _ (fun j hj => ?_) fun i hi => ?_
      · rw [Pi.sub_apply]
        have : padZ n y j = y ⟨j, hj⟩ := dif_pos hj
        rw [this, hy]
        exact sub_self _
      · rw [mulVec_sub, Pi.sub_apply]
        have z1 : ((Uᵀ * C * Q).map Complex.ofReal *ᵥ padZ n y) i = 0 := by
          refine (sum_padZ h.le (fun j => (((Uᵀ * C * Q) i j : ℝ) : ℂ)) y).trans ?_
          exact Finset.sum_eq_zero fun j _ => by rw [h.c0 i _ hi j.2, Complex.ofReal_zero, zero_mul]
        have z2 : ((Uᵀ * D).map Complex.ofReal *ᵥ (z ∘ Sum.inr)) i = 0 := mulVec_row_zero (fun j => by
          rw [map_apply, h.d0 i j hi, Complex.ofReal_zero]) _
        have := congrFun hC i
        rw [Pi.add_apply, z2, add_zero] at this
        rw [this, z1]
        exact sub_self _
    exact sub_eq_zero.mp h0
  refine ⟨y, ?_⟩
  rw [← hwy, ← hzw]
  exact (Sum.elim_comp_inl_inr z).symm

/-- The map `(y, u) ↦ (Q y, u)`. -/
noncomputable def deflMap (Q : Matrix (Fin n) (Fin n) ℝ) (ν m : ℕ) : (Fin ν ⊕ Fin m → ℂ) →ₗ[ℂ] (Fin n ⊕ Fin m → ℂ) where
  toFun z := Sum.elim (Q.map Complex.ofReal *ᵥ padZ n (z ∘ Sum.inl)) (z ∘ Sum.inr)
  map_add' x y := by
    have e : padZ n ((x + y) ∘ Sum.inl) = padZ n (x ∘ Sum.inl) + padZ n (y ∘ Sum.inl) := by
      ext i; unfold padZ; by_cases hi : (i : ℕ) < ν <;> simp [hi]
    ext i
    rcases i with i | i
    · simp only [e, mulVec_add, Sum.elim_inl, Pi.add_apply]
    · rfl
  map_smul' c x := by
    have e : padZ n ((c • x) ∘ Sum.inl) = c • padZ n (x ∘ Sum.inl) := by
      ext i; unfold padZ; by_cases hi : (i : ℕ) < ν <;> simp [hi]
    ext i
    rcases i with i | i
    · simp only [e, mulVec_smul, Sum.elim_inl, Pi.smul_apply, RingHom.id_apply]
    · rfl

theorem deflMap_injective (hQ : Qᵀ * Q = 1) (hν : ν ≤ n) : Function.Injective (deflMap Q ν m) := by
  intro x y h
  have hQ : (Qᵀ).map Complex.ofReal * Q.map Complex.ofReal = 1 := by rw [← map_mulC, hQ, map_oneC]
  have h1 : Q.map Complex.ofReal *ᵥ padZ n (x ∘ Sum.inl) = Q.map Complex.ofReal *ᵥ padZ n (y ∘ Sum.inl) :=
    funext fun i => congrFun h (Sum.inl i)
  have h2 := congrArg (fun v => (Qᵀ).map Complex.ofReal *ᵥ v) h1
  simp only [mulVec_mulVec, hQ, one_mulVec] at h2
  ext i
  rcases i with i | i
  · have := congrFun h2 (i.castLE hν)
    rw [padZ_castLE, padZ_castLE] at this
    exact this
  · exact congrFun h (Sum.inr i)

theorem finrank_ker_mulVec {ι κ : Type} [Fintype ι] [Fintype κ] [DecidableEq κ] (M : Matrix ι κ ℂ) :
    M.rank + Module.finrank ℂ (LinearMap.ker M.mulVecLin) = Fintype.card κ := by
  have := LinearMap.finrank_range_add_finrank_ker M.mulVecLin
  rw [Module.finrank_fintype_fun_eq_card] at this
  exact this

/-- The kernels have the same dimension. -/
theorem DeflStep.nullity (h : DeflStep A B C D A' B' C' D' Q U σ) (s : ℂ) :
    Module.finrank ℂ (LinearMap.ker (sysPencil A' B' C' D' s).mulVecLin) = Module.finrank ℂ (LinearMap.ker (sysPencil A B C D s).mulVecLin) := by
  have hinj := deflMap_injective (m := m) h.q h.le
  have e : (LinearMap.ker (sysPencil A' B' C' D' s).mulVecLin).map (deflMap Q ν m) = LinearMap.ker (sysPencil A B C D s).mulVecLin := by
    ext z
    simp only [Submodule.mem_map, LinearMap.mem_ker, mulVecLin_apply]
    constructor
    · rintro ⟨x, hx, rfl⟩
      have := (h.ker_iff s (x ∘ Sum.inl) (x ∘ Sum.inr)).mp (by rw [Sum.elim_comp_inl_inr]; exact hx)
      exact this
    · intro hz
      obtain ⟨y, hy⟩ := h.ker_form s z hz
      refine ⟨Sum.elim y (z ∘ Sum.inr), (h.ker_iff s y _).mpr (by rw [← hy]; exact hz), ?_⟩
      exact hy.symm
  rw [← e]
  exact (LinearEquiv.finrank_eq (Submodule.equivMapOfInjective _ hinj _))

/-- The rank of the pencil changes by `n - ν`. -/
theorem DeflStep.rank (h : DeflStep A B C D A' B' C' D' Q U σ) (s : ℂ) :
    (sysPencil A B C D s).rank = (sysPencil A' B' C' D' s).rank + (n - ν) := by
  have h1 := finrank_ker_mulVec (sysPencil A B C D s)
  have h2 := finrank_ker_mulVec (sysPencil A' B' C' D' s)
  rw [h.nullity s] at h2
  simp only [Fintype.card_sum, Fintype.card_fin] at h1 h2
  have := h.le
  omega

end step

end Harold
