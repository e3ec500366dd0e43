import Verif.Spec.Gcd
import Verif.Lemmas.Poly
import Mathlib.RingTheory.Polynomial.DegreeLT
import Mathlib.Algebra.Polynomial.FieldDivision
import Mathlib.Algebra.Polynomial.Basis
import Mathlib.Tactic.LinearCombination
import Mathlib.LinearAlgebra.Dimension.Constructions

/-!
# The row space of the generalised Sylvester array
-/

namespace Harold

open Polynomial Spec

variable {K : Type} [Field K] [DecidableEq K]

/-- The multiples of `f` of degree less than `N`. -/
noncomputable def multSpace (N : ℕ) (f : K[X]) : Submodule K K[X] :=
  (Ideal.span {f}).restrictScalars K ⊓ degreeLT K N

theorem mem_multSpace {N : ℕ} {f q : K[X]} : q ∈ multSpace N f ↔ f ∣ q ∧ q.degree < N := by
  rw [multSpace, Submodule.mem_inf, Submodule.restrictScalars_mem, Ideal.mem_span_singleton,
    mem_degreeLT]

theorem multSpace_anti {N : ℕ} {f g : K[X]} (h : g ∣ f) : multSpace N f ≤ multSpace N g := by
  intro q hq
  rw [mem_multSpace] at hq ⊢
  exact ⟨h.trans hq.1, hq.2⟩

theorem multSpace_sup {N : ℕ} (f g : K[X]) (hN : f.natDegree + g.natDegree ≤ N) :
    multSpace N f ⊔ multSpace N g = multSpace N (EuclideanDomain.gcd f g) := by
  by_cases hg : g = 0
  · subst hg
    rw [EuclideanDomain.gcd_zero_right, sup_eq_left]
    exact multSpace_anti (dvd_zero _)
  by_cases hf : f = 0
  · subst hf
    rw [EuclideanDomain.gcd_zero_left, sup_eq_right]
    exact multSpace_anti (dvd_zero _)
  refine le_antisymm (sup_le (multSpace_anti (EuclideanDomain.gcd_dvd_left f g))
    (multSpace_anti (EuclideanDomain.gcd_dvd_right f g))) ?_
  intro q hq
  obtain ⟨⟨w, rfl⟩, hd⟩ := mem_multSpace.1 hq
  set a := EuclideanDomain.gcdA f g
  set b := EuclideanDomain.gcdB f g
  have hbez : EuclideanDomain.gcd f g = f * a + g * b := EuclideanDomain.gcd_eq_gcd_ab f g
  set A := (w * a) % g
  set B := w * b + f * ((w * a) / g)
  have hA : g * ((w * a) / g) + A = w * a := EuclideanDomain.div_add_mod _ _
  have hq' : EuclideanDomain.gcd f g * w = f * A + g * B := by
    rw [hbez]
    have : A = w * a - g * ((w * a) / g) := by linear_combination hA
    rw [this]
    simp only [B]
    ring
  have hAd : A.degree < g.degree := EuclideanDomain.mod_lt _ hg
  have hfA : (f * A).degree < N := by
    by_cases hA0 : A = 0
    · rw [hA0, mul_zero, degree_zero]; exact WithBot.bot_lt_coe N
    rw [degree_mul, degree_eq_natDegree hf, degree_eq_natDegree hA0, ← Nat.cast_add]
    have := natDegree_lt_natDegree hA0 hAd
    exact Nat.cast_lt.2 (by omega)
  have hgB : (g * B).degree < N := by
    have : g * B = EuclideanDomain.gcd f g * w - f * A := by rw [hq']; ring
    rw [this]
    exact lt_of_le_of_lt (degree_sub_le _ _) (max_lt hd hfA)
  rw [hq']
  exact Submodule.add_mem_sup (mem_multSpace.2 ⟨dvd_mul_right _ _, hfA⟩)
    (mem_multSpace.2 ⟨dvd_mul_right _ _, hgB⟩)

/-- The sum of the spaces of the polynomials in a list. -/
noncomputable def sumSpace (N : ℕ) (l : List K[X]) : Submodule K K[X] :=
  l.foldr (fun f W => multSpace N f ⊔ W) ⊥

theorem multSpace_le_sumSpace {N : ℕ} {l : List K[X]} {f : K[X]} (hf : f ∈ l) :
    multSpace N f ≤ sumSpace N l := by
  induction l with
  | nil => simp at hf
  | cons g l ih =>
    rcases List.mem_cons.1 hf with rfl | h
    · exact le_sup_left
    · exact (ih h).trans le_sup_right

theorem sup_sumSpace {N n p : ℕ} (hN : n + p = N) (l : List K[X]) (e : K[X]) (he0 : e ≠ 0)
    (he : e.natDegree ≤ p) (hl : ∀ f ∈ l, f.natDegree ≤ n) :
    ∃ G : K[X], G ≠ 0 ∧ G.natDegree ≤ p ∧ multSpace N e ⊔ sumSpace N l = multSpace N G ∧
      ∀ q : K[X], q ∣ G ↔ q ∣ e ∧ ∀ f ∈ l, q ∣ f := by
  induction l generalizing e with
  | nil => exact ⟨e, he0, he, by simp [sumSpace], by simp⟩
  | cons f l ih =>
    have hg0 : EuclideanDomain.gcd e f ≠ 0 := fun h =>
      he0 (EuclideanDomain.gcd_eq_zero_iff.1 h).1
    have hdeg : (EuclideanDomain.gcd e f).natDegree ≤ p :=
      (natDegree_le_of_dvd (EuclideanDomain.gcd_dvd_left e f) he0).trans he
    obtain ⟨G, hG0, hGd, hGs, hGq⟩ := ih (EuclideanDomain.gcd e f) hg0 hdeg
      (fun g hg => hl g (List.mem_cons_of_mem _ hg))
    refine ⟨G, hG0, hGd, ?_, fun q => ?_⟩
    · rw [← hGs, ← multSpace_sup (N := N) e f (by have := hl f (by simp); omega)]
      simp only [sumSpace, List.foldr_cons, sup_assoc]
    · rw [hGq, List.forall_mem_cons]
      have : q ∣ EuclideanDomain.gcd e f ↔ q ∣ e ∧ q ∣ f :=
        ⟨fun h => ⟨h.trans (EuclideanDomain.gcd_dvd_left _ _),
          h.trans (EuclideanDomain.gcd_dvd_right _ _)⟩,
          fun h => EuclideanDomain.dvd_gcd h.1 h.2⟩
      rw [this, and_assoc]

/-- The multiples of `f` of degree less than `N` are the combinations of the shifts of `f`. -/
theorem multSpace_eq_span {N : ℕ} (f : K[X]) (hf : f ≠ 0) :
    multSpace N f =
      Submodule.span K (Set.range fun r : Fin (N - f.natDegree) => f * X ^ r.val) := by
  refine le_antisymm ?_ ?_
  · intro q hq
    obtain ⟨⟨g, rfl⟩, hd⟩ := mem_multSpace.1 hq
    by_cases hg : g = 0
    · rw [hg, mul_zero]; exact Submodule.zero_mem _
    have hgd : g.natDegree < N - f.natDegree := by
      rw [degree_mul, degree_eq_natDegree hf, degree_eq_natDegree hg, ← Nat.cast_add,
        Nat.cast_lt] at hd
      omega
    rw [g.as_sum_range' _ hgd, Finset.mul_sum]
    refine Submodule.sum_mem _ fun i hi => ?_
    have : f * (monomial i) (g.coeff i) = g.coeff i • (f * X ^ i) := by
      rw [← C_mul_X_pow_eq_monomial, smul_eq_C_mul]; ring
    rw [this]
    exact Submodule.smul_mem _ _ (Submodule.subset_span ⟨⟨i, Finset.mem_range.1 hi⟩, rfl⟩)
  · rw [Submodule.span_le]
    rintro _ ⟨r, rfl⟩
    refine mem_multSpace.2 ⟨dvd_mul_right _ _, ?_⟩
    show (f * X ^ r.val).degree < (N : WithBot ℕ)
    rw [degree_mul, degree_eq_natDegree hf, degree_X_pow, ← Nat.cast_add]
    exact Nat.cast_lt.2 (by have := r.2; omega)

theorem finrank_multSpace {N : ℕ} (f : K[X]) (hf : f ≠ 0) :
    Module.finrank K (multSpace N f) = N - f.natDegree := by
  rw [multSpace_eq_span f hf]
  have hli : LinearIndependent K (fun r : Fin (N - f.natDegree) => f * X ^ r.val) := by
    have h1 : LinearIndependent K (fun r : Fin (N - f.natDegree) => (X : K[X]) ^ r.val) := by
      have h0 := (basisMonomials K).linearIndependent
      have : LinearIndependent K (fun n : ℕ => (X : K[X]) ^ n) := by
        convert h0 using 2 with n
        simp [coe_basisMonomials, ← X_pow_eq_monomial]
      exact this.comp _ Fin.val_injective
    have h2 := h1.map' (LinearMap.mulLeft K f) (by
      rw [LinearMap.ker_eq_bot]
      exact fun a b h => mul_left_cancel₀ hf h)
    exact h2
  rw [finrank_span_eq_card hli, Fintype.card_fin]

end Harold
