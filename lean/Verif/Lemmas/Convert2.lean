import Verif.Lemmas.Convert
import Mathlib.Data.List.GetD
import Mathlib.Tactic.FieldSimp

/-!
# `transfer_to_state` realizes the quotients
-/

namespace Harold

open Matrix Spec

section
open Polynomial
variable {K L : Type} [Field K] [Field L] [Algebra K L]

theorem isTF_add_D {n m p : Type} [Fintype n] [DecidableEq n] [Fintype m] [Fintype p]
    {A : Matrix n n L} {B : Matrix n m L} {C : Matrix p n L} {s : L} {M : Matrix p m L}
    (h : IsTF A B C 0 s M) (D : Matrix p m L) : IsTF A B C D s (M + D) :=
  ⟨h.1, by rw [h.2, add_zero]⟩

theorem isTF_comp {n : ℕ} (a : Fin n → L) (s : L) (hv : monicVal a s ≠ 0) (c : Fin n → L) :
    IsTF (compM a) (Matrix.of fun i (_ : Fin 1) => if i.val + 1 = n then (1 : L) else 0)
      (Matrix.of fun (_ : Fin 1) j => c j) 0 s
      (Matrix.of fun _ _ => (∑ j, c j * s ^ j.val) / monicVal a s) := by
  refine isTF_iff_sol.mpr ⟨by rwa [det_compM], Matrix.of fun i _ => s ^ i.val / monicVal a s, ?_, ?_⟩
  · ext i k
    rw [mul_apply]
    have := congrFun (compM_mulVec a s) i
    simp only [mulVec, dotProduct] at this
    simp only [of_apply]
    rw [Finset.sum_congr rfl (fun j _ => (mul_div_assoc _ _ _).symm), sum_div', this]
    split_ifs
    · rw [div_self hv]
    · simp
  · ext i k
    rw [add_zero, mul_apply]
    simp only [of_apply]
    rw [Finset.sum_congr rfl (fun j _ => (mul_div_assoc _ _ _).symm), sum_div']

/-- `r` (the result of `transfer_to_state` in matrices) realizes the quotients `num / den`. -/
def Realizes (L : Type) [Field L] [Algebra K L] (r : Option (Arr K × Arr K × Arr K) × Arr K) {p m : ℕ}
    (num den : Fin p → Fin m → List K) : Prop :=
  ∃ D : Matrix (Fin p) (Fin m) K, r.2 = Arr.of D ∧
    ((r.1 = none ∧ ∀ s : L, (∀ i j, polyAt s (den i j) ≠ 0) →
        D.map (algebraMap K L) = Matrix.of fun i j => polyAt s (num i j) / polyAt s (den i j)) ∨
     ∃ (n : ℕ) (A : Matrix (Fin n) (Fin n) K) (B : Matrix (Fin n) (Fin m) K) (C : Matrix (Fin p) (Fin n) K),
      r.1 = some (Arr.of A, Arr.of B, Arr.of C) ∧ ∀ s : L, (∀ i j, polyAt s (den i j) ≠ 0) →
        IsTF (A.map (algebraMap K L)) (B.map (algebraMap K L)) (C.map (algebraMap K L))
          (D.map (algebraMap K L)) s (Matrix.of fun i j => polyAt s (num i j) / polyAt s (den i j)))

theorem polyAt_monic (s : L) {a : K} (ha : a ≠ 0) (t : List K) :
    polyAt s (a :: t) = algebraMap K L a * monicVal (fun j => algebraMap K L (monicCoeffs a t j)) s := by
  rw [polyAt, toPoly_monic ha t]
  simp [monicVal]

end

section
open Polynomial
variable {K : Type} [Field K] [DecidableEq K]

theorem trimZeros_idem (l : List K) : trimZeros (trimZeros l) = trimZeros l := by
  rcases trimZeros_cases l with ⟨h, -⟩ | ⟨a, t, h, ha⟩
  · rw [h]; rfl
  · rw [h, trimZeros_of_cons ha]

theorem polydiv_trimmed {num den q r : List K} (h : polydiv num den = .ok (q, r)) :
    trimZeros q = q ∧ trimZeros r = r := by
  unfold polydiv at h
  simp only [bind, Except.bind] at h
  cases hd : deconvolve num den with
  | error e => rw [hd] at h; cases h
  | ok qr =>
    rw [hd] at h
    simp only [Except.ok.injEq, Prod.mk.injEq] at h
    obtain ⟨rfl, rfl⟩ := h
    exact ⟨trimZeros_idem _, trimZeros_idem _⟩

theorem length_of_trimmed {l : List K} (h : trimZeros l = l) (h0 : toPoly l ≠ 0) :
    (toPoly l).degree = ((l.length - 1 : ℕ) : WithBot ℕ) ∧ l ≠ [] := by
  rcases trimZeros_cases l with ⟨h1, h2⟩ | ⟨a, t, h1, ha⟩
  · exact absurd h2 h0
  · rw [h] at h1; subst h1
    exact ⟨by rw [degree_toPoly_cons ha]; simp, by simp⟩

theorem trimmed_const {l : List K} (h : trimZeros l = l) (h0 : toPoly l ≠ 0)
    (h1 : (toPoly l).degree ≤ 0) : ∃ c, l = [c] ∧ c ≠ 0 := by
  rcases trimZeros_cases l with ⟨-, h2⟩ | ⟨a, t, h2, ha⟩
  · exact absurd h2 h0
  · rw [h] at h2; subst h2
    rw [degree_toPoly_cons ha] at h1
    have : t.length = 0 := by
      have := h1; norm_cast at this; omega
    rw [List.length_eq_zero_iff] at this
    subst this
    exact ⟨a, rfl, ha⟩

theorem toPoly_map_div (d : K) (l : List K) : toPoly (l.map fun x => x / d) = C d⁻¹ * toPoly l := by
  simp only [← toPoly_map_mul, div_eq_inv_mul]

/-- The quotient of a proper pair without a strictly proper part is a nonzero constant. -/
theorem polydiv_proper {num den : List K} (hd : den.getD 0 0 ≠ 0) (hn : trimZeros num = num)
    (hle : num.length ≤ den.length) (hge : den.length ≤ num.length) :
    ∃ c r, polydiv num den = .ok ([c], r) ∧ toPoly num = C c * toPoly den + toPoly r ∧
      (toPoly r).degree < (toPoly den).degree ∧ trimZeros r = r := by
  obtain ⟨q, r, h1, h2, h3, -⟩ := C03_polydiv num den hd
  obtain ⟨h4, h5⟩ := polydiv_trimmed h1
  obtain ⟨b, t, rfl, hb⟩ : ∃ b t, den = b :: t ∧ b ≠ 0 := by
    cases den with
    | nil => simp at hd
    | cons b t => exact ⟨b, t, rfl, by simpa using hd⟩
  have hdn : num ≠ [] := by rintro rfl; simp at hge
  obtain ⟨a, u, rfl, ha⟩ : ∃ a u, num = a :: u ∧ a ≠ 0 := by
    rcases trimZeros_cases num with ⟨e, -⟩ | ⟨a, u, e, ha⟩
    · rw [hn] at e; exact absurd e hdn
    · rw [hn] at e; exact ⟨a, u, e, ha⟩
  have hlen : u.length = t.length := by simp at hle hge; omega
  have dn := degree_toPoly_cons ha u
  have dd := degree_toPoly_cons hb t
  have hq0 : toPoly q ≠ 0 := by
    intro e
    rw [e, zero_mul, zero_add] at h2
    rw [← h2, dn, dd, hlen] at h3
    exact lt_irrefl _ h3
  have hqd : (toPoly q).degree ≤ 0 := by
    have h6 : (toPoly q * toPoly (b :: t)).degree ≤ (toPoly (b :: t)).degree := by
      have : toPoly q * toPoly (b :: t) = toPoly (a :: u) - toPoly r := by rw [h2]; ring
      rw [this]
      refine (degree_sub_le _ _).trans (max_le ?_ h3.le)
      rw [dn, dd, hlen]
    rw [degree_mul, dd, degree_eq_natDegree hq0] at h6
    rw [degree_eq_natDegree hq0]
    norm_cast at h6 ⊢
    omega
  obtain ⟨c, rfl, hc⟩ := trimmed_const h4 hq0 hqd
  exact ⟨c, r, h1, by simpa using h2, h3, h5⟩

end

section
open Polynomial
variable {K L : Type} [Field K] [LinearOrder K] [IsStrictOrderedRing K] [Field L] [Algebra K L]

omit [LinearOrder K] [IsStrictOrderedRing K] in
theorem rowArr_singleton (c : K) : rowArr [c] = Arr.of (Matrix.of fun (_ : Fin 1) (_ : Fin 1) => c) := by
  unfold rowArr
  congr 1
  ext i j
  have hj : j = ⟨0, by simp⟩ := Fin.ext (by have : j.val < 1 := j.2; show j.val = 0; omega)
  subst hj; rfl

omit [LinearOrder K] [IsStrictOrderedRing K] in
theorem vstack_last (n : ℕ) (hn : 0 < n) :
    Arr.vstack (Arr.zeros (n - 1) 1) (Arr.scalar (1 : K))
      = .ok (Arr.of (Matrix.of fun (i : Fin n) (_ : Fin 1) => if i.val + 1 = n then (1 : K) else 0)) := by
  obtain ⟨k, rfl⟩ : ∃ k, n = k + 1 := ⟨n - 1, by omega⟩
  have : Arr.vstack (Arr.zeros k 1) (Arr.scalar (1 : K))
      = .ok (Arr.of (vcat (0 : Matrix (Fin k) (Fin 1) K) (Matrix.of fun (_ _ : Fin 1) => (1 : K)))) :=
    Arr.vstack_of _ _
  rw [Nat.add_sub_cancel, this]
  congr 2
  ext i j
  obtain ⟨i', rfl⟩ := finSumFinEquiv.surjective i
  rcases i' with i' | i'
  · have : ¬ (i'.val = k) := by omega
    simp [vcat, this]
  · have : i' = 0 := Subsingleton.elim _ _
    subst this
    simp [vcat]

omit [LinearOrder K] [IsStrictOrderedRing K] in
/-- One companion block with the reversed coefficients of a strictly proper numerator. -/
theorem isTF_row (s : L) {a : K} (ha : a ≠ 0) (t : List K) (l : List K)
    (hl : (toPoly l).degree < t.length) (hs : polyAt s (a :: t) ≠ 0) :
    IsTF ((compM (monicCoeffs a t)).map (algebraMap K L))
      ((Matrix.of fun (i : Fin t.length) (_ : Fin 1) => if i.val + 1 = t.length then (1 : K) else 0).map (algebraMap K L))
      ((Matrix.of fun (_ : Fin 1) (j : Fin t.length) => l.reverse.getD j 0).map (algebraMap K L)) 0 s
      (Matrix.of fun _ _ => algebraMap K L a * polyAt s l / polyAt s (a :: t)) := by
  have hm := polyAt_monic s ha t
  have hv : monicVal (fun j => algebraMap K L (monicCoeffs a t j)) s ≠ 0 := by
    intro e; rw [e, mul_zero] at hm; exact hs hm
  have h := isTF_comp _ s hv fun j => algebraMap K L (l.reverse.getD j 0)
  rw [sum_reverse s l _ hl] at h
  rw [compM_map]
  have ha' : algebraMap K L a ≠ 0 := by simpa using ha
  convert h using 1
  · ext i j
    simp only [map_apply, of_apply]; split_ifs <;> simp
  · rfl
  · ext i j
    simp only [of_apply]
    rw [hm, mul_div_mul_left _ _ ha']

theorem t2sSiso_ok {tol : K} (htol : tol ≤ 0) (num den : List K) (hp : ProperPair num den)
    (hd : 0 < (toPoly den).degree) :
    ∃ r, t2sSiso tol num den = .ok r ∧
      Realizes L r (fun (_ _ : Fin 1) => num) (fun (_ _ : Fin 1) => den) := by
  obtain ⟨a, t, htr, ha⟩ : ∃ a t, trimZeros den = a :: t ∧ a ≠ 0 := by
    rcases trimZeros_cases den with ⟨-, h⟩ | h
    · exact absurd h hp.1
    · exact h
  have hden : toPoly (a :: t) = toPoly den := by rw [← htr, toPoly_trimZeros]
  have hdd := degree_toPoly_cons ha t
  have ht : t ≠ [] := by
    rintro rfl
    rw [← hden, hdd] at hd
    simp at hd
  have htl : 0 < t.length := List.length_pos_iff.mpr ht
  have hat : ∀ s : L, polyAt s den = polyAt s (a :: t) := fun s => by rw [polyAt, polyAt, hden]
  have ha' : algebraMap K L a ≠ 0 := by simpa using ha
  unfold t2sSiso
  simp only [companion_eq den htr ha ht, bind, Except.bind, Arr.of_r, vstack_last _ htl, htr,
    List.getD_cons_zero]
  set n' := (trimZeros num).map (fun x => x / a) with hn'
  set d' := (a :: t).map (fun x => x / a) with hd'
  have hnp : toPoly n' = C a⁻¹ * toPoly num := by rw [hn', toPoly_map_div, toPoly_trimZeros]
  have hdp : toPoly d' = C a⁻¹ * toPoly den := by rw [hd', toPoly_map_div, hden]
  have hnat : ∀ s : L, polyAt s num = algebraMap K L a * polyAt s n' := fun s => by
    rw [polyAt, polyAt, hnp]
    simp only [map_mul, aeval_C, map_inv₀]
    rw [mul_inv_cancel_left₀ ha']
  have hd'l : d'.length = t.length + 1 := by simp [hd']
  have hd0 : d'.getD 0 0 ≠ 0 := by simp [hd', ha]
  have hnt : trimZeros n' = n' := by
    rcases trimZeros_cases num with ⟨e, -⟩ | ⟨b, u, e, hb⟩
    · rw [hn', e]; rfl
    · rw [hn', e, List.map_cons, trimZeros_of_cons (div_ne_zero hb ha)]
  by_cases hlt : n'.length < d'.length
  · rw [if_pos hlt]
    refine ⟨_, rfl, 0, ?_, Or.inr ⟨t.length, compM (monicCoeffs a t),
        Matrix.of fun i (_ : Fin 1) => if i.val + 1 = t.length then (1 : K) else 0, Matrix.of fun (_ : Fin 1) (j : Fin t.length) => n'.reverse.getD j 0, ?_, ?_⟩⟩
    · simp only [Arr.scalar]; congr 1
    · rw [show d'.length - 1 = t.length by omega]; rfl
    · intro s hs
      have h := isTF_row s ha t n' ((degree_toPoly_lt n').trans_le (by norm_cast; omega))
        (by rw [← hat]; exact hs 0 0)
      have h0 : (0 : Matrix (Fin 1) (Fin 1) K).map (algebraMap K L) = 0 := by ext; simp
      rw [h0]
      simpa only [hnat, hat] using h
  · rw [if_neg hlt]
    have hle : n'.length ≤ d'.length := by
      by_cases hn0 : toPoly n' = 0
      · rw [← trimZeros_eq_nil_iff, hnt] at hn0; rw [hn0]; simp
      · obtain ⟨e, -⟩ := length_of_trimmed hnt hn0
        have h1 : (toPoly n').degree ≤ (toPoly den).degree := by
          rw [hnp, degree_C_mul (inv_ne_zero ha)]; exact hp.2
        rw [e, ← hden, hdd] at h1
        norm_cast at h1
        omega
    obtain ⟨c, r, h1, h2, h3, h4⟩ := polydiv_proper hd0 hnt hle (by omega)
    simp only [h1, cleanup_nonpos htol, rowArr_singleton]
    have hev : ∀ s : L, polyAt s n' = algebraMap K L c * polyAt s d' + polyAt s r := fun s => by
      simp only [polyAt, h2]; simp
    have hdat : ∀ s : L, polyAt s d' = (algebraMap K L a)⁻¹ * polyAt s den := fun s => by
      simp only [polyAt, hdp]; simp
    by_cases hr : r.length = 0
    · rw [if_pos hr]
      rw [List.length_eq_zero_iff] at hr; subst hr
      refine ⟨_, rfl, _, rfl, Or.inl ⟨rfl, ?_⟩⟩
      intro s hs
      ext i j
      simp only [map_apply, of_apply, hnat, hev, hdat, polyAt_nil, add_zero]
      have := hs 0 0
      field_simp
    · rw [if_neg hr]
      refine ⟨_, rfl, _, rfl, Or.inr ⟨t.length, compM (monicCoeffs a t),
        Matrix.of fun i (_ : Fin 1) => if i.val + 1 = t.length then (1 : K) else 0, Matrix.of fun (_ : Fin 1) (j : Fin t.length) => r.reverse.getD j 0, ?_, ?_⟩⟩
      · rw [show d'.length - 1 = t.length by omega]; rfl
      · intro s hs
        have hdeg : (toPoly r).degree < t.length := by
          rwa [hdp, degree_C_mul (inv_ne_zero ha), ← hden, hdd] at h3
        have h := isTF_add_D (isTF_row s ha t r hdeg (by rw [← hat]; exact hs 0 0))
          ((Matrix.of fun (_ : Fin 1) (_ : Fin 1) => c).map (algebraMap K L))
        convert h using 1
        ext i j
        simp only [of_apply, Matrix.add_apply, map_apply, hnat, hev, hdat, ← hat]
        have := hs 0 0
        field_simp
        ring

end

end Harold
