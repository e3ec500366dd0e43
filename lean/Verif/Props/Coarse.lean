import Verif.Props.Mixed

/-!
# C06 and C27 with the thresholds of the code

`haroldlcm` and `transfer_to_state` set small coefficients to zero. The theorems here hold for positive thresholds, for
polynomials without small nonzero coefficients (`Spec/Coarse.lean`), in particular for integer coefficients.
-/

namespace Harold

open Matrix Spec Polynomial

variable {K L : Type} [Field K] [LinearOrder K] [IsStrictOrderedRing K] [Field L] [Algebra K L]

/-- **C06** with any clean-up threshold: if neither the least common multiple nor a cofactor has a nonzero coefficient below
the threshold, `haroldlcm` returns the monic least common multiple and the multipliers, in the order of the arguments.
Missing: smaller coefficients, see `C06_cleanup_violated`. -/
theorem C06_coarse_partial (bal : ∀ polys : List (List K), BIdx polys → K) (hbal : ∀ polys i, bal polys i ≠ 0) {thr : K}
    (args : List (List K)) (hthr : CoarseLcm thr (args.map toPoly)) (hne : args ≠ []) (hargs : ∀ p ∈ args, p.getD 0 0 ≠ 0) :
    ∃ l mults, lcm bal thr args = .ok (l, mults) ∧ (toPoly l).Monic ∧
      (∀ p ∈ args, toPoly p ∣ toPoly l) ∧
      (∀ M : K[X], (∀ p ∈ args, toPoly p ∣ M) → toPoly l ∣ M) ∧
      List.Forall₂ (fun p m => toPoly m * (C (p.getD 0 0)⁻¹ * toPoly p) = toPoly l) args mults := by
  rw [lcm_coarse bal hbal args hne hargs hthr]
  exact C06_lcm_partial bal hbal le_rfl args hne hargs

/-- **C06** for monic polynomials with integer coefficients, any number of them and of any degree, and every clean-up
threshold up to one (the code uses `1e-9`). Missing: other coefficients, see `C06_coarse_partial`. -/
theorem C06_integer_partial (bal : ∀ polys : List (List K), BIdx polys → K) (hbal : ∀ polys i, bal polys i ≠ 0) {thr : K}
    (hthr : thr ≤ 1) (args : List (List ℤ)) (hne : args ≠ []) (hm : ∀ p ∈ args, ∃ t, p = 1 :: t) :
    ∃ l mults, lcm bal thr (args.map fun p => p.map fun x : ℤ => (x : K)) = .ok (l, mults) ∧ (toPoly l).Monic ∧
      (∀ p ∈ args, toPoly (p.map fun x : ℤ => (x : K)) ∣ toPoly l) ∧
      (∀ M : K[X], (∀ p ∈ args, toPoly (p.map fun x : ℤ => (x : K)) ∣ M) → toPoly l ∣ M) ∧
      List.Forall₂ (fun p m => toPoly m * toPoly (p.map fun x : ℤ => (x : K)) = toPoly l) args mults := by
  have h1 : CoarseLcm thr ((args.map fun p => p.map fun x : ℤ => (x : K)).map toPoly) := by
    have h := coarseLcm_int (K := K) hthr (args.map toPoly) (by
      intro p hp
      obtain ⟨q, hq, rfl⟩ := List.mem_map.mp hp
      obtain ⟨t, rfl⟩ := hm q hq
      exact toPoly_int_monic)
    rw [List.map_map] at h ⊢
    convert h using 2
    funext p
    exact toPoly_cast p
  obtain ⟨l, mults, h2, h3, h4, h5, h6⟩ := C06_coarse_partial bal hbal _ h1 (by simpa using hne) (by
    intro p hp
    obtain ⟨q, hq, rfl⟩ := List.mem_map.mp hp
    obtain ⟨t, rfl⟩ := hm q hq
    simp)
  refine ⟨l, mults, h2, h3, fun p hp => h4 _ (List.mem_map_of_mem hp), fun M hM => h5 M ?_, ?_⟩
  · intro p hp
    obtain ⟨q, hq, rfl⟩ := List.mem_map.mp hp
    exact hM q hq
  · rw [List.forall₂_map_left_iff] at h6
    refine (List.forall₂_iff_get.mpr ⟨h6.length_eq, fun i hi hj => ?_⟩)
    have h7 := (List.forall₂_iff_get.mp h6).2 i hi hj
    obtain ⟨t, ht⟩ := hm _ (List.get_mem args ⟨i, hi⟩)
    rw [ht] at h7 ⊢
    simpa using h7

/-- Three polynomials and the threshold of the code. -/
example : ∃ l mults, lcm (fun _ _ => (1 : ℚ)) (1 / 10 ^ 9) (([[1, 3, 2], [1], [1, 0, -1]] : List (List ℤ)).map fun p => p.map fun x : ℤ => (x : ℚ))
    = .ok (l, mults) :=
  let ⟨l, mults, h, _⟩ := C06_integer_partial (fun _ _ => (1 : ℚ)) (fun _ _ => one_ne_zero) (thr := 1 / 10 ^ 9) (by norm_num)
    [[1, 3, 2], [1], [1, 0, -1]] (by simp) (by simp)
  ⟨l, mults, h⟩

/-- **C26**, **C27** for models of any shape with integer numerators and monic integer denominators, with every rounding
threshold up to one (the code uses `1e-9` and about `1.4e-14`): `transfer_to_state` returns a model with the same sampling
period and the same values wherever the `Transfer` model is defined. Missing: other coefficients, see `C27_mimo_partial`. -/
theorem C27_integer_partial {E : TNum K} (hbal : ∀ polys i, E.bal polys i ≠ 0) (hl : E.lcmTol ≤ 1) (hr : E.remTol ≤ 1) {p m : ℕ}
    {G : TransferM K} (N D : Fin p → Fin m → List ℤ) (hm : ∀ i j, ∃ t, D i j = 1 :: t)
    (hG : Normal G p m (fun i j => (N i j).map fun x : ℤ => (x : K)) fun i j => (D i j).map fun x : ℤ => (x : K)) :
    ∃ S, transferToState E G = .ok S ∧ S.dt = G.dt ∧
      ∀ (s : L) (M : Matrix (Fin p) (Fin m) L), HasVal G p m s M → HasTF S p m s M :=
  t2s_normal hbal hl (clearModel_int hl hr hG.num hG.den N D (fun _ _ => rfl) (fun _ _ => rfl) hm) hG

/-- `[(2 s + 1)/(s² + 3 s + 2), 1/(s + 1)]`. -/
example : Normal (⟨Arr.of (Matrix.of fun (_ : Fin 1) (j : Fin 2) => (![[2, 1], [1]] j).map fun x : ℤ => (x : ℚ)),
      Arr.of (Matrix.of fun (_ : Fin 1) (j : Fin 2) => (![[1, 3, 2], [1, 1]] j).map fun x : ℤ => (x : ℚ)), false, none⟩ : TransferM ℚ) 1 2
    (fun _ j => (![[2, 1], [1]] j).map fun x : ℤ => (x : ℚ)) (fun _ j => (![[1, 3, 2], [1, 1]] j).map fun x : ℤ => (x : ℚ)) where
  pos := by norm_num
  num := rfl
  den := rfl
  trimmed := fun i j => by
    fin_cases j
    · exact Or.inr ⟨2, [1], by simp, by norm_num⟩
    · exact Or.inr ⟨1, [], by simp, by norm_num⟩
  lead := fun i j => by fin_cases j <;> simp
  causal := fun i j => by fin_cases j <;> simp
  flag := by
    simp only [Bool.false_eq_true, false_iff]
    intro h
    have := h 0 0
    simp at this
  dt := dtOk_none

end Harold
