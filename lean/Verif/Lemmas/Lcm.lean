import Verif.Lemmas.Krylov
import Verif.Props.Poly
import Mathlib.LinearAlgebra.Matrix.Charpoly.Coeff

/-!
# The least common multiple of two or more nonconstant polynomials
-/

namespace Harold

open Matrix Polynomial Harold.Spec

section
variable {K : Type} [Field K] {ι : Type} [Fintype ι] [DecidableEq ι]

theorem combine_eq (v : ℕ → ι → K) (r : ℕ) (x : List K) :
    combine ((List.range r).map v) x = ∑ j : Fin r, x.getD j 0 • v j := by
  ext i
  rw [Finset.sum_apply, combine]
  simp only [Pi.smul_apply, smul_eq_mul]
  rw [Fin.sum_univ_eq_sum_range (fun j => x.getD j 0 * v j i) r]
  have : ∀ j : Fin ((List.range r).map v).length,
      x.getD j 0 * ((List.range r).map v).get j i = (fun j => x.getD j 0 * v j i) j.val := by
    intro j; simp
  rw [Finset.sum_congr rfl fun j _ => this j,
    Fin.sum_univ_eq_sum_range (fun j => x.getD j 0 * v j i)]
  simp

theorem lcmSolve_ok (v : ℕ → ι → K) (r : ℕ) (last : ι → K)
    (h : last ∈ Submodule.span K (Set.range fun j : Fin r => v j)) :
    ∃ x : List K, lcmSolve ((List.range r).map v) last = .ok x ∧ x.length = r ∧
      last + ∑ j : Fin r, x.getD j 0 • v j = 0 := by
  obtain ⟨c, hc⟩ := (Submodule.mem_span_range_iff_exists_fun K).mp h
  have hex : ∃ x : List K, x.length = ((List.range r).map v).length ∧
      combine ((List.range r).map v) x = fun i => -last i := by
    refine ⟨List.ofFn fun j => - c j, by simp, ?_⟩
    rw [combine_eq]
    ext i
    rw [← hc]
    simp [Finset.sum_apply]
  refine ⟨hex.choose, by rw [lcmSolve, dif_pos hex], by simpa using hex.choose_spec.1, ?_⟩
  have := hex.choose_spec.2
  rw [combine_eq] at this
  rw [this]; ext i; simp

theorem lcmLstsq_ok (v : ℕ → ι → K) (r : ℕ) (hr : 0 < r)
    (hind : LinearIndependent K fun j : Fin r => v j) :
    ∃ x : List K, lcmLstsq ((List.range r).map v) (v 0) = .ok x ∧ x.length = r ∧
      ∀ j, j < r → x.getD j 0 = if j = 0 then 1 else 0 := by
  have hex : ∃ x : List K, x.length = ((List.range r).map v).length ∧
      combine ((List.range r).map v) x = v 0 := by
    refine ⟨List.ofFn fun j : Fin r => if j.val = 0 then 1 else 0, by simp, ?_⟩
    rw [combine_eq, Finset.sum_eq_single ⟨0, hr⟩]
    · simp [hr]
    · intro j _ hj
      have : ¬ j.val = 0 := fun e => hj (Fin.ext e)
      simp [this]
    · simp
  refine ⟨hex.choose, by rw [lcmLstsq, dif_pos hex], by simpa using hex.choose_spec.1, ?_⟩
  have h1 := hex.choose_spec.2
  rw [combine_eq] at h1
  set x := hex.choose
  have h2 : ∑ j : Fin r, (x.getD j 0 - if j.val = 0 then 1 else 0) • v j = 0 := by
    simp only [sub_smul, Finset.sum_sub_distrib, h1]
    rw [Finset.sum_eq_single (⟨0, hr⟩ : Fin r)]
    · simp
    · intro j _ hj
      have : ¬ j.val = 0 := fun e => hj (Fin.ext e)
      simp [this]
    · simp
  have h3 := Fintype.linearIndependent_iff.mp hind _ h2
  intro j hj
  have := h3 ⟨j, hj⟩
  exact sub_eq_zero.mp this

theorem toPoly_reverse (y : List K) :
    toPoly y.reverse = ∑ j : Fin y.length, C (y.getD j 0) * X ^ j.val := by
  induction y with
  | nil => simp [toPoly]
  | cons a y ih =>
    rw [List.reverse_cons, toPoly_append, ih]
    simp only [List.length_cons, Fin.sum_univ_succ, Finset.sum_mul]
    simp [toPoly, pow_succ, mul_assoc, add_comm]

theorem toPoly_lcm {r : ℕ} {x : List K} (hx : x.length = r) :
    toPoly (x ++ [1]).reverse = monicPoly fun j : Fin r => x.getD j 0 := by
  subst hx
  rw [List.reverse_append, List.reverse_singleton, List.singleton_append, toPoly_cons,
    toPoly_reverse, monicPoly]
  simp

/-- The monic coefficients of a coefficient list, in increasing powers. -/
def mc (p : List K) : Fin (p.length - 1) → K :=
  fun j => p.getD (p.length - 1 - j) 0 / p.getD 0 0

end

section
variable {K : Type} [Field K] [LinearOrder K]

theorem companionSq_eq (p : List K) (h0 : p.getD 0 0 ≠ 0) (h1 : 1 < p.length) :
    companionSq p = some (compM (mc p)) := by
  cases p with
  | nil => simp at h1
  | cons a t =>
    have ha : a ≠ 0 := by simpa using h0
    have ht : t ≠ [] := by rintro rfl; simp at h1
    have htr : trimZeros (a :: t) = a :: t := by simp [trimZeros, ha]
    have := companion_eq _ htr ha ht
    unfold companionSq
    rw [this]
    simp only [Arr.of_r, Arr.of_c, List.length_cons, Nat.add_sub_cancel, and_self, dif_pos,
      Option.some.injEq]
    ext i j
    simp only [submatrix_apply, Fin.cast_refl, id, Arr.of_m, compM, Matrix.of_apply]
    have hij : monicCoeffs a t j = mc (a :: t) j := by
      have hj : j.val < t.length := j.2
      have e : t.length - j.val = (t.length - 1 - j.val) + 1 := by omega
      simp only [monicCoeffs, mc, List.getD_cons_zero, List.length_cons, Nat.add_sub_cancel, e,
        List.getD_cons_succ]
    rw [hij]
    rfl

omit [LinearOrder K] in
theorem toPoly_mc (p : List K) (h0 : p.getD 0 0 ≠ 0) :
    toPoly p = C (p.getD 0 0) * monicPoly (mc p) := by
  cases p with
  | nil => simp at h0
  | cons a t =>
    have ha : a ≠ 0 := by simpa using h0
    rw [toPoly_monic ha t, monicPoly]
    simp only [List.getD_cons_zero, List.length_cons, Nat.add_sub_cancel]
    congr 2
    apply Finset.sum_congr rfl
    intro j _
    have hj : j.val < t.length := j.2
    have e : t.length - j.val = (t.length - 1 - j.val) + 1 := by omega
    simp only [monicCoeffs, mc, List.getD_cons_zero, List.length_cons, Nat.add_sub_cancel, e,
        List.getD_cons_succ]

omit [LinearOrder K] in
/-- With `b` the last unit vector and `A` the companion matrix of the monic `p`, the first entry of
`∑ₖ (L div X^(k+1)) A^k b` is `L / p`. -/
theorem wvec_zero {n r : ℕ} (hn : 0 < n) (hr : 0 < r) (a : Fin n → K) (x : Fin r → K)
    (hx : aeval (compM a) (monicPoly x) *ᵥ (fun i : Fin n => if i.val + 1 = n then (1 : K) else 0) = 0) :
    wvec (compM a) (fun i : Fin n => if i.val + 1 = n then (1 : K) else 0) x ⟨0, hn⟩ * monicPoly a
      = monicPoly x := by
  set b : Fin n → K := fun i => if i.val + 1 = n then (1 : K) else 0 with hb
  have h1 := wvec_eq (compM a) b hr x hx
  have hmap : (compM a).map (C : K →+* K[X]) = compM (fun i => C (a i)) := by
    refine Matrix.ext fun i j => ?_
    simp only [compM, map_apply, Matrix.of_apply]
    split_ifs <;> simp
  have h2 := compM_mulVec (fun i => (C (a i) : K[X])) X
  have hdet := det_compM (fun i => (C (a i) : K[X])) X
  rw [← hmap] at h2 hdet
  have hp : monicVal (fun i => (C (a i) : K[X])) X = monicPoly a := rfl
  rw [hp] at h2 hdet
  have h3 : ((X : K[X]) • (1 : Matrix (Fin n) (Fin n) K[X]) - (compM a).map (C : K →+* K[X])) *ᵥ
      (monicPoly a • wvec (compM a) b x - monicPoly x • fun i => X ^ i.val) = 0 := by
    rw [mulVec_sub, mulVec_smul, mulVec_smul, h1, h2]
    ext1 i
    simp only [hb, Pi.sub_apply, Pi.smul_apply, smul_eq_mul, Pi.zero_apply]
    split_ifs <;> simp [mul_comm]
  have h4 := Matrix.eq_zero_of_mulVec_eq_zero (by
    rw [hdet]; exact (monicPoly_monic a).ne_zero) h3
  have h5 := congrFun h4 ⟨0, hn⟩
  simp only [Pi.sub_apply, Pi.smul_apply, smul_eq_mul, Pi.zero_apply, pow_zero, mul_one] at h5
  rw [mul_comm]; exact sub_eq_zero.mp h5

omit [LinearOrder K] in
theorem aeval_compM_dvd {n : ℕ} (a : Fin n → K) (b : Fin n → K) {M : K[X]}
    (h : monicPoly a ∣ M) : aeval (compM a) M *ᵥ b = 0 := by
  obtain ⟨q, rfl⟩ := h
  have h1 : aeval (compM a) (monicPoly a) = 0 := by
    have := aeval_self_charpoly (compM a)
    rwa [charpoly_compM] at this
  rw [map_mul, h1, zero_mul, zero_mulVec]

omit [LinearOrder K] in
theorem aeval_scale {ι : Type} [Fintype ι] [DecidableEq ι] (A : Matrix ι ι K) (b d : ι → K)
    (hd : ∀ i, d i ≠ 0) (M : K[X]) :
    aeval (Matrix.of fun i k => (d i)⁻¹ * A i k * d k) M *ᵥ (fun i => b i * (d i)⁻¹)
      = fun i => (d i)⁻¹ * (aeval A M *ᵥ b) i := by
  rw [aeval_mulVec, aeval_mulVec]
  ext i
  simp only [kv_scale A b d hd, Finset.sum_apply, Pi.smul_apply, smul_eq_mul, Finset.mul_sum]
  apply Finset.sum_congr rfl
  intro k _; ring

omit [LinearOrder K] in
theorem adjA_zero (l : List K) (n k z : ℕ) (hz : z < n) :
    adjA l n k 0 z = if k ≤ z then l.getD (z - k) 0 else 0 := by
  unfold adjA
  rcases Nat.eq_zero_or_pos k with rfl | hk
  · simp [hz]
  · have h1 : ¬ (0 = k) := by omega
    simp only [h1, if_false, hk, if_true, Nat.sub_zero, hz, and_true]
    by_cases h2 : k ≤ z
    · rw [if_pos h2, if_pos h2, if_pos (by omega)]
    · rw [if_neg h2, if_neg h2]

omit [LinearOrder K] in
theorem adjA_horner {r : ℕ} {x : List K} (hx : x.length = r) (k : ℕ) :
    (∑ z : Fin r, C (adjA (x ++ [1]).reverse r k 0 z) * X ^ (r - 1 - z.val) : K[X])
      = hornerQ (fun j : Fin r => x.getD j 0) k := by
  have hco : ∀ j, j ≤ r → (x ++ [1]).reverse.getD (r - j) 0
      = (monicPoly fun j : Fin r => x.getD j 0).coeff j := by
    intro j hj
    rw [← toPoly_lcm hx, coeff_toPoly_lt (by simp; omega)]
    simp only [List.length_reverse, List.length_append, List.length_singleton, hx]
    congr 1
  have hs : ∀ l : List K, (∑ z : Fin r, C (adjA l r k 0 z) * X ^ (r - 1 - z.val) : K[X])
      = ∑ z ∈ Finset.range r, C (adjA l r k 0 z) * X ^ (r - 1 - z) := fun l =>
    Fin.sum_univ_eq_sum_range (fun z => (C (adjA l r k 0 z) * X ^ (r - 1 - z) : K[X])) r
  rw [hs, ← Finset.sum_range_reflect, hornerQ]
  symm
  apply Finset.sum_subset_zero_on_sdiff
  · intro j; simp only [Finset.mem_range]; omega
  · intro j hj
    simp only [Finset.mem_sdiff, Finset.mem_range] at hj
    rw [adjA_zero _ _ _ _ (by omega), if_neg (by omega)]; simp
  · intro j hj
    rw [Finset.mem_range] at hj
    rw [adjA_zero _ _ _ _ (by omega), if_pos (by omega), ← hco _ (by omega)]
    rw [show r - (k + 1 + j) = r - 1 - j - k by omega, show r - 1 - (r - 1 - j) = j by omega]

/-- What `haroldlcm` returns for nonconstant arguments without leading zeros. -/
theorem lcmMany_ok (polys : List (List K)) (sca : BIdx polys → K) (hs : ∀ i, sca i ≠ 0)
    (hne : polys ≠ []) (hp : ∀ p ∈ polys, p.getD 0 0 ≠ 0 ∧ 1 < p.length) :
    ∃ (t : List K) (mults : List (List K)), lcmMany polys sca = .ok (1 :: t, mults) ∧
      List.Forall₂ (fun p m => toPoly m * (C (p.getD 0 0)⁻¹ * toPoly p) = toPoly (1 :: t)
        ∧ m.length = t.length) polys mults ∧
      ∀ M : K[X], (∀ p ∈ polys, toPoly p ∣ M) → toPoly (1 :: t) ∣ M := by
  have hc : ∀ i : Fin polys.length,
      companionSq (polys.get i) = some (compM (mc (polys.get i))) := fun i =>
    companionSq_eq _ (hp _ (List.get_mem _ _)).1 (hp _ (List.get_mem _ _)).2
  have h : ∀ i : Fin polys.length, (companionSq (polys.get i)).isSome := by
    intro i; rw [hc i]; rfl
  have hget : (fun i => (companionSq (polys.get i)).get (h i))
      = fun i => compM (mc (polys.get i)) := by
    funext i
    simp only [hc i, Option.get_some]
  set A : Matrix (BIdx polys) (BIdx polys) K :=
    blockDiagonal' fun i => compM (mc (polys.get i)) with hA
  set As : Matrix (BIdx polys) (BIdx polys) K := Matrix.of fun i j => (sca i)⁻¹ * A i j * sca j
    with hAs
  set Bs : BIdx polys → K := fun i => lcmB polys i * (sca i)⁻¹ with hBs
  have hBne : Bs ≠ 0 := by
    intro e
    have hl : 0 < polys.length := List.length_pos_iff.mpr hne
    have h1 := (hp _ (List.get_mem polys ⟨0, hl⟩)).2
    have := congrFun e ⟨⟨0, hl⟩, ⟨(polys.get ⟨0, hl⟩).length - 1 - 1, by omega⟩⟩
    simp only [hBs, lcmB, Pi.zero_apply] at this
    rw [if_pos (by omega), one_mul] at this
    exact inv_ne_zero (hs _) this
  obtain ⟨r, hC, hind, hspan⟩ := krylov_stop As Bs hBne
  have hr : 0 < r := by
    rcases Nat.eq_zero_or_pos r with rfl | h
    · simp [kv_zero] at hspan; exact absurd hspan hBne
    · exact h
  obtain ⟨x, hx, hxl, hx0⟩ := lcmSolve_ok (kv As Bs) r _ hspan
  obtain ⟨bl, hbl, -, hbl1⟩ := lcmLstsq_ok (kv As Bs) r hr hind
  have hdl : (krylov As Bs).dropLast = (List.range r).map (kv As Bs) := by
    rw [hC, List.range_succ, List.map_append]; simp
  have hlast : (krylov As Bs).getLastD 0 = kv As Bs r := by
    rw [hC, List.range_succ, List.map_append]; simp
  set xf : Fin r → K := fun j => x.getD j 0 with hxf
  have hL : toPoly (x ++ [1]).reverse = monicPoly xf := toPoly_lcm hxl
  have hrev : (x ++ [1]).reverse = 1 :: x.reverse := by simp
  have hann : aeval As (monicPoly xf) *ᵥ Bs = 0 := by rw [aeval_monicPoly]; exact hx0
  have hann' : aeval A (monicPoly xf) *ᵥ lcmB polys = 0 := by
    have h1 := aeval_scale A (lcmB polys) sca hs (monicPoly xf)
    rw [show (Matrix.of fun i j => (sca i)⁻¹ * A i j * sca j) = As from rfl,
      show (fun i => lcmB polys i * (sca i)⁻¹) = Bs from rfl, hann] at h1
    ext i
    have h2 := congrFun h1 i
    simp only [Pi.zero_apply] at h2 ⊢
    exact (mul_eq_zero.mp h2.symm).resolve_left (inv_ne_zero (hs i))
  refine ⟨x.reverse, List.ofFn fun i : Fin polys.length =>
      List.ofFn fun z : Fin r =>
        ∑ k ∈ Finset.range r,
          (if h0 : 0 < (polys.get i).length - 1 then
              sca ⟨i, ⟨0, h0⟩⟩ * ((List.range r).map (kv As Bs)).getD k 0 ⟨i, ⟨0, h0⟩⟩ else 0)
            * ∑ y ∈ Finset.range r, adjA (x ++ [1]).reverse r k y z * bl.getD y 0, ?_, ?_, ?_⟩
  · unfold lcmMany
    rw [dif_pos h]
    simp only [hget]
    rw [show (Matrix.of fun i j => (sca i)⁻¹ * (blockDiagonal' fun i => compM (mc (polys.get i))) i j * sca j) = As from rfl,
      show (fun i => lcmB polys i * (sca i)⁻¹) = Bs from rfl, hdl, hlast, hx]
    simp only [bind, Except.bind]
    have hB0 : lcmLstsq ((List.range r).map (kv As Bs)) Bs = .ok bl := by
      rw [← hbl, kv_zero]
    rw [hB0]
    have hn : (x ++ [1]).reverse.length - 1 = r := by simp [hxl]
    have hn' : (1 :: x.reverse).length - 1 = r := by simp [hxl]
    simp only [hn, hrev, hn', Fin.val_cast]
  · rw [List.forall₂_iff_get]
    refine ⟨by simp, ?_⟩
    intro i h1 h2
    have hi := hp _ (List.get_mem polys ⟨i, h1⟩)
    have hpos : 0 < (polys.get ⟨i, h1⟩).length - 1 := by have := hi.2; omega
    constructor
    swap
    · simp [hxl]
    have hw := wvec_zero hpos hr (mc (polys.get ⟨i, h1⟩)) xf (by
      ext j
      have := congrFun hann' ⟨⟨i, h1⟩, j⟩
      rw [hA, aeval_block] at this
      exact this)
    rw [toPoly_mc _ hi.1, ← mul_assoc (C _) (C _), ← C_mul, inv_mul_cancel₀ hi.1, C_1, one_mul,
      ← hrev, hL, ← hw]
    congr 1
    simp only [List.get_ofFn]
    rw [toPoly_ofFn, wvec]
    have hin : ∀ k z, ∑ y ∈ Finset.range r, adjA (x ++ [1]).reverse r k y z * bl.getD y 0
        = adjA (x ++ [1]).reverse r k 0 z := by
      intro k z
      rw [Finset.sum_eq_single 0]
      · rw [hbl1 0 hr]; simp
      · intro y hy hy0
        rw [hbl1 y (Finset.mem_range.mp hy), if_neg hy0, mul_zero]
      · intro h; exact absurd (Finset.mem_range.mpr hr) h
    simp only [hin, map_sum, Finset.sum_mul]
    rw [Finset.sum_comm]
    apply Finset.sum_congr rfl
    intro k hk
    have hk := Finset.mem_range.mp hk
    rw [hxf, ← adjA_horner hxl, Finset.mul_sum]
    apply Finset.sum_congr rfl
    intro z _
    have hpos' : 0 < (polys.get (Fin.cast (by simp) (⟨i, h2⟩ : Fin _))).length - 1 := hpos
    rw [dif_pos hpos', C_mul, mul_assoc]
    congr 2
    have hk2 : ((List.range r).map (kv As Bs)).getD k 0 = kv As Bs k := by
      rw [List.getD_eq_getElem _ _ (by simpa using hk)]; simp
    have hk3 : ∀ i' j', sca ⟨i', j'⟩ * kv As Bs k ⟨i', j'⟩
        = kv (compM (mc (polys.get i'))) (fun l => lcmB polys ⟨i', l⟩) k j' := by
      intro i' j'
      rw [hAs, hBs, kv_scale A (lcmB polys) sca hs, hA]
      simp only [kv_block]
      rw [← mul_assoc, mul_inv_cancel₀ (hs _), one_mul]
    rw [hk2, hk3]
    rfl
  · intro M hM
    rw [← hrev, hL]
    refine monicPoly_dvd As Bs xf hann hind ?_
    have h1 := aeval_scale A (lcmB polys) sca hs M
    rw [show (Matrix.of fun i j => (sca i)⁻¹ * A i j * sca j) = As from rfl,
      show (fun i => lcmB polys i * (sca i)⁻¹) = Bs from rfl] at h1
    rw [h1]
    have h2 : aeval A M *ᵥ lcmB polys = 0 := by
      ext ⟨i, j⟩
      rw [hA, aeval_block, aeval_compM_dvd]
      · simp
      · have h3 := hM _ (List.get_mem polys i)
        have h4 := (hp _ (List.get_mem polys i)).1
        rw [toPoly_mc _ h4] at h3
        exact dvd_trans (dvd_mul_left _ _) h3
    rw [h2]; ext; simp

end

end Harold
