import Verif.Lemmas.MinrealTransfer
import Verif.Props.Transfer
import Mathlib.Analysis.Complex.Polynomial.Basic

/-!
# C52: `minimal_realization` of `Transfer` models and static gains
-/

namespace Harold

open Matrix Spec Polynomial

variable {p m : ℕ} {E : TNum ℝ} {roots : List ℝ → List ℂ} {tol : ℝ}

/-- **C52**, dynamic `Transfer` models: if `np.roots` finds the roots and zeros and poles within the tolerance coincide, then `minimal_realization` succeeds, keeps the
sampling period, and every entry of the result is the reduced form of the entry of the model: the same value wherever the model is defined, with coprime numerator
and monic denominator that divides the given one.
Missing: cancellations of zeros and poles that do not coincide, which can even raise (`C52_near_raises`). -/
theorem C52_transfer_partial (hbal : ∀ polys i, E.bal polys i ≠ 0) (hthr : E.lcmTol ≤ 1) (hr : RootFinder roots) (ht : 0 < tol)
    {G : TransferM ℝ} {N D : Matrix (Fin p) (Fin m) (List ℝ)} (hG : Normal G p m N D) (hg : G.isgain = false)
    (hc : ∀ i j, Coincide tol (N i j) (D i j)) :
    ∃ F N' D', minrealTransfer E roots tol G = .ok F ∧ Normal F p m N' D' ∧ F.dt = G.dt ∧
      (∀ (s : ℂ) M, HasVal G p m s M → HasVal F p m s M) ∧
      ∀ i j, toPoly (N' i j) * toPoly (D i j) = toPoly (N i j) * toPoly (D' i j) ∧
        (toPoly (N i j) ≠ 0 → IsCoprime (toPoly (N' i j)) (toPoly (D' i j))) ∧ (toPoly (D' i j)).Monic ∧ toPoly (D' i j) ∣ toPoly (D i j) := by
  have h := fun i j => minrealSimplify_spec hr ht (hG.entry i j) (hc i j)
  choose n d h1 h2 h3 h4 h5 h6 using h
  obtain ⟨F, h7, h8, h9⟩ := mkTransfer_normal hbal hthr hG.pos.1 hG.pos.2 (N := Matrix.of n) (D := Matrix.of d) hG.dt (fun i j => (h2 i j).1)
    (fun i j => (h2 i j).2.1) (fun i j => (h2 i j).2.2)
  refine ⟨F, Matrix.of n, Matrix.of d, ?_, h8, h9, fun s M hM => ?_, fun i j => ⟨h3 i j, h4 i j, h5 i j, h6 i j⟩⟩
  · obtain ⟨num, den, g, dt⟩ := G
    obtain rfl := hG.num
    obtain rfl := hG.den
    have h10 : ∀ (i : Fin p) (j : Fin m), minrealSimplify roots tol ((Arr.of N).entry i j) ((Arr.of D).entry i j) = .ok (n i j, d i j) := fun i j => by
      rw [entry_of, entry_of]; exact h1 i j
    have h11 : mkEntries E p m (fun i j => minrealSimplify roots tol ((Arr.of N).entry i j) ((Arr.of D).entry i j)) dt = .ok F := by
      unfold mkEntries
      simp only [matM_ok.mpr h10, bind, Except.bind]
      exact h7
    unfold minrealTransfer
    simp only at hg
    rw [if_neg (by simp [hg])]
    exact h11
  · obtain ⟨N1, D1, e1, e2, hv⟩ := hM
    rw [hG.num] at e1
    rw [hG.den] at e2
    obtain rfl := Arr.of_inj.mp e1
    obtain rfl := Arr.of_inj.mp e2
    refine ⟨_, _, h8.num, h8.den, fun i j => ?_⟩
    obtain ⟨h10, h11⟩ := hv i j
    have h12 : polyAt s (d i j) ≠ 0 := fun e => h10 <| by
      obtain ⟨q, hq⟩ := h6 i j
      unfold polyAt at e ⊢
      rw [hq, map_mul, e, zero_mul]
    refine ⟨h12, ?_⟩
    rw [h11]
    have h13 := congrArg (aeval s) (h3 i j)
    rw [map_mul, map_mul] at h13
    show _ = polyAt s (n i j) / polyAt s (d i j)
    rw [div_eq_div_iff h10 h12]
    exact h13.symm

/-- Constructing a model from an array is the same as constructing it from lists, unless the array has one row or column. -/
theorem mkTransfer_arr {X : Matrix (Fin p) (Fin m) ℝ} (h : 1 < min p m ∨ p = 1 ∧ m = 1) (dt : Option ℝ) :
    mkTransfer E (.arr (Arr.of X)) .none dt = mkList E (Arr.of X) dt := by
  have h1 : regArg (.arr (Arr.of X)) = regArg (.lists (Arr.of (Matrix.of fun i j => [X i j]))) := by
    rcases h with h | ⟨rfl, rfl⟩
    · simp only [regArg, Arr.of_r, Arr.of_c, if_pos h]
      rw [if_neg (by omega), if_neg (by omega)]
    · simp [regArg, Arr.flatten, entry_of]
      rfl
  unfold mkList mkTransfer validateTransfer
  rw [h1]

/-- **C52**, static `Transfer` gains with one input and output, or at least two of both: the result is the same gain.
Missing: the time domain (`C52_gain_dt_violated`) and other shapes (`C52_gain_shape_violated`). -/
theorem C52_transfer_gain_partial {G : TransferM ℝ} {N D : Matrix (Fin p) (Fin m) (List ℝ)} (hG : Normal G p m N D) (hg : G.isgain = true)
    (h : 1 < min p m ∨ p = 1 ∧ m = 1) :
    ∃ F N' D', minrealTransfer E roots tol G = .ok F ∧ Normal F p m N' D' ∧ F.dt = none ∧ F.isgain = true ∧
      ∀ (s : ℂ) M, HasVal G p m s M ↔ HasVal F p m s M := by
  obtain ⟨F, h1, h2, h3⟩ := mkList_normal E hG.pos.1 hG.pos.2 (Matrix.of fun i j => (N i j).getD 0 0 / (D i j).getD 0 0) (dt := none) (fun _ h => by simp at h)
  refine ⟨F, _, _, ?_, h2, h3, h2.flag.mpr fun _ _ => rfl, fun s M => ?_⟩
  · unfold minrealTransfer TransferM.toArray
    rw [if_pos hg, if_pos hg, hG.toArray hg]
    simp only [bind, Except.bind]
    rw [mkTransfer_arr h, h1]
  · have h4 : ∀ i j, polyAt s (D i j) ≠ 0 ∧ polyAt s (N i j) / polyAt s (D i j) = algebraMap ℝ ℂ ((N i j).getD 0 0 / (D i j).getD 0 0) := fun i j => by
      obtain ⟨e1, e2, e3⟩ := hG.gain_entry hg i j
      rw [e1, e2, polyAt_const, polyAt_const, map_div₀]
      exact ⟨by simpa using e3, by simp⟩
    constructor
    · rintro ⟨N1, D1, e1, e2, hv⟩
      rw [hG.num] at e1
      rw [hG.den] at e2
      obtain rfl := Arr.of_inj.mp e1
      obtain rfl := Arr.of_inj.mp e2
      refine ⟨_, _, h2.num, h2.den, fun i j => ⟨by simp [polyAt_const], ?_⟩⟩
      rw [(hv i j).2, (h4 i j).2]
      simp [polyAt_const]
    · rintro ⟨N1, D1, e1, e2, hv⟩
      rw [h2.num] at e1
      rw [h2.den] at e2
      obtain rfl := Arr.of_inj.mp e1
      obtain rfl := Arr.of_inj.mp e2
      refine ⟨_, _, hG.num, hG.den, fun i j => ⟨(h4 i j).1, ?_⟩⟩
      rw [(hv i j).2, (h4 i j).2]
      simp [polyAt_const]

/-- **C52** fails for the time domain of static gains: a discrete time gain becomes a continuous time one. -/
theorem C52_gain_dt_violated {G : TransferM ℝ} {N D : Matrix (Fin p) (Fin m) (List ℝ)} (hG : Normal G p m N D) (hg : G.isgain = true)
    (h : 1 < min p m ∨ p = 1 ∧ m = 1) (hdt : G.dt ≠ none) : ∃ F, minrealTransfer E roots tol G = .ok F ∧ F.dt ≠ G.dt := by
  obtain ⟨F, N', D', h1, -, h2, -⟩ := C52_transfer_gain_partial (E := E) (roots := roots) (tol := tol) hG hg h
  exact ⟨F, h1, by rw [h2]; exact hdt.symm⟩

/-- **C52** fails for static `Transfer` gains with one input or one output but not both: `ValueError`, since a one row array is read as the coefficients of a
polynomial. -/
theorem C52_gain_shape_violated {G : TransferM ℝ} {N D : Matrix (Fin p) (Fin m) (List ℝ)} (hG : Normal G p m N D) (hg : G.isgain = true)
    (h : min p m = 1) (h' : 1 < max p m) : minrealTransfer E roots tol G = .error .value := by
  unfold minrealTransfer TransferM.toArray
  rw [if_pos hg, if_pos hg, hG.toArray hg]
  simp only [bind, Except.bind]
  set X : Matrix (Fin p) (Fin m) ℝ := Matrix.of fun i j => (N i j).getD 0 0 / (D i j).getD 0 0
  have h1 : regArg (.arr (Arr.of X)) = .ok (.siso (Arr.of X).flatten) := by
    simp only [regArg, Arr.of_r, Arr.of_c]
    rw [if_neg (by omega)]
  have h2 : 1 < (Arr.of X).flatten.length := by
    have : (Arr.of X).flatten.length = p * m := by simp [Arr.flatten]
    rw [this]
    have h3 : 0 < p := hG.pos.1
    have h4 : 0 < m := hG.pos.2
    rcases lt_or_ge 1 p with h5 | h5
    · nlinarith
    · have : p = 1 := by omega
      subst this
      simp at h' ⊢
      omega
  have h3 : validateTransfer (.arr (Arr.of X)) .none = .error .value := by
    unfold validateTransfer
    have hn : regArg (.none : TArg ℝ) = .ok .none := rfl
    simp only [h1, hn, bind, Except.bind, combineArgs, if_pos h2]
  unfold mkTransfer
  simp only [h3, bind, Except.bind]


theorem simplify_near (hr : roots [1, 0, (tol / 2) ^ 2] = [Complex.I * (tol / 2), -(Complex.I * (tol / 2))]) (hr' : roots [1, 1, 0] = [-1, 0])
    (ht : 0 < tol) (ht1 : tol < 1 / 2) : minrealSimplify roots tol [1, 0, (tol / 2) ^ 2] [1, 1, 0] = .error .type := by
  set z : ℂ := Complex.I * (tol / 2) with hz
  have him : z.im = tol / 2 := by
    rw [hz, Complex.I_mul_im]
    simp [Complex.div_re, Complex.normSq]
  have hre : z.re = 0 := by
    rw [hz, Complex.I_mul_re]
    simp [Complex.div_im, Complex.normSq]
  have hn : ‖z‖ = tol / 2 := by
    rw [hz, norm_mul, Complex.norm_I, one_mul, norm_div, Complex.norm_real, Real.norm_of_nonneg ht.le]
    simp
  have h1 : ‖(-1 : ℂ) - z‖ ≥ 1 := by
    have := Complex.abs_re_le_norm ((-1 : ℂ) - z)
    simp [hre] at this
    exact this
  have h0 : ‖(0 : ℂ) - z‖ = tol / 2 := by rw [zero_sub, norm_neg, hn]
  have a1 : argminIdx ([(-1 : ℂ), 0].map fun p => ‖p - z‖) = some 1 := by
    unfold argminIdx
    have : ([(-1 : ℂ), 0].map fun p => ‖p - z‖) = [‖(-1 : ℂ) - z‖, tol / 2] := by simp [hn]
    rw [this]
    have hlt : tol / 2 < ‖(-1 : ℂ) - z‖ := by linarith
    simp [List.min?, min_eq_right hlt.le, List.idxOf_cons, beq_eq_false_iff_ne.mpr hlt.ne']
  have a2 : argminIdx ([(-1 : ℂ)].map fun p => ‖p - z‖) = some 0 := by
    unfold argminIdx
    simp [List.min?]
  unfold minrealSimplify
  rw [if_neg (by simp)]
  simp only [hr, hr']
  have hf : ([z, -z].filter (fun z => z.im = 0) ++ [z, -z].filter (fun z => 0 < z.im)) = [z] := by
    have hp : (0 : ℝ) < tol / 2 := by linarith
    simp [List.filter_cons, him, hp, hp.ne', ht, ht.ne', ht.le, hp.le]
  rw [hf]
  simp only [simplifyLoop, simplifyStep, a1, bind, Except.bind]
  have h2 : ‖[(-1 : ℂ), 0].getD 1 0 - z‖ < tol + tol * ‖z‖ := by
    rw [show [(-1 : ℂ), 0].getD 1 0 = 0 by simp, h0, hn]
    nlinarith
  rw [if_pos h2]
  simp only [simplifyMatch]
  have h3 : [(-1 : ℂ), 0].eraseIdx 1 = [-1] := rfl
  have h4 : [(-1 : ℂ), 0].getD 1 0 = 0 := rfl
  rw [h3, h4, if_neg (by simp), if_pos (by rw [him]; linarith)]
  simp only [a2]
  rw [if_neg]
  rw [show [(-1 : ℂ)].getD 0 0 = -1 by simp, hn, not_lt]
  nlinarith

/-- **C52**, zeros that do not coincide with poles: `minimal_realization` of `(s² + d²) / (s (s + 1))` with `d = tol / 2` raises `TypeError`. -/
theorem C52_near_raises (hr : roots [1, 0, (tol / 2) ^ 2] = [Complex.I * (tol / 2), -(Complex.I * (tol / 2))]) (hr' : roots [1, 1, 0] = [-1, 0])
    (ht : 0 < tol) (ht1 : tol < 1 / 2) {G : TransferM ℝ}
    (hG : Normal G 1 1 (Matrix.of fun _ _ => [1, 0, (tol / 2) ^ 2]) (Matrix.of fun _ _ => [1, 1, 0])) : minrealTransfer E roots tol G = .error .type := by
  obtain ⟨num, den, g, dt⟩ := G
  obtain rfl := hG.num
  obtain rfl := hG.den
  have hg : g = false := by
    by_contra h
    have := hG.flag.mp (by simpa using h) 0 0
    simp at this
  subst hg
  have h : matM (fun (i : Fin 1) (j : Fin 1) => minrealSimplify roots tol
      ((Arr.of (Matrix.of fun (_ _ : Fin 1) => [1, 0, (tol / 2) ^ 2])).entry i j) ((Arr.of (Matrix.of fun (_ _ : Fin 1) => [(1 : ℝ), 1, 0])).entry i j))
      = .error .type := by
    have h0 : ∀ f : Fin 1 → Fin 1 → Res (List ℝ × List ℝ), f 0 0 = .error .type → matM f = .error .type := fun f h => by
      simp only [matM, finM, h, bind, Except.bind]
    refine h0 _ ?_
    rw [entry_of _ (0 : Fin 1) (0 : Fin 1), entry_of _ (0 : Fin 1) (0 : Fin 1)]
    exact simplify_near hr hr' ht ht1
  unfold minrealTransfer
  rw [if_neg (by simp)]
  have h2 : mkEntries E 1 1 (fun i j => minrealSimplify roots tol
      ((Arr.of (Matrix.of fun (_ _ : Fin 1) => [1, 0, (tol / 2) ^ 2])).entry i j) ((Arr.of (Matrix.of fun (_ _ : Fin 1) => [(1 : ℝ), 1, 0])).entry i j)) dt
      = .error .type := by
    unfold mkEntries
    rw [h]
    rfl
  exact h2

/-! ## The hypotheses can be met -/

/-- Root finders exist. -/
example : ∃ roots, RootFinder roots := by
  have h : ∀ l : List ℝ, ∃ r : List ℂ, l.getD 0 0 ≠ 0 → RootsOf l r := fun l => by
    by_cases hl : l.getD 0 0 = 0
    · exact ⟨[], fun h => absurd hl h⟩
    · refine ⟨((toPoly l).map (algebraMap ℝ ℂ)).roots.toList, fun _ => ?_⟩
      obtain ⟨a, t, rfl⟩ : ∃ a t, l = a :: t := by
        cases l with
        | nil => simp at hl
        | cons a t => exact ⟨a, t, rfl⟩
      have h1 := (IsAlgClosed.splits ((toPoly (a :: t)).map (algebraMap ℝ ℂ))).eq_prod_roots
      unfold RootsOf
      have h2 : ((toPoly (a :: t)).map (algebraMap ℝ ℂ)).leadingCoeff = ((a : ℝ) : ℂ) := by
        rw [leadingCoeff_map, leadingCoeff_toPoly_cons (by simpa using hl)]
        rfl
      rw [h2] at h1
      rw [← Multiset.prod_coe, ← Multiset.map_coe, Multiset.coe_toList]
      exact h1
  choose r hr using h
  exact ⟨r, hr⟩

/-- `(s + 1) / ((s + 1) (s + 2))` has no zero near a pole that does not coincide with it for `tol = 1e-6`. -/
example : Coincide (1 / 1000000) [1, 1] [1, 3, 2] := by
  intro z q hz hq h
  have h1 : z = -1 := by
    have : z + 1 = 0 := by simpa [polyAt, toPoly] using hz
    linear_combination this
  have h2 : (q + 1) * (q + 2) = 0 := by
    have : q ^ 2 + 3 * q + 2 = 0 := by
      simp [polyAt, toPoly] at hq
      linear_combination hq
    linear_combination this
  subst h1
  rcases mul_eq_zero.mp h2 with h3 | h3
  · linear_combination h3
  · obtain rfl : q = -2 := by linear_combination h3
    norm_num at h

end Harold
