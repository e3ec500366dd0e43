import Verif.Spec.SmallGain
import Verif.Lemmas.MaxMod
import Verif.Props.LoopPoles
import Verif.Props.Hinf

/-!
# C101: the small gain theorem
-/

namespace Harold

open Matrix Harold.Spec
open scoped Matrix.Norms.L2Operator

variable {n n' m p : ℕ} {G H R : StateM ℝ} {neg : Bool}

/-- Points of the unit circle are met by some frequency. -/
theorem circle_point {h : ℝ} (hh : 0 < h) {s : ℂ} (hs : ‖s‖ = 1) : ∃ ω : ℝ, evalPoint (some h) ω = s := by
  refine ⟨s.arg / h, ?_⟩
  simp only [evalPoint, Option.elim]
  have h1 := Complex.norm_mul_exp_arg_mul_I s
  rw [hs, Complex.ofReal_one, one_mul] at h1
  rw [← h1]
  congr 1
  push_cast
  have : (h : ℂ) ≠ 0 := by exact_mod_cast hh.ne'
  rw [h1]
  field_simp

/-- The gain of a stable model outside the stability region is bounded by the gain on its boundary. -/
theorem gain_outside {γ : ℝ} (hc : Consistent G p m) (hdt : DtOk G.dt) (hst : StableModel G) (hγ : GainBound G p m γ) {s : ℂ} (hs : ¬ StablePoint G.dt s) :
    ∃ M : Matrix (Fin p) (Fin m) ℂ, HasTF G p m s M ∧ ‖M‖ ≤ γ := by
  have hchar := (stable_iff_char hc).mp hst
  obtain ⟨a, b, c, D, dt, rfl⟩ | ⟨n, A, B, C, D, dt, rfl⟩ := consistent_cases hc
  · obtain ⟨M, h1, h2⟩ := hγ 0
    refine ⟨M, ?_, h2⟩
    rcases h1 with ⟨hg, D', hD, rfl⟩ | ⟨hg, _⟩
    · exact Or.inl ⟨hg, D', hD, rfl⟩
    · cases hg
  · have hdet : ∀ z : ℂ, ¬ StablePoint dt z → (z • (1 : Matrix (Fin n) (Fin n) ℂ) - A.map (algebraMap ℝ ℂ)).det ≠ 0 := by
      intro z hz h0
      exact hz (hchar z (Or.inr ⟨rfl, n, A, rfl, h0.symm⟩))
    have hval : ∀ ω : ℝ, ‖tfAt (A.map (algebraMap ℝ ℂ)) (B.map (algebraMap ℝ ℂ)) (C.map (algebraMap ℝ ℂ)) (D.map (algebraMap ℝ ℂ)) (evalPoint dt ω)‖ ≤ γ := by
      intro ω
      obtain ⟨M, h1, h2⟩ := hγ ω
      have h3 := (dyn_elim h1 rfl)
      obtain ⟨n', A', B', C', D', hA, hB, hC, hD, hT⟩ := h3
      obtain rfl : n = n' := congrArg Arr.r hA
      obtain rfl := Arr.of_inj.mp hA
      obtain rfl := Arr.of_inj.mp hB
      obtain rfl := Arr.of_inj.mp hC
      obtain rfl := Arr.of_inj.mp hD
      rw [hT.2] at h2
      exact h2
    refine ⟨_, HasTF.of_dyn ⟨hdet s hs, rfl⟩, ?_⟩
    cases dt with
    | none =>
      refine half_plane_bound _ _ _ _ (fun z hz => hdet z ?_) hval ?_
      · simpa [StablePoint] using hz
      · simpa [StablePoint] using hs
    | some h =>
      refine exterior_bound _ _ _ _ (fun z hz => hdet z ?_) (fun z hz => ?_) ?_
      · simpa [StablePoint] using hz
      · obtain ⟨ω, rfl⟩ := circle_point (hdt h rfl) hz
        exact hval ω
      · simpa [StablePoint] using hs

/-- **C101**: if the largest gains of two stable models over all frequencies have a product below one, the feedback loop is stable, with either sign. Missing: negative feedback around an algebraic loop (`E * D ≠ 0`), where
`feedback` returns the wrong model (C30). -/
theorem C101_small_gain_partial {γ δ : ℝ} (hG : Consistent G p m) (hH : Consistent H m p) (hdt : DtOk G.dt) (h : feedback (.state G) (.state H) neg = .ok R) (D : Matrix (Fin p) (Fin m) ℝ)
    (E : Matrix (Fin m) (Fin p) ℝ) (hGd : G.d = Arr.of D) (hHd : H.d = Arr.of E) (hσ : neg = false ∨ E * D = 0) (hsG : StableModel G) (hsH : StableModel H) (hγ : GainBound G p m γ)
    (hδ : GainBound H m p δ) (hlt : γ * δ < 1) : StableModel R := by
  have he := feedback_dt h
  rw [C99_stable_partial hG hH hdt h D E hGd hHd hσ hsG hsH]
  intro s hs
  obtain ⟨Gs, h1, h2⟩ := gain_outside hG hdt hsG hγ hs
  obtain ⟨Hs, h3, h4⟩ := gain_outside hH (he ▸ hdt) hsH hδ (he ▸ hs)
  refine ⟨Gs, Hs, h1, h3, det_one_sub_ne_zero ?_⟩
  have h5 : ‖Hs * Gs‖ ≤ δ * γ := (l2_opNorm_mul _ _).trans (mul_le_mul h4 h2 (norm_nonneg _) ((norm_nonneg _).trans h4))
  rw [norm_smul]
  have h6 : ‖(if neg then -1 else 1 : ℂ)‖ = 1 := by cases neg <;> simp
  rw [h6, one_mul]
  calc ‖Hs * Gs‖ ≤ δ * γ := h5
    _ < 1 := by rwa [mul_comm]

theorem gainBound_of_hinf {A : Matrix (Fin n) (Fin n) ℝ} {B : Matrix (Fin n) (Fin m) ℝ} {C : Matrix (Fin p) (Fin n) ℝ} {D : Matrix (Fin p) (Fin m) ℝ} {N v : ℝ} (hA : Hurwitz A)
    (h : IsHinf A B C D none N) (hv : N ≤ v) : GainBound (stateOf A B C D none) p m v := by
  intro ω
  refine ⟨_, HasTF.of_dyn ⟨hurwitz_axis hA ω, rfl⟩, le_trans (h.1 ⟨ω, _, ⟨hurwitz_axis hA ω, rfl⟩, rfl⟩) hv⟩

theorem stable_of_hurwitz {A : Matrix (Fin n) (Fin n) ℝ} {B : Matrix (Fin n) (Fin m) ℝ} {C : Matrix (Fin p) (Fin n) ℝ} {D : Matrix (Fin p) (Fin m) ℝ} (hA : Hurwitz A) :
    StableModel (stateOf A B C D none) :=
  Or.inr ⟨n, A, rfl, motions_iff.mpr fun z hz => by simpa [StablePoint] using hA z hz⟩

/-- **C101** with the numbers `system_norm(G, 'inf')` and `system_norm(H, 'inf')`: if their product is below one (by the tolerance of the method) and each is at least the gain of the feedthrough, the loop is stable.
Missing: as in `C101_small_gain_partial` and `C70_hinf_partial`. -/
theorem C101_norms_partial {E : HinfNum} {tol : ℝ} (htol : 0 ≤ tol) (S T : StateObj ℝ ℂ) (A : Matrix (Fin n) (Fin n) ℝ) (B : Matrix (Fin n) (Fin m) ℝ) (C : Matrix (Fin p) (Fin n) ℝ)
    (D : Matrix (Fin p) (Fin m) ℝ) (A' : Matrix (Fin n') (Fin n') ℝ) (B' : Matrix (Fin n') (Fin p) ℝ) (C' : Matrix (Fin m) (Fin n') ℝ) (D' : Matrix (Fin m) (Fin p) ℝ) (hm : 0 < m) (hp : 0 < p)
    (hS : S.g = stateOf A B C D none) (hT : T.g = stateOf A' B' C' D' none) (hst : S.isstable = true) (hst' : T.isstable = true) (hA : Hurwitz A) (hA' : Hurwitz A')
    (hE : FreqExact E A B C D none S.g) (hE' : FreqExact E A' B' C' D' none T.g) (hEig : EigvalsExact E) (v w : ℝ) (h : systemNormInf E tol S = .ok (.fin v))
    (h' : systemNormInf E tol T = .ok (.fin w)) (hv : ‖D.map (algebraMap ℝ ℂ)‖ * (1 + 1 / 2 ^ 26) ≤ v) (hw : ‖D'.map (algebraMap ℝ ℂ)‖ * (1 + 1 / 2 ^ 26) ≤ w)
    (hlt : v * w * (1 + 1 / 2 ^ 25) ^ 2 < 1) (hσ : neg = false ∨ D' * D = 0) (hR : feedback (.state S.g) (.state T.g) neg = .ok R) : StableModel R := by
  obtain ⟨N₁, h1, -, h2⟩ := C70_hinf_partial htol S A B C D hm hS hst hA hE hEig v h hv
  obtain ⟨N₂, h3, -, h4⟩ := C70_hinf_partial htol T A' B' C' D' hp hT hst' hA' hE' hEig w h' hw
  rw [hS, hT] at hR
  refine C101_small_gain_partial ⟨⟨rfl, rfl⟩, fun _ => ⟨rfl, rfl, rfl, rfl, rfl⟩⟩ ⟨⟨rfl, rfl⟩, fun _ => ⟨rfl, rfl, rfl, rfl, rfl⟩⟩ dtOk_none hR D D' rfl rfl hσ (stable_of_hurwitz hA)
    (stable_of_hurwitz hA') (gainBound_of_hinf hA h1 h2) (gainBound_of_hinf hA' h3 h4) ?_
  calc v * (1 + 1 / 2 ^ 25) * (w * (1 + 1 / 2 ^ 25)) = v * w * (1 + 1 / 2 ^ 25) ^ 2 := by ring
    _ < 1 := hlt

theorem not_sv_one {τ : ℝ} (h0 : 0 ≤ τ) (h : τ < 1) : ¬ HasSVAtMost τ (1 : Matrix (Fin m) (Fin m) ℝ) := by
  rintro ⟨x, hx, h1⟩
  rw [one_mulVec] at h1
  have h2 : 0 < x ⬝ᵥ x := by
    have h3 : 0 ≤ x ⬝ᵥ x := Finset.sum_nonneg fun i _ => mul_self_nonneg (x i)
    exact lt_of_le_of_ne h3 fun h4 => hx (dotProduct_self_eq_zero.mp h4.symm)
  have : τ ^ 2 < 1 := by nlinarith
  nlinarith

/-- Without an algebraic loop `feedback` returns a model if the first operand has states. -/
theorem feedback_exists (hG : Consistent G p m) (hH : Consistent H m p) (hdt : DtOk G.dt) (hd : G.dt = H.dt) (hg : G.isgain = false) {D : Matrix (Fin p) (Fin m) ℝ} {E : Matrix (Fin m) (Fin p) ℝ} (hGd : G.d = Arr.of D)
    (hHd : H.d = Arr.of E) (h0 : E * D = 0) (hm : (m * spacing10 : ℝ) < 1) (neg : Bool) : ∃ R, feedback (.state G) (.state H) neg = .ok R := by
  have hsv : ¬ HasSVAtMost (m * spacing10 : ℝ) (1 - E * D) := by
    rw [h0, sub_zero]
    exact not_sv_one (by unfold spacing10; positivity) hm
  have e1 : feedback (.state G) (.state H) neg = closeLoop G H neg := by
    simp [feedback, checkFeedbackIc, StateM.p, StateM.m, hGd, hHd, hd, Bind.bind, Except.bind]
  rcases closeBody_total (P := E * D) hG hH hdt (det_ne_zero_of_not_sv hsv) (σ := fbSign neg) with ⟨R, e3, -, -⟩ | ⟨h1, -⟩
  · exact ⟨R, e1.trans ((closeLoop_of G H D E hGd hHd hsv neg).trans e3)⟩
  · rw [hg] at h1; cases h1

/-- **C101** for models without feedthrough: `feedback` returns a model, and it is stable. The number of inputs is below `2⁴⁹`. Missing: discrete models, whose H∞ norm is wrong (`C70_discrete_violated`). -/
theorem C101_strictly_proper_partial {E : HinfNum} {tol : ℝ} (htol : 0 ≤ tol) (S T : StateObj ℝ ℂ) (A : Matrix (Fin n) (Fin n) ℝ) (B : Matrix (Fin n) (Fin m) ℝ) (C : Matrix (Fin p) (Fin n) ℝ)
    (A' : Matrix (Fin n') (Fin n') ℝ) (B' : Matrix (Fin n') (Fin p) ℝ) (C' : Matrix (Fin m) (Fin n') ℝ) (hm : 0 < m) (hm' : (m * spacing10 : ℝ) < 1) (hp : 0 < p)
    (hS : S.g = stateOf A B C 0 none) (hT : T.g = stateOf A' B' C' 0 none) (hst : S.isstable = true) (hst' : T.isstable = true) (hA : Hurwitz A) (hA' : Hurwitz A')
    (hE : FreqExact E A B C 0 none S.g) (hE' : FreqExact E A' B' C' 0 none T.g) (hEig : EigvalsExact E) (v w : ℝ) (h : systemNormInf E tol S = .ok (.fin v))
    (h' : systemNormInf E tol T = .ok (.fin w)) (hlt : v * w * (1 + 1 / 2 ^ 25) ^ 2 < 1) : ∃ R, feedback (.state S.g) (.state T.g) neg = .ok R ∧ StableModel R := by
  obtain ⟨N₁, h1, -, h2⟩ := C70_strictly_proper_partial htol S A B C hm hS hst hA hE hEig v h
  obtain ⟨N₂, h3, -, h4⟩ := C70_strictly_proper_partial htol T A' B' C' hp hT hst' hA' hE' hEig w h'
  have hc : Consistent (stateOf A B C 0 none : StateM ℝ) p m := ⟨⟨rfl, rfl⟩, fun _ => ⟨rfl, rfl, rfl, rfl, rfl⟩⟩
  have hc' : Consistent (stateOf A' B' C' 0 none : StateM ℝ) m p := ⟨⟨rfl, rfl⟩, fun _ => ⟨rfl, rfl, rfl, rfl, rfl⟩⟩
  rw [hS, hT]
  have e0 : (0 : Matrix (Fin m) (Fin p) ℝ) * (0 : Matrix (Fin p) (Fin m) ℝ) = 0 := Matrix.zero_mul _
  obtain ⟨R, e4⟩ := feedback_exists hc hc' dtOk_none rfl rfl rfl rfl e0 hm' neg
  refine ⟨R, e4, C101_small_gain_partial hc hc' dtOk_none e4 0 0 rfl rfl (Or.inr e0) (stable_of_hurwitz hA) (stable_of_hurwitz hA') (gainBound_of_hinf hA h1 h2) (gainBound_of_hinf hA' h3 h4) ?_⟩
  calc v * (1 + 1 / 2 ^ 25) * (w * (1 + 1 / 2 ^ 25)) = v * w * (1 + 1 / 2 ^ 25) ^ 2 := by ring
    _ < 1 := hlt

/-- `0.5 / (s + 1)`. -/
theorem hinf_half :
    systemNormInf (exactNum !![(-1 : ℝ)] !![1 / 2] !![1] !![0] none) (1 / 10 ^ 8)
      (firstOrder (-1) (1 / 2) 1 0 none) = .ok (.fin (1 / 2 * (1 + 1 / 2 ^ 26))) := by
  rw [scalar_start rfl rfl rfl (exactNum_freq _ _ _ _ _ _) (by simp)]
  have h1 : ‖((1 : ℝ) : ℂ) * (evalPoint none 0 - ((-1 : ℝ) : ℂ))⁻¹ * ((1 / 2 : ℝ) : ℂ) + ((0 : ℝ) : ℂ)‖ = 1 / 2 := by
    simp [evalPoint]
  have h2 : ‖((1 : ℝ) : ℂ) * (evalPoint none |(-1 : ℝ)| - ((-1 : ℝ) : ℂ))⁻¹ * ((1 / 2 : ℝ) : ℂ) + ((0 : ℝ) : ℂ)‖ ≤ 1 / 2 := by
    simp only [evalPoint, Option.elim]
    simp
    apply inv_le_one_of_one_le₀
    have := Complex.abs_re_le_norm (Complex.I + 1)
    simpa using this
  rw [h1, max_eq_left h2, abs_zero, max_eq_left (by norm_num)]
  rw [show (firstOrder (-1) (1 / 2) 1 0 none).g = stateOf !![-1] !![1 / 2] !![1] !![0] none from rfl,
    hinfLoop_break (exactNum_eig _ _ _ _ _)]
  · simp only [Except.bind]; congr 2; rw [gammaStep]; norm_num
  · rw [scalar_hR, gammaStep]; norm_num
  · rw [scalar_hS, gammaStep]; norm_num
  · intro z hz
    rw [scalar_isEig] at hz
    rw [re_of_sq _ hz]
    · rw [gammaStep]
      apply Real.lt_sqrt_of_sq_lt
      norm_num
    · rw [gammaStep]; norm_num

/-- The loop of `0.5/(s+1)` with itself. -/
example : ∃ R, feedback (.state (firstOrder (-1) (1 / 2) 1 0 none).g) (.state (firstOrder (-1) (1 / 2) 1 0 none).g) true = .ok R ∧ StableModel R := by
  have h0 : (0 : Matrix (Fin 1) (Fin 1) ℝ) = !![0] := by
    ext i j; fin_cases i; fin_cases j; rfl
  have hA : Hurwitz !![(-1 : ℝ)] := one_state_hurwitz (by norm_num)
  refine C101_strictly_proper_partial (E := exactNum !![(-1 : ℝ)] !![1 / 2] !![1] !![0] none) (tol := 1 / 10 ^ 8) (by norm_num) (firstOrder (-1) (1 / 2) 1 0 none) (firstOrder (-1) (1 / 2) 1 0 none) !![-1] !![1 / 2] !![1]
    !![-1] !![1 / 2] !![1] one_pos (by norm_num [spacing10]) one_pos (by rw [h0]; rfl) (by rw [h0]; rfl) rfl rfl hA hA
    (by rw [h0]; exact exactNum_freq _ _ _ _ _ _) (by rw [h0]; exact exactNum_freq _ _ _ _ _ _) (exactNum_eig _ _ _ _ _) _ _ hinf_half hinf_half ?_
  norm_num

/-- The hypotheses of `C101_norms_partial` are met by the same loop. -/
example : ∃ R, feedback (.state (firstOrder (-1) (1 / 2) 1 0 none).g) (.state (firstOrder (-1) (1 / 2) 1 0 none).g) false = .ok R ∧ StableModel R := by
  have hA : Hurwitz !![(-1 : ℝ)] := one_state_hurwitz (by norm_num)
  have h0 : (!![0] * !![0] : Matrix (Fin 1) (Fin 1) ℝ) = 0 := by ext i j; fin_cases i; fin_cases j; simp
  have hc : Consistent (firstOrder (-1) (1 / 2) 1 0 none).g 1 1 := ⟨⟨rfl, rfl⟩, fun _ => ⟨rfl, rfl, rfl, rfl, rfl⟩⟩
  obtain ⟨R, hR⟩ := feedback_exists hc hc dtOk_none rfl rfl (D := !![0]) (E := !![0]) rfl rfl h0 (by norm_num [spacing10]) false
  refine ⟨R, hR, C101_norms_partial (E := exactNum !![(-1 : ℝ)] !![1 / 2] !![1] !![0] none) (tol := 1 / 10 ^ 8) (by norm_num) (firstOrder (-1) (1 / 2) 1 0 none) (firstOrder (-1) (1 / 2) 1 0 none) !![-1] !![1 / 2] !![1] !![0]
    !![-1] !![1 / 2] !![1] !![0] one_pos one_pos rfl rfl rfl rfl hA hA (exactNum_freq _ _ _ _ _ _) (exactNum_freq _ _ _ _ _ _) (exactNum_eig _ _ _ _ _) _ _ hinf_half hinf_half ?_ ?_ ?_ (Or.inl rfl) hR⟩
  · rw [norm_one_one]; simp; norm_num
  · rw [norm_one_one]; simp; norm_num
  · norm_num

/-- A sampled model, `1/(2z)` with the period `0.1`, with the gain `-3/2` in the return path. -/
example : ∃ R : StateM ℝ, feedback (.state ⟨Arr.of !![0], Arr.of !![1 / 2], Arr.of !![1], Arr.of !![0], some (1 / 10), false⟩)
    (.state ⟨Arr.empty, Arr.empty, Arr.empty, Arr.of !![-(3 / 2)], some (1 / 10), true⟩) true = .ok R ∧ StableModel R := by
  have h0 : (!![-(3 / 2)] * !![0] : Matrix (Fin 1) (Fin 1) ℝ) = 0 := by ext i j; fin_cases i; fin_cases j; simp
  have hdt : DtOk (some (1 / 10 : ℝ)) := fun h e => by cases e; norm_num
  have hcG : Consistent (⟨Arr.of !![0], Arr.of !![1 / 2], Arr.of !![1], Arr.of !![0], some (1 / 10), false⟩ : StateM ℝ) 1 1 := ⟨⟨rfl, rfl⟩, fun _ => ⟨rfl, rfl, rfl, rfl, rfl⟩⟩
  have hcH : Consistent (⟨Arr.empty, Arr.empty, Arr.empty, Arr.of !![-(3 / 2)], some (1 / 10), true⟩ : StateM ℝ) 1 1 := ⟨⟨rfl, rfl⟩, fun h => by cases h⟩
  obtain ⟨R, hR⟩ := feedback_exists hcG hcH hdt rfl rfl (D := !![0]) (E := !![-(3 / 2)]) rfl rfl h0 (by norm_num [spacing10]) true
  refine ⟨R, hR, C101_small_gain_partial (γ := 1 / 2) (δ := 3 / 2) hcG hcH hdt hR !![0] !![-(3 / 2)] rfl rfl (Or.inr h0) ?_ (Or.inl rfl) ?_ ?_ (by norm_num)⟩
  · refine (stable_iff_char hcG).mpr fun s hs => ?_
    rcases hs with ⟨h, -⟩ | ⟨-, n, A, hA, h1⟩
    · cases h
    · obtain rfl : 1 = n := congrArg Arr.r hA
      obtain rfl := Arr.of_inj.mp hA
      have : s = 0 := by simpa [Matrix.det_fin_one] using h1.symm
      simp [StablePoint, this]
  · intro ω
    have hn : ‖evalPoint (some (1 / 10)) ω‖ = 1 := by
      have : evalPoint (some (1 / 10)) ω = Complex.exp ((ω * (1 / 10) : ℝ) * Complex.I) := by
        simp only [evalPoint, Option.elim]
        congr 1
        push_cast
        ring
      rw [this, Complex.norm_exp_ofReal_mul_I]
    have hz : evalPoint (some (1 / 10)) ω ≠ 0 := fun h => by rw [h, norm_zero] at hn; norm_num at hn
    refine ⟨!![1 / (2 * evalPoint (some (1 / 10)) ω)], HasTF.of_dyn (isTF_iff_sol.mpr ⟨?_, !![1 / (2 * evalPoint (some (1 / 10)) ω)], ?_, ?_⟩), ?_⟩
    · simpa [Matrix.det_fin_one] using hz
    · ext i j; fin_cases i; fin_cases j
      simp [Matrix.mul_apply]
      field_simp
    · ext i j; fin_cases i; fin_cases j; simp [Matrix.mul_apply]
    · rw [scalar_norm, norm_div, norm_mul, hn]
      norm_num
  · intro ω
    refine ⟨_, HasTF.of_gain, ?_⟩
    rw [norm_one_one]
    simp

end Harold
