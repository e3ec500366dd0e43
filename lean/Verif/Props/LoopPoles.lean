import Verif.Spec.LoopPoles
import Verif.Lemmas.LoopDet
import Verif.Lemmas.FeedbackTransfer
import Verif.Props.PoleMap

/-!
# C99: the poles of a feedback loop
-/

namespace Harold

open Matrix Harold.Spec

section
variable {K L : Type} [Field K] [LinearOrder K] [IsStrictOrderedRing K] [Field L] [Algebra K L] {m p : ℕ} {G H R : StateM K} {s v w : L} {neg : Bool}

local notation "φ" => algebraMap K L

omit [LinearOrder K] [IsStrictOrderedRing K] in
theorem CharAt_unique (h : CharAt G s v) (h' : CharAt G s w) : v = w := by
  rcases h with ⟨hg, rfl⟩ | ⟨hg, n, A, hA, rfl⟩ <;> rcases h' with ⟨hg', rfl⟩ | ⟨hg', n', A', hA', rfl⟩
  · rfl
  · rw [hg] at hg'; cases hg'
  · rw [hg] at hg'; cases hg'
  · obtain rfl : n = n' := congrArg Arr.r (hA.symm.trans hA')
    rw [hA, Arr.of_inj] at hA'
    rw [hA']

omit [LinearOrder K] [IsStrictOrderedRing K] in
/-- The transfer matrix has a value at `s` exactly if the characteristic polynomial does not vanish. -/
theorem hasTF_iff_char (hc : Consistent G p m) (hv : CharAt G s v) : (∃ M, HasTF G p m s M) ↔ v ≠ 0 := by
  obtain ⟨a, b, c, D, dt, rfl⟩ | ⟨n, A, B, C, D, dt, rfl⟩ := consistent_cases hc
  · have : v = 1 := CharAt_unique hv (Or.inl ⟨rfl, rfl⟩)
    subst this
    exact ⟨fun _ => one_ne_zero, fun _ => ⟨_, HasTF.of_gain⟩⟩
  · have : v = _ := CharAt_unique hv (Or.inr ⟨rfl, n, A, rfl, rfl⟩)
    subst this
    refine ⟨?_, fun h => ⟨_, HasTF.of_dyn ⟨h, rfl⟩⟩⟩
    rintro ⟨M, ⟨h, _⟩ | ⟨_, n', A', B', C', D', hA, hB, hC, hD, h, _⟩⟩
    · cases h
    · obtain rfl : n = n' := congrArg Arr.r hA
      obtain rfl := Arr.of_inj.mp hA
      exact h

omit [LinearOrder K] [IsStrictOrderedRing K] in
theorem exists_char (hc : Consistent G p m) (s : L) : ∃ v, CharAt G s v := by
  obtain ⟨a, b, c, D, dt, rfl⟩ | ⟨n, A, B, C, D, dt, rfl⟩ := consistent_cases hc
  · exact ⟨1, Or.inl ⟨rfl, rfl⟩⟩
  · exact ⟨_, Or.inr ⟨rfl, n, A, rfl, rfl⟩⟩

theorem feedback_closeLoop (h : feedback (.state G) (.state H) neg = .ok R) : closeLoop G H neg = .ok R := by
  simp only [feedback, checkFeedbackIc, bind, Except.bind] at h
  by_cases h1 : G.dt ≠ H.dt
  · rw [if_pos h1] at h; cases h
  · rw [if_neg h1] at h
    by_cases h2 : G.p ≠ H.m ∨ G.m ≠ H.p
    · simp only at h
      rw [if_pos h2] at h; cases h
    · simp only at h
      rw [if_neg h2] at h
      exact h

theorem feedback_dt (h : feedback (.state G) (.state H) neg = .ok R) : G.dt = H.dt := by
  by_contra h1
  simp only [feedback, checkFeedbackIc, bind, Except.bind] at h
  rw [if_pos h1] at h
  cases h

/-- What a successful call returns. -/
theorem feedback_result (hG : Consistent G p m) (hH : Consistent H m p) (hdt : DtOk G.dt) (h : feedback (.state G) (.state H) neg = .ok R) : Consistent R p m ∧ R.dt = G.dt ∧
    ∀ (D : Matrix (Fin p) (Fin m) K) (N : Matrix (Fin m) (Fin p) K), G.d = Arr.of D → H.d = Arr.of N →
      (1 - N * D).det ≠ 0 ∧ closeBody G H (fbSign neg) (Arr.of (N * D)) (Arr.of (1 - N * D)) = .ok R := by
  have h := feedback_closeLoop h
  have key : ∀ (D : Matrix (Fin p) (Fin m) K) (N : Matrix (Fin m) (Fin p) K), G.d = Arr.of D → H.d = Arr.of N →
      (1 - N * D).det ≠ 0 ∧ closeBody G H (fbSign neg) (Arr.of (N * D)) (Arr.of (1 - N * D)) = .ok R := by
    intro D N hD hN
    have hwp : ¬ HasSVAtMost (m * spacing10 : K) (1 - N * D) := by
      intro hsv
      rw [closeLoop_ill G H D N hD hN hsv neg] at h
      cases h
    rw [closeLoop_of G H D N hD hN hwp neg] at h
    exact ⟨det_ne_zero_of_not_sv hwp, h⟩
  obtain ⟨D, hD⟩ := Arr.exists_of hG.1.1 hG.1.2
  obtain ⟨N, hN⟩ := Arr.exists_of hH.1.1 hH.1.2
  obtain ⟨hΔ, hb⟩ := key D N hD hN
  rcases closeBody_total (P := N * D) hG hH hdt hΔ (σ := fbSign neg) with ⟨R', e, h1, h2⟩ | ⟨_, _, _, e⟩
  · obtain rfl : R = R' := by
      rw [hb] at e
      exact Except.ok.inj e
    exact ⟨h1, h2, key⟩
  · rw [hb] at e
    cases e

/-- **C99**, at every point `s` that is a pole of neither operand: the characteristic polynomial of the closed loop is the product of those of the operands and of the determinant of the return difference `1 ± H(s) G(s)`,
divided by its value at infinity `det(1 - N D)`, where `D` and `N` are the direct feedthrough terms. Missing: negative feedback around an algebraic loop (`N * D ≠ 0`), where `feedback` returns the wrong model (C30). -/
theorem C99_characteristic_partial (hdt : DtOk G.dt) (h : feedback (.state G) (.state H) neg = .ok R) (D : Matrix (Fin p) (Fin m) K) (N : Matrix (Fin m) (Fin p) K)
    (hGd : G.d = Arr.of D) (hHd : H.d = Arr.of N) (hσ : neg = false ∨ N * D = 0) {Gs : Matrix (Fin p) (Fin m) L} {Hs : Matrix (Fin m) (Fin p) L} (hG : HasTF G p m s Gs) (hH : HasTF H m p s Hs)
    {g k r : L} (hg : CharAt G s g) (hk : CharAt H s k) (hr : CharAt R s r) :
    g ≠ 0 ∧ k ≠ 0 ∧ (1 - N * D).det ≠ 0 ∧ r * φ (1 - N * D).det = g * k * (1 - (if neg then -1 else 1 : L) • (Hs * Gs)).det := by
  have hcG := hasTF_consistent hG
  have hcH := hasTF_consistent hH
  obtain ⟨_, _, hb⟩ := feedback_result hcG hcH hdt h
  obtain ⟨hΔ, hb⟩ := hb D N hGd hHd
  refine ⟨(hasTF_iff_char hcG hg).mp ⟨_, hG⟩, (hasTF_iff_char hcH hk).mp ⟨_, hH⟩, hΔ, ?_⟩
  change r * φ (1 - N * D).det = g * k * (1 - (fbSign neg : L) • (Hs * Gs)).det
  have hσK : (fbSign neg : K) • (N * D) = N * D := by
    rcases hσ with h | h
    · simp [h, fbSign]
    · simp [h]
  have hφσ : φ (fbSign neg) = (fbSign neg : L) := by cases neg <;> simp [fbSign]
  have hσL : (fbSign neg : L) • (N.map φ * D.map φ) = N.map φ * D.map φ := by
    rw [← map_mul', ← hφσ, ← map_smul', hσK]
  set E := (1 - N * D)⁻¹ with hEdef
  have hE : E.map φ * (1 - N.map φ * D.map φ) = 1 := by
    have h1 : E * (1 - N * D) = 1 := nonsing_inv_mul _ (Ne.isUnit hΔ)
    have h2 := congrArg (fun X => X.map φ) h1
    simp only [map_mul', map_sub'] at h2
    simpa using h2
  have hΔL : φ (1 - N * D).det = (1 - N.map φ * D.map φ).det := by
    rw [RingHom.map_det, RingHom.mapMatrix_apply, map_sub', map_mul']
    simp
  rw [hΔL]
  obtain ⟨a₁, b₁, c₁, d₁, dt₁, i₁⟩ := G
  obtain ⟨a₂, b₂, c₂, d₂, dt₂, i₂⟩ := H
  simp only at hGd hHd hdt
  subst hGd hHd
  rcases hG with ⟨h1, D', hD', rfl⟩ | ⟨h1, n₁, A, B, C, D', hA, hB, hC, hD', hT₁⟩
  · obtain rfl : D = D' := Arr.of_inj.mp hD'
    simp only at h1
    subst h1
    obtain rfl := CharAt_unique hg (Or.inl ⟨rfl, rfl⟩)
    rcases hH with ⟨h2, N', hN', rfl⟩ | ⟨h2, n₂, Ka, Lb, Mc, N', hKa, hLb, hMc, hN', hT₂⟩
    · obtain rfl : N = N' := Arr.of_inj.mp hN'
      simp only at h2
      subst h2
      obtain rfl := CharAt_unique hk (Or.inl ⟨rfl, rfl⟩)
      have hi : R.isgain = true := by
        by_cases hz : D ≠ 0 ∧ N ≠ 0
        · rw [closeBody_ss hdt _ _ _ _ _ _ _ _ hz.1 hz.2 _ _ hΔ _] at hb
          cases hb
          rfl
        · rcases closeBody_total (P := N * D) hcG hcH hdt hΔ (σ := fbSign neg) with ⟨R', e, _, _⟩ | ⟨_, _, _, e⟩
          · have any_of : ∀ {r c : ℕ} (X : Matrix (Fin r) (Fin c) K), (Arr.of X).any = true → X ≠ 0 := by
              intro r c X hX
              rw [Arr.any_iff] at hX
              rintro rfl
              obtain ⟨i, j, h⟩ := hX
              exact h rfl
            simp only [closeBody, Bool.and_self, if_true] at hb
            rw [if_neg] at hb
            · cases hb
            · intro h'
              rw [Bool.and_eq_true] at h'
              exact hz ⟨any_of _ h'.1, any_of _ h'.2⟩
          · rw [hb] at e; cases e
      obtain rfl := CharAt_unique hr (Or.inl ⟨hi, rfl⟩)
      rw [hσL, one_mul, one_mul, one_mul]
    · obtain rfl : N = N' := Arr.of_inj.mp hN'
      simp only at h2 hKa hLb hMc
      subst h2 hKa hLb hMc
      obtain rfl := CharAt_unique hk (Or.inr ⟨rfl, n₂, Ka, rfl, rfl⟩)
      rw [closeBody_sd hdt _ _ _ _ _ _ _ _ _ _ hΔ _] at hb
      cases hb
      obtain rfl := CharAt_unique hr (Or.inr ⟨rfl, n₂, _, rfl, rfl⟩)
      rw [one_mul, ← det_loop_sd hT₂ hσL hE]
      simp only [map_add', map_mul', map_smul', hφσ, ← hEdef]
  · obtain rfl : D = D' := Arr.of_inj.mp hD'
    simp only at h1 hA hB hC
    subst h1 hA hB hC
    obtain rfl := CharAt_unique hg (Or.inr ⟨rfl, n₁, A, rfl, rfl⟩)
    rcases hH with ⟨h2, N', hN', rfl⟩ | ⟨h2, n₂, Ka, Lb, Mc, N', hKa, hLb, hMc, hN', hT₂⟩
    · obtain rfl : N = N' := Arr.of_inj.mp hN'
      simp only at h2
      subst h2
      obtain rfl := CharAt_unique hk (Or.inl ⟨rfl, rfl⟩)
      rw [closeBody_ds hdt _ _ _ _ _ _ _ _ _ _ hΔ _] at hb
      cases hb
      obtain rfl := CharAt_unique hr (Or.inr ⟨rfl, n₁, _, rfl, rfl⟩)
      rw [mul_one, ← det_loop_ds hT₁ hσL hE]
      simp only [map_add', map_mul', map_smul', hφσ, ← hEdef]
    · obtain rfl : N = N' := Arr.of_inj.mp hN'
      simp only at h2 hKa hLb hMc
      subst h2 hKa hLb hMc
      obtain rfl := CharAt_unique hk (Or.inr ⟨rfl, n₂, Ka, rfl, rfl⟩)
      rw [closeBody_dd hdt _ _ _ _ _ _ _ _ _ _ hΔ _] at hb
      cases hb
      obtain rfl := CharAt_unique hr (Or.inr ⟨rfl, n₁ + n₂, _, rfl, rfl⟩)
      rw [← det_loop_dd hT₁ hT₂ hσL hE]
      simp only [map_add', map_mul', map_smul', hφσ, ← hEdef, blk_map, vcat_map, hcat_map]
      simp

/-- **C99**: the closed loop has a transfer matrix at `s`, which is a pole of neither operand, exactly if the return difference is invertible there. Missing: as in `C99_characteristic_partial`. -/
theorem C99_response_partial (hdt : DtOk G.dt) (h : feedback (.state G) (.state H) neg = .ok R) (D : Matrix (Fin p) (Fin m) K) (N : Matrix (Fin m) (Fin p) K)
    (hGd : G.d = Arr.of D) (hHd : H.d = Arr.of N) (hσ : neg = false ∨ N * D = 0) {Gs : Matrix (Fin p) (Fin m) L} {Hs : Matrix (Fin m) (Fin p) L} (hG : HasTF G p m s Gs) (hH : HasTF H m p s Hs) :
    (∃ M : Matrix (Fin p) (Fin m) L, HasTF R p m s M) ↔ (1 - (if neg then -1 else 1 : L) • (Hs * Gs)).det ≠ 0 := by
  have hcR := (feedback_result (hasTF_consistent hG) (hasTF_consistent hH) hdt h).1
  obtain ⟨g, hg⟩ := exists_char (hasTF_consistent hG) s
  obtain ⟨k, hk⟩ := exists_char (hasTF_consistent hH) s
  obtain ⟨r, hr⟩ := exists_char hcR s
  obtain ⟨h1, h2, h3, h4⟩ := C99_characteristic_partial hdt h D N hGd hHd hσ hG hH hg hk hr
  rw [hasTF_iff_char hcR hr]
  have h5 : φ (1 - N * D).det ≠ 0 := by simpa using h3
  constructor
  · intro hr0 hd0
    rw [hd0, mul_zero] at h4
    exact (mul_ne_zero hr0 h5) h4
  · rintro hd0 rfl
    rw [zero_mul] at h4
    exact mul_ne_zero (mul_ne_zero h1 h2) hd0 h4.symm

end

section
variable {m p : ℕ} {G H R : StateM ℝ} {neg : Bool} {N : Numerics ℝ ℂ}

theorem char_zero_eig {z : ℂ} (hc : Consistent G p m) : CharAt G z 0 ↔ G.isgain = false ∧ ∃ (n : ℕ) (A : Matrix (Fin n) (Fin n) ℝ), G.a = Arr.of A ∧ IsEig A z := by
  constructor
  · rintro (⟨_, h⟩ | ⟨h, n, A, hA, hv⟩)
    · exact absurd h.symm one_ne_zero
    · exact ⟨h, n, A, hA, hv.symm⟩
  · rintro ⟨h, n, A, hA, hv⟩
    exact Or.inr ⟨h, n, A, hA, hv.symm⟩

/-- The poles of an object are the zeros of the characteristic polynomial of its matrices. -/
theorem mem_poles (hN : EigExact N) {T : StateObj ℝ ℂ} (hP : PolesCurrent N T) (hc : Consistent T.g p m) {z : ℂ} : z ∈ T.poles ↔ CharAt T.g z 0 := by
  rw [char_zero_eig hc]
  cases hi : T.g.isgain with
  | true => simp [poles_gain hP hi]
  | false =>
    obtain ⟨a, b, c, D, dt, hG⟩ | ⟨n, A, B, C, D, dt, hG⟩ := consistent_cases hc
    · simp [hG] at hi
    · have hA : T.g.a = Arr.of A := by rw [hG]
      rw [poles_dyn hP hi hA, eig_mem hN]
      constructor
      · intro h
        exact ⟨rfl, n, A, hA, h⟩
      · rintro ⟨_, n', A', hA', h⟩
        rw [hA] at hA'
        obtain rfl : n = n' := congrArg Arr.r hA'
        obtain rfl := Arr.of_inj.mp hA'
        exact h

theorem stable_iff_char (hc : Consistent G p m) : StableModel G ↔ ∀ z, CharAt G z 0 → StablePoint G.dt z := by
  obtain ⟨a, b, c, D, dt, rfl⟩ | ⟨n, A, B, C, D, dt, rfl⟩ := consistent_cases hc
  · refine ⟨fun _ z hz => ?_, fun _ => Or.inl rfl⟩
    have := CharAt_unique hz (Or.inl ⟨rfl, rfl⟩)
    exact absurd this.symm one_ne_zero
  · have h1 : StableModel ⟨Arr.of A, Arr.of B, Arr.of C, Arr.of D, dt, false⟩ ↔ MotionsVanish dt A := by
      constructor
      · rintro (h | ⟨n', A', hA, h⟩)
        · cases h
        · obtain rfl : n = n' := congrArg Arr.r hA
          obtain rfl := Arr.of_inj.mp hA
          exact h
      · exact fun h => Or.inr ⟨n, A, rfl, h⟩
    rw [h1, motions_iff]
    refine forall_congr' fun z => ?_
    have : CharAt (⟨Arr.of A, Arr.of B, Arr.of C, Arr.of D, dt, false⟩ : StateM ℝ) z 0 ↔ IsEig A z :=
      ⟨fun h => (CharAt_unique h (Or.inr ⟨rfl, n, A, rfl, rfl⟩)).symm, fun h => Or.inr ⟨rfl, n, A, rfl, h.symm⟩⟩
    rw [this]

/-- **C99**, the poles reported for the closed loop, as far as they are not poles of the operands: the points where the return difference `1 ± H(s) G(s)` is singular.
Missing: as in `C99_characteristic_partial`. -/
theorem C99_poles_partial (hN : EigExact N) (hdt : DtOk G.dt) (h : feedback (.state G) (.state H) neg = .ok R) (D : Matrix (Fin p) (Fin m) ℝ) (E : Matrix (Fin m) (Fin p) ℝ)
    (hGd : G.d = Arr.of D) (hHd : H.d = Arr.of E) (hσ : neg = false ∨ E * D = 0) {T : StateObj ℝ ℂ} (hT : T.g = R) (hP : PolesCurrent N T) {s : ℂ} {Gs : Matrix (Fin p) (Fin m) ℂ}
    {Hs : Matrix (Fin m) (Fin p) ℂ} (hG : HasTF G p m s Gs) (hH : HasTF H m p s Hs) :
    s ∈ T.poles ↔ (1 - (if neg then -1 else 1 : ℂ) • (Hs * Gs)).det = 0 := by
  have hcR := (feedback_result (hasTF_consistent hG) (hasTF_consistent hH) hdt h).1
  have key := C99_response_partial hdt h D E hGd hHd hσ hG hH
  rw [ne_eq] at key
  rw [← not_iff_not, ← key, mem_poles hN hP (hT ▸ hcR), hT]
  obtain ⟨r, hr⟩ := exists_char hcR s
  rw [hasTF_iff_char hcR hr, not_iff_not]
  exact ⟨fun h' => (CharAt_unique h' hr).symm, fun h' => h' ▸ hr⟩

/-- **C99**, stability: a loop of two stable models is stable exactly if the return difference is invertible at every point outside the stability region. Missing: as in `C99_characteristic_partial`. -/
theorem C99_stable_partial (hG : Consistent G p m) (hH : Consistent H m p) (hdt : DtOk G.dt) (h : feedback (.state G) (.state H) neg = .ok R) (D : Matrix (Fin p) (Fin m) ℝ)
    (E : Matrix (Fin m) (Fin p) ℝ) (hGd : G.d = Arr.of D) (hHd : H.d = Arr.of E) (hσ : neg = false ∨ E * D = 0) (hsG : StableModel G) (hsH : StableModel H) :
    StableModel R ↔ ∀ s : ℂ, ¬ StablePoint G.dt s → ∃ (Gs : Matrix (Fin p) (Fin m) ℂ) (Hs : Matrix (Fin m) (Fin p) ℂ), HasTF G p m s Gs ∧ HasTF H m p s Hs ∧
      (1 - (if neg then -1 else 1 : ℂ) • (Hs * Gs)).det ≠ 0 := by
  obtain ⟨hcR, hRdt, _⟩ := feedback_result hG hH hdt h
  have val : ∀ {F : StateM ℝ} {a b : ℕ}, Consistent F a b → StableModel F → ∀ s, ¬ StablePoint F.dt s → ∃ M : Matrix (Fin a) (Fin b) ℂ, HasTF F a b s M := by
    intro F a b hc hs s hns
    obtain ⟨v, hv⟩ := exists_char hc s
    rw [hasTF_iff_char hc hv]
    rintro rfl
    exact hns ((stable_iff_char hc).mp hs s hv)
  rw [stable_iff_char hcR]
  constructor
  · intro hst s hs
    obtain ⟨Gs, hGs⟩ := val hG hsG s hs
    obtain ⟨Hs, hHs⟩ := val hH hsH s (by rwa [← feedback_dt h])
    refine ⟨Gs, Hs, hGs, hHs, (C99_response_partial hdt h D E hGd hHd hσ hGs hHs).mp ?_⟩
    obtain ⟨r, hr⟩ := exists_char hcR s
    rw [hasTF_iff_char hcR hr]
    rintro rfl
    exact hs (hRdt ▸ hst s hr)
  · intro hall s hs
    by_contra hns
    rw [hRdt] at hns
    obtain ⟨Gs, Hs, hGs, hHs, hd⟩ := hall s hns
    have := (C99_response_partial hdt h D E hGd hHd hσ hGs hHs).mpr hd
    rw [hasTF_iff_char hcR hs] at this
    exact this rfl

end

/-- `feedback(G, G)` for `G = 1/(s+1)`: `det(s I - A) = (s+1)² + 1`, at `s = 1` the value `2 · 2 · (1 + 1/4)`. -/
example : ∃ R r, feedback (.state lag) (.state lag) true = .ok R ∧ CharAt R (1 : ℚ) r ∧ r = 5 := by
  have e : (1 - !![0] * !![0] : Matrix (Fin 1) (Fin 1) ℚ) = !![1] := by
    ext i j; fin_cases i; fin_cases j; simp
  have hsv : ¬ HasSVAtMost ((1 : ℕ) * spacing10 : ℚ) (1 - !![0] * !![0] : Matrix (Fin 1) (Fin 1) ℚ) := by
    rw [e]; exact not_sv_scalar (by norm_num [spacing10])
  have h0 : (!![0] * !![0] : Matrix (Fin 1) (Fin 1) ℚ) = 0 := by
    ext i j; fin_cases i; fin_cases j; simp
  obtain ⟨R, hR, -, -⟩ := C30_feedback_partial lag_hasTF lag_hasTF dtOk_none rfl true !![0] !![0] rfl rfl
    (Or.inr h0) (by simp [lag]) hsv (by simp [Matrix.det_fin_one]; norm_num)
  obtain ⟨r, hr⟩ := exists_char (feedback_result (hasTF_consistent lag_hasTF) (hasTF_consistent lag_hasTF) dtOk_none hR).1 (1 : ℚ)
  have hg : CharAt lag (1 : ℚ) 2 := Or.inr ⟨rfl, 1, !![-1], rfl, by simp [Matrix.det_fin_one]; norm_num⟩
  obtain ⟨-, -, -, h4⟩ := C99_characteristic_partial dtOk_none hR !![0] !![0] rfl rfl (Or.inr h0) lag_hasTF lag_hasTF hg hg hr
  refine ⟨R, r, hR, hr, ?_⟩
  rw [e] at h4
  simp [Matrix.det_fin_one] at h4
  rw [h4]
  norm_num

/-- Over the reals: `1/(s+1)` with the gain `2` in the return path is stable since `1 + 2/(s+1)` has no zero in the closed right half plane. -/
example : ∃ R : StateM ℝ, feedback (.state ⟨Arr.of !![-1], Arr.of !![1], Arr.of !![1], Arr.of !![0], none, false⟩)
    (.state ⟨Arr.empty, Arr.empty, Arr.empty, Arr.of !![2], none, true⟩) true = .ok R ∧ StableModel R := by
  have h0 : (!![2] * !![0] : Matrix (Fin 1) (Fin 1) ℝ) = 0 := by
    ext i j; fin_cases i; fin_cases j; simp
  have hsv : ¬ HasSVAtMost ((1 : ℕ) * spacing10 : ℝ) (1 - !![2] * !![0] : Matrix (Fin 1) (Fin 1) ℝ) := by
    rw [h0, sub_zero]
    rintro ⟨x, hx, h1⟩
    have hx0 : x 0 ≠ 0 := fun h0 => hx (by ext i; fin_cases i; exact h0)
    simp only [one_mulVec, dotProduct, Fin.sum_univ_one] at h1
    have : 0 < x 0 * x 0 := mul_self_pos.mpr hx0
    norm_num [spacing10] at h1
    nlinarith
  have hcG : Consistent (⟨Arr.of !![-1], Arr.of !![1], Arr.of !![1], Arr.of !![0], none, false⟩ : StateM ℝ) 1 1 := ⟨⟨rfl, rfl⟩, fun _ => ⟨rfl, rfl, rfl, rfl, rfl⟩⟩
  have hcH : Consistent (⟨Arr.empty, Arr.empty, Arr.empty, Arr.of !![2], none, true⟩ : StateM ℝ) 1 1 := ⟨⟨rfl, rfl⟩, fun h => by cases h⟩
  have tf : ∀ s : ℂ, s + 1 ≠ 0 → HasTF (⟨Arr.of !![-1], Arr.of !![1], Arr.of !![1], Arr.of !![0], none, false⟩ : StateM ℝ) 1 1 s !![1 / (s + 1)] := by
    intro s hs
    refine HasTF.of_dyn (isTF_iff_sol.mpr ⟨?_, !![1 / (s + 1)], ?_, ?_⟩)
    · simpa [Matrix.det_fin_one] using hs
    · ext i j; fin_cases i; fin_cases j
      simp [Matrix.mul_apply, hs]
    · ext i j; fin_cases i; fin_cases j; simp [Matrix.mul_apply]
  have tg : ∀ s : ℂ, HasTF (⟨Arr.empty, Arr.empty, Arr.empty, Arr.of !![2], none, true⟩ : StateM ℝ) 1 1 s ((!![2] : Matrix (Fin 1) (Fin 1) ℝ).map (algebraMap ℝ ℂ)) := fun s => HasTF.of_gain
  have hdet : ∀ s : ℂ, s + 1 ≠ 0 → (1 - (if true = true then -1 else 1 : ℂ) • ((!![2] : Matrix (Fin 1) (Fin 1) ℝ).map (algebraMap ℝ ℂ) * !![1 / (s + 1)])).det = (s + 3) / (s + 1) := by
    intro s hs
    simp [Matrix.det_fin_one, Matrix.mul_apply]
    field_simp
    ring
  obtain ⟨R, hR, -, -⟩ := C30_feedback_partial (tf 0 (by simp)) (tg 0) dtOk_none rfl true !![0] !![2] rfl rfl (Or.inr h0) (by simp) hsv (by rw [hdet 0 (by simp)]; norm_num)
  refine ⟨R, hR, (C99_stable_partial hcG hcH dtOk_none hR !![0] !![2] rfl rfl (Or.inr h0) ?_ (Or.inl rfl)).mpr ?_⟩
  · exact Or.inr ⟨1, !![-1], rfl, motions_iff.mpr fun z hz => by simpa [StablePoint] using one_state_hurwitz (a := -1) (by norm_num) z hz⟩
  · intro s hs
    have h1 : 0 ≤ s.re := by simpa [StablePoint] using hs
    have ne : ∀ x : ℝ, 0 < x → s + x ≠ 0 := by
      intro x hx h
      have := congrArg Complex.re h
      simp at this
      linarith
    have h2 : s + 1 ≠ 0 := by simpa using ne 1 one_pos
    refine ⟨_, _, tf s h2, tg s, ?_⟩
    rw [hdet s h2]
    exact div_ne_zero (by simpa using ne 3 (by norm_num)) h2

end Harold
