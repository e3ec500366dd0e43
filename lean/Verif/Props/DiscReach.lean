import Verif.Lemmas.Hautus
import Verif.Props.Kalman

/-!
# C103: discretization keeps controllability and observability
-/

namespace Harold

open Matrix NormedSpace Harold.Spec

variable {P : Type} {N : Numerics ℝ P} {E : DNum} {G S : StateObj ℝ P} {dt pw : ℝ} {method : String} {q : Option (Arr ℝ)} {n m p : ℕ}
  {A A' : Matrix (Fin n) (Fin n) ℝ} {B B' : Matrix (Fin n) (Fin m) ℝ} {C C' : Matrix (Fin p) (Fin n) ℝ} {D D' : Matrix (Fin p) (Fin m) ℝ}

theorem reach_lft {x y z w : ℝ} (hargs : discretizeArgs E G.g dt method pw q = simpleLft (q2 x y z w) G.g.a G.g.b G.g.c G.g.d)
    (hpw : method ∈ tustinNames → 0 < dt → pw ≤ 1 / (2 * dt)) (hG : G.g = ⟨Arr.of A, Arr.of B, Arr.of C, Arr.of D, none, false⟩)
    (hy : y ≠ 0) (hz : z ≠ 0) (h : discretize N E G dt method pw q = .ok S) :
    ∃ A' B' C' D', S.g = ⟨Arr.of (A' : Matrix (Fin n) (Fin n) ℝ), Arr.of (B' : Matrix (Fin n) (Fin m) ℝ), Arr.of (C' : Matrix (Fin p) (Fin n) ℝ),
      Arr.of (D' : Matrix (Fin p) (Fin m) ℝ), some dt, false⟩ ∧ (Reachable A' B' ↔ Reachable A B) ∧ (Observable A' C' ↔ Observable A C) := by
  obtain ⟨hm, -, hdt⟩ := discretize_pre h
  obtain ⟨h1, h2⟩ := discretize_lft_ok (N := N) hargs hpw hG hm
  have h0 : (1 - w • A).det ≠ 0 := by
    intro h0
    rw [h1 h0] at h
    cases h
  obtain ⟨S', h3, h4, -⟩ := h2 h0 hdt
  rw [h] at h3
  cases h3
  exact ⟨_, _, _, _, h4, reachable_lft h0 (mul_ne_zero hz hy) hy, observable_lft h0 (mul_ne_zero hz hy) hz⟩

/-- **C103**, tustin (with and without prewarping), forward and backward differences: whenever `discretize` succeeds, the discrete model is controllable if and only
if the model is, and observable if and only if the model is. No condition on the sampling period. -/
theorem C103_substitution (hG : G.g = ⟨Arr.of A, Arr.of B, Arr.of C, Arr.of D, none, false⟩)
    (hm : (method = "tustin" ∨ method = "bilinear") ∧ 0 ≤ pw ∧ pw < 1 / (2 * dt) ∨ method ∈ forwardNames ∨ method ∈ backwardNames)
    (h : discretize N E G dt method pw q = .ok S) :
    ∃ A' B' C' D', S.g = ⟨Arr.of (A' : Matrix (Fin n) (Fin n) ℝ), Arr.of (B' : Matrix (Fin n) (Fin m) ℝ), Arr.of (C' : Matrix (Fin p) (Fin n) ℝ),
      Arr.of (D' : Matrix (Fin p) (Fin m) ℝ), some dt, false⟩ ∧ (Reachable A' B' ↔ Reachable A B) ∧ (Observable A' C' ↔ Observable A C) := by
  obtain ⟨-, -, hdt⟩ := discretize_pre h
  have hsd := (Real.sqrt_pos.mpr hdt).ne'
  rcases hm with ⟨hm, hpw, hny⟩ | hm | hm
  · have hk := tustinFactor_pos hdt hpw hny
    have hs : √(2 * tustinFactor dt pw) ≠ 0 := (Real.sqrt_pos.mpr (by positivity)).ne'
    exact reach_lft (tustin_factor_args hm hdt hpw hny) (fun _ _ => hny.le) hG hs hs h
  · refine reach_lft (x := 1) (y := √dt) (z := √dt) (w := 0) ?_ ?_ hG hsd hsd h
    · simp only [forwardNames, List.mem_cons, List.not_mem_nil, or_false] at hm
      rcases hm with rfl | rfl | rfl | rfl <;>
        simp [discretizeArgs, tustinNames, forwardNames]
    · intro h0
      simp only [forwardNames, List.mem_cons, List.not_mem_nil, or_false] at hm
      rcases hm with rfl | rfl | rfl | rfl <;> simp [tustinNames] at h0
  · refine reach_lft (x := 1) (y := √dt) (z := √dt) (w := dt) ?_ ?_ hG hsd hsd h
    · simp only [backwardNames, List.mem_cons, List.not_mem_nil, or_false] at hm
      rcases hm with rfl | rfl | rfl | rfl <;>
        simp [discretizeArgs, tustinNames, forwardNames, backwardNames]
    · intro h0
      simp only [backwardNames, List.mem_cons, List.not_mem_nil, or_false] at hm
      rcases hm with rfl | rfl | rfl | rfl <;> simp [tustinNames] at h0

/-- **C103**, user supplied interconnection `[[q11, q12], [q21, q22]]` with nonzero `q12`, `q21`. -/
theorem C103_lft {q11 q12 q21 q22 : ℝ} (hG : G.g = ⟨Arr.of A, Arr.of B, Arr.of C, Arr.of D, none, false⟩) (h12 : q12 ≠ 0) (h21 : q21 ≠ 0)
    (h : discretize N E G dt "lft" pw (some (Arr.of !![q11, q12; q21, q22])) = .ok S) :
    ∃ A' B' C' D', S.g = ⟨Arr.of (A' : Matrix (Fin n) (Fin n) ℝ), Arr.of (B' : Matrix (Fin n) (Fin m) ℝ), Arr.of (C' : Matrix (Fin p) (Fin n) ℝ),
      Arr.of (D' : Matrix (Fin p) (Fin m) ℝ), some dt, false⟩ ∧ (Reachable A' B' ↔ Reachable A B) ∧ (Observable A' C' ↔ Observable A C) := by
  refine reach_lft (x := q11) (y := q12) (z := q21) (w := q22) ?_ ?_ hG h12 h21 h
  · simp [discretizeArgs, tustinNames, forwardNames, backwardNames, q2]
  · intro h0; simp [tustinNames] at h0

/-- **C103**, hold methods: if different poles `s` give different values `exp(s dt)`, the discrete model is controllable (observable) if and only if the model is. -/
theorem C103_hold (hE : BalanceOk E) (hG : G.g = ⟨Arr.of A, Arr.of B, Arr.of C, Arr.of D, none, false⟩) (hm : method = "zoh" ∨ method = "foh")
    (hA : NoAlias dt A) (h : discretize N E G dt method pw q = .ok S) :
    ∃ A' B' C' D', S.g = ⟨Arr.of (A' : Matrix (Fin n) (Fin n) ℝ), Arr.of (B' : Matrix (Fin n) (Fin m) ℝ), Arr.of (C' : Matrix (Fin p) (Fin n) ℝ),
      Arr.of (D' : Matrix (Fin p) (Fin m) ℝ), some dt, false⟩ ∧ (Reachable A' B' ↔ Reachable A B) ∧ (Observable A' C' ↔ Observable A C) := by
  obtain ⟨-, -, hdt⟩ := discretize_pre h
  obtain ⟨S', Φ, Γ, F, h1, h2, -, h3⟩ := discretize_holdOf (N := N) (pw := pw) (q := q) hE hm hdt hG
  rw [h] at h1
  cases h1
  refine ⟨_, _, _, _, h2, h3.reachable_iff hdt.ne' hA, ?_⟩
  rw [h3.1]
  exact observable_exp_iff hA hdt.ne'

/-- Poles below the Nyquist frequency are not aliased. -/
theorem noAlias_of_nyquist (hdt : 0 < dt) (hA : ∀ s, IsEig A s → |s.im| < Real.pi / dt) : NoAlias dt A := by
  intro s₁ s₂ h1 h2 h
  have hd : (dt : ℂ) ≠ 0 := Complex.ofReal_ne_zero.mpr hdt.ne'
  have him : ∀ s, IsEig A s → -Real.pi < (s * dt).im ∧ (s * dt).im ≤ Real.pi := by
    intro s hs
    have h3 := hA s hs
    rw [lt_div_iff₀ hdt] at h3
    have h4 : |s.im * dt| < Real.pi := by rwa [abs_mul, abs_of_pos hdt]
    have h5 : (s * dt).im = s.im * dt := by simp
    rw [h5]
    exact ⟨(abs_lt.mp h4).1, (abs_lt.mp h4).2.le⟩
  exact mul_right_cancel₀ hd (Complex.exp_inj_of_neg_pi_lt_of_le_pi (him s₁ h1).1 (him s₁ h1).2 (him s₂ h2).1 (him s₂ h2).2 h)

/-- **C103**, hold methods below the Nyquist frequency: if the sampling period is so small that all poles have `|Im s| < pi/dt`, the discrete model is controllable
(observable) if and only if the model is. -/
theorem C103_hold_nyquist (hE : BalanceOk E) (hG : G.g = ⟨Arr.of A, Arr.of B, Arr.of C, Arr.of D, none, false⟩) (hm : method = "zoh" ∨ method = "foh")
    (hA : ∀ s, IsEig A s → |s.im| < Real.pi / dt) (h : discretize N E G dt method pw q = .ok S) :
    ∃ A' B' C' D', S.g = ⟨Arr.of (A' : Matrix (Fin n) (Fin n) ℝ), Arr.of (B' : Matrix (Fin n) (Fin m) ℝ), Arr.of (C' : Matrix (Fin p) (Fin n) ℝ),
      Arr.of (D' : Matrix (Fin p) (Fin m) ℝ), some dt, false⟩ ∧ (Reachable A' B' ↔ Reachable A B) ∧ (Observable A' C' ↔ Observable A C) :=
  C103_hold hE hG hm (noAlias_of_nyquist (discretize_pre h).2.2 hA) h

/-- **C103**, hold methods, every sampling period: discretization never creates controllability or observability. -/
theorem C103_hold_lost (hE : BalanceOk E) (hG : G.g = ⟨Arr.of A, Arr.of B, Arr.of C, Arr.of D, none, false⟩) (hm : method = "zoh" ∨ method = "foh")
    (h : discretize N E G dt method pw q = .ok S) :
    ∃ A' B' C' D', S.g = ⟨Arr.of (A' : Matrix (Fin n) (Fin n) ℝ), Arr.of (B' : Matrix (Fin n) (Fin m) ℝ), Arr.of (C' : Matrix (Fin p) (Fin n) ℝ),
      Arr.of (D' : Matrix (Fin p) (Fin m) ℝ), some dt, false⟩ ∧ (Reachable A' B' → Reachable A B) ∧ (Observable A' C' → Observable A C) := by
  obtain ⟨-, -, hdt⟩ := discretize_pre h
  obtain ⟨S', Φ, Γ, F, h1, h2, -, h3⟩ := discretize_holdOf (N := N) (pw := pw) (q := q) hE hm hdt hG
  rw [h] at h1
  cases h1
  refine ⟨_, _, _, _, h2, h3.reachable hdt.ne', ?_⟩
  rw [h3.1]
  exact observable_exp

/-- **C103** for the tests of the API: `is_kalman_controllable` and `is_kalman_observable` give the same answers for the model and the discretized model. -/
theorem C103_tests {V : SvdNum ℝ} (hV : 0 ≤ V.eps) (hE : BalanceOk E) (hG : G.g = ⟨Arr.of A, Arr.of B, Arr.of C, Arr.of D, none, false⟩)
    (hm : (method = "zoh" ∨ method = "foh") ∧ NoAlias dt A ∨ (method = "tustin" ∨ method = "bilinear") ∧ 0 ≤ pw ∧ pw < 1 / (2 * dt) ∨ method ∈ forwardNames ∨
      method ∈ backwardNames)
    (h : discretize N E G dt method pw q = .ok S) (hS : S.g = ⟨Arr.of A', Arr.of B', Arr.of C', Arr.of D', some dt, false⟩) (hn : 0 < n) (hm0 : 0 < m) (hp0 : 0 < p)
    (h1 : SvdExact V (ctrbM A B (n - 1))) (h2 : SvdExact V (ctrbM A' B' (n - 1))) (h3 : SvdExact V (obsvM A C (n - 1))) (h4 : SvdExact V (obsvM A' C' (n - 1))) :
    isKalmanControllable V S.g.a S.g.b = isKalmanControllable V G.g.a G.g.b ∧ isKalmanObservable V S.g.a S.g.c = isKalmanObservable V G.g.a G.g.c := by
  have key : (Reachable A' B' ↔ Reachable A B) ∧ (Observable A' C' ↔ Observable A C) := by
    have : ∃ A₁ B₁ C₁ D₁, S.g = ⟨Arr.of (A₁ : Matrix (Fin n) (Fin n) ℝ), Arr.of (B₁ : Matrix (Fin n) (Fin m) ℝ), Arr.of (C₁ : Matrix (Fin p) (Fin n) ℝ),
        Arr.of (D₁ : Matrix (Fin p) (Fin m) ℝ), some dt, false⟩ ∧ (Reachable A₁ B₁ ↔ Reachable A B) ∧ (Observable A₁ C₁ ↔ Observable A C) := by
      rcases hm with ⟨hm, hA⟩ | hm
      · exact C103_hold hE hG hm hA h
      · exact C103_substitution hG hm h
    obtain ⟨A₁, B₁, C₁, D₁, e, e1⟩ := this
    rw [hS] at e
    simp only [StateM.mk.injEq, Arr.of_inj] at e
    obtain ⟨rfl, rfl, rfl, -⟩ := e
    exact e1
  rw [hG, hS]
  obtain ⟨t1, a1, b1⟩ := C48_controllable hV h1 hn hm0
  obtain ⟨t2, a2, b2⟩ := C48_controllable hV h2 hn hm0
  obtain ⟨t3, a3, b3⟩ := C48_observable hV h3 hn hp0
  obtain ⟨t4, a4, b4⟩ := C48_observable hV h4 hn hp0
  simp only
  rw [a1, a2, a3, a4]
  refine ⟨congrArg _ ?_, congrArg _ ?_⟩
  · rw [Bool.eq_iff_iff, b1, b2, key.1]
  · rw [Bool.eq_iff_iff, b3, b4, key.2]

/-! ## The condition on the sampling period of the hold methods cannot be dropped -/

section aliasing

/-- The undamped oscillator. -/
def oscA : Matrix (Fin 2) (Fin 2) ℝ := !![0, 1; -1, 0]
def oscB : Matrix (Fin 2) (Fin 1) ℝ := !![0; 1]
def oscC : Matrix (Fin 1) (Fin 2) ℝ := !![1, 0]

theorem osc_reachable : Reachable oscA oscB := by
  rw [hautus_reach]
  intro z v hv hB
  have h1 := congrFun hB 0
  have h2 := congrFun hv 1
  have h3 : v 1 = 0 := by simpa [oscB, mulVec, dotProduct, Fin.sum_univ_two] using h1
  have h4 : v 0 = 0 := by simpa [oscA, mulVec, dotProduct, Fin.sum_univ_two, h3] using h2
  funext i
  fin_cases i
  · exact h4
  · exact h3

theorem osc_observable : Observable oscA oscC := by
  rw [hautus]
  intro z v hv hC
  have h1 := congrFun hC 0
  have h2 := congrFun hv 0
  have h3 : v 0 = 0 := by simpa [oscC, mulVec, dotProduct, Fin.sum_univ_two] using h1
  have h4 : v 1 = 0 := by simpa [oscA, mulVec, dotProduct, Fin.sum_univ_two, h3] using h2
  funext i
  fin_cases i
  · exact h3
  · exact h4

/-- Half a period turns every state around. -/
theorem osc_exp : exp (Real.pi • oscA) = -1 := by
  have h1 : (exp (Real.pi • oscA)).map (algebraMap ℝ ℂ) *ᵥ ![1, Complex.I] = (-1 : ℂ) • ![1, Complex.I] := by
    have h := exp_eig_real (A := oscA) (dt := Real.pi) (s := Complex.I) (v := ![1, Complex.I]) (by
      funext i
      fin_cases i <;> simp [oscA, mulVec, dotProduct, Fin.sum_univ_two])
    rwa [mul_comm, Complex.exp_pi_mul_I] at h
  ext i j
  have h2 := congrArg Complex.re (congrFun h1 i)
  have h3 := congrArg Complex.im (congrFun h1 i)
  fin_cases i <;> fin_cases j <;>
    simp [mulVec, dotProduct, Fin.sum_univ_two] at h2 h3 ⊢ <;> assumption

/-- **C103**, aliasing: the oscillator sampled twice per period with a hold method loses controllability and observability. -/
theorem C103_alias (hE : BalanceOk E) (hG : G.g = ⟨Arr.of oscA, Arr.of oscB, Arr.of oscC, Arr.of (0 : Matrix (Fin 1) (Fin 1) ℝ), none, false⟩) (hm : method = "zoh" ∨ method = "foh") :
    Reachable oscA oscB ∧ Observable oscA oscC ∧ ∃ S A' B' C' D', discretize N E G Real.pi method pw q = .ok S ∧
      S.g = ⟨Arr.of (A' : Matrix (Fin 2) (Fin 2) ℝ), Arr.of (B' : Matrix (Fin 2) (Fin 1) ℝ), Arr.of (C' : Matrix (Fin 1) (Fin 2) ℝ),
        Arr.of (D' : Matrix (Fin 1) (Fin 1) ℝ), some Real.pi, false⟩ ∧ ¬ Reachable A' B' ∧ ¬ Observable A' C' := by
  obtain ⟨S, Φ, Γ, F, h1, h2, -, h3⟩ := discretize_holdOf (N := N) (pw := pw) (q := q) hE hm Real.pi_pos hG
  have hΦ : Φ = -1 := h3.1.trans osc_exp
  have hno : ∀ C : Matrix (Fin 1) (Fin 2) ℝ, ¬ Observable (-1) C := by
    intro C hC
    have h4 : ∀ x : Fin 2 → ℝ, C *ᵥ x = 0 → x = 0 := by
      intro x hx
      refine hC x fun k => ?_
      have : ((-1 : Matrix (Fin 2) (Fin 2) ℝ) ^ k) *ᵥ x = ((-1 : ℝ) ^ k) • x := by
        rcases neg_one_pow_eq_or (Matrix (Fin 2) (Fin 2) ℝ) k with h | h <;> rcases Nat.even_or_odd k with hk | hk
        · rw [hk.neg_one_pow, hk.neg_one_pow, one_mulVec, one_smul]
        · rw [hk.neg_one_pow, hk.neg_one_pow, neg_mulVec, one_mulVec, neg_one_smul]
        · rw [hk.neg_one_pow, hk.neg_one_pow, one_mulVec, one_smul]
        · rw [hk.neg_one_pow, hk.neg_one_pow, neg_mulVec, one_mulVec, neg_one_smul]
      rw [this, mulVec_smul, hx, smul_zero]
    by_cases hz : C 0 1 = 0
    · have := congrFun (h4 ![0, 1] (by funext i; fin_cases i; simp [mulVec, dotProduct, Fin.sum_univ_two, hz])) 1
      simp at this
    · have := congrFun (h4 ![C 0 1, -C 0 0] (by funext i; fin_cases i; simp [mulVec, dotProduct, Fin.sum_univ_two]; ring)) 0
      exact hz this
  refine ⟨osc_reachable, osc_observable, S, Φ, Γ, oscC, F, h1, h2, ?_, ?_⟩
  · have := hno Γᵀ
    rw [observable_iff_dual, transpose_transpose, transpose_neg, transpose_one] at this
    rwa [hΦ]
  · rw [hΦ]
    exact hno oscC

end aliasing

/-! ## Examples -/

/-- The hypotheses of `C103_hold_nyquist` are met: the oscillator with sampling period one. -/
example (N : Numerics ℝ P) (G : StateObj ℝ P) (hG : G.g = ⟨Arr.of oscA, Arr.of oscB, Arr.of oscC, Arr.of (0 : Matrix (Fin 1) (Fin 1) ℝ), none, false⟩) :
    BalanceOk exactDNum ∧ (∀ s, IsEig oscA s → |s.im| < Real.pi / 1) ∧ (∃ S, discretize N exactDNum G 1 "zoh" 0 none = .ok S) ∧ Reachable oscA oscB ∧ Observable oscA oscC := by
  refine ⟨exactDNum_ok.1, fun s hs => ?_, ?_, osc_reachable, osc_observable⟩
  · unfold IsEig at hs
    rw [det_fin_two] at hs
    simp [oscA] at hs
    have h1 := congrArg Complex.re hs
    have h2 := congrArg Complex.im hs
    simp at h1 h2
    have h3 : |s.im| ≤ 1 := by
      rw [← sq_le_one_iff_abs_le_one]
      rcases mul_eq_zero.mp (show s.re * s.im = 0 by linarith) with h | h
      · rw [h] at h1; nlinarith
      · rw [h]; norm_num
    have := Real.two_le_pi
    rw [div_one]
    linarith
  · obtain ⟨S, _, _, _, h, -⟩ := discretize_holdOf (N := N) (E := exactDNum) (pw := 0) (q := none) (name := "zoh") exactDNum_ok.1 (.inl rfl) one_pos hG
    exact ⟨S, h⟩

end Harold
