import Verif.Spec.Dcgain
import Verif.Props.Poly
import Verif.Props.Transfer

/-!
# C59: `Transfer.dcgain`
-/

namespace Harold

open Polynomial Spec

variable {K : Type} [Field K] [LinearOrder K]

omit [Field K] [LinearOrder K] in
theorem getLast?_exists {l : List K} (h : l ≠ []) : ∃ a, l.getLast? = some a := ⟨l.getLast h, List.getLast?_eq_some_getLast h⟩

theorem toPoly_dropLast {l : List K} {a : K} (h : l.getLast? = some a) : toPoly l = toPoly l.dropLast * X + C a := by
  obtain ⟨l', rfl⟩ := List.getLast?_eq_some_iff.mp h
  rw [toPoly_append]
  simp

theorem eval_zero_toPoly {l : List K} {a : K} (h : l.getLast? = some a) : (toPoly l).eval 0 = a := by
  rw [toPoly_dropLast h]; simp

theorem eval_one_toPoly (l : List K) : (toPoly l).eval 1 = l.sum := by
  induction l with
  | nil => simp
  | cons a l ih => simp [ih]

/-- The zero polynomial over anything. -/
theorem lowFreq_zero (z₀ : K) {Q : K[X]} (hQ : Q ≠ 0) : LowFreqGain z₀ 0 Q (.fin 0) := by
  obtain ⟨Q', h1, h2⟩ := Polynomial.exists_eq_pow_rootMultiplicity_mul_and_not_dvd Q hQ z₀
  rw [dvd_iff_isRoot] at h2
  exact ⟨_, 0, Q', by simp, h1, Or.inr h2, Or.inl ⟨h2, by simp⟩⟩

theorem lowFreq_mul (z₀ : K) {P Q : K[X]} {v : DcVal K} (h : LowFreqGain z₀ P Q v) :
    LowFreqGain z₀ (P * (X - C z₀)) (Q * (X - C z₀)) v := by
  obtain ⟨k, P', Q', h1, h2, h3, h4⟩ := h
  exact ⟨k + 1, P', Q', by rw [h1]; ring, by rw [h2]; ring, h3, h4⟩

/-- The division at the end of the loop. -/
theorem lowFreq_div {z₀ : K} {P Q : K[X]} (h : P.eval z₀ ≠ 0 ∨ Q.eval z₀ ≠ 0) : LowFreqGain z₀ P Q (DcVal.div (P.eval z₀) (Q.eval z₀)) := by
  refine ⟨0, P, Q, by simp, by simp, h, ?_⟩
  unfold DcVal.div
  by_cases h0 : Q.eval z₀ = 0
  · right
    rw [if_pos h0, if_neg (h.resolve_right (by simp [h0]))]
    exact ⟨h0, rfl⟩
  · left
    rw [if_neg h0]
    exact ⟨h0, rfl⟩

omit [LinearOrder K] in
/-- There is only one way to cancel all common factors. -/
theorem reduced_unique {z₀ : K} {P Q P1 Q1 P2 Q2 : K[X]} {k l : ℕ} (h1 : P = (X - C z₀) ^ k * P1) (h2 : Q = (X - C z₀) ^ k * Q1)
    (h3 : P1.eval z₀ ≠ 0 ∨ Q1.eval z₀ ≠ 0) (g1 : P = (X - C z₀) ^ l * P2) (g2 : Q = (X - C z₀) ^ l * Q2)
    (g3 : P2.eval z₀ ≠ 0 ∨ Q2.eval z₀ ≠ 0) : P1 = P2 ∧ Q1 = Q2 := by
  have hX : (X - C z₀ : K[X]) ≠ 0 := X_sub_C_ne_zero z₀
  have key : ∀ {a b : ℕ} {A1 B1 A2 B2 : K[X]}, (X - C z₀) ^ a * A1 = (X - C z₀) ^ b * A2 → (X - C z₀) ^ a * B1 = (X - C z₀) ^ b * B2 →
      (A1.eval z₀ ≠ 0 ∨ B1.eval z₀ ≠ 0) → b ≤ a := by
    intro a b A1 B1 A2 B2 e1 e2 e3
    by_contra hlt
    obtain ⟨c, rfl⟩ := Nat.exists_eq_add_of_lt (not_le.mp hlt)
    rw [add_assoc, pow_add, mul_assoc] at e1 e2
    have e1' := mul_left_cancel₀ (pow_ne_zero a hX) e1
    have e2' := mul_left_cancel₀ (pow_ne_zero a hX) e2
    rw [e1', e2'] at e3
    simp at e3
  have hkl : k = l := le_antisymm (key (g1.symm.trans h1) (g2.symm.trans h2) g3) (key (h1.symm.trans g1) (h2.symm.trans g2) h3)
  subst hkl
  exact ⟨mul_left_cancel₀ (pow_ne_zero k hX) (h1.symm.trans g1), mul_left_cancel₀ (pow_ne_zero k hX) (h2.symm.trans g2)⟩

/-- The gain does not depend on how much was cancelled. -/
theorem lowFreq_unique {z₀ : K} {P Q : K[X]} {v w : DcVal K} (hv : LowFreqGain z₀ P Q v) (hw : LowFreqGain z₀ P Q w) : v = w := by
  obtain ⟨k, P1, Q1, h1, h2, h3, h4⟩ := hv
  obtain ⟨l, P2, Q2, g1, g2, g3, g4⟩ := hw
  obtain ⟨rfl, rfl⟩ := reduced_unique h1 h2 h3 g1 g2 g3
  rcases h4 with ⟨h5, rfl⟩ | ⟨h5, rfl⟩ <;> rcases g4 with ⟨g5, rfl⟩ | ⟨g5, rfl⟩
  · rfl
  · exact absurd g5 h5
  · exact absurd h5 g5
  · rfl

/-- One entry in continuous time. -/
theorem stripZero_spec (k : ℕ) : ∀ num den : List K, num.length = k → toPoly den ≠ 0 →
    (stripZero k num den = .ok none ∧ toPoly num = 0) ∨
    ∃ n d v, stripZero k num den = .ok (some (n, d)) ∧ v = DcVal.div (polyvalZero n) (polyvalZero d) ∧ LowFreqGain 0 (toPoly num) (toPoly den) v := by
  induction k with
  | zero =>
    intro num den hl hd
    left
    rw [List.length_eq_zero_iff] at hl
    subst hl
    exact ⟨rfl, rfl⟩
  | succ k ih =>
    intro num den hl hd
    have hden : den ≠ [] := by rintro rfl; exact hd rfl
    have hnum : num ≠ [] := by rintro rfl; simp at hl
    obtain ⟨a, ha⟩ := getLast?_exists hnum
    obtain ⟨b, hb⟩ := getLast?_exists hden
    have pa : polyvalZero num = a := by unfold polyvalZero; rw [List.getLastD_eq_getLast?, ha]; rfl
    have pb : polyvalZero den = b := by unfold polyvalZero; rw [List.getLastD_eq_getLast?, hb]; rfl
    have stop : a ≠ 0 ∨ b ≠ 0 → LowFreqGain 0 (toPoly num) (toPoly den) (DcVal.div (polyvalZero num) (polyvalZero den)) := by
      intro h
      have := lowFreq_div (z₀ := (0 : K)) (P := toPoly num) (Q := toPoly den) (by rwa [eval_zero_toPoly ha, eval_zero_toPoly hb])
      rwa [eval_zero_toPoly ha, eval_zero_toPoly hb, ← pa, ← pb] at this
    unfold stripZero
    rw [ha]
    simp only
    by_cases h0 : a = 0
    · rw [if_pos h0, hb]
      simp only
      by_cases h1 : b = 0
      · rw [if_pos h1]
        subst h0 h1
        have ea := toPoly_dropLast ha
        have eb := toPoly_dropLast hb
        rw [C_0, add_zero] at ea eb
        rcases ih num.dropLast den.dropLast (by simp [hl]) (by intro h; rw [h, zero_mul] at eb; exact hd eb) with ⟨h2, h3⟩ | ⟨n, d, v, h2, h3, h4⟩
        · left
          exact ⟨h2, by rw [ea, h3, zero_mul]⟩
        · right
          refine ⟨n, d, v, h2, h3, ?_⟩
          rw [ea, eb]
          simpa using lowFreq_mul 0 h4
      · rw [if_neg h1]
        exact Or.inr ⟨num, den, _, rfl, rfl, stop (Or.inr h1)⟩
    · rw [if_neg h0]
      exact Or.inr ⟨num, den, _, rfl, rfl, stop (Or.inl h0)⟩

theorem dcEntryCont_spec {num den : List K} (hd : toPoly den ≠ 0) :
    ∃ v, dcEntryCont num den = .ok v ∧ LowFreqGain 0 (toPoly num) (toPoly den) v := by
  unfold dcEntryCont
  rcases stripZero_spec num.length num den rfl hd with ⟨h1, h2⟩ | ⟨n, d, v, h1, h2, h3⟩
  · rw [h1, h2]
    exact ⟨.fin 0, rfl, lowFreq_zero 0 hd⟩
  · rw [h1]
    exact ⟨v, by rw [h2]; rfl, h3⟩

/-- Division by `z - 1`. -/
theorem deconvolve_one (l : List K) (h : l ≠ []) :
    ∃ q r, deconvolve l [1, -1] = .ok (q, r) ∧ q.length = l.length - 1 ∧ toPoly l = toPoly q * (X - C 1) + C l.sum := by
  obtain ⟨q, r, h1, h2, h3, -⟩ := C03_polydiv l [1, -1] (by simp)
  unfold polydiv at h1
  obtain ⟨⟨q', r'⟩, h4, h5⟩ := bind_ok' h1
  simp only [Except.ok.injEq, Prod.mk.injEq] at h5
  refine ⟨q', r', h4, ?_, ?_⟩
  · unfold deconvolve at h4
    split_ifs at h4 with h6 h7
    · simp only [Except.ok.injEq, Prod.mk.injEq] at h4
      have := List.length_pos_iff.mpr h
      rw [← h4.1]
      simp at h6 ⊢
      omega
    · obtain ⟨dq, -, h8⟩ := bind_ok' h4
      simp only [Except.ok.injEq, Prod.mk.injEq] at h8
      rw [← h8.1, lfilterImp_length]
      simp at h6 ⊢
      omega
  · have e : toPoly ([1, -1] : List K) = X - C 1 := by simp [sub_eq_add_neg]
    rw [← h5.1, ← h5.2, toPoly_trimZeros, toPoly_trimZeros, e] at h2
    rw [← h5.2, toPoly_trimZeros, e, degree_X_sub_C] at h3
    have h6 : toPoly r' = C ((toPoly r').coeff 0) := by
      ext i
      rcases i with _ | i
      · simp
      · rw [coeff_C_succ]
        exact coeff_eq_zero_of_degree_lt (lt_of_lt_of_le h3 (by exact_mod_cast Nat.succ_le_succ (Nat.zero_le i)))
    have h7 := congrArg (eval 1) h2
    rw [eval_one_toPoly, h6] at h7
    simp at h7
    rw [h7, ← h6]
    exact h2

variable [IsStrictOrderedRing K]

/-- The loop in discrete time for a numerator that is not zero. -/
theorem stripOne_spec {tol : K} (ht : 0 < tol) (k : ℕ) : ∀ num den : List K, num.length = k → k ≤ den.length → toPoly num ≠ 0 →
    Separated tol 1 (toPoly num) (toPoly den) →
    ∃ n d v, stripOne tol k num den = .ok (some (n, d)) ∧ v = DcVal.div n.sum d.sum ∧ LowFreqGain 1 (toPoly num) (toPoly den) v := by
  induction k with
  | zero =>
    intro num den hl _ h0 _
    rw [List.length_eq_zero_iff] at hl
    subst hl
    exact absurd rfl h0
  | succ k ih =>
    intro num den hl hk h0 hsep
    have hden : den ≠ [] := by rintro rfl; simp at hk
    have hnum : num ≠ [] := by rintro rfl; simp at hl
    have stop : num.sum ≠ 0 ∨ den.sum ≠ 0 → LowFreqGain 1 (toPoly num) (toPoly den) (DcVal.div num.sum den.sum) := by
      intro h
      have := lowFreq_div (z₀ := (1 : K)) (P := toPoly num) (Q := toPoly den) (by rwa [eval_one_toPoly, eval_one_toPoly])
      rwa [eval_one_toPoly, eval_one_toPoly] at this
    unfold stripOne
    rw [if_neg hnum]
    by_cases h1 : |num.sum| < tol
    · rw [if_pos h1, if_neg hden]
      by_cases h2 : |den.sum| < tol
      · rw [if_pos h2]
        have h3 : num.sum = 0 ∧ den.sum = 0 := by
          by_contra h3
          have := hsep 0 (toPoly num) (toPoly den) (by simp) (by simp) (by rw [eval_one_toPoly, eval_one_toPoly]; tauto)
          rw [eval_one_toPoly, eval_one_toPoly] at this
          rcases this with h | h
          · exact absurd h1 (not_lt.mpr h)
          · exact absurd h2 (not_lt.mpr h)
        obtain ⟨q, r, e1, e2, e3⟩ := deconvolve_one num hnum
        obtain ⟨q', r', g1, g2, g3⟩ := deconvolve_one den hden
        rw [h3.1, C_0, add_zero] at e3
        rw [h3.2, C_0, add_zero] at g3
        obtain ⟨n, d, v, h4, h5, h6⟩ := ih q q' (by omega) (by omega) (by intro h; rw [h, zero_mul] at e3; exact h0 e3) (by
          intro j P' Q' f1 f2 f3
          exact hsep (j + 1) P' Q' (by rw [e3, f1]; ring) (by rw [g3, f2]; ring) f3)
        refine ⟨n, d, v, ?_, h5, ?_⟩
        · rw [e1, g1]
          exact h4
        · rw [e3, g3]
          exact lowFreq_mul 1 h6
      · rw [if_neg h2]
        exact ⟨num, den, _, rfl, rfl, stop (Or.inr fun h => h2 (by rw [h, abs_zero]; exact ht))⟩
    · rw [if_neg h1, if_neg hden]
      exact ⟨num, den, _, rfl, rfl, stop (Or.inl fun h => h1 (by rw [h, abs_zero]; exact ht))⟩

/-- The loop in discrete time for a numerator that is zero. -/
theorem stripOne_zero {tol : K} (ht : 0 < tol) (k : ℕ) : ∀ num den : List K, num.length = k → k ≤ den.length → toPoly num = 0 →
    stripOne tol k num den = .ok none ∨ ∃ n d, stripOne tol k num den = .ok (some (n, d)) ∧ n.sum = 0 ∧ d.sum ≠ 0 := by
  induction k with
  | zero => intro num den _ _ _; exact Or.inl rfl
  | succ k ih =>
    intro num den hl hk h0
    have hden : den ≠ [] := by rintro rfl; simp at hk
    have hnum : num ≠ [] := by rintro rfl; simp at hl
    have hs : num.sum = 0 := by rw [← eval_one_toPoly, h0, eval_zero]
    unfold stripOne
    rw [if_neg hnum, if_pos (by rw [hs, abs_zero]; exact ht), if_neg hden]
    by_cases h2 : |den.sum| < tol
    · rw [if_pos h2]
      obtain ⟨q, r, e1, e2, e3⟩ := deconvolve_one num hnum
      obtain ⟨q', r', g1, g2, g3⟩ := deconvolve_one den hden
      rw [hs, C_0, add_zero, h0] at e3
      rw [e1, g1]
      exact ih q q' (by omega) (by omega) ((mul_eq_zero.mp e3.symm).resolve_right (X_sub_C_ne_zero 1))
    · rw [if_neg h2]
      exact Or.inr ⟨num, den, rfl, hs, fun h => h2 (by rw [h, abs_zero]; exact ht)⟩

theorem dcEntryDisc_spec {tol : K} (ht : 0 < tol) {num den : List K} (hd : toPoly den ≠ 0) (hl : num.length ≤ den.length)
    (hsep : toPoly num = 0 ∨ Separated tol 1 (toPoly num) (toPoly den)) :
    ∃ v, dcEntryDisc tol num den = .ok v ∧ LowFreqGain 1 (toPoly num) (toPoly den) v := by
  unfold dcEntryDisc
  by_cases h0 : toPoly num = 0
  · refine ⟨.fin 0, ?_, by rw [h0]; exact lowFreq_zero 1 hd⟩
    rcases stripOne_zero ht num.length num den rfl hl h0 with h1 | ⟨n, d, h1, h2, h3⟩
    · rw [h1]; rfl
    · rw [h1]
      simp only [bind, Except.bind, DcVal.div, if_neg h3, h2, zero_div]
  · obtain ⟨n, d, v, h1, h2, h3⟩ := stripOne_spec ht num.length num den rfl hl h0 (hsep.resolve_left h0)
    rw [h1]
    exact ⟨v, by rw [h2]; rfl, h3⟩

theorem toPoly_lead {l : List K} (h : l.getD 0 0 ≠ 0) : toPoly l ≠ 0 := by
  cases l with
  | nil => simp at h
  | cons a t => exact toPoly_ne_zero_of_cons (by simpa using h) t

/-- Static gains. -/
theorem dcgain_gain (tol : K) {G : TransferM K} {p m : ℕ} {N D : Matrix (Fin p) (Fin m) (List K)} (hG : Normal G p m N D) (hg : G.isgain = true)
    (z₀ : K) : ∃ R : Matrix (Fin p) (Fin m) (DcVal K), G.dcgain tol = .ok (Arr.of R) ∧ ∀ i j, LowFreqGain z₀ (toPoly (N i j)) (toPoly (D i j)) (R i j) := by
  have hD := hG.flag.mp hg
  have hN : ∀ i j, (N i j).length = 1 := by
    intro i j
    have h1 := hG.causal i j
    rw [hD i j] at h1
    rcases hG.trimmed i j with h | ⟨a, t, h, -⟩
    · rw [h]; rfl
    · rw [h] at h1 ⊢
      simp at h1 ⊢
      exact h1
  refine ⟨(Matrix.of fun i j => (N i j).getD 0 0 / (D i j).getD 0 0).map DcVal.fin, ?_, ?_⟩
  · unfold TransferM.dcgain TransferM.toArray
    rw [if_pos hg, if_pos hg, hG.num, hG.den, gainArr_of hN hD]
    rfl
  · intro i j
    obtain ⟨a, ha⟩ := List.length_eq_one_iff.mp (hN i j)
    obtain ⟨b, hb⟩ := List.length_eq_one_iff.mp (hD i j)
    have hb0 := hG.lead i j
    rw [hb] at hb0
    refine ⟨0, C a, C b, by rw [ha]; simp, by rw [hb]; simp, Or.inr (by simpa using hb0), Or.inl ⟨by simpa using hb0, ?_⟩⟩
    simp [ha, hb]

theorem dcgain_dyn {tol : K} {G : TransferM K} {p m : ℕ} {N D : Matrix (Fin p) (Fin m) (List K)} (hG : Normal G p m N D) (hg : G.isgain = false) {z₀ : K}
    (h : ∀ i j, ∃ v, (if G.dt.isSome then dcEntryDisc tol (N i j) (D i j) else dcEntryCont (N i j) (D i j)) = .ok v ∧
      LowFreqGain z₀ (toPoly (N i j)) (toPoly (D i j)) v) :
    ∃ R : Matrix (Fin p) (Fin m) (DcVal K), G.dcgain tol = .ok (Arr.of R) ∧ ∀ i j, LowFreqGain z₀ (toPoly (N i j)) (toPoly (D i j)) (R i j) := by
  choose R hR using h
  refine ⟨R, ?_, fun i j => (hR i j).2⟩
  obtain ⟨n, d, g, t⟩ := G
  obtain rfl : n = Arr.of N := hG.num
  obtain rfl : d = Arr.of D := hG.den
  obtain rfl : g = false := hg
  unfold TransferM.dcgain
  rw [if_neg (by simp)]
  have : matM (fun (i : Fin p) (j : Fin m) => if t.isSome then dcEntryDisc tol ((Arr.of N).entry i j) ((Arr.of D).entry i j)
      else dcEntryCont ((Arr.of N).entry i j) ((Arr.of D).entry i j)) = .ok R := by
    rw [matM_ok]
    intro i j
    rw [entry_of, entry_of]
    exact (hR i j).1
  show Except.bind (matM (fun (i : Fin p) (j : Fin m) => if t.isSome then dcEntryDisc tol ((Arr.of N).entry i j) ((Arr.of D).entry i j)
      else dcEntryCont ((Arr.of N).entry i j) ((Arr.of D).entry i j))) _ = _
  rw [this]
  rfl

/-- **C59**, continuous time: for every model, every entry of the dc gain is the value at `s = 0` after the common factors are cancelled. -/
theorem C59_continuous (tol : K) {G : TransferM K} {p m : ℕ} {N D : Matrix (Fin p) (Fin m) (List K)} (hG : Normal G p m N D) (hdt : G.dt = none) :
    ∃ R : Matrix (Fin p) (Fin m) (DcVal K), G.dcgain tol = .ok (Arr.of R) ∧
      ∀ i j, LowFreqGain (zeroFreq G.dt) (toPoly (N i j)) (toPoly (D i j)) (R i j) := by
  have hz : zeroFreq G.dt = 0 := by rw [hdt]; rfl
  rw [hz]
  cases hg : G.isgain
  · refine dcgain_dyn hG hg fun i j => ?_
    rw [hdt]
    exact dcEntryCont_spec (toPoly_lead (hG.lead i j))
  · exact dcgain_gain tol hG hg 0

/-- **C59**, discrete time, if what remains after the cancellation is zero or not below the threshold. Missing: numerators and denominators that are small
at `z = 1` (`C59_tiny_violated`). -/
theorem C59_discrete_partial {tol : K} (ht : 0 < tol) {G : TransferM K} {p m : ℕ} {N D : Matrix (Fin p) (Fin m) (List K)} (hG : Normal G p m N D)
    (hdt : G.dt.isSome) (hsep : ∀ i j, toPoly (N i j) = 0 ∨ Separated tol 1 (toPoly (N i j)) (toPoly (D i j))) :
    ∃ R : Matrix (Fin p) (Fin m) (DcVal K), G.dcgain tol = .ok (Arr.of R) ∧
      ∀ i j, LowFreqGain (zeroFreq G.dt) (toPoly (N i j)) (toPoly (D i j)) (R i j) := by
  have hz : zeroFreq G.dt = 1 := by unfold zeroFreq; rw [if_pos hdt]
  rw [hz]
  cases hg : G.isgain
  · refine dcgain_dyn hG hg fun i j => ?_
    rw [if_pos hdt]
    exact dcEntryDisc_spec ht (toPoly_lead (hG.lead i j)) (hG.causal i j) (hsep i j)
  · exact dcgain_gain tol hG hg 1

/-- **C59**: if zero frequency is not a pole, the specified gain is the value of the model there. -/
theorem C59_value {z₀ : K} {P Q : K[X]} (hQ : Q.eval z₀ ≠ 0) {v : DcVal K} (h : LowFreqGain z₀ P Q v) : v = .fin (P.eval z₀ / Q.eval z₀) :=
  lowFreq_unique h ⟨0, P, Q, by simp, by simp, Or.inr hQ, Or.inl ⟨hQ, rfl⟩⟩

/-- The integrator `k / (z - 1)`. -/
def discInt (k : K) : TransferM K := ⟨constArr 1 1 [k], constArr 1 1 [1, -1], false, some 1⟩

theorem discInt_normal {k : K} (hk : k ≠ 0) : Normal (discInt k) 1 1 (Matrix.of fun _ _ => [k]) (Matrix.of fun _ _ => [1, -1]) where
  pos := by simp
  num := rfl
  den := rfl
  trimmed := fun _ _ => Or.inr ⟨k, [], rfl, hk⟩
  lead := fun _ _ => by simp
  causal := fun _ _ => by simp
  flag := by simp [discInt]
  dt := by
    intro t ht
    simp only [discInt, Option.some.injEq] at ht
    rw [← ht]
    exact one_pos

/-- **C59** fails for small gains in discrete time: the dc gain of the integrator `k / (z - 1)` is infinite, but `0` is returned if `|k|` is below the
threshold `10 * spacing(1.)`. -/
theorem C59_tiny_violated {tol k : K} (hk : k ≠ 0) (hkt : |k| < tol) :
    (discInt k).dcgain tol = .ok (Arr.of (Matrix.of fun (_ _ : Fin 1) => DcVal.fin 0)) ∧
      LowFreqGain (zeroFreq (discInt k).dt) (toPoly [k]) (toPoly [1, -1]) .inf := by
  constructor
  · have ht : 0 < tol := lt_of_le_of_lt (abs_nonneg k) hkt
    have he : dcEntryDisc tol [k] [1, -1] = .ok (.fin 0) := by
      obtain ⟨q, r, e1, -⟩ := deconvolve_one [k] (by simp)
      obtain ⟨q', r', g1, -⟩ := deconvolve_one ([1, -1] : List K) (by simp)
      have : stripOne tol 1 [k] [1, -1] = .ok none := by
        unfold stripOne
        rw [if_neg (by simp), if_pos (by simpa using hkt), if_neg (by simp), if_pos (by simpa using ht), e1, g1]
        rfl
      unfold dcEntryDisc
      rw [show [k].length = 1 from rfl, this]
      rfl
    have : matM (fun (i : Fin 1) (j : Fin 1) => if (some (1 : K)).isSome then dcEntryDisc tol ((constArr 1 1 [k]).entry i j)
        ((constArr 1 1 [(1 : K), -1]).entry i j) else dcEntryCont ((constArr 1 1 [k]).entry i j) ((constArr 1 1 [(1 : K), -1]).entry i j)) =
        .ok fun _ _ => .fin 0 := by
      rw [matM_ok]
      intro i j
      rw [constArr, constArr, entry_of, entry_of]
      exact he
    show Except.bind (matM (fun (i : Fin 1) (j : Fin 1) => if (some (1 : K)).isSome then dcEntryDisc tol ((constArr 1 1 [k]).entry i j)
        ((constArr 1 1 [(1 : K), -1]).entry i j) else dcEntryCont ((constArr 1 1 [k]).entry i j) ((constArr 1 1 [(1 : K), -1]).entry i j))) _ = _
    rw [this]
    rfl
  · have hz : zeroFreq (discInt k).dt = 1 := by simp [zeroFreq, discInt]
    rw [hz]
    exact ⟨0, toPoly [k], toPoly [1, -1], by simp, by simp, Or.inl (by simpa using hk), Or.inr ⟨by simp, rfl⟩⟩

/-- The hypotheses are met: `3 (z-1) / (z-1)²`, whose dc gain is infinite. -/
example : Separated (1/2 : ℚ) 1 (toPoly [3, -3]) (toPoly [1, -2, 1]) ∧ 
    Normal (⟨constArr 1 1 [3, -3], constArr 1 1 [1, -2, 1], false, some (1/10)⟩ : TransferM ℚ) 1 1 (Matrix.of fun _ _ => [3, -3]) (Matrix.of fun _ _ => [1, -2, 1]) := by
  refine ⟨?_, ?_, rfl, rfl, fun _ _ => Or.inr ⟨3, [-3], rfl, by norm_num⟩, fun _ _ => by simp, fun _ _ => by simp, by simp, ?_⟩
  · intro k P' Q' h1 h2 h3
    have e1 : toPoly ([3, -3] : List ℚ) = (X - C 1) ^ 1 * C 3 := by simp; ring
    have e2 : toPoly ([1, -2, 1] : List ℚ) = (X - C 1) ^ 1 * (X - C 1) := by
      have : (C 2 : ℚ[X]) = 2 := rfl
      simp [this]; ring
    obtain ⟨rfl, rfl⟩ := reduced_unique h1 h2 h3 e1 e2 (Or.inl (by simp))
    left
    norm_num
  · simp
  · intro t ht
    simp only [Option.some.injEq] at ht
    rw [← ht]
    norm_num

end Harold
