import Verif.Lemmas.PoleMap
import Verif.Props.Motion
import Verif.Props.HoldTransfer

/-!
# C97, C98: what discretization does to the poles, the stability flag and the gain at frequency zero
-/

namespace Harold

open Matrix NormedSpace Harold.Spec

variable {N : Numerics ℝ ℂ} {E : DNum} {G S : StateObj ℝ ℂ} {dt pw : ℝ} {method : String} {q : Option (Arr ℝ)} {n m p : ℕ}

/-! ## The object `discretize` returns -/

theorem set_current {x : Assign ℝ} (h : S.set N x = .ok G) (hx : x.keepsDomain S) (hp : PolesCurrent N S) (hf : FlagCurrent N S) :
    PolesCurrent N G ∧ FlagCurrent N G ∧ G.g.dt.isSome = S.g.dt.isSome := by
  have h1 := assign_poles N hp x
  have h2 := assign_flag N hf x hx
  unfold StateObj.set at h
  rcases hr : S.assign N x with ⟨S', _ | e⟩
  · rw [hr] at h h1 h2
    cases h
    exact ⟨h1, h2.1, h2.2⟩
  · rw [hr] at h
    cases h

theorem init_current {a b c d : Option (Arr ℝ)} {dt' : Option ℝ} (h : StateObj.init N a b c d dt' = .ok S) : PolesCurrent N S ∧ FlagCurrent N S := by
  have h1 := C14_poles_zeros N h []
  have h2 := C14_flag_partial N h [] (by simp)
  exact ⟨h1, h2⟩

theorem init_dt {a b c d : Option (Arr ℝ)} {t : ℝ} (h : StateObj.init N a b c d (some t) = .ok S) : S.g.dt.isSome = true := by
  unfold StateObj.init at h
  obtain ⟨g, hg, h1⟩ := bind_ok h
  simp only [Except.ok.injEq] at h1
  subst h1
  unfold mkState at hg
  obtain ⟨r, h2, h3⟩ := bind_ok hg
  obtain ⟨t', h4, h5⟩ := bind_ok h3
  simp only [Except.ok.injEq] at h5
  subst h5
  unfold checkDt at h4
  simp only at h4
  split_ifs at h4
  cases h4
  rfl

theorem discretize_current (h : discretize N E G dt method pw q = .ok S) :
    PolesCurrent N S ∧ FlagCurrent N S ∧ S.g.dt.isSome = true := by
  obtain ⟨hm, hdt0, hdt⟩ := discretize_pre h
  unfold discretize at h
  rw [if_neg (by simpa using hm), hdt0, if_neg (by simp)] at h
  cases hg : G.g.isgain with
  | true =>
    rw [hg, if_pos rfl] at h
    obtain ⟨S1, h1, h2⟩ := bind_ok h
    obtain ⟨h3, h4⟩ := init_current h1
    have h5 := init_dt h1
    obtain ⟨a1, a2, a3⟩ := set_current h2 (by simp [Assign.keepsDomain, h5]) h3 h4
    exact ⟨a1, a2, by rw [a3, h5]⟩
  | false =>
    rw [hg, if_neg (by simp)] at h
    unfold discretizeDyn at h
    obtain ⟨r, -, h⟩ := bind_ok h
    obtain ⟨S1, h1, h⟩ := bind_ok h
    obtain ⟨S2, h2, h⟩ := bind_ok h
    obtain ⟨S3, h3, h4⟩ := bind_ok h
    obtain ⟨a1, a2⟩ := init_current h1
    have a3 := init_dt h1
    obtain ⟨b1, b2, b3⟩ := set_current h2 trivial a1 a2
    have hS3 : PolesCurrent N S3 ∧ FlagCurrent N S3 ∧ S3.g.dt.isSome = S2.g.dt.isSome := by
      unfold recordArgs at h3
      split_ifs at h3
      · exact set_current h3 trivial b1 b2
      · exact set_current h3 trivial b1 b2
      · cases h3
        exact ⟨b1, b2, rfl⟩
    obtain ⟨c1, c2, c3⟩ := hS3
    obtain ⟨d1, d2, d3⟩ := set_current h4 (by simp [Assign.keepsDomain, c3, b3, a3]) c1 c2
    exact ⟨d1, d2, by rw [d3, c3, b3, a3]⟩

theorem discretize_gain (hg : G.g.isgain = true) (h : discretize N E G dt method pw q = .ok S) : S.g.isgain = true := by
  obtain ⟨hm, hdt0, hdt⟩ := discretize_pre h
  have hdt' : DtOk (some dt) := by intro t ht; cases ht; exact hdt
  have e := mkGain_of hdt' G.g.d
  unfold mkGain at e
  simp only [discretize, hm, hdt0, hg, not_true_eq_false, if_false, if_true, Option.isSome_none,
    Bool.false_eq_true, StateObj.init, e, bind, Except.bind, StateObj.set, StateObj.assign,
    not_le.mpr hdt, StateObj.recalc, Except.ok.injEq] at h
  subst h
  rfl

theorem poles_gain (hP : PolesCurrent N G) (hg : G.g.isgain = true) : G.poles = [] := by
  rw [hP.1, hg]; rfl

theorem poles_dyn (hP : PolesCurrent N G) {A : Matrix (Fin n) (Fin n) ℝ} (hg : G.g.isgain = false) (hA : G.g.a = Arr.of A) : G.poles = N.eig (Arr.of A) := by
  rw [hP.1, hg, hA]; rfl

/-- The poles of a continuous model and of a model whose state matrix is the given function of the one of the model. -/
theorem poles_map_of {f : ℂ → ℂ} (hP : PolesCurrent N G) (hc : Consistent G.g p m) (h : discretize N E G dt method pw q = .ok S)
    (hf : ∀ (n : ℕ) (A : Matrix (Fin n) (Fin n) ℝ) (B : Matrix (Fin n) (Fin m) ℝ) (C : Matrix (Fin p) (Fin n) ℝ) (D : Matrix (Fin p) (Fin m) ℝ),
      G.g = ⟨Arr.of A, Arr.of B, Arr.of C, Arr.of D, none, false⟩ → ∃ A' : Matrix (Fin n) (Fin n) ℝ, S.g.isgain = false ∧ S.g.a = Arr.of A' ∧
        (N.eig (Arr.of A')).Perm ((N.eig (Arr.of A)).map f)) :
    S.poles.Perm (G.poles.map f) := by
  obtain ⟨hP', -, -⟩ := discretize_current h
  obtain ⟨hm, hdt0, hdt⟩ := discretize_pre h
  obtain ⟨a, b, c, D, dt', hG'⟩ | ⟨n, A, B, C, D, dt', hG'⟩ := consistent_cases hc
  · have hg : G.g.isgain = true := by rw [hG']
    rw [poles_gain hP hg, poles_gain hP' (discretize_gain hg h)]
    rfl
  · rw [hG'] at hdt0
    simp only at hdt0
    subst hdt0
    obtain ⟨A', h1, h2, h3⟩ := hf n A B C D hG'
    rw [poles_dyn hP (by rw [hG']) (by rw [hG']), poles_dyn hP' h1 h2]
    exact h3

theorem poles_hold (hN : EigExact N) (hE : BalanceOk E) (hP : PolesCurrent N G) (hc : Consistent G.g p m) (hm : method = "zoh" ∨ method = "foh")
    (h : discretize N E G dt method pw q = .ok S) : S.poles.Perm (G.poles.map fun s => Complex.exp (s * dt)) := by
  obtain ⟨-, -, hdt⟩ := discretize_pre h
  refine poles_map_of hP hc h fun n A B C D hG => ?_
  obtain ⟨S', Φ, Γ, F, h1, h2, h3, h4, -⟩ := discretize_holdOf (N := N) (pw := pw) (q := q) hE hm hdt hG
  rw [h] at h1
  cases h1
  refine ⟨Φ, by rw [h2], by rw [h2], ?_⟩
  rw [h4]
  exact eig_exp hN A dt

theorem poles_avoid (hN : EigExact N) {A : Matrix (Fin n) (Fin n) ℝ} {w : ℝ} (h : (1 - w • A).det ≠ 0) {s : ℂ} (hs : s ∈ N.eig (Arr.of A)) : 1 - w * s ≠ 0 := by
  intro h0
  rw [eig_mem hN] at hs
  apply h
  have h1 : (algebraMap ℝ ℂ) (1 - w • A).det = (w : ℂ) ^ n * (s • (1 : Matrix (Fin n) (Fin n) ℂ) - A.map (algebraMap ℝ ℂ)).det := by
    have e := RingHom.map_det (algebraMap ℝ ℂ) (1 - w • A)
    rw [RingHom.mapMatrix_apply] at e
    rw [e]
    have e2 : (1 - w • A).map (algebraMap ℝ ℂ) = (w : ℂ) • (s • (1 : Matrix (Fin n) (Fin n) ℂ) - A.map (algebraMap ℝ ℂ)) := by
      rw [map_sub', map_smul', Matrix.map_one _ (map_zero _) (map_one _), smul_sub, smul_smul, ← sub_eq_zero.mp h0, one_smul]
      rfl
    rw [e2, det_smul, Fintype.card_fin]
  rw [hs, mul_zero] at h1
  simpa using h1

/-- The star product methods. -/
theorem poles_lft (hN : EigExact N) (hP : PolesCurrent N G) (hc : Consistent G.g p m) {x y z w : ℝ} {f : ℂ → ℂ}
    (hargs : discretizeArgs E G.g dt method pw q = simpleLft (q2 x y z w) G.g.a G.g.b G.g.c G.g.d)
    (hpw : method ∈ tustinNames → 0 < dt → pw ≤ 1 / (2 * dt))
    (hf : ∀ s : ℂ, 1 - w * s ≠ 0 → fracLin x (z * y) w s = f s)
    (h : discretize N E G dt method pw q = .ok S) : S.poles.Perm (G.poles.map f) ∧ ∀ s ∈ G.poles, 1 - w * s ≠ 0 := by
  obtain ⟨hm, hdt0, hdt⟩ := discretize_pre h
  have key : ∀ (n : ℕ) (A : Matrix (Fin n) (Fin n) ℝ) (B : Matrix (Fin n) (Fin m) ℝ) (C : Matrix (Fin p) (Fin n) ℝ) (D : Matrix (Fin p) (Fin m) ℝ),
      G.g = ⟨Arr.of A, Arr.of B, Arr.of C, Arr.of D, none, false⟩ → (1 - w • A).det ≠ 0 ∧ S.g.isgain = false ∧
        S.g.a = Arr.of (x • 1 + (z * y) • (A * (1 - w • A)⁻¹)) := by
    intro n A B C D hG
    obtain ⟨h1, h2⟩ := discretize_lft_ok (N := N) hargs hpw hG hm
    have h0 : (1 - w • A).det ≠ 0 := by
      intro h0
      rw [h1 h0] at h
      cases h
    obtain ⟨S', h3, h4, -⟩ := h2 h0 hdt
    rw [h] at h3
    cases h3
    exact ⟨h0, by rw [h4], by rw [h4]⟩
  constructor
  · refine poles_map_of hP hc h fun n A B C D hG => ?_
    obtain ⟨h0, h1, h2⟩ := key n A B C D hG
    refine ⟨_, h1, h2, (eig_fracLin hN h0).trans ?_⟩
    rw [List.map_congr_left (g := f) fun s hs => ?_]
    have := hf s (poles_avoid hN h0 hs)
    push_cast
    exact this
  · obtain ⟨a, b, c, D, dt', hG'⟩ | ⟨n, A, B, C, D, dt', hG'⟩ := consistent_cases hc
    · rw [poles_gain hP (by rw [hG'])]
      simp
    · rw [hG'] at hdt0
      simp only at hdt0
      subst hdt0
      obtain ⟨h0, h1, h2⟩ := key n A B C D hG'
      rw [poles_dyn hP (by rw [hG']) (by rw [hG'])]
      exact fun s hs => poles_avoid hN h0 hs

theorem poles_forward (hN : EigExact N) (hP : PolesCurrent N G) (hc : Consistent G.g p m) (hm : method ∈ forwardNames)
    (h : discretize N E G dt method pw q = .ok S) : S.poles.Perm (G.poles.map fun s => 1 + s * dt) := by
  obtain ⟨-, -, hdt⟩ := discretize_pre h
  refine (poles_lft hN hP hc (x := 1) (y := √dt) (z := √dt) (w := 0) ?_ ?_ ?_ h).1
  · simp only [forwardNames, List.mem_cons, List.not_mem_nil, or_false] at hm
    rcases hm with rfl | rfl | rfl | rfl <;>
      simp [discretizeArgs, tustinNames, forwardNames]
  · intro h0
    simp only [forwardNames, List.mem_cons, List.not_mem_nil, or_false] at hm
    rcases hm with rfl | rfl | rfl | rfl <;> simp [tustinNames] at h0
  · intro s _
    have : (√dt : ℂ) * √dt = dt := by rw [← Complex.ofReal_mul, Real.mul_self_sqrt hdt.le]
    simp [fracLin, this, mul_comm]

theorem poles_backward (hN : EigExact N) (hP : PolesCurrent N G) (hc : Consistent G.g p m) (hm : method ∈ backwardNames)
    (h : discretize N E G dt method pw q = .ok S) : S.poles.Perm (G.poles.map fun s => 1 / (1 - s * dt)) ∧ ∀ s ∈ G.poles, 1 - dt * s ≠ 0 := by
  obtain ⟨-, -, hdt⟩ := discretize_pre h
  refine poles_lft hN hP hc (x := 1) (y := √dt) (z := √dt) (w := dt) ?_ ?_ ?_ h
  · simp only [backwardNames, List.mem_cons, List.not_mem_nil, or_false] at hm
    rcases hm with rfl | rfl | rfl | rfl <;>
      simp [discretizeArgs, tustinNames, forwardNames, backwardNames]
  · intro h0
    simp only [backwardNames, List.mem_cons, List.not_mem_nil, or_false] at hm
    rcases hm with rfl | rfl | rfl | rfl <;> simp [tustinNames] at h0
  · intro s h0
    have : (√dt : ℂ) * √dt = dt := by rw [← Complex.ofReal_mul, Real.mul_self_sqrt hdt.le]
    have h1 : 1 - s * dt ≠ 0 := by rwa [mul_comm]
    simp only [fracLin, this]
    push_cast
    field_simp
    ring

/-- The factor `k` in `z = (1 + k s) / (1 - k s)`: `dt/2` without prewarping, otherwise such that the frequency `pw` (in Hertz) is kept. -/
noncomputable def Spec.tustinFactor (dt pw : ℝ) : ℝ := if pw = 0 then dt / 2 else Real.tan (Real.pi * pw * dt) / (2 * Real.pi * pw)

theorem tustinFactor_pos (hdt : 0 < dt) (hpw : 0 ≤ pw) (hny : pw < 1 / (2 * dt)) : 0 < tustinFactor dt pw := by
  unfold tustinFactor
  split_ifs with h
  · positivity
  · have h1 : 0 < pw := lt_of_le_of_ne hpw (Ne.symm h)
    refine div_pos (Real.tan_pos_of_pos_of_lt_pi_div_two (by positivity) ?_) (by positivity)
    have h2 : pw * dt < 1 / 2 := by
      rw [lt_div_iff₀ (by positivity)] at hny
      linarith
    calc Real.pi * pw * dt = Real.pi * (pw * dt) := by ring
      _ < Real.pi * (1 / 2) := mul_lt_mul_of_pos_left h2 Real.pi_pos
      _ = Real.pi / 2 := by ring

theorem tustin_factor_args {P : Type} {G : StateObj ℝ P} (hm : method = "tustin" ∨ method = "bilinear") (hdt : 0 < dt) (hpw : 0 ≤ pw) (hny : pw < 1 / (2 * dt)) :
    discretizeArgs E G.g dt method pw q =
      simpleLft (q2 1 (√(2 * tustinFactor dt pw)) (√(2 * tustinFactor dt pw)) (tustinFactor dt pw)) G.g.a G.g.b G.g.c G.g.d := by
  have hk := tustinFactor_pos hdt hpw hny
  have hsq : √(2 * tustinFactor dt pw) * √(2 * tustinFactor dt pw) = 2 * tustinFactor dt pw := Real.mul_self_sqrt (by positivity)
  have e : tustinQ dt pw = .ok (q2 1 (√(2 * tustinFactor dt pw)) (√(2 * tustinFactor dt pw)) (tustinFactor dt pw)) := by
    unfold tustinQ
    by_cases h0 : pw = 0
    · rw [if_pos h0]
      simp only [tustinFactor, if_pos h0]
      rw [show 2 * (dt / 2) = dt by ring]
    · rw [if_neg h0, if_neg (not_lt.mpr hny.le)]
      have e1 : sq2tan dt pw = √(2 * tustinFactor dt pw) := by
        unfold sq2tan
        rw [tustinFactor, if_neg h0]
        congr 1
        rw [show 2 * Real.pi * pw * dt / 2 = Real.pi * pw * dt by ring]
        ring
      rw [e1, sq, hsq]
      congr 3
      ring
  rcases hm with rfl | rfl <;>
    simp [discretizeArgs, discTustin, e, tustinNames, bind, Except.bind]

theorem poles_tustin (hN : EigExact N) (hP : PolesCurrent N G) (hc : Consistent G.g p m) (hm : method = "tustin" ∨ method = "bilinear")
    (hpw : 0 ≤ pw) (hny : pw < 1 / (2 * dt)) (h : discretize N E G dt method pw q = .ok S) :
    S.poles.Perm (G.poles.map fun s => (1 + tustinFactor dt pw * s) / (1 - tustinFactor dt pw * s)) ∧ ∀ s ∈ G.poles, 1 - tustinFactor dt pw * s ≠ 0 := by
  obtain ⟨-, -, hdt⟩ := discretize_pre h
  have hk := tustinFactor_pos hdt hpw hny
  have hsq : √(2 * tustinFactor dt pw) * √(2 * tustinFactor dt pw) = 2 * tustinFactor dt pw := Real.mul_self_sqrt (by positivity)
  refine poles_lft hN hP hc (x := 1) (y := √(2 * tustinFactor dt pw)) (z := √(2 * tustinFactor dt pw)) (w := tustinFactor dt pw) ?_ ?_ ?_ h
  · exact tustin_factor_args hm hdt hpw hny
  · intro _ _; exact hny.le
  · intro s h0
    have : (√(2 * tustinFactor dt pw) : ℂ) * √(2 * tustinFactor dt pw) = 2 * tustinFactor dt pw := by rw [← Complex.ofReal_mul, hsq]; push_cast; rfl
    simp only [fracLin, this]
    push_cast
    field_simp
    ring

/-! ## C97 -/

section history
variable {a b c d : Option (Arr ℝ)} {dt₀ : Option ℝ} {G₀ : StateObj ℝ ℂ}

/-- **C97**, hold methods: the poles of the discretized model are `exp(s dt)`, with `s` running through the poles of the model (with multiplicities). -/
theorem C97_hold (hN : EigExact N) (hE : BalanceOk E) (hi : StateObj.init N a b c d dt₀ = .ok G₀) (hist : List (Assign ℝ))
    (hc : Consistent (G₀.run N hist).g p m) (hm : method = "zoh" ∨ method = "foh") (h : discretize N E (G₀.run N hist) dt method pw q = .ok S) :
    S.poles.Perm ((G₀.run N hist).poles.map fun s => Complex.exp (s * dt)) :=
  poles_hold hN hE (C14_poles_zeros N hi hist) hc hm h

/-- **C97**, tustin with and without prewarping: the poles are `(1 + k s) / (1 - k s)`, no denominator vanishes. -/
theorem C97_tustin (hN : EigExact N) (hi : StateObj.init N a b c d dt₀ = .ok G₀) (hist : List (Assign ℝ))
    (hc : Consistent (G₀.run N hist).g p m) (hm : method = "tustin" ∨ method = "bilinear") (hpw : 0 ≤ pw) (hny : pw < 1 / (2 * dt))
    (h : discretize N E (G₀.run N hist) dt method pw q = .ok S) :
    S.poles.Perm ((G₀.run N hist).poles.map fun s => (1 + tustinFactor dt pw * s) / (1 - tustinFactor dt pw * s)) ∧
      ∀ s ∈ (G₀.run N hist).poles, 1 - tustinFactor dt pw * s ≠ 0 :=
  poles_tustin hN (C14_poles_zeros N hi hist) hc hm hpw hny h

/-- **C97**, forward differences: the poles are `1 + s dt`. -/
theorem C97_forward (hN : EigExact N) (hi : StateObj.init N a b c d dt₀ = .ok G₀) (hist : List (Assign ℝ))
    (hc : Consistent (G₀.run N hist).g p m) (hm : method ∈ forwardNames) (h : discretize N E (G₀.run N hist) dt method pw q = .ok S) :
    S.poles.Perm ((G₀.run N hist).poles.map fun s => 1 + s * dt) :=
  poles_forward hN (C14_poles_zeros N hi hist) hc hm h

/-- **C97**, backward differences: the poles are `1 / (1 - s dt)`, no denominator vanishes. -/
theorem C97_backward (hN : EigExact N) (hi : StateObj.init N a b c d dt₀ = .ok G₀) (hist : List (Assign ℝ))
    (hc : Consistent (G₀.run N hist).g p m) (hm : method ∈ backwardNames) (h : discretize N E (G₀.run N hist) dt method pw q = .ok S) :
    S.poles.Perm ((G₀.run N hist).poles.map fun s => 1 / (1 - s * dt)) ∧ ∀ s ∈ (G₀.run N hist).poles, 1 - dt * s ≠ 0 :=
  poles_backward hN (C14_poles_zeros N hi hist) hc hm h

/-- **C97**, user supplied interconnection `[[q11, q12], [q21, q22]]`: the poles are `q11 + q21 q12 s / (1 - q22 s)`, no denominator vanishes. -/
theorem C97_lft {q11 q12 q21 q22 : ℝ} (hN : EigExact N) (hi : StateObj.init N a b c d dt₀ = .ok G₀) (hist : List (Assign ℝ))
    (hc : Consistent (G₀.run N hist).g p m) (h : discretize N E (G₀.run N hist) dt "lft" pw (some (Arr.of !![q11, q12; q21, q22])) = .ok S) :
    S.poles.Perm ((G₀.run N hist).poles.map fun s => q11 + q21 * q12 * s / (1 - q22 * s)) ∧ ∀ s ∈ (G₀.run N hist).poles, 1 - q22 * s ≠ 0 := by
  refine poles_lft hN (C14_poles_zeros N hi hist) hc (x := q11) (y := q12) (z := q21) (w := q22) ?_ ?_ ?_ h
  · simp [discretizeArgs, tustinNames, forwardNames, backwardNames, q2]
  · intro h0; simp [tustinNames] at h0
  · intro s _
    unfold fracLin
    ring

theorem flag_cont (hR : RegionExact N) (hf : FlagCurrent N G) (hd : G.g.dt = none) : G.isstable = true ↔ ∀ s ∈ G.poles, s.re < 0 := by
  unfold FlagCurrent at hf
  rw [hf, hd]
  simp [(hR _).2]

theorem flag_disc (hR : RegionExact N) (hf : FlagCurrent N S) (hd : S.g.dt.isSome = true) : S.isstable = true ↔ ∀ s ∈ S.poles, ‖s‖ < 1 := by
  unfold FlagCurrent at hf
  rw [hf, hd]
  simp [(hR _).1]

theorem norm_mobius {k : ℝ} (hk : 0 < k) {s : ℂ} (h : 1 - k * s ≠ 0) : ‖(1 + k * s) / (1 - k * s)‖ < 1 ↔ s.re < 0 := by
  rw [norm_div, div_lt_one (norm_pos_iff.mpr h), ← sq_lt_sq₀ (norm_nonneg _) (norm_nonneg _), ← Complex.normSq_eq_norm_sq, ← Complex.normSq_eq_norm_sq,
    Complex.normSq_apply, Complex.normSq_apply]
  simp
  constructor
  · intro h1
    by_contra h2
    push Not at h2
    nlinarith [mul_nonneg hk.le h2]
  · intro h1
    nlinarith [mul_pos hk (neg_pos.mpr h1)]

theorem norm_backward {s : ℂ} (hdt : 0 < dt) (h : s.re < 0) : ‖1 / (1 - s * dt)‖ < 1 := by
  have h1 : 1 < (1 - s * dt).re := by
    simp
    nlinarith [mul_pos hdt (neg_pos.mpr h)]
  have h2 : 1 < ‖1 - s * dt‖ := h1.trans_le (Complex.re_le_norm _)
  rw [norm_div, norm_one]
  exact (div_lt_one (by linarith)).mpr h2

/-- **C97**, flags: discretization by zero-order hold, first-order hold and tustin keeps the stability flag; backward differences turn stable models into
stable ones; forward differences give a stable model exactly if all poles of the model are in the disc `|1 + s dt| < 1`. For models whose sampling period
was never switched between `None` and a number (otherwise the flag of the model itself is stale, `C14_stale_flag_violated`). -/
theorem C97_flag (hN : EigExact N) (hR : RegionExact N) (hE : BalanceOk E) (hi : StateObj.init N a b c d dt₀ = .ok G₀) (hist : List (Assign ℝ))
    (hk : ∀ x ∈ hist, x.keepsDomain G₀) (hc : Consistent (G₀.run N hist).g p m) (h : discretize N E (G₀.run N hist) dt method pw q = .ok S) :
    (method = "zoh" ∨ method = "foh" → S.isstable = (G₀.run N hist).isstable) ∧
    (method = "tustin" ∨ method = "bilinear" → 0 ≤ pw → pw < 1 / (2 * dt) → S.isstable = (G₀.run N hist).isstable) ∧
    (method ∈ backwardNames → (G₀.run N hist).isstable = true → S.isstable = true) ∧
    (method ∈ forwardNames → (S.isstable = true ↔ ∀ s ∈ (G₀.run N hist).poles, ‖1 + s * dt‖ < 1)) := by
  have hP := C14_poles_zeros N hi hist
  have hF := C14_flag_partial N hi hist hk
  generalize G₀.run N hist = G at *
  obtain ⟨-, hF', hS⟩ := discretize_current h
  obtain ⟨-, hdt0, hdt⟩ := discretize_pre h
  have e1 := flag_cont hR hF hdt0
  have e2 := flag_disc hR hF' hS
  refine ⟨fun hm => ?_, fun hm hpw hny => ?_, fun hm hs => ?_, fun hm => ?_⟩
  · have hp := poles_hold hN hE hP hc hm h
    rw [Bool.eq_iff_iff, e1, e2]
    simp only [hp.mem_iff, List.mem_map, forall_exists_index, and_imp, forall_apply_eq_imp_iff₂, Complex.norm_exp]
    refine forall₂_congr fun s _ => ?_
    rw [Real.exp_lt_one_iff]
    simp only [Complex.mul_re, Complex.ofReal_re, Complex.ofReal_im, mul_zero, sub_zero]
    constructor
    · intro h1; by_contra h2; push Not at h2; nlinarith [mul_nonneg h2 hdt.le]
    · intro h1; nlinarith
  · obtain ⟨hp, h0⟩ := poles_tustin hN hP hc hm hpw hny h
    have hk := tustinFactor_pos hdt hpw hny
    rw [Bool.eq_iff_iff, e1, e2]
    simp only [hp.mem_iff, List.mem_map, forall_exists_index, and_imp, forall_apply_eq_imp_iff₂]
    exact forall₂_congr fun s hs => norm_mobius hk (h0 s hs)
  · obtain ⟨hp, h0⟩ := poles_backward hN hP hc hm h
    rw [e2]
    simp only [hp.mem_iff, List.mem_map, forall_exists_index, and_imp, forall_apply_eq_imp_iff₂]
    exact fun s hs' => norm_backward hdt (e1.mp hs s hs')
  · have hp := poles_forward hN hP hc hm h
    rw [e2]
    simp only [hp.mem_iff, List.mem_map, forall_exists_index, and_imp, forall_apply_eq_imp_iff₂]

/-! ## C98 -/

theorem map_real {a b : ℕ} (F : Matrix (Fin a) (Fin b) ℝ) : F.map (algebraMap ℝ ℝ) = F := by ext; simp

/-- The gain of a hold discretization at `z = 1`. -/
theorem holdOf_gain {name : String} {A Φ : Matrix (Fin n) (Fin n) ℝ} {B Γ : Matrix (Fin n) (Fin m) ℝ} {C : Matrix (Fin p) (Fin n) ℝ} {D F : Matrix (Fin p) (Fin m) ℝ}
    (h : HoldOf name dt A B C D Φ Γ F) (hdt : 0 < dt) {M : Matrix (Fin p) (Fin m) ℝ} (hM : IsTF A B C D 0 M) (h1 : (1 - Φ).det ≠ 0) : IsTF Φ Γ C F 1 M := by
  obtain ⟨h0, rfl⟩ := hM
  obtain ⟨rfl, h⟩ := h
  rw [zero_smul, zero_sub] at h0
  have hA : A.det ≠ 0 := by
    rw [det_neg] at h0
    exact right_ne_zero_of_mul h0
  have e0 : ((0 : ℝ) • (1 : Matrix (Fin n) (Fin n) ℝ) - A)⁻¹ = - A⁻¹ := by
    rw [zero_smul, zero_sub]
    refine inv_eq_right_inv ?_
    rw [Matrix.neg_mul, Matrix.mul_neg, neg_neg, mul_nonsing_inv _ (Ne.isUnit hA)]
  -- `A Γ₀ = (Φ - 1) B`
  have hcomm : (dt • A) * gam (dt • A) (dt • B) 0 = exp (dt • A) * (dt • B) - dt • B := by
    have h : blk (dt • A) (dt • B) 0 0 * exp (blk (dt • A) (dt • B) 0 (0 : Matrix (Fin m) (Fin m) ℝ)) =
        exp (blk (dt • A) (dt • B) 0 (0 : Matrix (Fin m) (Fin m) ℝ)) * blk (dt • A) (dt • B) 0 0 := (Commute.refl _).exp_right.eq
    rw [exp_blk, blk_mul, blk_mul] at h
    have := (blk_inj h).2.1
    simp only [exp_zero, Matrix.mul_one, Matrix.mul_zero, add_zero] at this
    rw [← this, add_sub_cancel_right]
  have hΓ : (1 - exp (dt • A))⁻¹ * gam (dt • A) (dt • B) 0 = - (A⁻¹ * B) := by
    have h2 : A * gam (dt • A) (dt • B) 0 = exp (dt • A) * B - B := by
      rw [Matrix.smul_mul, Matrix.mul_smul, ← smul_sub] at hcomm
      exact smul_right_injective _ hdt.ne' hcomm
    have hc2 : A⁻¹ * exp (dt • A) = exp (dt • A) * A⁻¹ := by
      have h3 : A * exp (dt • A) = exp (dt • A) * A := (((Commute.refl A).smul_right dt).exp_right).eq
      calc A⁻¹ * exp (dt • A) = A⁻¹ * (exp (dt • A) * A) * A⁻¹ := by
            rw [Matrix.mul_assoc, Matrix.mul_assoc, mul_nonsing_inv _ (Ne.isUnit hA), Matrix.mul_one]
        _ = exp (dt • A) * A⁻¹ := by rw [← h3, ← Matrix.mul_assoc, nonsing_inv_mul _ (Ne.isUnit hA), Matrix.one_mul]
    have h3 : gam (dt • A) (dt • B) 0 = (1 - exp (dt • A)) * (- (A⁻¹ * B)) := by
      calc gam (dt • A) (dt • B) 0 = A⁻¹ * (A * gam (dt • A) (dt • B) 0) := by rw [← Matrix.mul_assoc, nonsing_inv_mul _ (Ne.isUnit hA), Matrix.one_mul]
        _ = (1 - exp (dt • A)) * (- (A⁻¹ * B)) := by
          rw [h2, Matrix.mul_sub, ← Matrix.mul_assoc, hc2, Matrix.sub_mul, Matrix.one_mul, Matrix.mul_neg, Matrix.mul_assoc]
          abel
    rw [h3, ← Matrix.mul_assoc, nonsing_inv_mul _ (Ne.isUnit h1), Matrix.one_mul]
  refine ⟨by rwa [one_smul], ?_⟩
  rw [one_smul, e0]
  rcases h with ⟨-, rfl, rfl⟩ | ⟨-, g, -, rfl, rfl⟩
  · rw [Matrix.mul_assoc, Matrix.mul_assoc, hΓ, Matrix.neg_mul]
  · have e : gam (dt • A) (dt • B) 0 + exp (dt • A) * g - g = gam (dt • A) (dt • B) 0 - (1 - exp (dt • A)) * g := by
      rw [Matrix.sub_mul, Matrix.one_mul]; abel
    rw [e, Matrix.mul_assoc, Matrix.mul_assoc, Matrix.mul_sub, hΓ, ← Matrix.mul_assoc (1 - exp (dt • A))⁻¹, nonsing_inv_mul _ (Ne.isUnit h1), Matrix.one_mul,
      Matrix.neg_mul, Matrix.mul_sub]
    abel

/-- **C98**, hold methods: the gain of the discretized model at `z = 1` is the gain of the model at `s = 0`, unless some pole `s` of the model has
`exp(s dt) = 1`. -/
theorem C98_hold (hN : EigExact N) (hE : BalanceOk E) (hi : StateObj.init N a b c d dt₀ = .ok G₀) (hist : List (Assign ℝ))
    (hm : method = "zoh" ∨ method = "foh") (h : discretize N E (G₀.run N hist) dt method pw q = .ok S)
    (hal : ∀ s ∈ (G₀.run N hist).poles, Complex.exp (s * dt) ≠ 1)
    {M : Matrix (Fin p) (Fin m) ℝ} (hM : HasTF (G₀.run N hist).g p m (0 : ℝ) M) : HasTF S.g p m (1 : ℝ) M := by
  have hP := C14_poles_zeros N hi hist
  generalize G₀.run N hist = G at *
  obtain ⟨hk, hdt0, hdt⟩ := discretize_pre h
  rcases hM with ⟨hg, D, hD, rfl⟩ | ⟨hg, n, A, B, C, D, hA, hB, hC, hD, hT⟩
  · have hdt' : DtOk (some dt) := by intro t ht; cases ht; exact hdt
    have e := mkGain_of hdt' G.g.d
    unfold mkGain at e
    simp only [discretize, hk, hdt0, hg, not_true_eq_false, if_false, if_true, Option.isSome_none,
      Bool.false_eq_true, StateObj.init, e, bind, Except.bind, StateObj.set, StateObj.assign,
      not_le.mpr hdt, StateObj.recalc, Except.ok.injEq] at h
    subst h
    exact Or.inl ⟨rfl, D, hD, rfl⟩
  · have hG : G.g = ⟨Arr.of A, Arr.of B, Arr.of C, Arr.of D, none, false⟩ := by
      rw [← hA, ← hB, ← hC, ← hD, ← hdt0, ← hg]
    have hc : Consistent G.g p m := by rw [hG]; exact ⟨⟨rfl, rfl⟩, fun _ => ⟨rfl, rfl, rfl, rfl, rfl⟩⟩
    obtain ⟨S', Φ, Γ, F, h1, h2, h3, h4⟩ := discretize_holdOf (N := N) (pw := pw) (q := q) hE hm hdt hG
    rw [h] at h1
    cases h1
    have h5 : (1 - Φ).det ≠ 0 := by
      intro h0
      have h6 : IsEig Φ 1 := by
        unfold IsEig
        have e := RingHom.map_det (algebraMap ℝ ℂ) (1 - Φ)
        rw [RingHom.mapMatrix_apply, h0, map_zero, map_sub', Matrix.map_one _ (map_zero _) (map_one _)] at e
        rw [one_smul]
        exact e.symm
      have h7 := (eig_exp hN A dt).mem_iff (a := 1)
      rw [← h4.1, eig_mem hN] at h7
      obtain ⟨s, hs, h8⟩ := List.mem_map.mp (h7.mp h6)
      rw [← poles_dyn hP (by rw [hG]) (by rw [hG])] at hs
      exact hal s hs h8
    rw [map_real, map_real, map_real, map_real] at hT
    rw [h2]
    refine Or.inr ⟨rfl, n, Φ, Γ, C, F, rfl, rfl, rfl, rfl, ?_⟩
    rw [map_real, map_real, map_real, map_real]
    exact holdOf_gain h4 hdt hT h5

/-- **C98**, hold methods and stable models: no exception remains. -/
theorem C98_hold_stable (hN : EigExact N) (hR : RegionExact N) (hE : BalanceOk E) (hi : StateObj.init N a b c d dt₀ = .ok G₀) (hist : List (Assign ℝ))
    (hk : ∀ x ∈ hist, x.keepsDomain G₀) (hm : method = "zoh" ∨ method = "foh") (h : discretize N E (G₀.run N hist) dt method pw q = .ok S)
    (hs : (G₀.run N hist).isstable = true) {M : Matrix (Fin p) (Fin m) ℝ} (hM : HasTF (G₀.run N hist).g p m (0 : ℝ) M) : HasTF S.g p m (1 : ℝ) M := by
  refine C98_hold hN hE hi hist hm h (fun s hs' h1 => ?_) hM
  obtain ⟨-, hdt0, hdt⟩ := discretize_pre h
  have h2 := (flag_cont hR (C14_flag_partial N hi hist hk) hdt0).mp hs s hs'
  have h3 := congrArg norm h1
  rw [Complex.norm_exp, norm_one, Real.exp_eq_one_iff] at h3
  simp only [Complex.mul_re, Complex.ofReal_re, Complex.ofReal_im, mul_zero, sub_zero] at h3
  nlinarith

end history

/-- **C98**, tustin (with and without prewarping), forward and backward differences: the gain of the discretized model at `z = 1` is the gain of the model at
`s = 0`. -/
theorem C98_substitution {P : Type} {N : Numerics ℝ P} {G S : StateObj ℝ P}
    (hm : (method = "tustin" ∨ method = "bilinear") ∧ 0 ≤ pw ∧ pw < 1 / (2 * dt) ∨ method ∈ forwardNames ∨ method ∈ backwardNames)
    (h : discretize N E G dt method pw q = .ok S) {M : Matrix (Fin p) (Fin m) ℝ} (hM : HasTF G.g p m (0 : ℝ) M) : HasTF S.g p m (1 : ℝ) M := by
  obtain ⟨-, -, hdt⟩ := discretize_pre h
  rcases hm with ⟨hm, hpw, hny⟩ | hm | hm
  · have hk := tustinFactor_pos hdt hpw hny
    have hsq : √(2 * tustinFactor dt pw) * √(2 * tustinFactor dt pw) = 2 * tustinFactor dt pw := Real.mul_self_sqrt (by positivity)
    exact (discretize_lft_hasTF (s := (0 : ℝ)) (ζ := 1) (tustin_factor_args hm hdt hpw hny) (fun _ _ => hny.le) h hM (by simp [(Real.sqrt_pos.mpr hk).ne']) (by simp)).1
  · exact (C32_forward (s := (0 : ℝ)) (ζ := 1) hm h hM (by simp)).1
  · exact (C32_backward (s := (0 : ℝ)) (ζ := 1) hm h hM one_ne_zero (by simp)).1

/-! ## Examples -/

example : ∃ N S, EigExact N ∧ RegionExact N ∧ BalanceOk exactDNum ∧ StateObj.init N (some (Arr.of !![-1])) (some (Arr.of !![1])) (some (Arr.of !![1])) (some (Arr.of !![0])) none = .ok (lagS N (-1) none) ∧
    Consistent (lagS N (-1) none).g 1 1 ∧ discretize N exactDNum (lagS N (-1) none) 1 "foh" 0 none = .ok S ∧ (lagS N (-1) none).isstable = true := by
  obtain ⟨N, -, hN, hR, -⟩ := exists_pole_numerics
  obtain ⟨S, Φ, Γ, F, h1, -⟩ := discretize_holdOf (N := N) (E := exactDNum) (G := lagS N (-1) none) (pw := 0) (q := none) exactDNum_ok.1 (Or.inr rfl) one_pos rfl
  exact ⟨N, S, hN, hR, exactDNum_ok.1, lagS_init N (-1) dtOk_none, ⟨⟨rfl, rfl⟩, fun _ => ⟨rfl, rfl, rfl, rfl, rfl⟩⟩, h1,
    (C92_constructed hN hR (lagS_init N (-1) dtOk_none) rfl).mpr (motions_iff.mpr fun z hz => one_state_hurwitz (by norm_num) z hz)⟩

example (N : Numerics ℝ ℂ) : (∃ S, discretize N exactDNum (lagS N (-1) none) 1 "tustin" (1 / 4) none = .ok S) ∧ HasTF (lagS N (-1) none).g 1 1 (0 : ℝ) !![1] := by
  have hny : (1 / 4 : ℝ) < 1 / (2 * 1) := by norm_num
  have hk := tustinFactor_pos (dt := 1) one_pos (by norm_num) hny
  refine ⟨?_, ?_⟩
  · obtain ⟨S, h, -⟩ := (discretize_lft_ok (N := N) (E := exactDNum) (G := lagS N (-1) none) (q := none) (tustin_factor_args (Or.inl rfl) one_pos (by norm_num) hny)
      (fun _ _ => hny.le) rfl (by simp [knownMethods])).2 (by simp; linarith) one_pos
    exact ⟨S, h⟩
  · refine Or.inr ⟨rfl, 1, !![-1], !![1], !![1], !![0], rfl, rfl, rfl, rfl, ?_⟩
    simp only [map_real]
    refine ⟨by simp, ?_⟩
    ext i j
    simp [Fin.eq_zero i, Fin.eq_zero j, Matrix.inv_def, adjugate_fin_one, Ring.inverse_one]

/-- Forward differences do not keep stability: the poles `-3` and `1 - 3`. -/
example : ∃ N S, EigExact N ∧ RegionExact N ∧ (lagS N (-3) none).isstable = true ∧ discretize N exactDNum (lagS N (-3) none) 1 ">>" 0 none = .ok S ∧ S.isstable = false := by
  obtain ⟨N, -, hN, hR, -⟩ := exists_pole_numerics
  obtain ⟨S, h, -⟩ := (discretize_lft_ok (N := N) (E := exactDNum) (G := lagS N (-3) none) (dt := 1) (method := ">>") (pw := 0) (q := none) (x := 1) (y := √1) (z := √1) (w := 0)
    (by simp [discretizeArgs, tustinNames, forwardNames]) (by simp [tustinNames]) rfl (by simp [knownMethods])).2 (by simp) one_pos
  refine ⟨N, S, hN, hR, (C92_constructed hN hR (lagS_init N (-3) dtOk_none) rfl).mpr (motions_iff.mpr fun z hz => one_state_hurwitz (by norm_num) z hz), h, ?_⟩
  have hf := (C97_flag hN hR exactDNum_ok.1 (lagS_init N (-3) dtOk_none) [] (by simp) (p := 1) (m := 1) ⟨⟨rfl, rfl⟩, fun _ => ⟨rfl, rfl, rfl, rfl, rfl⟩⟩ h).2.2.2 (by simp [forwardNames])
  rw [← Bool.not_eq_true, hf]
  intro h1
  have h2 := h1 (-3) (by
    change (-3 : ℂ) ∈ N.eig (Arr.of !![(-3 : ℝ)])
    rw [eig_mem hN]
    simp [IsEig])
  norm_num at h2

end Harold
