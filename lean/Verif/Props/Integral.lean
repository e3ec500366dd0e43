import Verif.Spec.Integral
import Verif.Props.Separation
import Verif.Props.Sine

/-!
# C121: integral action

A loop with integrators (or oscillators) in every channel follows constant (or sinusoidal) references and rejects such disturbances, if it is stable.
-/

namespace Harold

open Matrix Spec

variable {n m p q : ℕ} {G H R : StateM ℝ} {dt : Option ℝ}

section
variable {L : Type} [Field L] [Algebra ℝ L] {s : L}

local notation "φ" => algebraMap ℝ L

theorem hasTF_dyn' {A : Matrix (Fin n) (Fin n) ℝ} {B : Matrix (Fin n) (Fin m) ℝ} {C : Matrix (Fin p) (Fin n) ℝ} {D : Matrix (Fin p) (Fin m) ℝ} {M : Matrix (Fin p) (Fin m) L}
    (h : HasTF ⟨Arr.of A, Arr.of B, Arr.of C, Arr.of D, dt, false⟩ p m s M) : IsTF (A.map φ) (B.map φ) (C.map φ) (D.map φ) s M := by
  obtain ⟨n', A', B', C', D', e1, e2, e3, e4, h⟩ := dyn_elim h rfl
  obtain rfl : n = n' := congrArg Arr.r e1
  rw [Arr.of_inj] at e1 e2 e3 e4
  subst e1 e2 e3 e4
  exact h

/-- If `m` combinations `V x` of the states obey `q (V x) = s (V x) + Z y` with `Z` invertible, the output `y` has no component at `s`. -/
theorem blocked {A : Matrix (Fin n) (Fin n) L} {B : Matrix (Fin n) (Fin m) L} {C : Matrix (Fin p) (Fin n) L} {D : Matrix (Fin p) (Fin m) L} {M : Matrix (Fin p) (Fin m) L}
    (h : IsTF A B C D s M) {V : Matrix (Fin p) (Fin n) L} {Z : Matrix (Fin p) (Fin p) L} (hZ : Z.det ≠ 0) (h1 : V * A = s • V + Z * C) (h2 : V * B = Z * D) : M = 0 := by
  obtain ⟨-, X, hX, rfl⟩ := isTF_iff_sol.mp h
  have e := congrArg (fun Y => V * Y) hX
  rw [← Matrix.mul_assoc, Matrix.mul_sub, Matrix.mul_smul, Matrix.mul_one, h1, h2, sub_add_cancel_left, Matrix.neg_mul, Matrix.mul_assoc] at e
  have e' : Z * (C * X + D) = 0 := by rw [Matrix.mul_add, ← e]; abel
  have := congrArg (Z⁻¹ * ·) e'
  simpa [← Matrix.mul_assoc, nonsing_inv_mul _ (Ne.isUnit hZ)] using this

theorem mode_sd {k : ℕ} {W : Matrix (Fin p) (Fin k) L} {Ka : Matrix (Fin k) (Fin k) L} {Lb : Matrix (Fin k) (Fin p) L} {D : Matrix (Fin p) (Fin m) L} (X : Matrix (Fin m) (Fin k) L) (σ : L)
    (hW : W * Ka = s • W) : W * (Ka + σ • (Lb * D) * X) = s • W + W * Lb * (0 + σ • D * X) := by
  rw [Matrix.mul_add, hW, zero_add, Matrix.smul_mul, Matrix.smul_mul, Matrix.mul_smul, Matrix.mul_smul, Matrix.mul_assoc, Matrix.mul_assoc]

theorem mode_dd {k : ℕ} {W : Matrix (Fin p) (Fin k) L} {A : Matrix (Fin n) (Fin n) L} {B : Matrix (Fin n) (Fin m) L} {C : Matrix (Fin p) (Fin n) L} {Ka : Matrix (Fin k) (Fin k) L}
    {Lb : Matrix (Fin k) (Fin p) L} {D : Matrix (Fin p) (Fin m) L} (X : Matrix (Fin m) (Fin (n + k)) L) (σ : L) (hW : W * Ka = s • W) :
    hcat (0 : Matrix (Fin p) (Fin n) L) W * (blk A 0 (Lb * C) Ka + σ • vcat B (Lb * D) * X) = s • hcat (0 : Matrix (Fin p) (Fin n) L) W + W * Lb * (hcat C 0 + σ • D * X) := by
  rw [Matrix.mul_add, hcat_mul_blk, Matrix.smul_mul, Matrix.mul_smul, ← Matrix.mul_assoc (hcat _ _), hcat_mul_vcat', Matrix.mul_add, mul_hcat, smul_hcat', Matrix.smul_mul, Matrix.mul_smul, hW, ← add_assoc, hcat_add]
  simp [Matrix.mul_assoc]

/-- **C121**, disturbances: if the feedback element has the mode `s` in every channel, the value of the loop at `s` is zero. -/
theorem C121_rejects (hG : Consistent G p m) (hH : Consistent H m p) (hdt : DtOk G.dt) {D : Matrix (Fin p) (Fin m) ℝ} {E : Matrix (Fin m) (Fin p) ℝ} (hGd : G.d = Arr.of D) (hHd : H.d = Arr.of E)
    (h0 : E * D = 0) (hK : HasMode H p s) {neg : Bool} (h : feedback (.state G) (.state H) neg = .ok R) {M : Matrix (Fin p) (Fin m) L} (hM : HasTF R p m s M) : M = 0 := by
  obtain ⟨-, -, h3⟩ := feedback_result hG hH hdt h
  obtain ⟨h4, h5⟩ := h3 D E hGd hHd
  obtain ⟨n₂, Ka, Lb, W, hg, e1, e2, hW, hWB⟩ := hK
  obtain ⟨a', b', c', D', dt', rfl⟩ | ⟨n', A', B', C', D', dt', rfl⟩ := consistent_cases hH
  · cases hg
  obtain rfl : n' = n₂ := congrArg Arr.r e1
  simp only [Arr.of_inj] at e1 e2 hHd
  subst e1 e2
  obtain rfl := hHd.symm
  obtain ⟨a, b, c, D₁, dt, rfl⟩ | ⟨n, A, B, C, D₁, dt, rfl⟩ := consistent_cases hG
  · simp only [Arr.of_inj] at hGd
    obtain rfl := hGd.symm
    rw [closeBody_sd hdt _ _ _ _ _ _ _ _ _ _ h4] at h5
    obtain rfl := Except.ok.inj h5
    rw [h0, sub_zero, inv_one] at hM
    refine blocked (hasTF_dyn' hM) hWB (V := W) ?_ ?_
    · have := mode_sd (Lb := B'.map φ) (D := D.map φ) (C'.map φ) (φ (fbSign neg)) hW
      convert this using 3
      · rw [Matrix.one_mul, Matrix.map_add _ (map_add _), map_mul', map_smul', map_mul']
      · rw [Matrix.one_mul, Matrix.map_add _ (map_add _), map_mul', map_smul', Matrix.map_zero _ (map_zero _)]
    · rw [Matrix.mul_zero, Matrix.mul_zero, add_zero, Matrix.mul_zero, add_zero, map_mul', Matrix.mul_assoc]
  · simp only [Arr.of_inj] at hGd
    obtain rfl := hGd.symm
    rw [closeBody_dd hdt _ _ _ _ _ _ _ _ _ _ h4] at h5
    obtain rfl := Except.ok.inj h5
    rw [h0, sub_zero, inv_one] at hM
    refine blocked (hasTF_dyn' hM) hWB (V := hcat 0 W) ?_ ?_
    · have := mode_dd (A := A.map φ) (B := B.map φ) (C := C.map φ) (Lb := B'.map φ) (D := D.map φ) ((hcat (E * C) C').map φ) (φ (fbSign neg)) hW
      convert this using 3
      · rw [Matrix.one_mul, Matrix.map_add _ (map_add _), map_mul', map_smul', blk_map, vcat_map, map_mul', map_mul', Matrix.map_zero _ (map_zero _)]
      · rw [Matrix.one_mul, Matrix.map_add _ (map_add _), map_mul', map_smul', hcat_map, Matrix.map_zero _ (map_zero _)]
    · rw [Matrix.mul_zero, Matrix.mul_zero, add_zero, Matrix.mul_zero, add_zero, vcat_map, hcat_mul_vcat', Matrix.zero_mul, zero_add, map_mul', Matrix.mul_assoc]

theorem unity_consistent (m : ℕ) (dt : Option ℝ) : Consistent (unity m dt) m m := ⟨⟨rfl, rfl⟩, fun h => by cases h⟩

/-- **C121**, references: if the forward path has the mode `s` in every channel, the value of the unity feedback loop at `s` is the identity. -/
theorem C121_follows (hG : Consistent G m m) (hGd : G.d = Arr.of (0 : Matrix (Fin m) (Fin m) ℝ)) (hdt : DtOk G.dt) (hK : HasMode G m s)
    (h : feedback (.state G) (.state (unity m G.dt)) true = .ok R) {M : Matrix (Fin m) (Fin m) L} (hM : HasTF R m m s M) : M = 1 := by
  obtain ⟨n, A, B, W, hg, e1, e2, hW, hWB⟩ := hK
  have hH := unity_consistent m G.dt
  obtain ⟨a', b', c', D', dt, rfl⟩ | ⟨n', A', B', C, D', dt, rfl⟩ := consistent_cases hG
  · cases hg
  obtain rfl : n' = n := congrArg Arr.r e1
  simp only [Arr.of_inj] at e1 e2 hGd
  subst e1 e2
  obtain rfl := hGd.symm
  obtain ⟨-, -, h3⟩ := feedback_result hG hH hdt h
  obtain ⟨h4, h5⟩ := h3 0 1 rfl rfl
  unfold unity at h5
  rw [closeBody_ds hdt _ _ _ _ _ _ _ _ _ _ h4] at h5
  obtain rfl := Except.ok.inj h5
  obtain ⟨-, X, hX, rfl⟩ := isTF_iff_sol.mp (hasTF_dyn' hM)
  have c1 : A' + (fbSign true : ℝ) • B' * ((1 - (1 : Matrix (Fin m) (Fin m) ℝ) * 0)⁻¹ * ((1 : Matrix (Fin m) (Fin m) ℝ) * C)) = A' - B' * C := by
    rw [Matrix.mul_zero, sub_zero, inv_one, Matrix.one_mul, Matrix.one_mul, show (fbSign true : ℝ) = -1 from rfl, neg_one_smul, Matrix.neg_mul, sub_eq_add_neg]
  rw [c1] at hX
  simp only [Matrix.mul_zero, smul_zero, Matrix.zero_mul, add_zero] at hX ⊢
  have e := congrArg (fun Y => W * Y) hX
  rw [← Matrix.mul_assoc, Matrix.mul_sub, Matrix.mul_smul, Matrix.mul_one, map_sub', map_mul', Matrix.mul_sub, hW, sub_sub_cancel, ← Matrix.mul_assoc, Matrix.mul_assoc _ (C.map φ)] at e
  have := congrArg ((W * B'.map φ)⁻¹ * ·) e
  simpa [← Matrix.mul_assoc, nonsing_inv_mul _ (Ne.isUnit hWB), Matrix.map_zero _ (map_zero _)] using this

/-- **C121**: a controller with the mode `s` in every channel gives it to the product with any plant. -/
theorem C121_product {P K : StateM ℝ} (hP : Consistent P p q) (hK : Consistent K q m) (hdt : DtOk P.dt) (he : P.dt = K.dt) (hg : P.isgain = false) (hm : HasMode K m s) {Dp : Matrix (Fin p) (Fin q) ℝ}
    {Dk : Matrix (Fin q) (Fin m) ℝ} (hPd : P.d = Arr.of Dp) (hKd : K.d = Arr.of Dk) (fuel : ℕ) :
    ∃ G, P.matmul (fuel + 1) K = .ok G ∧ Consistent G p m ∧ G.dt = P.dt ∧ G.isgain = false ∧ G.d = Arr.of (Dp * Dk) ∧ HasMode G m s := by
  obtain ⟨n₂, Ka, Lb, W, hg', e1, e2, hW, hWB⟩ := hm
  obtain ⟨a', b', c', D', dt', rfl⟩ | ⟨n', A', B', C', D', dt', rfl⟩ := consistent_cases hK
  · cases hg'
  obtain rfl : n' = n₂ := congrArg Arr.r e1
  simp only [Arr.of_inj] at e1 e2 hKd
  subst e1 e2
  obtain rfl := hKd.symm
  obtain ⟨a, b, c, D₁, dt, rfl⟩ | ⟨n, A, B, C, D₁, dt, rfl⟩ := consistent_cases hP
  · cases hg
  simp only [Arr.of_inj] at hPd he
  obtain rfl := hPd.symm
  subst he
  have z : (Arr.zeros n' n : Arr ℝ) = Arr.of 0 := rfl
  refine ⟨⟨Arr.of (blk A (B * C') 0 A'), Arr.of (vcat (B * Dk) B'), Arr.of (hcat C (Dp * C')), Arr.of (Dp * Dk), dt, false⟩, ?_, ⟨⟨rfl, rfl⟩, fun _ => ⟨rfl, rfl, rfl, rfl, rfl⟩⟩, rfl, rfl, rfl,
    n + n', _, _, hcat 0 W, rfl, rfl, rfl, ?_, ?_⟩
  · rw [StateM.matmul, ← mkState_of hdt]
    simp [StateM.m, StateM.p, StateM.series, Arr.matmul_of, Arr.hstack_of, Arr.vstack_of, Bind.bind, Except.bind, z, vcat_hcat]
  · rw [blk_map, hcat_mul_blk, Matrix.map_zero _ (map_zero _), Matrix.zero_mul, Matrix.mul_zero, Matrix.zero_mul, hW, smul_hcat', smul_zero, zero_add, zero_add]
  · rwa [vcat_map, hcat_mul_vcat', Matrix.zero_mul, zero_add]

end

variable {P : Type} {Nm : Numerics ℝ P} {Bn : DNum} {h : ℝ}

/-- **C121**, constant references: the step responses of a stable unity feedback loop with an integrator in every channel settle at the reference: one in the own channel, zero in the others. -/
theorem C121_step_follows (hE : BalanceOk Bn) (hG : Consistent G m m) (hGd : G.d = Arr.of (0 : Matrix (Fin m) (Fin m) ℝ)) (hdt : DtOk G.dt) (hK : HasMode G m (zeroFreq G.dt : ℝ)) (hm : 1 ≤ m)
    (hm' : (m * spacing10 : ℝ) < 1) (hh : 0 < h) (hd : G.dt = none ∨ G.dt = some h) (auto : ℝ × ℝ) :
    ∃ R, feedback (.state G) (.state (unity m G.dt)) true = .ok R ∧ R.dt = G.dt ∧ ∀ T : StateObj ℝ P, T.g = R → StableModel R →
      Settles (fun t => stepResponse Nm Bn T auto (some t)) h (1 : Matrix (Fin m) (Fin m) ℝ) := by
  have hg : G.isgain = false := by obtain ⟨-, -, -, -, hg, -⟩ := hK; exact hg
  obtain ⟨R, hR⟩ := feedback_exists hG (unity_consistent m G.dt) hdt rfl hg hGd (E := 1) rfl (Matrix.mul_zero _) hm' true
  obtain ⟨h1, h2, -⟩ := feedback_result hG (unity_consistent m G.dt) hdt hR
  refine ⟨R, hR, h2, fun T hT hst => ?_⟩
  subst hT
  obtain ⟨⟨M, h3, h4⟩, -⟩ := stable_responses (Nm := Nm) hE h1 hm hh (by rwa [h2]) hst auto
  rw [h2] at h3
  rwa [C121_follows hG hGd hdt hK hR h3] at h4

/-- **C121**, constant disturbances: with an integrator in every channel of the feedback element, the responses of a stable loop to steps at the input of the plant settle at zero. -/
theorem C121_step_rejects (hE : BalanceOk Bn) (hG : Consistent G p m) (hH : Consistent H m p) (hdt : DtOk G.dt) (he : G.dt = H.dt) (hg : G.isgain = false) {D : Matrix (Fin p) (Fin m) ℝ}
    {E : Matrix (Fin m) (Fin p) ℝ} (hGd : G.d = Arr.of D) (hHd : H.d = Arr.of E) (h0 : E * D = 0) (hK : HasMode H p (zeroFreq G.dt : ℝ)) (hm : 1 ≤ m)
    (hm' : (m * spacing10 : ℝ) < 1) (neg : Bool) (hh : 0 < h) (hd : G.dt = none ∨ G.dt = some h) (auto : ℝ × ℝ) :
    ∃ R, feedback (.state G) (.state H) neg = .ok R ∧ R.dt = G.dt ∧ ∀ T : StateObj ℝ P, T.g = R → StableModel R →
      Settles (fun t => stepResponse Nm Bn T auto (some t)) h (0 : Matrix (Fin p) (Fin m) ℝ) := by
  obtain ⟨R, hR⟩ := feedback_exists hG hH hdt he hg hGd hHd h0 hm' neg
  obtain ⟨h1, h2, -⟩ := feedback_result hG hH hdt hR
  refine ⟨R, hR, h2, fun T hT hst => ?_⟩
  subst hT
  obtain ⟨⟨M, h3, h4⟩, -⟩ := stable_responses (Nm := Nm) hE h1 hm hh (by rwa [h2]) hst auto
  rw [h2] at h3
  rwa [C121_rejects hG hH hdt hGd hHd h0 hK hR h3] at h4

/-- **C121**, sinusoidal references of sampled loops: with the mode `exp (i ω h)` in every channel the output tends to the reference at `ω` rad/s. -/
theorem C121_sine_follows (hE : BalanceOk Bn) (hG : Consistent G m m) (hGd : G.d = Arr.of (0 : Matrix (Fin m) (Fin m) ℝ)) (hh : 0 < h) (hd : G.dt = some h) {ω : ℝ}
    (hK : HasMode G m (Complex.exp (Complex.I * (ω * h)))) (hm : 1 ≤ m) (hm' : (m * spacing10 : ℝ) < 1) :
    ∃ R, feedback (.state G) (.state (unity m G.dt)) true = .ok R ∧ R.dt = G.dt ∧ ∀ T : StateObj ℝ P, T.g = R → StableModel R →
      SteadyState (fun u t => simulate Nm Bn T u t none false) m m h ω 1 := by
  have hg : G.isgain = false := by obtain ⟨-, -, -, -, hg, -⟩ := hK; exact hg
  have hdt : DtOk G.dt := fun t ht => by rw [hd] at ht; cases ht; exact hh
  obtain ⟨R, hR⟩ := feedback_exists hG (unity_consistent m G.dt) hdt rfl hg hGd (E := 1) rfl (Matrix.mul_zero _) hm' true
  obtain ⟨h1, h2, -⟩ := feedback_result hG (unity_consistent m G.dt) hdt hR
  refine ⟨R, hR, h2, fun T hT hst => ?_⟩
  subst hT
  obtain ⟨M, h3, h4⟩ := sine_model (Nm := Nm) hE h1 hm hh (h2.trans hd) hst ω
  rw [show evalPoint T.g.dt ω = Complex.exp (Complex.I * (ω * h)) by rw [h2, hd]; rfl] at h3
  rwa [C121_follows hG hGd hdt hK hR h3] at h4

/-- **C121**, sinusoidal disturbances of sampled loops. -/
theorem C121_sine_rejects (hE : BalanceOk Bn) (hG : Consistent G p m) (hH : Consistent H m p) (he : G.dt = H.dt) (hg : G.isgain = false) {D : Matrix (Fin p) (Fin m) ℝ}
    {E : Matrix (Fin m) (Fin p) ℝ} (hGd : G.d = Arr.of D) (hHd : H.d = Arr.of E) (h0 : E * D = 0) (hh : 0 < h) (hd : G.dt = some h) {ω : ℝ}
    (hK : HasMode H p (Complex.exp (Complex.I * (ω * h)))) (hm : 1 ≤ m) (hm' : (m * spacing10 : ℝ) < 1) (neg : Bool) :
    ∃ R, feedback (.state G) (.state H) neg = .ok R ∧ R.dt = G.dt ∧ ∀ T : StateObj ℝ P, T.g = R → StableModel R →
      SteadyState (fun u t => simulate Nm Bn T u t none false) p m h ω 0 := by
  have hdt : DtOk G.dt := fun t ht => by rw [hd] at ht; cases ht; exact hh
  obtain ⟨R, hR⟩ := feedback_exists hG hH hdt he hg hGd hHd h0 hm' neg
  obtain ⟨h1, h2, -⟩ := feedback_result hG hH hdt hR
  refine ⟨R, hR, h2, fun T hT hst => ?_⟩
  subst hT
  obtain ⟨M, h3, h4⟩ := sine_model (Nm := Nm) hE h1 hm hh (h2.trans hd) hst ω
  rw [show evalPoint T.g.dt ω = Complex.exp (Complex.I * (ω * h)) by rw [h2, hd]; rfl] at h3
  rwa [C121_rejects hG hH hdt hGd hHd h0 hK hR h3] at h4

/-- **C121**, proportional-integral controllers `Kp + Ki / s` and `Kp + Ki / (z - 1)` of any size have an integrator in every channel. -/
theorem C121_pi (Ki : Matrix (Fin q) (Fin m) ℝ) (Kp : Matrix (Fin q) (Fin m) ℝ) (dt : Option ℝ) :
    HasMode (stateOf ((zeroFreq dt : ℝ) • (1 : Matrix (Fin m) (Fin m) ℝ)) (1 : Matrix (Fin m) (Fin m) ℝ) Ki Kp dt) m (zeroFreq dt : ℝ) :=
  ⟨m, _, _, 1, rfl, rfl, rfl, by ext; simp, by simp⟩

/-- The loop is stable exactly if the motions of `A - B C` die out. -/
theorem unity_loop_stable {A : Matrix (Fin n) (Fin n) ℝ} {B : Matrix (Fin n) (Fin m) ℝ} {C : Matrix (Fin m) (Fin n) ℝ} (hdt : DtOk dt)
    (hR : feedback (.state (stateOf A B C 0 dt)) (.state (unity m dt)) true = .ok R) : StableModel R ↔ MotionsVanish dt (A - B * C) := by
  have hG : Consistent (stateOf A B C 0 dt) m m := ⟨⟨rfl, rfl⟩, fun _ => ⟨rfl, rfl, rfl, rfl, rfl⟩⟩
  obtain ⟨-, -, h3⟩ := feedback_result hG (unity_consistent m dt) hdt hR
  obtain ⟨h4, h5⟩ := h3 0 1 rfl rfl
  unfold unity stateOf at h5
  rw [closeBody_ds hdt _ _ _ _ _ _ _ _ _ _ h4] at h5
  obtain rfl := Except.ok.inj h5
  have c1 : A + (fbSign true : ℝ) • B * ((1 - (1 : Matrix (Fin m) (Fin m) ℝ) * 0)⁻¹ * ((1 : Matrix (Fin m) (Fin m) ℝ) * C)) = A - B * C := by
    rw [Matrix.mul_zero, sub_zero, inv_one, Matrix.one_mul, Matrix.one_mul, show (fbSign true : ℝ) = -1 from rfl, neg_one_smul, Matrix.neg_mul, sub_eq_add_neg]
  rw [c1]
  constructor
  · rintro (h | ⟨n', A', e, h⟩)
    · cases h
    · obtain rfl : n = n' := congrArg Arr.r e
      obtain rfl := Arr.of_inj.mp e
      exact h
  · exact fun h => Or.inr ⟨n, _, rfl, h⟩

/-- `1 / (s + 1)` with the controller `1 + 1 / s`: the loop is stable and its step response settles at one. -/
example {P : Type} (N : Numerics ℝ P) (auto : ℝ × ℝ) : ∃ R, feedback (.state (stateOf !![-1, 1; 0, 0] !![1; 1] !![1, 0] (0 : Matrix (Fin 1) (Fin 1) ℝ) none)) (.state (unity 1 none)) true = .ok R ∧
    ∀ T : StateObj ℝ P, T.g = R → Settles (fun t => stepResponse N plainDNum T auto (some t)) (1 / 10) (1 : Matrix (Fin 1) (Fin 1) ℝ) := by
  obtain ⟨R, h1, -, h2⟩ := C121_step_follows (Nm := N) (h := 1 / 10) plainDNum_ok (G := stateOf !![-1, 1; 0, 0] !![1; 1] !![1, 0] (0 : Matrix (Fin 1) (Fin 1) ℝ) none) ⟨⟨rfl, rfl⟩, fun _ => ⟨rfl, rfl, rfl, rfl, rfl⟩⟩ rfl
    dtOk_none ⟨2, _, _, !![0, 1], rfl, rfl, rfl, by ext i j; fin_cases i; fin_cases j <;> simp [zeroFreq, stateOf, Matrix.mul_apply, Fin.sum_univ_two], by simp [Matrix.mul_apply, Fin.sum_univ_two]⟩
    le_rfl (by norm_num [spacing10]) (by norm_num) (Or.inl rfl) auto
  refine ⟨R, h1, fun T hT => h2 T hT ((unity_loop_stable dtOk_none h1).mpr (hurwitz_iff_motions.mp fun z hz => ?_))⟩
  unfold IsEig at hz
  have hz' : (z + 1) * (z + 1) = 0 := by
    rw [← hz]
    simp [det_fin_two, Matrix.mul_apply]
    ring
  rw [mul_self_eq_zero] at hz'
  rw [eq_neg_of_add_eq_zero_left hz']
  norm_num

/-- `1 / (s + 1)` with the controller `1 + 1 / s` in the feedback path: the loop is stable and its step response settles at zero. -/
example {P : Type} (N : Numerics ℝ P) (auto : ℝ × ℝ) : ∃ R, feedback (.state (stateOf !![-1] !![1] !![1] (0 : Matrix (Fin 1) (Fin 1) ℝ) none)) (.state (stateOf !![0] !![1] !![1] !![1] none)) true = .ok R ∧
    ∀ T : StateObj ℝ P, T.g = R → Settles (fun t => stepResponse N plainDNum T auto (some t)) (1 / 10) (0 : Matrix (Fin 1) (Fin 1) ℝ) := by
  have hG : Consistent (stateOf !![-1] !![1] !![1] (0 : Matrix (Fin 1) (Fin 1) ℝ) none) 1 1 := ⟨⟨rfl, rfl⟩, fun _ => ⟨rfl, rfl, rfl, rfl, rfl⟩⟩
  have hH : Consistent (stateOf !![0] !![1] !![1] (!![1] : Matrix (Fin 1) (Fin 1) ℝ) none) 1 1 := ⟨⟨rfl, rfl⟩, fun _ => ⟨rfl, rfl, rfl, rfl, rfl⟩⟩
  obtain ⟨R, h1, -, h2⟩ := C121_step_rejects (Nm := N) (h := 1 / 10) plainDNum_ok hG hH dtOk_none rfl rfl rfl rfl (Matrix.mul_zero _)
    ⟨1, _, _, !![1], rfl, rfl, rfl, by ext i j; fin_cases i; fin_cases j; simp [zeroFreq, stateOf, Matrix.mul_apply], by simp⟩ le_rfl (by norm_num [spacing10]) true (by norm_num) (Or.inl rfl) auto
  refine ⟨R, h1, fun T hT => h2 T hT ?_⟩
  obtain ⟨-, -, h3⟩ := feedback_result hG hH dtOk_none h1
  obtain ⟨h4, h5⟩ := h3 0 !![1] rfl rfl
  unfold stateOf at h5
  rw [closeBody_dd dtOk_none _ _ _ _ _ _ _ _ _ _ h4] at h5
  obtain rfl := Except.ok.inj h5
  refine Or.inr ⟨1 + 1, _, rfl, hurwitz_iff_motions.mp fun z hz => ?_⟩
  unfold IsEig at hz
  rw [Matrix.mul_zero, sub_zero, inv_one, Matrix.one_mul, Matrix.smul_mul, vcat_mul_hcat, show (fbSign true : ℝ) = -1 from rfl, neg_one_smul, neg_blk, blk_add, blk_map, smul_one_sub_blk] at hz
  have hz' : (z + 1) * (z + 1) = 0 := by
    rw [← hz]
    rw [det_fin_two]
    have e0 : finSumFinEquiv.symm (0 : Fin (1 + 1)) = Sum.inl (0 : Fin 1) := rfl
    have e1 : finSumFinEquiv.symm (1 : Fin (1 + 1)) = Sum.inr (0 : Fin 1) := rfl
    simp only [blk, submatrix_apply, e0, e1, fromBlocks_apply₁₁, fromBlocks_apply₁₂, fromBlocks_apply₂₁, fromBlocks_apply₂₂]
    simp
    ring
  rw [mul_self_eq_zero] at hz'
  rw [eq_neg_of_add_eq_zero_left hz']
  norm_num

/-- A sampled loop with an oscillator at a quarter of the sampling frequency follows sinusoids of that frequency. -/
example {P : Type} (N : Numerics ℝ P) : ∃ R, feedback (.state (stateOf !![0, -1; 1, 0] !![1; 0] !![0, -1] (0 : Matrix (Fin 1) (Fin 1) ℝ) (some 1))) (.state (unity 1 (some 1))) true = .ok R ∧
    ∀ T : StateObj ℝ P, T.g = R → SteadyState (fun u t => simulate N plainDNum T u t none false) 1 1 1 (Real.pi / 2) 1 := by
  have e : Complex.exp (Complex.I * (((Real.pi / 2 : ℝ) : ℂ) * ((1 : ℝ) : ℂ))) = Complex.I := by
    rw [Complex.ofReal_one, mul_one, mul_comm]
    push_cast
    exact Complex.exp_pi_div_two_mul_I
  obtain ⟨R, h1, -, h2⟩ := C121_sine_follows (Nm := N) (h := 1) (ω := Real.pi / 2) plainDNum_ok (G := stateOf !![0, -1; 1, 0] !![1; 0] !![0, -1] (0 : Matrix (Fin 1) (Fin 1) ℝ) (some 1))
    ⟨⟨rfl, rfl⟩, fun _ => ⟨rfl, rfl, rfl, rfl, rfl⟩⟩ rfl one_pos rfl
    ⟨2, _, _, !![1, Complex.I], rfl, rfl, rfl, by rw [e]; ext i j; fin_cases i; fin_cases j <;> simp [Matrix.mul_apply, Fin.sum_univ_two], by rw [det_fin_one, Matrix.mul_apply, Fin.sum_univ_two]; simp⟩
    le_rfl (by norm_num [spacing10])
  refine ⟨R, h1, fun T hT => h2 T hT ((unity_loop_stable dtOk_one h1).mpr ((motions_iff (dt := some 1)).mpr fun z hz => ?_))⟩
  unfold IsEig at hz
  have hz' : z * z = 0 := by
    rw [← hz]
    simp [det_fin_two, Matrix.mul_apply]
  rw [mul_self_eq_zero] at hz'
  rw [hz']
  simp [StablePoint]

end Harold
