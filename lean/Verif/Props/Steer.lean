import Verif.Props.Refine
import Verif.Props.DiscReach
import Verif.Props.Placement

/-!
# C126: the Kalman tests in simulations

What the answers of `is_kalman_controllable` and `is_kalman_observable` mean for `simulate_linear_system`: the state can be steered anywhere, the initial state can be
read off the outputs; and dead-beat control, poles placed at zero bring every initial state to rest in `n` samples.
-/

namespace Harold

open Matrix Spec NormedSpace

variable {n m p N : ℕ} {A : Matrix (Fin n) (Fin n) ℝ} {B : Matrix (Fin n) (Fin m) ℝ} {C : Matrix (Fin p) (Fin n) ℝ} {D : Matrix (Fin p) (Fin m) ℝ} {P : Type} {Nm : Numerics ℝ P} {E : DNum}
  {T : StateObj ℝ P} {h t0 : ℝ} {S : SvdNum ℝ}

/-- The states reached from `x` are the free motion plus the states reached from rest. -/
theorem runStates_final (w : ℕ → Fin m → ℝ) (x : Fin n → ℝ) (k : ℕ) : runStates A B w x k = A ^ k *ᵥ x + finalState A B ((List.range k).map w) := by
  induction k with
  | zero => simp [runStates, finalState]
  | succ k ih => rw [runStates, ih, List.range_succ, List.map_append, List.map_singleton, finalState_concat, mulVec_add, mulVec_mulVec, ← pow_succ', add_assoc]

theorem run_of_list (us : List (Fin m → ℝ)) (x : Fin n → ℝ) : runStates A B (fun k => us.getD k 0) x us.length = A ^ us.length *ᵥ x + finalState A B us := by
  rw [runStates_final]
  congr 2
  refine List.ext_getElem (by simp) fun i h1 h2 => ?_
  rw [List.getElem_map, List.getElem_range, List.getD_eq_getElem _ _ h2]

/-- A discrete model simulated sample by sample. -/
theorem simulate_samples (hN : 2 ≤ N) (hm : 1 ≤ m) (hG : T.g = stateOf A B C D (some h)) {x0 : Fin n → ℝ} {xarg : Option (List ℝ)} (hx : InitArg xarg x0) (w : ℕ → Fin m → ℝ)
    {U : Matrix (Fin N) (Fin m) ℝ} (hw : ∀ i : Fin N, U i = w i) : simulate Nm E T (Arr.of U) none xarg false =
      .ok (.flat (Arr.of (Matrix.of fun i : Fin N => C *ᵥ runStates A B w x0 i + D *ᵥ w i)), (List.range N).map fun k : ℕ => (k : ℝ) * h) := by
  rw [C39_output_partial hN hm hG hx]
  have e : (Matrix.of fun i => output A B C D x0 U i) = Matrix.of fun i : Fin N => C *ᵥ runStates A B w x0 i + D *ᵥ w i := by
    ext i j
    simp only [of_apply]
    rw [output_run w hw]
  rw [e]

theorem exists_input (U : Matrix (Fin N) (Fin m) ℝ) : ∃ w : ℕ → Fin m → ℝ, ∀ i : Fin N, U i = w i := ⟨fun k => if hk : k < N then U ⟨k, hk⟩ else 0, fun i => by simp⟩

/-- **C126**, steering a discrete model whose output is the state: after the answer `True`, for every initial state and every target some input of `n + 1` samples makes the last
simulated output the target. -/
theorem C126_steer (he : 0 ≤ S.eps) (hS : SvdOk S (ctrbM A B (n - 1))) (hn : 0 < n) (hm : 0 < m) (ht : isKalmanControllable S (Arr.of A) (Arr.of B) = .ok true)
    (hG : T.g = stateOf A B (1 : Matrix (Fin n) (Fin n) ℝ) 0 (some h)) {x0 : Fin n → ℝ} {xarg : Option (List ℝ)} (hx : InitArg xarg x0) (x : Fin n → ℝ) :
    ∃ (U : Matrix (Fin (n + 1)) (Fin m) ℝ) (Y : Matrix (Fin (n + 1)) (Fin n) ℝ) (τ : List ℝ), simulate Nm E T (Arr.of U) none xarg false = .ok (.flat (Arr.of Y), τ) ∧ Y (Fin.last n) = x := by
  obtain ⟨us, h1, h2⟩ := C48_sound he hS hn hm ht (x - A ^ n *ᵥ x0)
  refine ⟨Matrix.of fun i => us.getD i 0, _, _, simulate_samples (by omega) hm hG hx (fun k => us.getD k 0) fun i => rfl, ?_⟩
  funext j
  simp only [of_apply, Fin.val_last, zero_mulVec, add_zero, one_mulVec]
  have h3 := run_of_list (A := A) (B := B) us x0
  rw [h1, h2] at h3
  rw [h3, add_sub_cancel]

/-- **C126**, the answer is `True` exactly if the simulations from rest, of any length, end in every state. -/
theorem C126_steer_iff (he : 0 ≤ S.eps) (hS : SvdExact S (ctrbM A B (n - 1))) (hn : 0 < n) (hm : 0 < m) (hG : T.g = stateOf A B (1 : Matrix (Fin n) (Fin n) ℝ) 0 (some h)) :
    ∃ t, isKalmanControllable S (Arr.of A) (Arr.of B) = .ok t ∧ (t = true ↔ ∀ x, ∃ (N : ℕ) (U : Matrix (Fin (N + 2)) (Fin m) ℝ) (Y : Matrix (Fin (N + 2)) (Fin n) ℝ) (τ : List ℝ),
      simulate Nm E T (Arr.of U) none none false = .ok (.flat (Arr.of Y), τ) ∧ Y (Fin.last (N + 1)) = x) := by
  obtain ⟨t, h1, h2⟩ := C48_controllable he hS hn hm
  refine ⟨t, h1, fun ht x => ?_, fun h3 => h2.mpr fun x => ?_⟩
  · subst ht
    obtain ⟨U, s, V, h4, h5, -⟩ := hS
    obtain ⟨k, rfl⟩ : ∃ k, n = k + 1 := ⟨n - 1, by omega⟩
    obtain ⟨U', Y, τ, h6, h7⟩ := C126_steer (Nm := Nm) (E := E) he ⟨U, s, V, h4, h5⟩ hn hm h1 hG (Or.inl ⟨rfl, rfl⟩) x
    exact ⟨k, U', Y, τ, h6, h7⟩
  · obtain ⟨N, U, Y, τ, h4, h5⟩ := h3 x
    obtain ⟨w, hw⟩ := exists_input U
    rw [simulate_samples (by omega) hm hG (Or.inl ⟨rfl, rfl⟩) w hw] at h4
    simp only [Except.ok.injEq, Prod.mk.injEq, SimOut.flat.injEq, Arr.of_inj] at h4
    refine ⟨(List.range (N + 1)).map w, ?_⟩
    rw [← h5, ← h4.1]
    funext j
    simp only [of_apply, Fin.val_last, zero_mulVec, add_zero, one_mulVec]
    rw [runStates_final, mulVec_zero, zero_add]

/-- **C126**, steering a continuous model with held inputs: if no two poles are aliased at the sampling period, the answer `True` for the continuous model means that on the grid
`t0, t0 + h, ...` some input of `n + 1` samples brings every initial state to every target. -/
theorem C126_steer_continuous (hE : BalanceOk E) (he : 0 ≤ S.eps) (hS : SvdExact S (ctrbM A B (n - 1))) (hn : 0 < n) (hm : 0 < m) (hh : 0 < h) (hA : NoAlias h A)
    (hG : T.g = stateOf A B (1 : Matrix (Fin n) (Fin n) ℝ) 0 none) : ∃ t, isKalmanControllable S (Arr.of A) (Arr.of B) = .ok t ∧
      (t = true ↔ ∀ (x0 : Fin n → ℝ) xarg, InitArg xarg x0 → ∀ x, ∃ (U : Matrix (Fin (n + 1)) (Fin m) ℝ) (Y : Matrix (Fin (n + 1)) (Fin n) ℝ),
        simulate Nm E T (Arr.of U) (some (eqGrid (n + 1) t0 h)) xarg false = .ok (.flat (Arr.of Y), eqGrid (n + 1) t0 h) ∧ Y (Fin.last n) = x) := by
  obtain ⟨t, h1, h2⟩ := C48_controllable he hS hn hm
  obtain ⟨T', h3, h4⟩ := zoh_model (Nm := Nm) (pw := 0) (q := none) hE hh hG
  obtain ⟨A', B', C', D', h5, h6, -⟩ := C103_hold hE hG (Or.inl rfl) hA h3
  rw [h4] at h5
  simp only [stateOf, StateM.mk.injEq, Arr.of_inj] at h5
  obtain ⟨rfl, rfl, -⟩ := h5
  refine ⟨t, h1, h2.trans (h6.symm.trans ⟨fun hr x0 xarg hx x => ?_, fun hr x => ?_⟩)⟩
  · rw [reachable_iff_rank] at hr
    obtain ⟨us, h7, h8⟩ := krylov_reached (exp (h • A)) (gam (h • A) (h • B) 0) (n - 1) (x := x - exp (h • A) ^ n *ᵥ x0) (by unfold krySpace; rw [(rank_eq_iff_range _).mp hr]; trivial)
    refine ⟨Matrix.of fun i => us.getD i 0, _, simulate_held hE (by omega) hm hG hh hx (fun k => us.getD k 0) fun i => rfl, ?_⟩
    funext j
    simp only [of_apply, Fin.val_last, zero_mulVec, add_zero, one_mulVec]
    have h9 := run_of_list (A := exp (h • A)) (B := gam (h • A) (h • B) 0) us x0
    rw [h8, h7, Nat.sub_add_cancel hn] at h9
    rw [h9, add_sub_cancel]
  · obtain ⟨U, Y, h7, h8⟩ := hr 0 none (Or.inl ⟨rfl, rfl⟩) x
    obtain ⟨w, hw⟩ := exists_input U
    rw [simulate_held hE (by omega) hm hG hh (Or.inl ⟨rfl, rfl⟩) w hw] at h7
    simp only [Except.ok.injEq, Prod.mk.injEq, SimOut.flat.injEq, Arr.of_inj] at h7
    refine ⟨(List.range n).map w, ?_⟩
    rw [← h8, ← h7.1]
    funext j
    simp only [of_apply, Fin.val_last, zero_mulVec, add_zero, one_mulVec]
    rw [runStates_final, mulVec_zero, zero_add]

/-- `n` zero outputs of the free motion are followed by zero outputs only. -/
theorem unobserved_of_short {x : Fin n → ℝ} (hx : ∀ k < n, C *ᵥ ((A ^ k) *ᵥ x) = 0) (k : ℕ) : C *ᵥ ((A ^ k) *ᵥ x) = 0 := by
  rcases Nat.eq_zero_or_pos n with rfl | hn
  · rw [Subsingleton.elim x 0, mulVec_zero, mulVec_zero]
  have e1 : ∀ (k : ℕ) (u : Fin p → ℝ), ((Aᵀ ^ k * Cᵀ) *ᵥ u) ⬝ᵥ x = u ⬝ᵥ (C *ᵥ ((A ^ k) *ᵥ x)) := by
    intro k u
    rw [← transpose_pow, ← transpose_mul, mulVec_transpose, ← dotProduct_mulVec, mulVec_mulVec]
  let W : Submodule ℝ (Fin n → ℝ) :=
    { carrier := {y | y ⬝ᵥ x = 0}
      add_mem' := fun {a b} ha hb => by simp only [Set.mem_ofPred_eq] at *; rw [add_dotProduct, ha, hb, add_zero]
      zero_mem' := by simp
      smul_mem' := fun c y hy => by simp only [Set.mem_ofPred_eq] at *; rw [smul_dotProduct, hy, smul_zero] }
  have hW : krySpace Aᵀ Cᵀ (n - 1) ≤ W := krylov_le fun i hi u => by
    show _ ⬝ᵥ x = 0
    rw [e1, hx i (by omega), dotProduct_zero]
  refine dotProduct_eq_zero _ fun u => ?_
  rw [dotProduct_comm, ← e1]
  exact hW (pow_mem_krylov _ _ k u)

theorem run_sub (w : ℕ → Fin m → ℝ) (x x' : Fin n → ℝ) (k : ℕ) : runStates A B w x k - runStates A B w x' k = A ^ k *ᵥ (x - x') := by
  rw [runStates_final, runStates_final, mulVec_sub]; abel

theorem same_outputs (hN : n ≤ N) (ho : Observable A C) (w : ℕ → Fin m → ℝ) {x x' : Fin n → ℝ}
    (hy : ∀ i : Fin N, C *ᵥ runStates A B w x i + D *ᵥ w i = C *ᵥ runStates A B w x' i + D *ᵥ w i) : x = x' := by
  refine sub_eq_zero.mp (ho _ (unobserved_of_short fun k hk => ?_))
  rw [← run_sub (B := B) w, mulVec_sub, sub_eq_zero]
  exact add_right_cancel (hy ⟨k, by omega⟩)

/-- **C126**, the initial state of a discrete model from its outputs: for every input of at least `n` samples, the answer is `True` exactly if different initial states
give different simulated outputs. -/
theorem C126_reconstruct (he : 0 ≤ S.eps) (hS : SvdExact S (obsvM A C (n - 1))) (hn : 2 ≤ n) (hm : 0 < m) (hp : 0 < p) (hN : n ≤ N) (hG : T.g = stateOf A B C D (some h))
    (U : Matrix (Fin N) (Fin m) ℝ) : ∃ t, isKalmanObservable S (Arr.of A) (Arr.of C) = .ok t ∧ (t = true ↔ ∀ x x' : Fin n → ℝ,
      simulate Nm E T (Arr.of U) none (some (List.ofFn x)) false = simulate Nm E T (Arr.of U) none (some (List.ofFn x')) false → x = x') := by
  obtain ⟨t, h1, h2⟩ := C48_observable he hS (by omega) hp
  obtain ⟨w, hw⟩ := exists_input U
  have hsim : ∀ x : Fin n → ℝ, _ := fun x => simulate_samples (Nm := Nm) (E := E) (N := N) (by omega) hm hG (x0 := x) (Or.inr ⟨rfl, by omega⟩) w hw
  refine ⟨t, h1, h2.trans ⟨fun ho x x' hxx => ?_, fun h3 x hx => ?_⟩⟩
  · rw [hsim, hsim] at hxx
    simp only [Except.ok.injEq, Prod.mk.injEq, SimOut.flat.injEq, Arr.of_inj, and_true] at hxx
    exact same_outputs (D := D) hN ho w fun i => funext fun j => congrFun (congrFun hxx i) j
  · refine h3 x 0 ?_
    rw [hsim, hsim]
    have e : (Matrix.of fun i : Fin N => C *ᵥ runStates A B w x i + D *ᵥ w i) = Matrix.of fun i : Fin N => C *ᵥ runStates A B w 0 i + D *ᵥ w i := by
      ext i j
      simp only [of_apply]
      rw [runStates_final w x, runStates_final w 0, mulVec_add, hx, mulVec_zero, mulVec_add, mulVec_zero]
    rw [e]

/-- **C126**, the initial state of a continuous model, poles not aliased at the sampling period. -/
theorem C126_reconstruct_continuous (hE : BalanceOk E) (he : 0 ≤ S.eps) (hS : SvdExact S (obsvM A C (n - 1))) (hn : 2 ≤ n) (hm : 0 < m) (hp : 0 < p) (hN : n ≤ N) (hh : 0 < h) (hA : NoAlias h A)
    (hG : T.g = stateOf A B C D none) (U : Matrix (Fin N) (Fin m) ℝ) : ∃ t, isKalmanObservable S (Arr.of A) (Arr.of C) = .ok t ∧ (t = true ↔ ∀ x x' : Fin n → ℝ,
      simulate Nm E T (Arr.of U) (some (eqGrid N t0 h)) (some (List.ofFn x)) false = simulate Nm E T (Arr.of U) (some (eqGrid N t0 h)) (some (List.ofFn x')) false → x = x') := by
  obtain ⟨t, h1, h2⟩ := C48_observable he hS (by omega) hp
  obtain ⟨w, hw⟩ := exists_input U
  obtain ⟨T', h3, h4⟩ := zoh_model (Nm := Nm) (pw := 0) (q := none) hE hh hG
  obtain ⟨A', B', C', D', h5, -, h6⟩ := C103_hold hE hG (Or.inl rfl) hA h3
  rw [h4] at h5
  simp only [stateOf, StateM.mk.injEq, Arr.of_inj] at h5
  obtain ⟨rfl, rfl, rfl, -⟩ := h5
  have hsim : ∀ x : Fin n → ℝ, _ := fun x => simulate_held (Nm := Nm) (N := N) (t0 := t0) hE (by omega) hm hG hh (x0 := x) (Or.inr ⟨rfl, by omega⟩) w hw
  refine ⟨t, h1, h2.trans (h6.symm.trans ⟨fun ho x x' hxx => ?_, fun h3 x hx => ?_⟩)⟩
  · rw [hsim, hsim] at hxx
    simp only [Except.ok.injEq, Prod.mk.injEq, SimOut.flat.injEq, Arr.of_inj, and_true] at hxx
    exact same_outputs (D := D) hN ho w fun i => funext fun j => congrFun (congrFun hxx i) j
  · refine h3 x 0 ?_
    rw [hsim, hsim]
    have e : (Matrix.of fun i : Fin N => C *ᵥ runStates (exp (h • A)) (gam (h • A) (h • B) 0) w x i + D *ᵥ w i) =
        Matrix.of fun i : Fin N => C *ᵥ runStates (exp (h • A)) (gam (h • A) (h • B) 0) w 0 i + D *ᵥ w i := by
      ext i j
      simp only [of_apply]
      rw [runStates_final w x, runStates_final w 0, mulVec_add, hx, mulVec_zero, mulVec_add, mulVec_zero]
    rw [e]

section deadbeat

variable {b : Matrix (Fin n) (Fin 1) ℝ} {F : Matrix (Fin 1) (Fin n) ℝ}

theorem places_zero_iff : PlacesPoles A b F (List.replicate n 0) ↔ (A - b * F) ^ n = 0 := by
  have e : ((List.replicate n (0 : ℝ)).map fun r => Polynomial.X - Polynomial.C r).prod = Polynomial.X ^ n := by simp
  unfold PlacesPoles
  rw [e]
  constructor
  · intro h
    have := aeval_self_charpoly (A - b * F)
    rwa [h, map_pow, Polynomial.aeval_X] at this
  · intro h
    have := (isNilpotent_charpoly_sub_pow_of_isNilpotent (M := A - b * F) ⟨n, h⟩).eq_zero
    rwa [Fintype.card_fin, sub_eq_zero] at this

/-- The loop closed with `feedback` around the measured states. -/
theorem state_loop (F : Matrix (Fin 1) (Fin n) ℝ) {dt : Option ℝ} (hdt : DtOk dt) :
    feedback (.state (stateOf A b (1 : Matrix (Fin n) (Fin n) ℝ) 0 dt)) (.state ⟨Arr.empty, Arr.empty, Arr.empty, Arr.of F, dt, true⟩) true =
      .ok (stateOf (A - b * F) b (1 : Matrix (Fin n) (Fin n) ℝ) 0 dt) := by
  have hG : Consistent (stateOf A b (1 : Matrix (Fin n) (Fin n) ℝ) 0 dt) n 1 := ⟨⟨rfl, rfl⟩, fun _ => ⟨rfl, rfl, rfl, rfl, rfl⟩⟩
  have hH : Consistent (⟨Arr.empty, Arr.empty, Arr.empty, Arr.of F, dt, true⟩ : StateM ℝ) 1 n := ⟨⟨rfl, rfl⟩, fun h => by cases h⟩
  obtain ⟨R, hR⟩ := feedback_exists hG hH hdt rfl rfl (D := 0) (E := F) rfl rfl (Matrix.mul_zero _) (by norm_num [spacing10]) true
  obtain ⟨h1, h2, h3⟩ := feedback_result hG hH hdt hR
  obtain ⟨h4, h5⟩ := h3 0 F rfl rfl
  unfold stateOf at h5
  rw [closeBody_ds hdt _ _ _ _ _ _ _ _ _ _ h4] at h5
  rw [hR, ← h5]
  unfold stateOf
  simp [fbSign, sub_eq_add_neg]

theorem run_free (A : Matrix (Fin n) (Fin n) ℝ) (B : Matrix (Fin n) (Fin m) ℝ) (x : Fin n → ℝ) (k : ℕ) : runStates A B (fun _ => 0) x k = A ^ k *ᵥ x := by
  induction k with
  | zero => simp [runStates]
  | succ k ih => rw [runStates, ih, mulVec_zero, add_zero, mulVec_mulVec, ← pow_succ']

/-- **C126**, dead-beat control: `ackermann` asked for `n` poles at zero succeeds for every controllable pair, and the loop closed with `feedback` around the measured states, simulated
without input from any initial state, is at rest from sample `n` on. -/
theorem C126_deadbeat (he : 0 ≤ S.eps) (hS : SvdExact S (ctrbM A b (n - 1))) (hn : 0 < n) (hr : Reachable A b) (hh : 0 < h) :
    ∃ (F : Matrix (Fin 1) (Fin n) ℝ) (R : StateM ℝ), ackermann S (Arr.of A) (Arr.of b) (.real (List.replicate n 0)) = .ok (Arr.of F) ∧
      feedback (.state (stateOf A b (1 : Matrix (Fin n) (Fin n) ℝ) 0 (some h))) (.state ⟨Arr.empty, Arr.empty, Arr.empty, Arr.of F, some h, true⟩) true = .ok R ∧
      ∀ (T : StateObj ℝ P) (N : ℕ), T.g = R → 2 ≤ N → ∀ x0 xarg, InitArg xarg (x0 : Fin n → ℝ) → ∃ (Y : Matrix (Fin N) (Fin n) ℝ) (τ : List ℝ),
        simulate Nm E T (Arr.of (0 : Matrix (Fin N) (Fin 1) ℝ)) none xarg false = .ok (.flat (Arr.of Y), τ) ∧ ∀ i : Fin N, n ≤ (i : ℕ) → Y i = 0 := by
  obtain ⟨F, h1, h2⟩ := C56_places_partial (loc := List.replicate n 0) he hS hn hr (by simp)
  rw [places_zero_iff] at h2
  refine ⟨F, _, h1, state_loop F (fun t ht => by cases ht; exact hh), fun T N hT hN x0 xarg hx => ?_⟩
  refine ⟨_, _, simulate_samples hN le_rfl hT hx (fun _ => 0) fun i => rfl, fun i hi => ?_⟩
  funext j
  simp only [of_apply]
  rw [run_free, ← Nat.sub_add_cancel hi, pow_add, h2, Matrix.mul_zero, zero_mulVec, mulVec_zero, zero_mulVec, add_zero]

/-- **C126**, no other state feedback does it: a gain whose loop is at rest from some sample on, whatever the initial state, is the one `ackermann` returns. -/
theorem C126_deadbeat_unique (he : 0 ≤ S.eps) (hS : SvdExact S (ctrbM A b (n - 1))) (hn : 2 ≤ n) (hr : Reachable A b) (hh : 0 < h) {R : StateM ℝ}
    (hR : feedback (.state (stateOf A b (1 : Matrix (Fin n) (Fin n) ℝ) 0 (some h))) (.state ⟨Arr.empty, Arr.empty, Arr.empty, Arr.of F, some h, true⟩) true = .ok R) (hT : T.g = R)
    (hrest : ∀ x0 : Fin n → ℝ, ∃ (N : ℕ) (Y : Matrix (Fin (N + 2)) (Fin n) ℝ) (τ : List ℝ), simulate Nm E T (Arr.of (0 : Matrix (Fin (N + 2)) (Fin 1) ℝ)) none (some (List.ofFn x0)) false =
      .ok (.flat (Arr.of Y), τ) ∧ Y (Fin.last (N + 1)) = 0) : ackermann S (Arr.of A) (Arr.of b) (.real (List.replicate n 0)) = .ok (Arr.of F) := by
  rw [state_loop F (fun t ht => by cases ht; exact hh)] at hR
  obtain rfl := Except.ok.inj hR
  have key : ∀ x0 : Fin n → ℝ, ∃ k, (A - b * F) ^ k *ᵥ x0 = 0 := fun x0 => by
    obtain ⟨N, Y, τ, h1, h2⟩ := hrest x0
    rw [simulate_samples (U := 0) (by omega) le_rfl hT (Or.inr ⟨rfl, by omega⟩) (fun _ => 0) fun i => rfl] at h1
    simp only [Except.ok.injEq, Prod.mk.injEq, SimOut.flat.injEq, Arr.of_inj] at h1
    refine ⟨N + 1, ?_⟩
    rw [← h2, ← h1.1]
    funext j
    simp only [of_apply, Fin.val_last, run_free, mulVec_zero, add_zero, one_mulVec]
  choose k hk using fun j : Fin n => key (Pi.single j 1)
  obtain ⟨K, hK⟩ : ∃ K, ∀ j, k j ≤ K := ⟨∑ j, k j, fun j => Finset.single_le_sum (f := k) (fun _ _ => Nat.zero_le _) (Finset.mem_univ j)⟩
  have hnil : (A - b * F) ^ K = 0 := by
    ext i j
    have h1 : (A - b * F) ^ K *ᵥ Pi.single j 1 = 0 := by
      rw [← Nat.sub_add_cancel (hK j), pow_add, ← mulVec_mulVec, hk, mulVec_zero]
    rw [mulVec_single_one] at h1
    exact congrFun h1 i
  have hp : PlacesPoles A b F (List.replicate n 0) := by
    have := (isNilpotent_charpoly_sub_pow_of_isNilpotent (M := A - b * F) ⟨K, hnil⟩).eq_zero
    rw [Fintype.card_fin, sub_eq_zero] at this
    unfold PlacesPoles
    rw [this]
    simp
  obtain ⟨F', h1, h2⟩ := C56_places_partial (loc := List.replicate n 0) he hS (by omega) hr (by simp)
  rw [h1, C56_unique hr h2 hp]

end deadbeat

/-- The double integrator, sampled or continuous, meets the hypotheses. -/
example {P : Type} {Nm : Numerics ℝ P} {E : DNum} {T T' : StateObj ℝ P} (hE : BalanceOk E) (hT : T.g = stateOf dblA dblB (1 : Matrix (Fin 2) (Fin 2) ℝ) 0 (some 1))
    (hT' : T'.g = stateOf dblA dblB (1 : Matrix (Fin 2) (Fin 2) ℝ) 0 none) (x0 x : Fin 2 → ℝ) :
    ∃ (S : SvdNum ℝ) (U U' : Matrix (Fin 3) (Fin 1) ℝ) (Y Y' : Matrix (Fin 3) (Fin 2) ℝ) (τ : List ℝ), isKalmanControllable S (Arr.of dblA) (Arr.of dblB) = .ok true ∧
      simulate Nm E T (Arr.of U) none (some (List.ofFn x0)) false = .ok (.flat (Arr.of Y), τ) ∧ Y 2 = x ∧
      simulate Nm E T' (Arr.of U') (some (eqGrid 3 0 1)) (some (List.ofFn x0)) false = .ok (.flat (Arr.of Y'), eqGrid 3 0 1) ∧ Y' 2 = x := by
  obtain ⟨S, he, hS⟩ := exists_svdNum
  obtain ⟨t, h1, h2⟩ := C48_controllable he.ge (hS (ctrbM dblA dblB (2 - 1))) (by norm_num) (by norm_num)
  obtain rfl := h2.mpr reachable_dbl
  obtain ⟨U₀, s, V, h3, h4, -⟩ := hS (ctrbM dblA dblB (2 - 1))
  obtain ⟨U, Y, τ, h5, h6⟩ := C126_steer (Nm := Nm) (E := E) he.ge ⟨U₀, s, V, h3, h4⟩ (by norm_num) (by norm_num) h1 hT (Or.inr ⟨rfl, by norm_num⟩ : InitArg (some (List.ofFn x0)) x0) x
  have hA : NoAlias 1 dblA := fun s₁ s₂ k1 k2 _ => by
    have key : ∀ s, IsEig dblA s → s = 0 := fun s hs => by
      unfold IsEig at hs
      simpa [dblA, det_fin_two] using hs
    rw [key _ k1, key _ k2]
  obtain ⟨t', h7, h8⟩ := C126_steer_continuous (Nm := Nm) (t0 := 0) hE he.ge (hS (ctrbM dblA dblB (2 - 1))) (by norm_num) (by norm_num) one_pos hA hT'
  rw [h1] at h7
  obtain rfl := Except.ok.inj h7
  obtain ⟨U', Y', h9, h10⟩ := h8.mp rfl x0 _ (Or.inr ⟨rfl, by norm_num⟩) x
  exact ⟨S, U, U', Y, Y', τ, h1, h5, h6, h9, h10⟩

/-- The initial state of the sampled double integrator is read off two samples of the position; dead-beat control brings it to rest in two samples. -/
example {P : Type} {Nm : Numerics ℝ P} {E : DNum} {T : StateObj ℝ P} (hT : T.g = stateOf dblA dblB (!![1, 0] : Matrix (Fin 1) (Fin 2) ℝ) 0 (some 1)) (x x' : Fin 2 → ℝ)
    (h : simulate Nm E T (Arr.of (0 : Matrix (Fin 2) (Fin 1) ℝ)) none (some (List.ofFn x)) false = simulate Nm E T (Arr.of (0 : Matrix (Fin 2) (Fin 1) ℝ)) none (some (List.ofFn x')) false) : x = x' := by
  obtain ⟨S, he, hS⟩ := exists_svdNum
  have ho : Observable dblA !![1, 0] := fun x hx => by
    have h0 := congrFun (hx 0) 0
    have h1 := congrFun (hx 1) 0
    simp [dblA, mulVec, dotProduct, Fin.sum_univ_two] at h0 h1
    funext i
    fin_cases i
    · exact h0
    · exact h1
  obtain ⟨t, h1, h2⟩ := C48_observable he.ge (hS (obsvM dblA !![1, 0] (2 - 1))) (by norm_num) (by norm_num)
  obtain rfl := h2.mpr ho
  obtain ⟨t', h3, h4⟩ := C126_reconstruct (Nm := Nm) (E := E) (N := 2) he.ge (hS (obsvM dblA !![1, 0] (2 - 1))) (by norm_num) (by norm_num) (by norm_num) le_rfl hT 0
  rw [h1] at h3
  obtain rfl := Except.ok.inj h3
  exact h4.mp rfl x x' h

example {P : Type} {Nm : Numerics ℝ P} {E : DNum} : ∃ (S : SvdNum ℝ) (F : Matrix (Fin 1) (Fin 2) ℝ) (R : StateM ℝ), ackermann S (Arr.of dblA) (Arr.of dblB) (.real [0, 0]) = .ok (Arr.of F) ∧
    ∀ (T : StateObj ℝ P), T.g = R → ∀ x0 : Fin 2 → ℝ, ∃ (Y : Matrix (Fin 3) (Fin 2) ℝ) (τ : List ℝ),
      simulate Nm E T (Arr.of (0 : Matrix (Fin 3) (Fin 1) ℝ)) none (some (List.ofFn x0)) false = .ok (.flat (Arr.of Y), τ) ∧ Y 2 = 0 := by
  obtain ⟨S, he, hS⟩ := exists_svdNum
  obtain ⟨F, R, h1, -, h3⟩ := C126_deadbeat (P := P) (Nm := Nm) (E := E) he.ge (hS (ctrbM dblA dblB (2 - 1))) (by norm_num) reachable_dbl one_pos
  refine ⟨S, F, R, h1, fun T hT x0 => ?_⟩
  obtain ⟨Y, τ, h4, h5⟩ := h3 T 3 hT (by norm_num) x0 _ (Or.inr ⟨rfl, by norm_num⟩)
  exact ⟨Y, τ, h4, h5 2 (by norm_num)⟩

end Harold
