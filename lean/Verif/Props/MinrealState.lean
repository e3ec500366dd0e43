import Verif.Lemmas.MinrealState
import Verif.Lemmas.StateTF
import Verif.Props.Stair

/-!
# C52, C67, C68: `minimal_realization` of `State` models
-/

namespace Harold

open Matrix Spec

variable {K : Type} [Field K] [LinearOrder K] {n m p : ℕ} {S : SvdNum K} {N : MinNum K} {tol : K}

/-- **C52**, static `State` gains: the same gain. Missing: the time domain (`C52_state_gain_dt_violated`). -/
theorem C52_state_gain_partial (S : SvdNum K) (N : MinNum K) (tol : K) {G : StateM K} (hg : G.isgain = true) (D : Matrix (Fin p) (Fin m) K) (hd : G.d = Arr.of D) :
    ∃ F, minrealState S N tol G = .ok F ∧ F.isgain = true ∧ F.d = Arr.of D ∧ F.dt = none := by
  unfold minrealState
  rw [if_pos hg, mkGain_of (fun _ h => by simp at h)]
  exact ⟨_, rfl, rfl, hd, rfl⟩

/-- **C52** fails for the time domain of static gains: a discrete time gain becomes a continuous time one. -/
theorem C52_state_gain_dt_violated (S : SvdNum K) (N : MinNum K) (tol : K) {G : StateM K} (hg : G.isgain = true) (hdt : G.dt ≠ none) :
    ∃ F, minrealState S N tol G = .ok F ∧ F.dt ≠ G.dt := by
  unfold minrealState
  rw [if_pos hg, mkGain_of (fun _ h => by simp at h)]
  exact ⟨_, rfl, hdt.symm⟩

example : ∃ G : StateM ℝ, G.isgain = true ∧ G.d = Arr.of (1 : Matrix (Fin 2) (Fin 2) ℝ) ∧ G.dt ≠ none :=
  ⟨⟨Arr.empty, Arr.empty, Arr.empty, Arr.of 1, some 1, true⟩, rfl, rfl, by simp⟩

variable [IsStrictOrderedRing K]

/-- The result of `minimal_realization` in exact arithmetic. -/
theorem minrealState_exact (hS : ∀ (a b : ℕ) (M : Matrix (Fin a) (Fin b) K), SvdOk S M) (he : S.eps = 0) (hN : Decides N tol) (hb : Balances N)
    (A : Matrix (Fin n) (Fin n) K) {B : Matrix (Fin n) (Fin m) K} {C : Matrix (Fin p) (Fin n) K} (D : Matrix (Fin p) (Fin m) K) {dt : Option K} (hdt : DtOk dt)
    (hn : 0 < n) (hB : B ≠ 0) (hC : C.rank < n) :
    ∃ F, minrealState S N tol ⟨Arr.of A, Arr.of B, Arr.of C, Arr.of D, dt, false⟩ = .ok F ∧
    ∃ (k : ℕ) (A' : Matrix (Fin k) (Fin k) K) (B' : Matrix (Fin k) (Fin m) K) (C' : Matrix (Fin p) (Fin k) K), k ≤ n ∧
      (k = 0 ∧ F = ⟨Arr.empty, Arr.empty, Arr.empty, Arr.of D, dt, true⟩ ∨
        0 < k ∧ F = ⟨Arr.of A', Arr.of B', Arr.of C', Arr.of D, dt, false⟩ ∧ Reachable A' B' ∧ (Observable A C → Observable A' C')) ∧
      ∀ (L : Type) [Field L] [Algebra K L] (s : L) (M M' : Matrix (Fin p) (Fin m) L),
        TripleTF A B C (D.map (algebraMap K L)) s M → TripleTF A' B' C' (D.map (algebraMap K L)) s M' → M = M' := by
  obtain ⟨k, A', B', C', h1, h2, h3, h4, h5⟩ := minrealMatrices_exact hS he hN hb A (B := B) (C := C) hn hB hC
  unfold minrealState
  rw [if_neg (by simp)]
  simp only [bind, Except.bind, h1, Arr.of_r]
  by_cases hk : 0 < k
  · rw [if_pos hk, mkState_of hdt]
    exact ⟨_, rfl, k, A', B', C', h2, Or.inr ⟨hk, rfl, h3.resolve_left hk.ne', fun h => (h4 h).1⟩, fun L _ _ s M M' => h5 L _ s M M'⟩
  · rw [if_neg hk, mkGain_of hdt]
    exact ⟨_, rfl, k, A', B', C', h2, Or.inl ⟨by omega, rfl⟩, fun L _ _ s M M' => h5 L _ s M M'⟩

/-- **C67** in exact arithmetic, for models with nonzero `B` and a `C` of rank smaller than the number of states: `minimal_realization` succeeds, the result has the
same numbers of inputs and outputs, the same time domain, at most as many states, and the same transfer matrix wherever both are defined.
The hypotheses `he`, `hN` say that the rank tests are exact: singular values count as zero only if they are, and `cancellation_distance` is at most the tolerance
precisely for unreachable pairs.
Missing: `B = 0` and `C` of full column rank, where it fails (`C67_zero_input_violated`, `C67_rank_violated`), and rounding. -/
theorem C67_partial (hS : ∀ (a b : ℕ) (M : Matrix (Fin a) (Fin b) K), SvdOk S M) (he : S.eps = 0) (hN : Decides N tol) (hb : Balances N)
    {G : StateM K} {A : Matrix (Fin n) (Fin n) K} {B : Matrix (Fin n) (Fin m) K} {C : Matrix (Fin p) (Fin n) K} {D : Matrix (Fin p) (Fin m) K}
    (hG : G = ⟨Arr.of A, Arr.of B, Arr.of C, Arr.of D, G.dt, false⟩) (hdt : DtOk G.dt) (hn : 0 < n) (hB : B ≠ 0) (hC : C.rank < n) :
    ∃ F, minrealState S N tol G = .ok F ∧ Consistent F p m ∧ F.dt = G.dt ∧ F.a.r ≤ n ∧
      ∀ (L : Type) [Field L] [Algebra K L] (s : L) (M M' : Matrix (Fin p) (Fin m) L), HasTF G p m s M → HasTF F p m s M' → M = M' := by
  obtain ⟨F, h1, k, A', B', C', h2, h3, h4⟩ := minrealState_exact hS he hN hb A (B := B) (C := C) D hdt hn hB hC
  rw [← hG] at h1
  refine ⟨F, h1, ?_⟩
  have hM : ∀ {L : Type} [Field L] [Algebra K L] {s : L} {M : Matrix (Fin p) (Fin m) L}, HasTF G p m s M → TripleTF A B C (D.map (algebraMap K L)) s M := by
    intro L _ _ s M h
    rw [hG] at h
    rcases h with ⟨h, -⟩ | ⟨-, n1, A1, B1, C1, D1, e1, e2, e3, e4, h⟩
    · simp at h
    · simp only at e1 e2 e3 e4
      obtain rfl : n = n1 := congrArg Arr.r e1
      obtain rfl := Arr.of_inj.mp e1
      obtain rfl := Arr.of_inj.mp e2
      obtain rfl := Arr.of_inj.mp e3
      obtain rfl := Arr.of_inj.mp e4
      exact h
  rcases h3 with ⟨rfl, rfl⟩ | ⟨hk, rfl, -, -⟩
  · refine ⟨⟨⟨rfl, rfl⟩, fun h => by simp at h⟩, rfl, Nat.zero_le _, fun L _ _ s M M' h h' => ?_⟩
    rcases h' with ⟨-, D1, e1, rfl⟩ | ⟨h', -⟩
    · simp only at e1
      obtain rfl := Arr.of_inj.mp e1
      refine h4 L s M _ (hM h) ?_
      exact ⟨by simp, by ext i j; simp [Matrix.mul_apply]⟩
    · simp at h'
  · refine ⟨⟨⟨rfl, rfl⟩, fun _ => ⟨rfl, rfl, rfl, rfl, rfl⟩⟩, rfl, h2, fun L _ _ s M M' h h' => ?_⟩
    rcases h' with ⟨h', -⟩ | ⟨-, n1, A1, B1, C1, D1, e1, e2, e3, e4, h'⟩
    · simp at h'
    · simp only at e1 e2 e3 e4
      obtain rfl : k = n1 := congrArg Arr.r e1
      obtain rfl := Arr.of_inj.mp e1
      obtain rfl := Arr.of_inj.mp e2
      obtain rfl := Arr.of_inj.mp e3
      obtain rfl := Arr.of_inj.mp e4
      exact h4 L s M M' (hM h) h'

/-- **C68** in exact arithmetic, for the models of `C67_partial`: the result is a static gain or controllable, and observable if the model is.
Missing: observability of the result for models that are not observable, where it can fail (`C68_violated`). -/
theorem C68_partial (hS : ∀ (a b : ℕ) (M : Matrix (Fin a) (Fin b) K), SvdOk S M) (he : S.eps = 0) (hN : Decides N tol) (hb : Balances N)
    {G : StateM K} {A : Matrix (Fin n) (Fin n) K} {B : Matrix (Fin n) (Fin m) K} {C : Matrix (Fin p) (Fin n) K} {D : Matrix (Fin p) (Fin m) K}
    (hG : G = ⟨Arr.of A, Arr.of B, Arr.of C, Arr.of D, G.dt, false⟩) (hdt : DtOk G.dt) (hn : 0 < n) (hB : B ≠ 0) (hC : C.rank < n) :
    ∃ F, minrealState S N tol G = .ok F ∧ (F.isgain = true ∨ ∃ (k : ℕ) (A' : Matrix (Fin k) (Fin k) K) (B' : Matrix (Fin k) (Fin m) K) (C' : Matrix (Fin p) (Fin k) K),
      F.a = Arr.of A' ∧ F.b = Arr.of B' ∧ F.c = Arr.of C' ∧ Reachable A' B' ∧ (Observable A C → Observable A' C')) := by
  obtain ⟨F, h1, k, A', B', C', -, h3, -⟩ := minrealState_exact hS he hN hb A (B := B) (C := C) D hdt hn hB hC
  rw [← hG] at h1
  refine ⟨F, h1, ?_⟩
  rcases h3 with ⟨rfl, rfl⟩ | ⟨hk, rfl, h4, h5⟩
  · exact Or.inl rfl
  · exact Or.inr ⟨k, A', B', C', rfl, rfl, rfl, h4, h5⟩

omit [IsStrictOrderedRing K] in
theorem any_zero : (Arr.of (0 : Matrix (Fin n) (Fin m) K)).any = false := by
  rw [Bool.eq_false_iff]
  intro h
  obtain ⟨i, j, h⟩ := (Arr.any_iff _).mp h
  exact h rfl

omit [IsStrictOrderedRing K] in
theorem stair_c_zero (S : SvdNum K) (invert : Bool) (A : Matrix (Fin n) (Fin n) K) (C : Matrix (Fin p) (Fin n) K) :
    staircase S "c" invert (Arr.of A) (Arr.of (0 : Matrix (Fin n) (Fin m) K)) (Arr.of C) = .ok (Arr.of A, Arr.of (0 : Matrix (Fin n) (Fin m) K), Arr.of C, Arr.of (1 : Matrix (Fin n) (Fin n) K)) := by
  obtain ⟨r, hr⟩ := validate_triple A (0 : Matrix (Fin n) (Fin m) K) C
  unfold staircase
  rw [if_neg (by simp), hr]
  simp only [bind, Except.bind]
  rw [if_neg (by decide), if_pos any_zero]
  rfl

omit [IsStrictOrderedRing K] in
theorem stair_o_zero (S : SvdNum K) (invert : Bool) (A : Matrix (Fin n) (Fin n) K) (B : Matrix (Fin n) (Fin m) K) :
    staircase S "o" invert (Arr.of A) (Arr.of B) (Arr.of (0 : Matrix (Fin p) (Fin n) K)) = .ok (Arr.of A, Arr.of B, Arr.of (0 : Matrix (Fin p) (Fin n) K), Arr.of (1 : Matrix (Fin n) (Fin n) K)) := by
  obtain ⟨r, hr⟩ := validate_triple A B (0 : Matrix (Fin p) (Fin n) K)
  unfold staircase
  rw [if_neg (by simp), hr]
  simp only [bind, Except.bind]
  rw [if_pos trivial, Arr.T_of, transpose_zero, if_pos any_zero]
  rfl

theorem minrealMatrices_zero_input (hS : ∀ (a b : ℕ) (M : Matrix (Fin a) (Fin b) K), SvdOk S M) (he : S.eps = 0) (hN : Decides N tol) (hb : Balances N)
    (A : Matrix (Fin n) (Fin n) K) {C : Matrix (Fin p) (Fin n) K} (hn : 0 < n) (hC : C.rank < n) :
    minrealMatrices S N tol (Arr.of A) (Arr.of (0 : Matrix (Fin n) (Fin m) K)) (Arr.of C) = .error .index := by
  obtain ⟨T, hT, h1⟩ := hb A
  have hC1 : (C * T).rank < n := lt_of_le_of_lt (rank_mul_le_left C T) hC
  obtain ⟨Ao, Bo, Co, To, q, h2, -⟩ := stair_o_exact hS he (T⁻¹ * A * T) (T⁻¹ * (0 : Matrix (Fin n) (Fin m) K)) hC1
  have h3 := stair_c_zero (m := m) S false (T⁻¹ * A * T) (C * T)
  rw [← Matrix.mul_zero (T⁻¹)] at h3
  have hl : Lead 0 (T⁻¹ * A * T) (T⁻¹ * (0 : Matrix (Fin n) (Fin m) K)) := ⟨Nat.zero_le _, fun _ c _ hc => by omega, fun i c _ => by simp, fun i hi => by omega⟩
  have h4 : N.dist 0 (Arr.of (T⁻¹ * A * T)) (Arr.of (T⁻¹ * (0 : Matrix (Fin n) (Fin m) K))) ≤ tol := by
    by_contra h
    exact hl.not_reachable (le_refl n) hn ((hN _ _ _).mp (not_le.mp h))
  rw [minrealMatrices_eq hn hT h1 h3 h2, Arr.T_of, cancelDist_of _ _ _ _ hn]
  simp only [bind, Except.bind]
  rw [if_neg (fun h => absurd (lt_min_iff.mp h).1 (not_lt.mpr h4))]
  unfold minrealC
  rw [if_pos h4]
  have h5 := kcLoop_exact hN (C * T) hl n n 2 (le_refl n) (N.dist 0 (Arr.of (T⁻¹ * A * T)) (Arr.of (T⁻¹ * (0 : Matrix (Fin n) (Fin m) K)))) hn hl.le (le_refl n)
    (hN _ _ _)
  rw [show Fin.castLE (le_refl n) = id from rfl] at h5
  simp only [submatrix_id_id] at h5
  simp only [bind, Except.bind, Arr.of_r]
  rw [h5]
  rfl

/-- **C67** fails for every model with `B = 0`, whose minimal realization is the static gain `D`: `IndexError`, since the cancellation distance of an empty matrix
is computed after removing all states. -/
theorem C67_zero_input_violated (hS : ∀ (a b : ℕ) (M : Matrix (Fin a) (Fin b) K), SvdOk S M) (he : S.eps = 0) (hN : Decides N tol) (hb : Balances N)
    (A : Matrix (Fin n) (Fin n) K) {C : Matrix (Fin p) (Fin n) K} (D : Matrix (Fin p) (Fin m) K) (dt : Option K) (hn : 0 < n) (hC : C.rank < n) :
    minrealState S N tol ⟨Arr.of A, Arr.of (0 : Matrix (Fin n) (Fin m) K), Arr.of C, Arr.of D, dt, false⟩ = .error .index := by
  unfold minrealState
  rw [if_neg (by simp)]
  simp only [minrealMatrices_zero_input hS he hN hb A hn hC, bind, Except.bind]

theorem minrealMatrices_rank (hS : ∀ {a b : ℕ} (M : Matrix (Fin a) (Fin b) K), SvdExact S M) (he : 0 ≤ S.eps) (hb : Balances N)
    (A : Matrix (Fin n) (Fin n) K) (B : Matrix (Fin n) (Fin m) K) {C : Matrix (Fin p) (Fin n) K} (hn : 0 < n) (hC : C.rank = n) (hm : m ≠ n) :
    minrealMatrices S N tol (Arr.of A) (Arr.of B) (Arr.of C) = .error .value := by
  obtain ⟨T, hT, h1⟩ := hb A
  have hC1 : (C * T).rank = n := by rw [rank_mul_eq_left_of_isUnit_det _ _ (isUnit_iff_ne_zero.mpr hT), hC]
  have hS' : ∀ (a b : ℕ) (M : Matrix (Fin a) (Fin b) K), SvdOk S M := fun a b M => let ⟨U, s, V, h1, h2, _⟩ := hS M; ⟨U, s, V, h1, h2⟩
  obtain ⟨Ac, Bc, Cc, Tc, h2, -⟩ := C50_controller hS' he false (T⁻¹ * A * T) (T⁻¹ * B) (C * T)
  obtain ⟨Ao, Bo, Co, To, h3, -⟩ := C50_observer_violated hS' he true (T⁻¹ * A * T) (T⁻¹ * B) (C * T) (hS _) hC1 hn
  rw [minrealMatrices_eq hn hT h1 h2 h3, Arr.T_of]
  have h4 : cancelDist N 1 (Arr.of Aoᵀ) (Arr.of Boᵀ) = .error .value := by
    unfold cancelDist
    simp [hm.symm]
  rw [h4]
  rfl

/-- **C67** fails for every model whose output matrix has full column rank (e.g. when the states are the outputs) if the numbers of inputs and states differ:
`ValueError`, since the observer staircase form then has its input and output matrices swapped. -/
theorem C67_rank_violated (hS : ∀ {a b : ℕ} (M : Matrix (Fin a) (Fin b) K), SvdExact S M) (he : 0 ≤ S.eps) (hb : Balances N)
    (A : Matrix (Fin n) (Fin n) K) (B : Matrix (Fin n) (Fin m) K) {C : Matrix (Fin p) (Fin n) K} (D : Matrix (Fin p) (Fin m) K) (dt : Option K) (hn : 0 < n)
    (hC : C.rank = n) (hm : m ≠ n) :
    minrealState S N tol ⟨Arr.of A, Arr.of B, Arr.of C, Arr.of D, dt, false⟩ = .error .value := by
  unfold minrealState
  rw [if_neg (by simp)]
  simp only [minrealMatrices_rank (S := S) hS he hb A B hn hC hm, bind, Except.bind]

/-- One state, one input, one output, both connected to the state: the model in other coordinates is returned. -/
theorem minrealMatrices_first_order (hS : ∀ {a b : ℕ} (M : Matrix (Fin a) (Fin b) K), SvdExact S M) (he : S.eps = 0) (hN : Decides N tol) (hb : Balances N)
    (A B C : Matrix (Fin 1) (Fin 1) K) (hB : B ≠ 0) (hC : C ≠ 0) :
    ∃ T : Matrix (Fin 1) (Fin 1) K, T.det ≠ 0 ∧
      minrealMatrices S N tol (Arr.of A) (Arr.of B) (Arr.of C) = .ok (Arr.of (T⁻¹ * A * T), Arr.of (T⁻¹ * B), Arr.of (C * T)) := by
  obtain ⟨T, hT, h1⟩ := hb A
  have hTT : T⁻¹ * T = 1 := nonsing_inv_mul T (isUnit_iff_ne_zero.mpr hT)
  have hTT' : T * T⁻¹ = 1 := mul_eq_one_comm.mp hTT
  have hB1 : T⁻¹ * B ≠ 0 := fun h => hB <| by rw [← Matrix.one_mul B, ← hTT', Matrix.mul_assoc, h, Matrix.mul_zero]
  have hrank : ∀ M : Matrix (Fin 1) (Fin 1) K, M ≠ 0 → M.rank = 1 := fun M hM => by
    have : IsUnit M.det := by
      rw [det_fin_one, isUnit_iff_ne_zero]
      exact fun h0 => hM (by ext i j; rw [Subsingleton.elim i 0, Subsingleton.elim j 0, h0]; rfl)
    rw [rank_of_isUnit M ((isUnit_iff_isUnit_det M).mpr this), Fintype.card_fin]
  have hreach : ∀ F M : Matrix (Fin 1) (Fin 1) K, M ≠ 0 → Reachable F M := fun F M hM => by
    have := observable_of_rank Fᵀ (C := Mᵀ) (by rw [rank_transpose, hrank M hM])
    rwa [observable_iff_dual, transpose_transpose, transpose_transpose] at this
  have hC1 : (C * T).rank = 1 := by rw [rank_mul_eq_left_of_isUnit_det _ _ (isUnit_iff_ne_zero.mpr hT), hrank C hC]
  have hS' : ∀ (a b : ℕ) (M : Matrix (Fin a) (Fin b) K), SvdOk S M := fun a b M => let ⟨U, s, V, h1, h2, _⟩ := hS M; ⟨U, s, V, h1, h2⟩
  obtain ⟨Ac, Bc, Cc, Tc, r, h2, h3, h4, h5, h6, h7, h8⟩ := stair_c_exact hS' he (T⁻¹ * A * T) (C * T) hB1
  obtain ⟨Ao, Bo, Co, To, h9, h10, h11, h12, h13⟩ := C50_observer_violated hS' he.ge true (T⁻¹ * A * T) (T⁻¹ * B) (C * T) (hS _) hC1 one_pos
  have hB2 : Bc ≠ 0 := fun h => hB1 <| by
    rw [← Matrix.one_mul (T⁻¹ * B), ← mul_eq_one_comm.mp h3, Matrix.mul_assoc, ← h5, h, Matrix.mul_zero]
  have hBo : Bo = Toᵀ * (T⁻¹ * B) := sub_eq_zero.mp (frobSq_eq_zero h12)
  have hB3 : Boᵀ ≠ 0 := fun h => hB1 <| by
    rw [transpose_eq_zero] at h
    rw [← Matrix.one_mul (T⁻¹ * B), ← mul_eq_one_comm.mp h10, Matrix.mul_assoc, ← hBo, h, Matrix.mul_zero]
  refine ⟨T, hT, ?_⟩
  rw [minrealMatrices_eq one_pos hT h1 h2 h9, Arr.T_of, cancelDist_of _ _ _ _ one_pos]
  exact if_pos (lt_min ((hN _ _ _).mpr (hreach _ _ hB2)) ((hN _ _ _).mpr (hreach _ _ hB3)))

/-- **C67**, first order models: one state, one input, one output, both connected to the state. Missing: models with an input or an output that is not connected (`C67_zero_input_violated`). -/
theorem C67_first_order_partial (hS : ∀ {a b : ℕ} (M : Matrix (Fin a) (Fin b) K), SvdExact S M) (he : S.eps = 0) (hN : Decides N tol) (hb : Balances N)
    (A B C D : Matrix (Fin 1) (Fin 1) K) {dt : Option K} (hdt : DtOk dt) (hB : B ≠ 0) (hC : C ≠ 0) :
    ∃ F, minrealState S N tol ⟨Arr.of A, Arr.of B, Arr.of C, Arr.of D, dt, false⟩ = .ok F ∧ Consistent F 1 1 ∧ F.dt = dt ∧ F.a.r = 1 ∧
      ∀ (L : Type) [Field L] [Algebra K L] (s : L) (M : Matrix (Fin 1) (Fin 1) L),
        HasTF ⟨Arr.of A, Arr.of B, Arr.of C, Arr.of D, dt, false⟩ 1 1 s M → HasTF F 1 1 s M := by
  obtain ⟨T, hT, h1⟩ := minrealMatrices_first_order (S := S) hS he hN hb A B C hB hC
  unfold minrealState
  rw [if_neg (by simp)]
  simp only [h1, bind, Except.bind, Arr.of_r]
  rw [if_pos one_pos, mkState_of hdt]
  refine ⟨_, rfl, ⟨⟨rfl, rfl⟩, fun _ => ⟨rfl, rfl, rfl, rfl, rfl⟩⟩, rfl, rfl, fun L _ _ s M hM => ?_⟩
  rcases hM with ⟨h2, -⟩ | ⟨-, k, A1, B1, C1, D1, e1, e2, e3, e4, h2⟩
  · simp at h2
  · obtain rfl : 1 = k := congrArg Arr.r e1
    obtain rfl := Arr.of_inj.mp e1
    obtain rfl := Arr.of_inj.mp e2
    obtain rfl := Arr.of_inj.mp e3
    obtain rfl := Arr.of_inj.mp e4
    exact Or.inr ⟨rfl, 1, _, _, _, _, rfl, rfl, rfl, rfl, TripleTF.coords (nonsing_inv_mul T (isUnit_iff_ne_zero.mpr hT)) h2⟩

theorem not_observable_zero {k : ℕ} (A : Matrix (Fin k) (Fin k) ℝ) (hk : 0 < k) : ¬ Observable A (0 : Matrix (Fin 1) (Fin k) ℝ) := fun h => by
  rw [observable_iff_dual] at h
  have hl : Lead 0 Aᵀ (0 : Matrix (Fin 1) (Fin k) ℝ)ᵀ := ⟨Nat.zero_le _, fun _ c _ hc => by omega, fun i c _ => by simp, fun i hi => by omega⟩
  exact hl.not_reachable (le_refl k) hk h

/-- Of two states, reachable through the second one and not seen by the output, only the first one is removed. -/
theorem minrealMatrices_unseen {S : SvdNum ℝ} {N : MinNum ℝ} {tol : ℝ} (hS : ∀ (a b : ℕ) (M : Matrix (Fin a) (Fin b) ℝ), SvdOk S M) (he : S.eps = 0) (hN : Decides N tol)
    {x00 x01 x10 x11 : ℝ} (h01 : x01 ≠ 0)
    (hb : N.bal (Arr.of !![x00, x01; x10, x11]) = (Arr.of !![x00, x01; x10, x11], Arr.of (1 : Matrix (Fin 2) (Fin 2) ℝ))) :
    minrealMatrices S N tol (Arr.of !![x00, x01; x10, x11]) (Arr.of !![0; 1]) (Arr.of (0 : Matrix (Fin 1) (Fin 2) ℝ))
      = .ok (Arr.of (!![x11] : Matrix (Fin 1) (Fin 1) ℝ), Arr.of (!![1] : Matrix (Fin 1) (Fin 1) ℝ), Arr.of (0 : Matrix (Fin 1) (Fin 1) ℝ)) := by
  have hr2 : Reachable (!![x00, x01; x10, x11] : Matrix (Fin 2) (Fin 2) ℝ) !![0; 1] := by
    rw [reachable_iff_kry, eq_top_iff]
    intro x _
    have h1 := input_mem_kry (!![x00, x01; x10, x11] : Matrix (Fin 2) (Fin 2) ℝ) !![0; 1] ![x 1 - x11 * (x 0 / x01)]
    have h2 := krylov_invariant (!![x00, x01; x10, x11] : Matrix (Fin 2) (Fin 2) ℝ) !![0; 1] (input_mem_kry (!![x00, x01; x10, x11] : Matrix (Fin 2) (Fin 2) ℝ) !![0; 1] ![x 0 / x01])
    convert Submodule.add_mem _ h1 h2 using 1
    ext i
    fin_cases i
    · simp [Matrix.mulVec, dotProduct, Fin.sum_univ_two]
      field_simp
    · simp [Matrix.mulVec, dotProduct, Fin.sum_univ_two]
  have hr1 : Reachable (!![x11] : Matrix (Fin 1) (Fin 1) ℝ) !![1] := by
    rw [reachable_iff_kry, eq_top_iff]
    intro x _
    convert input_mem_kry (!![x11] : Matrix (Fin 1) (Fin 1) ℝ) !![1] x using 1
    ext i
    fin_cases i
    simp [Matrix.mulVec, dotProduct]
  have hB : (!![0; 1] : Matrix (Fin 2) (Fin 1) ℝ) ≠ 0 := fun h => by
    have := congrFun (congrFun h 1) 0
    simp at this
  have hT : (1 : Matrix (Fin 2) (Fin 2) ℝ).det ≠ 0 := by simp
  have h1 : N.bal (Arr.of !![x00, x01; x10, x11]) = (Arr.of ((1 : Matrix (Fin 2) (Fin 2) ℝ)⁻¹ * !![x00, x01; x10, x11] * 1), Arr.of (1 : Matrix (Fin 2) (Fin 2) ℝ)) := by
    rw [hb, inv_one, Matrix.one_mul, Matrix.mul_one]
  obtain ⟨Ac, Bc, Cc, Tc, r, h2, h3, h4, h5, -⟩ := stair_c_exact hS he (!![x00, x01; x10, x11] : Matrix (Fin 2) (Fin 2) ℝ) (0 : Matrix (Fin 1) (Fin 2) ℝ) hB
  have h6 := stair_o_zero (p := 1) S true (!![x00, x01; x10, x11] : Matrix (Fin 2) (Fin 2) ℝ) (!![0; 1] : Matrix (Fin 2) (Fin 1) ℝ)
  have h7 := minrealMatrices_eq (S := S) (N := N) (tol := tol) (A := !![x00, x01; x10, x11]) (T := 1) (B := !![0; 1]) (C := (0 : Matrix (Fin 1) (Fin 2) ℝ))
    (Ac := Ac) (Bc := Bc) (Cc := Cc) (Tc := Tc) (Ao := !![x00, x01; x10, x11]) (To := 1) (bo := Arr.of !![0; 1]) (co := Arr.of (0 : Matrix (Fin 1) (Fin 2) ℝ)) two_pos hT h1
    (by rw [inv_one, Matrix.one_mul, Matrix.one_mul, Matrix.mul_one, Matrix.mul_one]; exact h2)
    (by rw [inv_one, Matrix.one_mul, Matrix.one_mul, Matrix.mul_one, Matrix.mul_one]; exact h6)
  rw [inv_one, Matrix.one_mul, Matrix.one_mul, Matrix.mul_one, Matrix.mul_one, Arr.T_of, cancelDist_of _ _ _ _ two_pos] at h7
  have hkc : tol < N.dist 0 (Arr.of Ac) (Arr.of Bc) := by
    rw [hN, h4, h5, reachable_coords h3]
    exact hr2
  have hko : ¬ tol < N.dist 1 (Arr.of (!![x00, x01; x10, x11] : Matrix (Fin 2) (Fin 2) ℝ)ᵀ) (Arr.of (0 : Matrix (Fin 1) (Fin 2) ℝ)ᵀ) := by
    rw [hN, ← observable_iff_dual]
    exact not_observable_zero _ two_pos
  simp only [bind, Except.bind] at h7
  rw [if_neg (fun h => hko (lt_min_iff.mp h).2)] at h7
  unfold minrealC at h7
  rw [if_neg (not_le.mpr hkc)] at h7
  dsimp only at h7
  unfold minrealO at h7
  rw [if_pos (not_lt.mp hko), h6] at h7
  simp only [bind, Except.bind, Arr.of_r] at h7
  unfold koLoop at h7
  rw [if_pos (not_lt.mp hko)] at h7
  have e1 : (Arr.of (!![x00, x01; x10, x11] : Matrix (Fin 2) (Fin 2) ℝ)).slice 1 2 1 2 = Arr.of (!![x11] : Matrix (Fin 1) (Fin 1) ℝ) := by
    rw [slice_of (a := 1) (b := 1) _ _ _ _ _ (by omega) (by omega), Arr.of_inj]
    ext i j
    fin_cases i; fin_cases j
    simp
  have e2 : (Arr.of (!![0; 1] : Matrix (Fin 2) (Fin 1) ℝ)).slice 1 2 0 1 = Arr.of (!![1] : Matrix (Fin 1) (Fin 1) ℝ) := by
    rw [slice_of (a := 1) (b := 1) _ _ _ _ _ (by omega) (by omega), Arr.of_inj]
    ext i j
    fin_cases i; fin_cases j
    simp
  have e3 : (Arr.of (0 : Matrix (Fin 1) (Fin 2) ℝ)).slice 0 1 1 2 = Arr.of (0 : Matrix (Fin 1) (Fin 1) ℝ) := by
    rw [slice_of (a := 1) (b := 1) _ _ _ _ _ (by omega) (by omega), Arr.of_inj]
    rfl
  dsimp only [Arr.of_r, Arr.of_c] at h7
  rw [e1, e2, e3, Arr.of_r, if_neg (by omega), cancelDist_of _ _ _ _ one_pos] at h7
  simp only [bind, Except.bind] at h7
  unfold koLoop at h7
  rw [if_neg (not_le.mpr ((hN _ _ _).mpr hr1))] at h7
  exact h7

/-- **C68** fails: for this model, controllable with a zero output matrix, `minimal_realization` returns a model with one state and zero output matrix, hence not
observable. Moreover the given model is stable (both poles are at -1) but the returned one is not (its pole is 1). -/
theorem C68_violated {S : SvdNum ℝ} {N : MinNum ℝ} {tol : ℝ} (hS : ∀ (a b : ℕ) (M : Matrix (Fin a) (Fin b) ℝ), SvdOk S M) (he : S.eps = 0) (hN : Decides N tol)
    (hb : N.bal (Arr.of !![-3, 4; -1, 1]) = (Arr.of !![-3, 4; -1, 1], Arr.of (1 : Matrix (Fin 2) (Fin 2) ℝ))) :
    ∃ F, minrealState S N tol ⟨Arr.of !![-3, 4; -1, 1], Arr.of !![0; 1], Arr.of (0 : Matrix (Fin 1) (Fin 2) ℝ), Arr.of (0 : Matrix (Fin 1) (Fin 1) ℝ), none, false⟩
      = .ok F ∧ F.isgain = false ∧
      F.a = Arr.of !![1] ∧ F.c = Arr.of (0 : Matrix (Fin 1) (Fin 1) ℝ) ∧ ¬ Observable !![(1 : ℝ)] (0 : Matrix (Fin 1) (Fin 1) ℝ) ∧
      ∀ s : ℂ, (s • (1 : Matrix (Fin 2) (Fin 2) ℂ) - (!![-3, 4; -1, 1] : Matrix (Fin 2) (Fin 2) ℝ).map Complex.ofReal).det = 0 → s = -1 := by
  unfold minrealState
  rw [if_neg (by simp)]
  simp only [bind, Except.bind, minrealMatrices_unseen hS he hN (show (4 : ℝ) ≠ 0 by norm_num) hb, Arr.of_r]
  rw [if_pos one_pos, mkState_of (fun _ h => by simp at h)]
  refine ⟨_, rfl, rfl, rfl, rfl, not_observable_zero _ one_pos, fun s hs => ?_⟩
  rw [det_fin_two] at hs
  simp at hs
  have : (s + 1) * (s + 1) = 0 := by linear_combination hs
  have := mul_self_eq_zero.mp this
  linear_combination this

/-- Routines as required exist. -/
theorem exists_minNum (tol : ℝ) : ∃ N : MinNum ℝ, Decides N tol ∧ Balances N ∧
    ∀ {n : ℕ} (A : Matrix (Fin n) (Fin n) ℝ), N.bal (Arr.of A) = (Arr.of A, Arr.of (1 : Matrix (Fin n) (Fin n) ℝ)) := by
  classical
  refine ⟨⟨fun a => (a, Arr.eye a.r), fun _ f g => if ∃ (n m : ℕ) (F : Matrix (Fin n) (Fin n) ℝ) (G : Matrix (Fin n) (Fin m) ℝ), f = Arr.of F ∧ g = Arr.of G ∧ Reachable F G
    then tol + 1 else tol⟩, ?_, ?_, fun _ => rfl⟩
  · intro k n m F G
    dsimp only
    constructor
    · intro h
      split_ifs at h with h1
      · obtain ⟨n1, m1, F1, G1, e1, e2, h1⟩ := h1
        obtain rfl : n = n1 := congrArg Arr.r e1
        obtain rfl : m = m1 := congrArg Arr.c e2
        obtain rfl := Arr.of_inj.mp e1
        obtain rfl := Arr.of_inj.mp e2
        exact h1
      · exact absurd h (lt_irrefl _)
    · intro h
      rw [if_pos ⟨n, m, F, G, rfl, rfl, h⟩]
      linarith
  · intro n A
    refine ⟨1, by simp, ?_⟩
    rw [inv_one, Matrix.one_mul, Matrix.mul_one]
    rfl

/-- The hypotheses of `C67_partial`, `C68_partial` and `C67_zero_input_violated` are met, by a model with an uncontrollable state. -/
example : ∃ (S : SvdNum ℝ) (N : MinNum ℝ), (∀ (a b : ℕ) (M : Matrix (Fin a) (Fin b) ℝ), SvdOk S M) ∧ S.eps = 0 ∧ Decides N 0 ∧ Balances N ∧
    (!![1; 0] : Matrix (Fin 2) (Fin 1) ℝ) ≠ 0 ∧ (!![1, 1] : Matrix (Fin 1) (Fin 2) ℝ).rank < 2 ∧ ¬ Reachable (1 : Matrix (Fin 2) (Fin 2) ℝ) !![1; 0] := by
  obtain ⟨S, he, hS⟩ := exists_svdNum
  obtain ⟨N, h1, h2, -⟩ := exists_minNum 0
  refine ⟨S, N, fun a b M => let ⟨U, s, V, h1, h2, _⟩ := hS M; ⟨U, s, V, h1, h2⟩, he, h1, h2, fun h => ?_, ?_, fun h => ?_⟩
  · have := congrFun (congrFun h 0) 0
    simp at this
  · exact lt_of_le_of_lt (rank_le_height _) (by simp)
  · have hl : Lead 1 (1 : Matrix (Fin 2) (Fin 2) ℝ) !![1; 0] := by
      refine ⟨by omega, fun i c hi hc => ?_, fun i c hi => ?_, fun i hi => ?_⟩
      · fin_cases i <;> fin_cases c <;> simp at hi hc ⊢
      · fin_cases i <;> fin_cases c <;> simp at hi ⊢
      · have : i = 0 := by ext; simpa using hi
        subst this
        convert input_mem_kry (1 : Matrix (Fin 2) (Fin 2) ℝ) !![1; 0] ![1] using 1
        ext j
        fin_cases j <;> simp [Matrix.mulVec, dotProduct]
    exact hl.not_reachable (le_refl 2) (by omega) h

/-- The hypotheses of `C67_rank_violated` are met by a model with three states, all measured, and one input. -/
example : ∃ (S : SvdNum ℝ) (N : MinNum ℝ), (∀ {a b : ℕ} (M : Matrix (Fin a) (Fin b) ℝ), SvdExact S M) ∧ 0 ≤ S.eps ∧ Balances N ∧
    (1 : Matrix (Fin 3) (Fin 3) ℝ).rank = 3 := by
  obtain ⟨S, he, hS⟩ := exists_svdNum
  obtain ⟨N, -, h2, -⟩ := exists_minNum 0
  exact ⟨S, N, fun M => hS M, he.ge, h2, by rw [rank_one]; rfl⟩

end Harold
