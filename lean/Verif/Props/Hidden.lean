import Verif.Spec.Hidden
import Verif.Props.LoopPoles
import Verif.Props.Integral
import Verif.Lemmas.HoldInverse
import Verif.Lemmas.Hautus

/-!
# C140: feedback does not move hidden modes
-/

namespace Harold

open Matrix Spec

variable {n m p : ℕ} {G H R : StateM ℝ} {s : ℂ} {neg : Bool}

theorem hidden_hcat_left {r a b : ℕ} {w : Matrix (Fin r) (Fin a) ℂ} (v : Matrix (Fin r) (Fin b) ℂ) (hw : w ≠ 0) : hcat w v ≠ 0 := fun h => hw (by
  ext i j
  have := congrFun (congrFun h i) (finSumFinEquiv (Sum.inl j))
  simpa [hcat] using this)

theorem hidden_hcat_right {r a b : ℕ} (w : Matrix (Fin r) (Fin a) ℂ) {v : Matrix (Fin r) (Fin b) ℂ} (hv : v ≠ 0) : hcat w v ≠ 0 := fun h => hv (by
  ext i j
  have := congrFun (congrFun h i) (finSumFinEquiv (Sum.inr j))
  simpa [hcat] using this)

theorem hidden_vcat_left {r a b : ℕ} {w : Matrix (Fin a) (Fin r) ℂ} (v : Matrix (Fin b) (Fin r) ℂ) (hw : w ≠ 0) : vcat w v ≠ 0 := fun h => hw (by
  ext i j
  have := congrFun (congrFun h (finSumFinEquiv (Sum.inl i))) j
  simpa [vcat] using this)

theorem hidden_vcat_right {r a b : ℕ} (w : Matrix (Fin a) (Fin r) ℂ) {v : Matrix (Fin b) (Fin r) ℂ} (hv : v ≠ 0) : vcat w v ≠ 0 := fun h => hv (by
  ext i j
  have := congrFun (congrFun h (finSumFinEquiv (Sum.inr i))) j
  simpa [vcat] using this)

theorem hidden_smul_hcat {r a b : ℕ} (s : ℂ) (w : Matrix (Fin r) (Fin a) ℂ) (v : Matrix (Fin r) (Fin b) ℂ) : s • hcat w v = hcat (s • w) (s • v) := by
  ext i j
  obtain ⟨j, rfl⟩ := finSumFinEquiv.surjective j
  rcases j with j | j <;> simp [hcat]

theorem hidden_smul_vcat {r a b : ℕ} (s : ℂ) (w : Matrix (Fin a) (Fin r) ℂ) (v : Matrix (Fin b) (Fin r) ℂ) : s • vcat w v = vcat (s • w) (s • v) := by
  ext i j
  obtain ⟨i, rfl⟩ := finSumFinEquiv.surjective i
  rcases i with i | i <;> simp [vcat]

theorem map_add_smul_mul {a b c : ℕ} (X : Matrix (Fin a) (Fin b) ℝ) (σ : ℝ) (U : Matrix (Fin a) (Fin c) ℝ) (V : Matrix (Fin c) (Fin b) ℝ) :
    (X + σ • U * V).map (algebraMap ℝ ℂ) = X.map (algebraMap ℝ ℂ) + (σ : ℂ) • (U.map (algebraMap ℝ ℂ) * V.map (algebraMap ℝ ℂ)) := by
  rw [Matrix.smul_mul, ← map_mul']
  ext i j
  simp

/-- **C140**, hidden modes of the forward path: whatever the model in the return path is, a mode of `G` that no input excites stays in `feedback(G, H)`, and no input excites it there. -/
theorem C140_input (hG : Consistent G p m) (hH : Consistent H m p) (hdt : DtOk G.dt) (h : feedback (.state G) (.state H) neg = .ok R) (hs : InputHidden G m s) : InputHidden R m s := by
  obtain ⟨D, hD⟩ := Arr.exists_of hG.1.1 hG.1.2
  obtain ⟨N, hN⟩ := Arr.exists_of hH.1.1 hH.1.2
  obtain ⟨-, -, hb⟩ := feedback_result hG hH hdt h
  obtain ⟨hΔ, hb⟩ := hb D N hD hN
  obtain ⟨hg, n, A, B, w, e1, e2, hw, h1, h2⟩ := hs
  rcases consistent_cases hG with ⟨a, b, c, D', dt, rfl⟩ | ⟨n', A', B', C, D', dt, rfl⟩
  · cases hg
  obtain rfl : n' = n := congrArg Arr.r e1
  simp only [Arr.of_inj] at e1 e2 hD
  subst e1 e2 hD
  rcases consistent_cases hH with ⟨a, b, c, N', dt', rfl⟩ | ⟨k, Ka, Lb, Mc, N', dt', rfl⟩ <;> obtain rfl := (Arr.of_inj.mp hN).symm
  · rw [closeBody_ds hdt _ _ _ _ _ _ _ _ _ _ hΔ] at hb
    obtain rfl := Except.ok.inj hb
    refine ⟨rfl, n', _, _, w, rfl, rfl, hw, ?_, ?_⟩
    · rw [map_add_smul_mul, Matrix.mul_add, h1, Matrix.mul_smul, ← Matrix.mul_assoc, h2, Matrix.zero_mul, smul_zero, add_zero]
    · rw [map_add_smul_mul, Matrix.mul_add, h2, Matrix.mul_smul, ← Matrix.mul_assoc, h2, Matrix.zero_mul, smul_zero, add_zero]
  · rw [closeBody_dd hdt _ _ _ _ _ _ _ _ _ _ hΔ] at hb
    obtain rfl := Except.ok.inj hb
    have h3 : hcat w (0 : Matrix (Fin 1) (Fin k) ℂ) * (vcat B' (Lb * D')).map (algebraMap ℝ ℂ) = 0 := by
      rw [vcat_map, hcat_mul_vcat', h2, Matrix.zero_mul, add_zero]
    refine ⟨rfl, n' + k, _, _, hcat w 0, rfl, rfl, hidden_hcat_left _ hw, ?_, ?_⟩
    · rw [map_add_smul_mul, Matrix.mul_add, Matrix.mul_smul, ← Matrix.mul_assoc, h3, Matrix.zero_mul, smul_zero, add_zero, blk_map, hcat_mul_blk, h1, hidden_smul_hcat]
      simp
    · rw [map_add_smul_mul, Matrix.mul_add, h3, Matrix.mul_smul, ← Matrix.mul_assoc, h3, Matrix.zero_mul, smul_zero, add_zero]

/-- **C140**: a mode of `G` that no output shows stays in `feedback(G, H)`, and no output shows it there. -/
theorem C140_output (hG : Consistent G p m) (hH : Consistent H m p) (hdt : DtOk G.dt) (h : feedback (.state G) (.state H) neg = .ok R) (hs : OutputHidden G p s) : OutputHidden R p s := by
  obtain ⟨D, hD⟩ := Arr.exists_of hG.1.1 hG.1.2
  obtain ⟨N, hN⟩ := Arr.exists_of hH.1.1 hH.1.2
  obtain ⟨-, -, hb⟩ := feedback_result hG hH hdt h
  obtain ⟨hΔ, hb⟩ := hb D N hD hN
  obtain ⟨hg, n, A, C, x, e1, e2, hx, h1, h2⟩ := hs
  rcases consistent_cases hG with ⟨a, b, c, D', dt, rfl⟩ | ⟨n', A', B, C', D', dt, rfl⟩
  · cases hg
  obtain rfl : n' = n := congrArg Arr.r e1
  simp only [Arr.of_inj] at e1 e2 hD
  subst e1 e2 hD
  rcases consistent_cases hH with ⟨a, b, c, N', dt', rfl⟩ | ⟨k, Ka, Lb, Mc, N', dt', rfl⟩ <;> obtain rfl := (Arr.of_inj.mp hN).symm
  · rw [closeBody_ds hdt _ _ _ _ _ _ _ _ _ _ hΔ] at hb
    obtain rfl := Except.ok.inj hb
    have h3 : ((1 - N * D')⁻¹ * (N * C')).map (algebraMap ℝ ℂ) * x = (0 : Matrix (Fin m) (Fin 1) ℂ) := by
      rw [map_mul', map_mul', Matrix.mul_assoc, Matrix.mul_assoc, h2, Matrix.mul_zero, Matrix.mul_zero]
    refine ⟨rfl, n', _, _, x, rfl, rfl, hx, ?_, ?_⟩
    · rw [map_add_smul_mul, Matrix.add_mul, h1, Matrix.smul_mul, Matrix.mul_assoc, h3, Matrix.mul_zero, smul_zero, add_zero]
    · rw [map_add_smul_mul, Matrix.add_mul, h2, Matrix.smul_mul, Matrix.mul_assoc, h3, Matrix.mul_zero, smul_zero, add_zero]
  · rw [closeBody_dd hdt _ _ _ _ _ _ _ _ _ _ hΔ] at hb
    obtain rfl := Except.ok.inj hb
    have h3 : ((1 - N * D')⁻¹ * hcat (N * C') Mc).map (algebraMap ℝ ℂ) * vcat x (0 : Matrix (Fin k) (Fin 1) ℂ) = (0 : Matrix (Fin m) (Fin 1) ℂ) := by
      rw [map_mul', hcat_map, Matrix.mul_assoc, hcat_mul_vcat', map_mul', Matrix.mul_assoc, h2, Matrix.mul_zero, Matrix.mul_zero, add_zero, Matrix.mul_zero]
    refine ⟨rfl, n' + k, _, _, vcat x 0, rfl, rfl, hidden_vcat_left _ hx, ?_, ?_⟩
    · rw [map_add_smul_mul, Matrix.add_mul, Matrix.smul_mul, Matrix.mul_assoc _ _ (vcat x 0), h3, Matrix.mul_zero, smul_zero, add_zero, blk_map, blk_mul_vcat, h1, map_mul', Matrix.mul_assoc, h2, hidden_smul_vcat]
      simp
    · rw [map_add_smul_mul, Matrix.add_mul, Matrix.smul_mul, Matrix.mul_assoc _ _ (vcat x 0), h3, Matrix.mul_zero, smul_zero, add_zero, hcat_map, hcat_mul_vcat', h2, Matrix.mul_zero, add_zero]

/-- **C140**, hidden modes of the return path: a mode of `H` that no input excites stays in `feedback(G, H)`. -/
theorem C140_input_return (hG : Consistent G p m) (hH : Consistent H m p) (hdt : DtOk G.dt) (h : feedback (.state G) (.state H) neg = .ok R) (hs : InputHidden H p s) : InputHidden R m s := by
  obtain ⟨D, hD⟩ := Arr.exists_of hG.1.1 hG.1.2
  obtain ⟨N, hN⟩ := Arr.exists_of hH.1.1 hH.1.2
  obtain ⟨-, -, hb⟩ := feedback_result hG hH hdt h
  obtain ⟨hΔ, hb⟩ := hb D N hD hN
  obtain ⟨hg, k, Ka, Lb, w, e1, e2, hw, h1, h2⟩ := hs
  rcases consistent_cases hH with ⟨a, b, c, N', dt, rfl⟩ | ⟨k', Ka', Lb', Mc, N', dt, rfl⟩
  · cases hg
  obtain rfl : k' = k := congrArg Arr.r e1
  simp only [Arr.of_inj] at e1 e2 hN
  subst e1 e2 hN
  have h2' : ∀ {l : ℕ} (X : Matrix (Fin p) (Fin l) ℝ), w * (Lb' * X).map (algebraMap ℝ ℂ) = 0 := fun X => by rw [map_mul', ← Matrix.mul_assoc, h2, Matrix.zero_mul]
  rcases consistent_cases hG with ⟨a, b, c, D', dt', rfl⟩ | ⟨n', A, B, C, D', dt', rfl⟩ <;> obtain rfl := (Arr.of_inj.mp hD).symm
  · rw [closeBody_sd hdt _ _ _ _ _ _ _ _ _ _ hΔ] at hb
    obtain rfl := Except.ok.inj hb
    refine ⟨rfl, k', _, _, w, rfl, rfl, hw, ?_, ?_⟩
    · rw [map_add_smul_mul, Matrix.mul_add, h1, Matrix.mul_smul, ← Matrix.mul_assoc, h2', Matrix.zero_mul, smul_zero, add_zero]
    · rw [map_add_smul_mul, Matrix.mul_add, h2', Matrix.mul_smul, ← Matrix.mul_assoc, h2', Matrix.zero_mul, smul_zero, add_zero]
  · rw [closeBody_dd hdt _ _ _ _ _ _ _ _ _ _ hΔ] at hb
    obtain rfl := Except.ok.inj hb
    have h3 : hcat (0 : Matrix (Fin 1) (Fin n') ℂ) w * (vcat B (Lb' * D)).map (algebraMap ℝ ℂ) = 0 := by
      rw [vcat_map, hcat_mul_vcat', h2', Matrix.zero_mul, add_zero]
    refine ⟨rfl, n' + k', _, _, hcat 0 w, rfl, rfl, hidden_hcat_right _ hw, ?_, ?_⟩
    · rw [map_add_smul_mul, Matrix.mul_add, Matrix.mul_smul, ← Matrix.mul_assoc, h3, Matrix.zero_mul, smul_zero, add_zero, blk_map, hcat_mul_blk, h1, h2', hidden_smul_hcat]
      simp
    · rw [map_add_smul_mul, Matrix.mul_add, h3, Matrix.mul_smul, ← Matrix.mul_assoc, h3, Matrix.zero_mul, smul_zero, add_zero]

/-- **C140**: a mode of `H` that no output shows stays in `feedback(G, H)`. -/
theorem C140_output_return (hG : Consistent G p m) (hH : Consistent H m p) (hdt : DtOk G.dt) (h : feedback (.state G) (.state H) neg = .ok R) (hs : OutputHidden H m s) : OutputHidden R p s := by
  obtain ⟨D, hD⟩ := Arr.exists_of hG.1.1 hG.1.2
  obtain ⟨N, hN⟩ := Arr.exists_of hH.1.1 hH.1.2
  obtain ⟨-, -, hb⟩ := feedback_result hG hH hdt h
  obtain ⟨hΔ, hb⟩ := hb D N hD hN
  obtain ⟨hg, k, Ka, Mc, x, e1, e2, hx, h1, h2⟩ := hs
  rcases consistent_cases hH with ⟨a, b, c, N', dt, rfl⟩ | ⟨k', Ka', Lb, Mc', N', dt, rfl⟩
  · cases hg
  obtain rfl : k' = k := congrArg Arr.r e1
  simp only [Arr.of_inj] at e1 e2 hN
  subst e1 e2 hN
  rcases consistent_cases hG with ⟨a, b, c, D', dt', rfl⟩ | ⟨n', A, B, C, D', dt', rfl⟩ <;> obtain rfl := (Arr.of_inj.mp hD).symm
  · rw [closeBody_sd hdt _ _ _ _ _ _ _ _ _ _ hΔ] at hb
    obtain rfl := Except.ok.inj hb
    have h3 : ((1 - N' * D)⁻¹ * Mc').map (algebraMap ℝ ℂ) * x = (0 : Matrix (Fin m) (Fin 1) ℂ) := by rw [map_mul', Matrix.mul_assoc, h2, Matrix.mul_zero]
    refine ⟨rfl, k', _, _, x, rfl, rfl, hx, ?_, ?_⟩
    · rw [map_add_smul_mul, Matrix.add_mul, h1, Matrix.smul_mul, Matrix.mul_assoc, h3, Matrix.mul_zero, smul_zero, add_zero]
    · rw [map_add_smul_mul, Matrix.add_mul, Matrix.smul_mul, Matrix.mul_assoc, h3, Matrix.mul_zero, smul_zero, add_zero]
      simp
  · rw [closeBody_dd hdt _ _ _ _ _ _ _ _ _ _ hΔ] at hb
    obtain rfl := Except.ok.inj hb
    have h3 : ((1 - N' * D)⁻¹ * hcat (N' * C) Mc').map (algebraMap ℝ ℂ) * vcat (0 : Matrix (Fin n') (Fin 1) ℂ) x = (0 : Matrix (Fin m) (Fin 1) ℂ) := by
      rw [map_mul', hcat_map, Matrix.mul_assoc, hcat_mul_vcat', h2, Matrix.mul_zero, add_zero, Matrix.mul_zero]
    refine ⟨rfl, n' + k', _, _, vcat 0 x, rfl, rfl, hidden_vcat_right _ hx, ?_, ?_⟩
    · rw [map_add_smul_mul, Matrix.add_mul, Matrix.smul_mul, Matrix.mul_assoc _ _ (vcat 0 x), h3, Matrix.mul_zero, smul_zero, add_zero, blk_map, blk_mul_vcat, h1, hidden_smul_vcat]
      simp
    · rw [map_add_smul_mul, Matrix.add_mul, Matrix.smul_mul, Matrix.mul_assoc _ _ (vcat 0 x), h3, Matrix.mul_zero, smul_zero, add_zero, hcat_map, hcat_mul_vcat']
      simp

/-- A hidden mode is a zero of the characteristic polynomial. -/
theorem hidden_char (h : InputHidden G m s ∨ OutputHidden G p s) : CharAt G s (0 : ℂ) := by
  rcases h with ⟨hg, n, A, B, w, e1, -, hw, h1, -⟩ | ⟨hg, n, A, C, x, e1, -, hx, h1, -⟩
  · refine Or.inr ⟨hg, n, A, e1, ?_⟩
    by_contra hne
    have h2 : w * (s • (1 : Matrix (Fin n) (Fin n) ℂ) - A.map (algebraMap ℝ ℂ)) = 0 := by rw [Matrix.mul_sub, Matrix.mul_smul, Matrix.mul_one, h1, sub_self]
    have h3 := congrArg (· * (s • (1 : Matrix (Fin n) (Fin n) ℂ) - A.map (algebraMap ℝ ℂ))⁻¹) h2
    simp only [Matrix.mul_assoc, mul_nonsing_inv _ (Ne.isUnit (Ne.symm hne)), Matrix.mul_one, Matrix.zero_mul] at h3
    exact hw h3
  · refine Or.inr ⟨hg, n, A, e1, ?_⟩
    by_contra hne
    have h2 : (s • (1 : Matrix (Fin n) (Fin n) ℂ) - A.map (algebraMap ℝ ℂ)) * x = 0 := by rw [Matrix.sub_mul, Matrix.smul_mul, Matrix.one_mul, h1, sub_self]
    have h3 := congrArg ((s • (1 : Matrix (Fin n) (Fin n) ℂ) - A.map (algebraMap ℝ ℂ))⁻¹ * ·) h2
    simp only [← Matrix.mul_assoc, nonsing_inv_mul _ (Ne.isUnit (Ne.symm hne)), Matrix.one_mul, Matrix.mul_zero] at h3
    exact hx h3

/-- **C140**, no controller helps: if a loop is stable, all hidden modes of both models in it are stable, whatever the loop is. -/
theorem C140_stable (hG : Consistent G p m) (hH : Consistent H m p) (hdt : DtOk G.dt) (h : feedback (.state G) (.state H) neg = .ok R) (hst : StableModel R)
    (hs : InputHidden G m s ∨ OutputHidden G p s ∨ InputHidden H p s ∨ OutputHidden H m s) : StablePoint G.dt s := by
  obtain ⟨hR, hRdt, -⟩ := feedback_result hG hH hdt h
  rw [← hRdt]
  refine (stable_iff_char hR).mp hst s (hidden_char (m := m) (p := p) ?_)
  rcases hs with hs | hs | hs | hs
  · exact Or.inl (C140_input hG hH hdt h hs)
  · exact Or.inr (C140_output hG hH hdt h hs)
  · exact Or.inl (C140_input_return hG hH hdt h hs)
  · exact Or.inr (C140_output_return hG hH hdt h hs)

/-- **C140**, poles: hidden modes of `G` and of `H` are poles of the loop. -/
theorem C140_poles {N : Numerics ℝ ℂ} (hN : EigExact N) (hG : Consistent G p m) (hH : Consistent H m p) (hdt : DtOk G.dt) {T : StateObj ℝ ℂ} (h : feedback (.state G) (.state H) neg = .ok T.g)
    (hT : PolesCurrent N T) (hs : InputHidden G m s ∨ OutputHidden G p s ∨ InputHidden H p s ∨ OutputHidden H m s) : s ∈ T.poles := by
  obtain ⟨hR, hRdt, -⟩ := feedback_result hG hH hdt h
  have h1 : CharAt T.g s (0 : ℂ) := by
    refine hidden_char (m := m) (p := p) ?_
    rcases hs with hs | hs | hs | hs
    · exact Or.inl (C140_input hG hH hdt h hs)
    · exact Or.inr (C140_output hG hH hdt h hs)
    · exact Or.inl (C140_input_return hG hH hdt h hs)
    · exact Or.inr (C140_output_return hG hH hdt h hs)
  have h2 := CharAt_unique h1 (char_poles hN hT hR s)
  obtain ⟨a, ha, h3⟩ := List.mem_map.mp (List.prod_eq_zero_iff.mp h2.symm)
  rw [sub_eq_zero.mp h3]
  exact ha

/-- **C140**: a model has a hidden mode exactly if one of the Kalman conditions fails. -/
theorem C140_kalman {A : Matrix (Fin n) (Fin n) ℝ} {B : Matrix (Fin n) (Fin m) ℝ} {C : Matrix (Fin p) (Fin n) ℝ} {D : Matrix (Fin p) (Fin m) ℝ} {dt : Option ℝ} :
    (Reachable A B ↔ ∀ s, ¬ InputHidden (stateOf A B C D dt) m s) ∧ (Observable A C ↔ ∀ s, ¬ OutputHidden (stateOf A B C D dt) p s) := by
  constructor
  · rw [hautus_reach]
    constructor
    · rintro h s ⟨-, n', A', B', w, e1, e2, hw, h1, h2⟩
      obtain rfl : n = n' := congrArg Arr.r e1
      obtain rfl := Arr.of_inj.mp e1
      obtain rfl := Arr.of_inj.mp e2
      refine hw ?_
      have h3 := h s (fun j => w 0 j) (funext fun i => by
        refine Eq.trans ?_ (congrFun (congrFun h1 0) i)
        simp [mulVec, dotProduct, Matrix.mul_apply, mul_comm]) (funext fun i => by
        refine Eq.trans ?_ (congrFun (congrFun h2 0) i)
        simp [mulVec, dotProduct, Matrix.mul_apply, mul_comm])
      ext i j
      rw [Subsingleton.elim i 0]
      exact congrFun h3 j
    · intro h z v h1 h2
      by_contra hv
      rw [transpose_map, mulVec_transpose] at h1 h2
      refine h z ⟨rfl, n, A, B, Matrix.of fun _ => v, rfl, rfl, fun h0 => hv (congrFun h0 0), ?_, ?_⟩
      · ext i j
        exact congrFun h1 j
      · ext i j
        exact congrFun h2 j
  · rw [hautus]
    constructor
    · rintro h s ⟨-, n', A', C', x, e1, e2, hx, h1, h2⟩
      obtain rfl : n = n' := congrArg Arr.r e1
      obtain rfl := Arr.of_inj.mp e1
      obtain rfl := Arr.of_inj.mp e2
      refine hx ?_
      have h3 := h s (fun i => x i 0) (funext fun i => congrFun (congrFun h1 i) 0) (funext fun i => congrFun (congrFun h2 i) 0)
      ext i j
      rw [Subsingleton.elim j 0]
      exact congrFun h3 i
    · intro h z v h1 h2
      by_contra hv
      refine h z ⟨rfl, n, A, C, Matrix.of fun i _ => v i, rfl, rfl, fun h0 => hv (funext fun i => congrFun (congrFun h0 i) 0), ?_, ?_⟩
      · ext i j
        exact congrFun h1 i
      · ext i j
        exact congrFun h2 i

/-- The model with states `x' = -x + u`, `z' = 2 z` has the hidden mode 2, and no loop with it is stable. -/
example {H R : StateM ℝ} (hH : Consistent H 1 1) (h : feedback (.state (stateOf !![-1, 0; 0, 2] !![1; 0] !![1, 1] (0 : Matrix (Fin 1) (Fin 1) ℝ) none)) (.state H) neg = .ok R) : ¬ StableModel R := fun hst => by
  have hs : InputHidden (stateOf !![-1, 0; 0, 2] !![1; 0] !![1, 1] (0 : Matrix (Fin 1) (Fin 1) ℝ) none) 1 2 := by
    refine ⟨rfl, 2, _, _, !![0, 1], rfl, rfl, fun h0 => one_ne_zero (congrFun (congrFun h0 0) 1), ?_, ?_⟩
    · ext i j
      fin_cases i; fin_cases j <;> simp [Matrix.mul_apply, Fin.sum_univ_two]
    · ext i j
      fin_cases i; fin_cases j
      simp [Matrix.mul_apply, Fin.sum_univ_two]
  have := C140_stable (G := stateOf !![-1, 0; 0, 2] !![1; 0] !![1, 1] (0 : Matrix (Fin 1) (Fin 1) ℝ) none) ⟨⟨rfl, rfl⟩, fun _ => ⟨rfl, rfl, rfl, rfl, rfl⟩⟩ hH (fun t h => by cases h) h hst (Or.inl hs)
  simp [StablePoint] at this
  linarith

/-- Loops with it exist: unity feedback. -/
example : ∃ R, feedback (.state (stateOf !![-1, 0; 0, 2] !![1; 0] !![1, 1] (0 : Matrix (Fin 1) (Fin 1) ℝ) none)) (.state (unity 1 none)) true = .ok R :=
  feedback_exists (G := stateOf !![-1, 0; 0, 2] !![1; 0] !![1, 1] (0 : Matrix (Fin 1) (Fin 1) ℝ) none) ⟨⟨rfl, rfl⟩, fun _ => ⟨rfl, rfl, rfl, rfl, rfl⟩⟩ (unity_consistent 1 none) (fun t h => by cases h) rfl rfl rfl (E := 1) rfl
    (Matrix.mul_zero _) (by norm_num [spacing10]) true

end Harold
