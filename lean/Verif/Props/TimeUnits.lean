import Verif.Spec.TimeUnits
import Verif.Props.NormAxioms
import Verif.Props.LqrChange
import Verif.Props.DiscTransfer
import Verif.Props.Sim

/-!
# C115: the unit of time
-/

namespace Harold

open Matrix Spec Filter Topology

variable {n m p : ℕ} {τ : ℝ} {A : Matrix (Fin n) (Fin n) ℝ} {B : Matrix (Fin n) (Fin m) ℝ} {C : Matrix (Fin p) (Fin n) ℝ} {D : Matrix (Fin p) (Fin m) ℝ}

section discretization
variable {P : Type} {N : Numerics ℝ P} {E : DNum} {G G' : StateObj ℝ P} {h pw : ℝ} {q q' : Option (Arr ℝ)} {method : String}

/-- **C115**, holds: sampling the rescaled model with the period `h` and the model with the period `τ h`, by zero-order or first-order hold, gives the same matrices. -/
theorem C115_hold (hE : BalanceOk E) (hτ : 0 < τ) (hh : 0 < h) (hG : Rescaled τ A B C D G.g G'.g) (hm : method = "zoh" ∨ method = "foh") (pw pw' : ℝ) :
    ∃ S S', discretize N E G (τ * h) method pw q = .ok S ∧ discretize N E G' h method pw' q' = .ok S' ∧ S.g.dt = some (τ * h) ∧ S'.g = { S.g with dt := some h } := by
  have e1 : (τ * h) • A = h • (τ • A) := by rw [smul_smul, mul_comm]
  have e2 : (τ * h) • B = h • (τ • B) := by rw [smul_smul, mul_comm]
  rcases hm with rfl | rfl
  · obtain ⟨S, h1, h2, -⟩ := discretize_zoh_gam (N := N) (pw := pw) (q := q) hE (mul_pos hτ hh) hG.1
    obtain ⟨S', h1', h2', -⟩ := discretize_zoh_gam (N := N) (pw := pw') (q := q') hE hh hG.2
    exact ⟨S, S', h1, h1', by rw [h2], by rw [h2, h2', e1, e2]⟩
  · obtain ⟨S, h1, h2, -⟩ := discretize_foh_of (N := N) (pw := pw) (q := q) hE (mul_pos hτ hh) hG.1
    obtain ⟨S', h1', h2', -⟩ := discretize_foh_of (N := N) (pw := pw') (q := q') hE hh hG.2
    have e : fohX A B (τ * h) = fohX (τ • A) (τ • B) h := by rw [fohX_eq, fohX_eq, e1, e2]
    refine ⟨S, S', h1, h1', by rw [h2], ?_⟩
    rw [h2, h2']
    simp only [fohPhi, fohG1, fohG2, e]

/-- The star product with the matrices of two units of time. -/
theorem lft_units {y y' w w' : ℝ} (hτ : 0 < τ) (hh : 0 < h) (hG : Rescaled τ A B C D G.g G'.g) (hk : method ∈ knownMethods) (pw' : ℝ)
    (ha : discretizeArgs E G.g (τ * h) method pw q = simpleLft (q2 1 y y w) G.g.a G.g.b G.g.c G.g.d)
    (ha' : discretizeArgs E G'.g h method pw' q' = simpleLft (q2 1 y' y' w') G'.g.a G'.g.b G'.g.c G'.g.d)
    (hpw : method ∈ tustinNames → pw ≤ 1 / (2 * (τ * h))) (hpw' : method ∈ tustinNames → pw' ≤ 1 / (2 * h))
    (hw : w = w' * τ) (hy : y = √τ * y') :
    (discretize N E G (τ * h) method pw q = .error .linAlg ∧ discretize N E G' h method pw' q' = .error .linAlg) ∨
    ∃ S S', discretize N E G (τ * h) method pw q = .ok S ∧ discretize N E G' h method pw' q' = .ok S' ∧ S.g.dt = some (τ * h) ∧
      S'.g = ⟨S.g.a, S.g.b.smul √τ, S.g.c.smul (1 / √τ), S.g.d, some h, false⟩ := by
  have h1 := discretize_lft_ok (N := N) ha (fun h0 _ => hpw h0) hG.1 hk
  have h2 := discretize_lft_ok (N := N) ha' (fun h0 _ => hpw' h0) hG.2 hk
  have e : w' • τ • A = w • A := by rw [smul_smul, hw]
  rw [e] at h2
  by_cases hd : (1 - w • A).det = 0
  · exact Or.inl ⟨h1.1 hd, h2.1 hd⟩
  · obtain ⟨S, k1, k2, -⟩ := h1.2 hd (mul_pos hτ hh)
    obtain ⟨S', k1', k2', -⟩ := h2.2 hd hh
    refine Or.inr ⟨S, S', k1, k1', by rw [k2], ?_⟩
    rw [k2, k2']
    have hs : √τ * √τ = τ := Real.mul_self_sqrt hτ.le
    have hs0 : √τ ≠ 0 := (Real.sqrt_pos.mpr hτ).ne'
    have e1 : (y' * y') • (τ • A * (1 - w • A)⁻¹) = (y * y) • (A * (1 - w • A)⁻¹) := by
      rw [Matrix.smul_mul, smul_smul, hy]
      congr 1
      linear_combination (-y' * y') * hs
    have e2 : y' • ((1 - w • A)⁻¹ * τ • B) = √τ • (y • ((1 - w • A)⁻¹ * B)) := by
      rw [Matrix.mul_smul, smul_smul, smul_smul, hy]
      congr 1
      linear_combination (-y') * hs
    have e3 : y' • (C * (1 - w • A)⁻¹) = (1 / √τ) • (y • (C * (1 - w • A)⁻¹)) := by
      rw [smul_smul, hy]
      congr 1
      field_simp
    have e4 : w' • (C * (1 - w • A)⁻¹ * τ • B) = w • (C * (1 - w • A)⁻¹ * B) := by
      rw [Matrix.mul_smul, smul_smul, hw]
    simp only [Arr.smul_of, e1, e2, e3, e4]

/-- **C115**, substitution rules without prewarping: sampling the rescaled model with the period `h` and the model with the period `τ h` either both raise, or the results agree after the states are
divided by the square root of `τ`; in particular their transfer matrices agree. -/
theorem C115_rules {r : Rule} (hτ : 0 < τ) (hh : 0 < h) (hG : Rescaled τ A B C D G.g G'.g) (hm : method ∈ r.names) (hpw : r = .tustin → pw = 0) :
    (discretize N E G (τ * h) method pw q = .error .linAlg ∧ discretize N E G' h method pw q' = .error .linAlg) ∨
    ∃ S S', discretize N E G (τ * h) method pw q = .ok S ∧ discretize N E G' h method pw q' = .ok S' ∧ S.g.dt = some (τ * h) ∧
      S'.g = ⟨S.g.a, S.g.b.smul √τ, S.g.c.smul (1 / √τ), S.g.d, some h, false⟩ := by
  refine lft_units hτ hh hG (rule_known hm) pw (rule_args hm hpw _) (rule_args hm hpw _) (fun ht => ?_) (fun ht => ?_) ?_ (Real.sqrt_mul hτ.le h)
  · rw [hpw (rule_tustinNames hm ht)]; positivity
  · rw [hpw (rule_tustinNames hm ht)]; positivity
  · cases r <;> simp only [ruleW] <;> ring

/-- **C115**, bilinear discretization with a prewarping frequency, which is `τ` times as large in the new unit. -/
theorem C115_prewarp {f : ℝ} (hτ : 0 < τ) (hh : 0 < h) (hG : Rescaled τ A B C D G.g G'.g) (hm : method = "tustin" ∨ method = "bilinear") (hf : 0 < f) (hny : f < 1 / (2 * (τ * h))) :
    (discretize N E G (τ * h) method f q = .error .linAlg ∧ discretize N E G' h method (τ * f) q' = .error .linAlg) ∨
    ∃ S S', discretize N E G (τ * h) method f q = .ok S ∧ discretize N E G' h method (τ * f) q' = .ok S' ∧ S.g.dt = some (τ * h) ∧
      S'.g = ⟨S.g.a, S.g.b.smul √τ, S.g.c.smul (1 / √τ), S.g.d, some h, false⟩ := by
  have hny' : τ * f < 1 / (2 * h) := by
    rw [lt_div_iff₀ (by positivity)] at hny ⊢
    linarith
  obtain ⟨y, h1, h2, h3⟩ := tustin_args (E := E) (G := G) (q := q) hm (mul_pos hτ hh) hf.le hny
  obtain ⟨y', h1', h2', h3'⟩ := tustin_args (E := E) (G := G') (q := q') hm hh (mul_pos hτ hf).le hny'
  have h3 := h3 hf.ne'
  have h3' := h3' (mul_pos hτ hf).ne'
  have e : y ^ 2 = τ * y' ^ 2 := by
    rw [h3, h3', show 2 * Real.pi * f * (τ * h) / 2 = 2 * Real.pi * (τ * f) * h / 2 by ring]
    field_simp
  have e' : y = √τ * y' := by
    rw [← Real.sqrt_sq h1.le, e, Real.sqrt_mul hτ.le, Real.sqrt_sq h1'.le]
  exact lft_units hτ hh hG (by rcases hm with rfl | rfl <;> simp [knownMethods]) _ h2 h2' (fun _ => hny.le) (fun _ => hny'.le) (by linear_combination e / 2) e'

theorem diffs_scale (hτ : τ ≠ 0) (t : List ℝ) : diffs (t.map (· / τ)) = (diffs t).map (· / τ) := by
  unfold diffs
  rw [← List.map_tail, List.zipWith_map, List.map_zipWith]
  congr 1
  funext a b
  exact (sub_div b a τ).symm

theorem getD_scale (t : List ℝ) (k : ℕ) : (t.map (· / τ)).getD k 0 = t.getD k 0 / τ := by
  rw [List.getD_eq_getElem?_getD, List.getD_eq_getElem?_getD, List.getElem?_map]
  cases t[k]? <;> simp

/-- What an accepted time grid looks like. -/
theorem checkT_parts {dt : Option ℝ} {t s : List ℝ} (h : checkT dt t = .ok s) : s = t ∧ 0 < t.getD 1 0 - t.getD 0 0 := by
  unfold checkT at h
  split_ifs at h with h1
  match t, h1, h with
  | [], _, h => simp [diffs] at h
  | [a], h1, h => simp at h1
  | a :: b :: l, _, h =>
    simp only [diffs, List.tail_cons, List.zipWith_cons_cons] at h
    split_ifs at h with h2
    have h3 : 0 < b - a := by
      by_contra h3
      exact h2 (Or.inr h3)
    refine ⟨?_, by simpa using h3⟩
    cases dt with
    | none => exact (Except.ok.inj h).symm
    | some d =>
      simp only at h
      split_ifs at h
      exact (Except.ok.inj h).symm

theorem checkT_err {t : List ℝ} (ht : 2 ≤ t.length) : checkT none t = .ok t ∨ checkT none t = .error .value := by
  unfold checkT
  rw [if_neg (by omega)]
  match t, ht with
  | a :: b :: l, _ =>
    simp only [diffs, List.tail_cons, List.zipWith_cons_cons]
    split_ifs <;> simp

theorem length_of_checkT {dt : Option ℝ} {t s : List ℝ} (h : checkT dt t = .ok s) : 2 ≤ t.length := by
  by_contra hl
  have h2 := (checkT_parts h).2
  match t, hl with
  | [], _ => simp at h2
  | [a], _ => simp [checkT] at h
  | a :: b :: l, hl => simp at hl

/-- Simulations on two accepted time grids. -/
theorem simulate_units (hE : BalanceOk E) (hτ : 0 < τ) (hG : Rescaled τ A B C D G.g G'.g) {u : Arr ℝ} {t : List ℝ} (x0 : Option (List ℝ)) (per : Bool)
    (h1 : checkT none t = .ok t) (h2 : checkT none (t.map (· / τ)) = .ok (t.map (· / τ))) :
    simulate N E G' u (some (t.map (· / τ))) x0 per = (simulate N E G u (some t) x0 per).map fun r => (r.1, r.2.map (· / τ)) := by
  have hpos := (checkT_parts h1).2
  have hτ0 : τ ≠ 0 := hτ.ne'
  obtain ⟨S, S', k1, k2, k3, k4⟩ := C115_hold (N := N) (h := (t.getD 1 0 - t.getD 0 0) / τ) (q := none) (q' := none) hE hτ (div_pos hpos hτ) hG (Or.inl rfl) 0 0
  rw [mul_div_cancel₀ _ hτ0] at k1
  have m1 : simModel N E G t = .ok S.g := by
    unfold simModel
    rw [show G.g.dt = none by rw [hG.1], k1]
    rfl
  have m2 : simModel N E G' (t.map (· / τ)) = .ok S'.g := by
    unfold simModel
    rw [show G'.g.dt = none by rw [hG.2], getD_scale, getD_scale, ← sub_div, k2]
    rfl
  have hx : checkX0 G'.g x0 = checkX0 G.g x0 := by rw [hG.1, hG.2]; rfl
  have hd : simDyn S'.g = simDyn S.g := by rw [k4]; rfl
  unfold simulate
  rw [hx, show G.g.isgain = false by rw [hG.1], show G'.g.isgain = false by rw [hG.2], show G'.g.m = G.g.m by rw [hG.1, hG.2]; rfl,
    show G.g.dt = none by rw [hG.1], show G'.g.dt = none by rw [hG.2]]
  simp only [Bool.false_eq_true, if_false]
  generalize checkX0 G.g x0 = rx
  cases rx with
  | error e => rfl
  | ok v =>
    have hu : ∀ t : List ℝ, checkT none t = .ok t → checkUT G.g.m none (squeezeU u) (some t) = match squeezeU u with
        | none => .error .type
        | some u => if u.r * u.c < 1 then .error .value else if u.r ≠ t.length then .error .value else if u.c ≠ G.g.m then .error .value else .ok (u, t) := fun t h => by
      unfold checkUT timeArray
      simp only [h, Bind.bind, Except.bind]
      cases squeezeU u <;> rfl
    rw [hu t h1, hu _ h2, List.length_map]
    generalize squeezeU u = su
    cases su with
    | none => rfl
    | some u =>
      simp only
      split_ifs
      all_goals first
        | rfl
        | (simp only [Bind.bind, Except.bind, m1, m2, hd]
           cases simDyn S.g u v per <;> rfl)

/-- **C115**, simulation: if the simulation of the model on a time grid returns, the simulation of the rescaled model on the rescaled grid returns the same output, unless the rescaled grid is rejected
with `ValueError`. Missing from the full claim: that it is not rejected, see `C115_grid_violated`. -/
theorem C115_simulate_partial (hE : BalanceOk E) (hτ : 0 < τ) (hG : Rescaled τ A B C D G.g G'.g) {u : Arr ℝ} {t : List ℝ} {x0 : Option (List ℝ)} {per : Bool} {y : SimOut} {s : List ℝ}
    (h1 : simulate N E G u (some t) x0 per = .ok (y, s)) :
    s = t ∧ (simulate N E G' u (some (t.map (· / τ))) x0 per = .ok (y, t.map (· / τ)) ∨ simulate N E G' u (some (t.map (· / τ))) x0 per = .error .value) := by
  have hc : ∃ v, checkX0 G.g x0 = .ok v ∧ checkT none t = .ok s := by
    unfold simulate at h1
    obtain ⟨v, hv, h1⟩ := bind_ok h1
    obtain ⟨⟨u', t'⟩, hu, h1⟩ := bind_ok h1
    refine ⟨v, hv, ?_⟩
    rw [show G.g.dt = none by rw [hG.1]] at hu
    unfold checkUT at hu
    obtain ⟨t'', ht, hu⟩ := bind_ok hu
    have e : t'' = t' := by
      split at hu
      · cases hu
      · split_ifs at hu
        exact congrArg Prod.snd (Except.ok.inj hu)
    subst e
    have e2 : t'' = s := by
      simp only [show G.g.isgain = false by rw [hG.1], Bool.false_eq_true, if_false] at h1
      obtain ⟨g, -, h1⟩ := bind_ok h1
      obtain ⟨y', -, h1⟩ := bind_ok h1
      exact congrArg Prod.snd (Except.ok.inj h1)
    subst e2
    exact ht
  obtain ⟨v, hv, hT⟩ := hc
  obtain ⟨rfl, hpos⟩ := checkT_parts hT
  refine ⟨rfl, ?_⟩
  rcases checkT_err (t := s.map (· / τ)) (by rw [List.length_map]; exact length_of_checkT hT) with h2 | h2
  · left
    rw [simulate_units hE hτ hG x0 per hT h2, h1]
    rfl
  · right
    have hv' : checkX0 G'.g x0 = .ok v := by rw [← hv, hG.1, hG.2]; rfl
    unfold simulate
    rw [hv', show G'.g.dt = none by rw [hG.2]]
    unfold checkUT timeArray
    simp only [h2, Bind.bind, Except.bind]

theorem diffs_uniform (t0 h : ℝ) (k : ℕ) : ∀ x ∈ diffs ((List.range k).map fun i : ℕ => t0 + i * h), x = h := by
  intro x hx
  unfold diffs at hx
  obtain ⟨i, hi, rfl⟩ := List.mem_iff_getElem.mp hx
  simp only [List.getElem_zipWith, List.getElem_tail, List.getElem_map, List.getElem_range]
  push_cast
  ring

theorem checkT_uniform (t0 : ℝ) {h : ℝ} (hh : 0 < h) {k : ℕ} (hk : 2 ≤ k) :
    checkT none ((List.range k).map fun i : ℕ => t0 + i * h) = .ok ((List.range k).map fun i : ℕ => t0 + i * h) := by
  have hu := diffs_uniform t0 h k
  have hl : (diffs ((List.range k).map fun i : ℕ => t0 + i * h)).length = k - 1 := by simp [diffs]
  unfold checkT
  rw [if_neg (by simp; omega)]
  generalize (List.range k).map (fun i : ℕ => t0 + i * h) = t at *
  generalize diffs t = ds at *
  match ds, hl, hu with
  | [], hl, _ => simp at hl; omega
  | d :: ds, _, hu =>
    have hd := hu d (by simp)
    subst hd
    have hall : ∀ x ∈ d :: ds, isClose x d := fun x hx => by
      rw [hu x hx]
      unfold isClose
      rw [sub_self, abs_zero]
      positivity
    simp only
    rw [if_neg (by push Not; exact ⟨hall, hh⟩)]

/-- **C115**, simulation on equidistant time grids: the rescaled model gives the same outputs, and the same exceptions, on the rescaled grid. -/
theorem C115_simulate (hE : BalanceOk E) (hτ : 0 < τ) (hh : 0 < h) (hG : Rescaled τ A B C D G.g G'.g) (u : Arr ℝ) (t0 : ℝ) {k : ℕ} (hk : 2 ≤ k) (x0 : Option (List ℝ)) (per : Bool) :
    simulate N E G' u (some ((List.range k).map fun i : ℕ => t0 + i * h)) x0 per =
      (simulate N E G u (some ((List.range k).map fun i : ℕ => τ * (t0 + i * h))) x0 per).map fun r => (r.1, (List.range k).map fun i : ℕ => t0 + i * h) := by
  have e1 : ((List.range k).map fun i : ℕ => τ * (t0 + i * h)) = (List.range k).map fun i : ℕ => τ * t0 + i * (τ * h) := List.map_congr_left fun i _ => by ring
  have e2 : (((List.range k).map fun i : ℕ => τ * (t0 + i * h)).map (· / τ)) = (List.range k).map fun i : ℕ => t0 + i * h := by
    rw [List.map_map]
    exact List.map_congr_left fun i _ => by simp [mul_div_cancel_left₀ _ hτ.ne']
  have h1 := checkT_uniform (τ * t0) (mul_pos hτ hh) hk
  have h2 := checkT_uniform t0 hh hk
  rw [← e1] at h1
  rw [← e2] at h2
  have h3 := simulate_units (N := N) hE hτ hG (u := u) x0 per h1 h2
  rw [e2] at h3
  rw [h3]
  cases h4 : simulate N E G u (some ((List.range k).map fun i : ℕ => τ * (t0 + i * h))) x0 per with
  | error e => rfl
  | ok r =>
    obtain ⟨y, s⟩ := r
    obtain ⟨rfl, -⟩ := C115_simulate_partial hE hτ hG h4
    simp only [Except.map, e2]

/-- **C115**, step responses on equidistant time grids. -/
theorem C115_step (hE : BalanceOk E) (hτ : 0 < τ) (hh : 0 < h) (hG : Rescaled τ A B C D G.g G'.g) (auto auto' : ℝ × ℝ) (t0 : ℝ) {k : ℕ} (hk : 2 ≤ k) :
    stepResponse N E G' auto' (some ((List.range k).map fun i : ℕ => t0 + i * h)) =
      (stepResponse N E G auto (some ((List.range k).map fun i : ℕ => τ * (t0 + i * h)))).map fun r => (r.1, (List.range k).map fun i : ℕ => t0 + i * h) := by
  have hcc : ∀ (t0 : ℝ) {h : ℝ}, 0 < h → ∃ d, checkCustomTime ((List.range k).map fun i : ℕ => t0 + i * h) = .ok ((List.range k).map fun i : ℕ => t0 + i * h, d) := fun t0 h hh => by
    have h1 := (checkT_parts (checkT_uniform t0 hh hk)).2
    have hd : ((List.range k).map fun i : ℕ => t0 + i * h).getD 1 0 - ((List.range k).map fun i : ℕ => t0 + i * h).getD 0 0 = h := by
      rw [List.getD_eq_getElem _ _ (by simp; omega), List.getD_eq_getElem _ _ (by simp; omega)]
      simp
    refine ⟨h, ?_⟩
    unfold checkCustomTime
    rw [if_neg (by simp; omega)]
    simp only [hd]
    rw [if_neg (not_le.mpr hh), if_neg]
    push Not
    intro x hx
    rw [diffs_uniform t0 h k x hx]
    rw [hd]
    unfold isClose
    rw [sub_self, abs_zero]
    positivity
  have e1 : ((List.range k).map fun i : ℕ => τ * (t0 + i * h)) = (List.range k).map fun i : ℕ => τ * t0 + i * (τ * h) := List.map_congr_left fun i _ => by ring
  obtain ⟨d, h1⟩ := hcc t0 hh
  obtain ⟨d', h2⟩ := hcc (τ * t0) (mul_pos hτ hh)
  rw [← e1] at h2
  unfold stepResponse responseGrid
  simp only [h1, h2, Bind.bind, Except.bind, List.length_map, List.length_range]
  rw [show G'.g.m = G.g.m by rw [hG.1, hG.2]; rfl]
  exact C115_simulate hE hτ hh hG _ t0 hk none true

/-- The code violates **C115**: the spacing of time grids is compared with an absolute tolerance. The grid `0, 1, 3` nanoseconds is accepted if time is measured in seconds, and simulated as if it were
equidistant; it is rejected if time is measured in nanoseconds. -/
theorem C115_grid_violated (N : Numerics ℝ P) (hE : BalanceOk E) : ∃ (G G' : StateObj ℝ P) (u : Arr ℝ) (y : SimOut), Rescaled (1 / 10 ^ 9) !![-1] !![1] !![1] !![(0 : ℝ)] G.g G'.g ∧
    simulate N E G u (some [0, 1 / 10 ^ 9, 3 / 10 ^ 9]) none false = .ok (y, [0, 1 / 10 ^ 9, 3 / 10 ^ 9]) ∧ simulate N E G' u (some [0, 1, 3]) none false = .error .value := by
  have hk : checkT none [0, 1 / 10 ^ 9, 3 / 10 ^ 9] = .ok [0, 1 / 10 ^ 9, 3 / 10 ^ 9] := by
    unfold checkT
    rw [if_neg (by simp)]
    simp only [diffs, List.tail_cons, List.zipWith_cons_cons, List.zipWith_nil_right]
    rw [if_neg]
    push Not
    refine ⟨fun x hx => ?_, by norm_num⟩
    simp only [List.mem_cons, List.not_mem_nil, or_false] at hx
    unfold isClose
    rcases hx with rfl | rfl
    · rw [sub_self, abs_zero]; positivity
    · rw [abs_of_pos (by norm_num), abs_of_pos (by norm_num)]; norm_num
  have hk' : checkT none [0, 1, 3] = .error .value := by
    unfold checkT
    rw [if_neg (by simp)]
    simp only [diffs, List.tail_cons, List.zipWith_cons_cons, List.zipWith_nil_right]
    rw [if_pos]
    left
    intro h
    have := h (3 - 1) (by simp)
    unfold isClose at this
    rw [abs_of_pos (by norm_num), abs_of_pos (by norm_num)] at this
    norm_num at this
  have hS : (StateObj.recalc N ⟨stateOf (!![-1] : Matrix (Fin 1) (Fin 1) ℝ) (!![1] : Matrix (Fin 1) (Fin 1) ℝ) (!![1] : Matrix (Fin 1) (Fin 1) ℝ) !![0] none, (1, 1), none, none, 0, [], [], false⟩).g =
      ⟨Arr.of !![-1], Arr.of !![1], Arr.of !![1], Arr.of !![0], none, false⟩ := rfl
  obtain ⟨Sd, h1, h2, -⟩ := discretize_zoh_gam (N := N) (pw := 0) (q := none) hE (show (0 : ℝ) < 1 / 10 ^ 9 by norm_num) hS
  have hmod : simModel N E (StateObj.recalc N ⟨stateOf (!![-1] : Matrix (Fin 1) (Fin 1) ℝ) (!![1] : Matrix (Fin 1) (Fin 1) ℝ) (!![1] : Matrix (Fin 1) (Fin 1) ℝ) !![0] none, (1, 1), none, none, 0, [], [], false⟩)
      [0, 1 / 10 ^ 9, 3 / 10 ^ 9] = .ok Sd.g := by
    unfold simModel
    rw [hS]
    simp only [List.getD_cons_succ, List.getD_cons_zero, sub_zero, h1]
    rfl
  rw [h2] at hmod
  refine ⟨_, StateObj.recalc N ⟨stateOf ((1 / 10 ^ 9 : ℝ) • !![-1]) ((1 / 10 ^ 9 : ℝ) • !![1]) !![1] !![0] none, (1, 1), none, none, 0, [], [], false⟩, Arr.of (0 : Matrix (Fin 3) (Fin 1) ℝ), _, ⟨hS, rfl⟩,
    simulate_flat (by norm_num) (le_refl 1) rfl rfl rfl ?_ rfl hmod (Or.inl ⟨rfl, rfl⟩) false (Or.inl rfl), ?_⟩
  · unfold timeArray
    exact hk
  · unfold simulate checkUT timeArray
    change Except.bind _ _ = _
    simp only [checkX0, Except.bind, Bind.bind]
    rw [show (StateObj.recalc N ⟨stateOf ((1 / 10 ^ 9 : ℝ) • (!![-1] : Matrix (Fin 1) (Fin 1) ℝ)) ((1 / 10 ^ 9 : ℝ) • (!![1] : Matrix (Fin 1) (Fin 1) ℝ)) (!![1] : Matrix (Fin 1) (Fin 1) ℝ) !![0] none, (1, 1), none,
      none, 0, [], [], false⟩).g.dt = none from rfl, hk']

end discretization

section poles
variable {N : Numerics ℝ ℂ} {G G' : StateM ℝ}

theorem isEig_unit (hτ : 0 < τ) {z : ℂ} : IsEig (τ • A) z ↔ IsEig A (z / τ) := by
  have hτc : (τ : ℂ) ≠ 0 := by exact_mod_cast hτ.ne'
  rw [← isEig_scale hτc, IsEig]
  have e : (τ • A).map (algebraMap ℝ ℂ) = (τ : ℂ) • A.map (algebraMap ℝ ℂ) := by ext i j; simp
  rw [e]

theorem hurwitz_unit (hτ : 0 < τ) : Hurwitz (τ • A) ↔ Hurwitz A := by
  have hτc : (τ : ℂ) ≠ 0 := by exact_mod_cast hτ.ne'
  constructor
  · intro h z hz
    have := h (τ * z) (by rw [isEig_unit hτ, mul_div_cancel_left₀ _ hτc]; exact hz)
    rw [Complex.re_ofReal_mul] at this
    by_contra hz'
    linarith [mul_nonneg hτ.le (not_lt.mp hz')]
  · intro h z hz
    have := h _ ((isEig_unit hτ).mp hz)
    rwa [Complex.div_ofReal_re, div_lt_iff₀ hτ, zero_mul] at this

/-- **C115**, poles: the poles of the rescaled model are those of the model, with multiplicities, multiplied by `τ`; the stability flags agree. -/
theorem C115_poles (hN : EigExact N) (hR : RegionExact N) (hτ : 0 < τ) (hG : Rescaled τ A B C D G G') :
    List.Perm (StateObj.built N G').poles ((StateObj.built N G).poles.map ((τ : ℂ) * ·)) ∧ (StateObj.built N G').isstable = (StateObj.built N G).isstable := by
  have hτc : (τ : ℂ) ≠ 0 := by exact_mod_cast hτ.ne'
  obtain ⟨rfl, rfl⟩ := hG
  refine ⟨?_, ?_⟩
  · change List.Perm (N.eig (Arr.of (τ • A))) ((N.eig (Arr.of A)).map ((τ : ℂ) * ·))
    have h1 := hN A
    have h2 := hN (τ • A)
    have hlen : (N.eig (Arr.of A)).length = n := by
      have := congrArg Polynomial.natDegree h1
      rw [Polynomial.natDegree_map, Matrix.charpoly_natDegree_eq_dim, Fintype.card_fin] at this
      rw [← Multiset.prod_coe, ← Multiset.map_coe, Polynomial.natDegree_multiset_prod_X_sub_C_eq_card] at this
      exact this.symm
    have key : ((N.eig (Arr.of (τ • A))).map fun z => Polynomial.X - Polynomial.C z).prod = (((N.eig (Arr.of A)).map ((τ : ℂ) * ·)).map fun z => Polynomial.X - Polynomial.C z).prod := by
      refine Polynomial.funext fun w => ?_
      have e1 : ∀ (X : Matrix (Fin n) (Fin n) ℝ) (w : ℂ), Polynomial.eval w (X.charpoly.map (algebraMap ℝ ℂ)) = (w • (1 : Matrix (Fin n) (Fin n) ℂ) - X.map (algebraMap ℝ ℂ)).det := fun X w => by
        rw [← Matrix.charpoly_map, Matrix.eval_charpoly]
        congr 2
        ext i j
        simp [Matrix.scalar_apply, Matrix.diagonal_apply, Matrix.one_apply]
      have e2 : w • (1 : Matrix (Fin n) (Fin n) ℂ) - (τ • A).map (algebraMap ℝ ℂ) = (τ : ℂ) • ((w / τ) • (1 : Matrix (Fin n) (Fin n) ℂ) - A.map (algebraMap ℝ ℂ)) := by
        rw [smul_sub, smul_smul, mul_div_cancel₀ _ hτc]
        congr 1
        ext i j
        simp
      rw [← h2, e1, e2, det_smul, Fintype.card_fin, ← e1, h1]
      clear h1 h2
      generalize N.eig (Arr.of A) = l at hlen
      subst hlen
      clear e1 e2 A B C
      induction l with
      | nil => simp
      | cons z l ih =>
        simp only [List.length_cons, List.map_cons, List.prod_cons, Polynomial.eval_mul, ← ih, Polynomial.eval_sub, Polynomial.eval_X, Polynomial.eval_C, pow_succ]
        rw [show w - (τ : ℂ) * z = τ * (w / τ - z) by field_simp]
        ring
    rw [← Multiset.coe_eq_coe]
    have h3 := congrArg Polynomial.roots key
    rw [← Multiset.prod_coe, ← Multiset.map_coe, Polynomial.roots_multiset_prod_X_sub_C, ← Multiset.prod_coe, ← Multiset.map_coe, Polynomial.roots_multiset_prod_X_sub_C] at h3
    exact h3
  · have hf := fun T : StateM ℝ => flag_motions (p := p) (m := m) (T := StateObj.built N T) hN hR (recalc_current N _).1 (recalc_current N _).2
    rw [Bool.eq_iff_iff, hf (stateOf (τ • A) (τ • B) C D none) ⟨⟨rfl, rfl⟩, fun _ => ⟨rfl, rfl, rfl, rfl, rfl⟩⟩, hf (stateOf A B C D none) ⟨⟨rfl, rfl⟩, fun _ => ⟨rfl, rfl, rfl, rfl, rfl⟩⟩]
    have hst : ∀ (X : Matrix (Fin n) (Fin n) ℝ) (Y : Matrix (Fin n) (Fin m) ℝ), StableModel (stateOf X Y C D none) ↔ Hurwitz X := fun X Y => by
      rw [hurwitz_iff_motions]
      constructor
      · rintro (h | ⟨k, X', e, h⟩)
        · cases h
        · obtain rfl : n = k := congrArg Arr.r e
          obtain rfl := Arr.of_inj.mp e
          exact h
      · exact fun h => Or.inr ⟨n, X, rfl, h⟩
    exact (hst _ _).trans ((hurwitz_unit hτ).trans (hst _ _).symm)

end poles

theorem hasTF_stateOf {dt : Option ℝ} {s : ℂ} {M : Matrix (Fin p) (Fin m) ℂ} :
    HasTF (stateOf A B C D dt) p m s M ↔ IsTF (A.map (algebraMap ℝ ℂ)) (B.map (algebraMap ℝ ℂ)) (C.map (algebraMap ℝ ℂ)) (D.map (algebraMap ℝ ℂ)) s M := by
  constructor
  · rintro (⟨h, -⟩ | ⟨-, n', A', B', C', D', e1, e2, e3, e4, h⟩)
    · cases h
    · obtain rfl : n = n' := congrArg Arr.r e1
      obtain rfl := Arr.of_inj.mp e1
      obtain rfl := Arr.of_inj.mp e2
      obtain rfl := Arr.of_inj.mp e3
      obtain rfl := Arr.of_inj.mp e4
      exact h
  · exact fun h => Or.inr ⟨rfl, n, A, B, C, D, rfl, rfl, rfl, rfl, h⟩

theorem tf_unit (hτ : 0 < τ) {s : ℂ} {M : Matrix (Fin p) (Fin m) ℂ} :
    IsTF ((τ • A).map (algebraMap ℝ ℂ)) ((τ • B).map (algebraMap ℝ ℂ)) (C.map (algebraMap ℝ ℂ)) (D.map (algebraMap ℝ ℂ)) (τ * s) M ↔
      IsTF (A.map (algebraMap ℝ ℂ)) (B.map (algebraMap ℝ ℂ)) (C.map (algebraMap ℝ ℂ)) (D.map (algebraMap ℝ ℂ)) s M := by
  have hτc : (τ : ℂ) ≠ 0 := by exact_mod_cast hτ.ne'
  have eA : ((τ : ℂ) * s) • (1 : Matrix (Fin n) (Fin n) ℂ) - (τ • A).map (algebraMap ℝ ℂ) = (τ : ℂ) • (s • (1 : Matrix (Fin n) (Fin n) ℂ) - A.map (algebraMap ℝ ℂ)) := by
    rw [smul_sub, smul_smul]
    congr 1
    ext i j
    simp
  have eB : (τ • B).map (algebraMap ℝ ℂ) = (τ : ℂ) • B.map (algebraMap ℝ ℂ) := by ext i j; simp
  unfold IsTF
  rw [eA, eB, det_smul, mul_ne_zero_iff, and_iff_right (pow_ne_zero _ hτc)]
  refine and_congr_right fun h => ?_
  generalize s • (1 : Matrix (Fin n) (Fin n) ℂ) - A.map (algebraMap ℝ ℂ) = X at h
  have e : ((τ : ℂ) • X)⁻¹ = (τ : ℂ)⁻¹ • X⁻¹ := Matrix.inv_smul' (A := X) (Units.mk0 (τ : ℂ) hτc) (Ne.isUnit h)
  rw [e, Matrix.mul_smul, Matrix.mul_smul, Matrix.smul_mul, smul_smul, mul_inv_cancel₀ hτc, one_smul]

/-- **C115**, transfer functions: the value of the rescaled model at `τ s` is that of the model at `s`. -/
theorem C115_value {G G' : StateM ℝ} (hτ : 0 < τ) (hG : Rescaled τ A B C D G G') (s : ℂ) (M : Matrix (Fin p) (Fin m) ℂ) : HasTF G' p m (τ * s) M ↔ HasTF G p m s M := by
  obtain ⟨rfl, rfl⟩ := hG
  rw [hasTF_stateOf, hasTF_stateOf, tf_unit hτ]

/-- **C115**, linear quadratic regulator: with the same weights the gain is the same, the solution of the Riccati equation is divided by `τ`. -/
theorem C115_lqr (M M' : AreNum ℝ) (C : Matrix (Fin p) (Fin n) ℝ) (D : Matrix (Fin p) (Fin m) ℝ) (hτ : 0 < τ)
    (Q : Matrix (Fin n) (Fin n) ℝ) (R : Option (Matrix (Fin m) (Fin m) ℝ)) (S : Option (Matrix (Fin n) (Fin m) ℝ)) (w : List Char) (hw : w ≠ "output".toList)
    (hM : CareOk M A B Q (R.getD 1) S) (hM' : CareOk M' (τ • A) (τ • B) Q (R.getD 1) S) {G G' : StateM ℝ} (hG : Rescaled τ A B C D G G') {k x k' x' : Arr ℝ} {Acl Acl' : Matrix (Fin n) (Fin n) ℝ}
    (h : lqr M G (Arr.of Q) (R.map Arr.of) (S.map Arr.of) w = .ok (k, x, Arr.of Acl)) (h' : lqr M' G' (Arr.of Q) (R.map Arr.of) (S.map Arr.of) w = .ok (k', x', Arr.of Acl'))
    (hH : Hurwitz Acl) (hH' : Hurwitz Acl') : k' = k ∧ x' = x.smul (1 / τ) ∧ Acl' = τ • Acl := by
  obtain ⟨rfl, rfl⟩ := hG
  obtain ⟨X, rfl, hX, hR, hd, rfl, hacl, e⟩ := lqr_cont_parts M hw hM h
  obtain ⟨X', rfl, hX', -, -, rfl, hacl', e'⟩ := lqr_cont_parts M' hw hM' h'
  obtain rfl := Arr.of_inj.1 hacl
  obtain rfl := Arr.of_inj.1 hacl'
  have hτ0 : τ ≠ 0 := hτ.ne'
  have eg : (τ • B)ᵀ * ((1 / τ) • X) = Bᵀ * X := by
    rw [transpose_smul, Matrix.smul_mul, Matrix.mul_smul, smul_smul, mul_one_div_cancel hτ0, one_smul]
  have eg' : ((1 / τ) • X) * (τ • B) = X * B := by
    rw [Matrix.smul_mul, Matrix.mul_smul, smul_smul, one_div_mul_cancel hτ0, one_smul]
  have ea : (τ • A)ᵀ * ((1 / τ) • X) = Aᵀ * X := by
    rw [transpose_smul, Matrix.smul_mul, Matrix.mul_smul, smul_smul, mul_one_div_cancel hτ0, one_smul]
  have ea' : ((1 / τ) • X) * (τ • A) = X * A := by
    rw [Matrix.smul_mul, Matrix.mul_smul, smul_smul, one_div_mul_cancel hτ0, one_smul]
  have key : (1 / τ) • X = X' := by
    refine care_unique (A := τ • A) (B := τ • B) (S := S.getD 0) (Q := Q) (by rw [transpose_smul, hX]) hX' hR hd ?_ e' ?_ hH'
    · rw [eg, eg', ea, ea']; exact e
    · rw [eg, Matrix.smul_mul, ← smul_sub]
      exact (hurwitz_unit hτ).mpr hH
  subst key
  rw [eg]
  exact ⟨rfl, (Arr.smul_of _ _).symm, by rw [Matrix.smul_mul, ← smul_sub]⟩

section norms
variable {N : Numerics ℝ ℂ} {L : LyapNum ℝ} {X0 : Wk ℝ} {close : ℝ} {F : HinfNum} {eigTol : ℝ} {G G' : StateM ℝ}

theorem cenergy_unit {e : ℝ} (hτ : 0 < τ) (h : CEnergy A B C e) : CEnergy (τ • A) (τ • B) C (τ * e) := by
  unfold CEnergy at h ⊢
  have h1 := (h.comp (tendsto_id.const_mul_atTop hτ)).const_mul τ
  refine h1.congr fun T => ?_
  have e1 : ∀ t : ℝ, fro2 (C * NormedSpace.exp (t • τ • A) * (τ • B)) = τ ^ 2 * fro2 (C * NormedSpace.exp ((τ * t) • A) * B) := fun t => by
    rw [Matrix.mul_smul, fro2_smul, smul_smul, mul_comm t τ]
  simp only [e1, Function.comp_apply, id]
  rw [intervalIntegral.integral_const_mul, intervalIntegral.integral_comp_mul_left (fun t => fro2 (C * NormedSpace.exp (t • A) * B)) hτ.ne', mul_zero, smul_eq_mul]
  field_simp

/-- **C115**, 2-norm: that of the rescaled model is the square root of `τ` times that of the model. Missing from the full claim: models without states. -/
theorem C115_h2_partial (hN : EigExact N) (hR : RegionExact N) (hL : ∀ {n : ℕ} (A : Matrix (Fin n) (Fin n) ℝ), SchurOk L A) (hcl : 0 ≤ close) (hτ : 0 < τ) (hn : 0 < n) (hG : Rescaled τ A B C 0 G G') {x : ℝ}
    (hx : systemNorm L X0 close F eigTol (StateObj.built N G) .two = .ok (.fin x)) : systemNorm L X0 close F eigTol (StateObj.built N G') .two = .ok (.fin (√τ * x)) := by
  obtain ⟨rfl, rfl⟩ := hG
  obtain ⟨n', A', B', C', -, h2, h3, h4, h5, -⟩ := norm_fin_parts hN hR hL hcl (p := p) (m := m) (G := stateOf A B C 0 none) ⟨⟨rfl, rfl⟩, fun _ => ⟨rfl, rfl, rfl, rfl, rfl⟩⟩ rfl hn (fun i j => rfl) hx
  obtain ⟨e1, e2, e3, -⟩ := StateM.mk.inj h2
  obtain rfl : n = n' := congrArg Arr.r e1
  obtain rfl := Arr.of_inj.mp e1
  obtain rfl := Arr.of_inj.mp e2
  obtain rfl := Arr.of_inj.mp e3
  have hA : MotionsVanish none (τ • A) := hurwitz_iff_motions.mp ((hurwitz_unit hτ).mpr (hurwitz_iff_motions.mpr h3))
  obtain ⟨z, k1, k2, k3, -⟩ := norm_fin_of hN hR hL X0 hcl F eigTol (τ • B) C hn hA
  have hz : z ^ 2 = τ * x ^ 2 := tendsto_nhds_unique (k3 rfl) (cenergy_unit hτ (h5 rfl))
  have : z = √τ * x := by rw [← Real.sqrt_sq k2, hz, Real.sqrt_mul hτ.le, Real.sqrt_sq h4]
  rw [← this]
  exact k1

/-- The largest gain over all frequencies does not depend on the unit of time. -/
theorem isHinf_unit (hτ : 0 < τ) {v : ℝ} : IsHinf (τ • A) (τ • B) C D none v ↔ IsHinf A B C D none v := by
  have e : {g | ∃ ω, IsGainAt (τ • A) (τ • B) C D none ω g} = {g | ∃ ω, IsGainAt A B C D none ω g} := by
    have e1 : ∀ ω : ℝ, evalPoint none (τ * ω) = τ * evalPoint none ω := fun ω => by
      simp [evalPoint]
      ring
    ext g
    constructor
    · rintro ⟨ω, M, hM, hg⟩
      refine ⟨ω / τ, M, ?_, hg⟩
      rw [← tf_unit hτ, ← e1, mul_div_cancel₀ _ hτ.ne']
      exact hM
    · rintro ⟨ω, M, hM, hg⟩
      refine ⟨τ * ω, M, ?_, hg⟩
      rw [e1, tf_unit hτ]
      exact hM
  unfold IsHinf
  rw [e]

open scoped Matrix.Norms.L2Operator in
/-- **C115**, H∞ norm: the results for the model and the rescaled model agree up to the accuracy of the computation. Missing from the full claim: results below the norm of the feedthrough, see `C70_hinf_partial`. -/
theorem C115_hinf_partial (hN : EigExact N) (hR : RegionExact N) (htol : 0 ≤ eigTol) (hE : EigvalsExact F) (hτ : 0 < τ) (hm : 0 < m) (hG : Rescaled τ A B C D G G')
    (hF : FreqExact F A B C D none G) (hF' : FreqExact F (τ • A) (τ • B) C D none G') {v v' : ℝ} (hs : (StateObj.built N G).isstable = true)
    (h : systemNorm L X0 close F eigTol (StateObj.built N G) .inf = .ok (.fin v)) (h' : systemNorm L X0 close F eigTol (StateObj.built N G') .inf = .ok (.fin v'))
    (hv : ‖D.map (algebraMap ℝ ℂ)‖ * (1 + 1 / 2 ^ 26) ≤ v) (hv' : ‖D.map (algebraMap ℝ ℂ)‖ * (1 + 1 / 2 ^ 26) ≤ v') :
    v ≤ v' * (1 + 1 / 2 ^ 25) ^ 2 ∧ v' ≤ v * (1 + 1 / 2 ^ 25) ^ 2 := by
  have hs' : (StateObj.built N G').isstable = true := (C115_poles hN hR hτ hG).2.trans hs
  obtain ⟨rfl, rfl⟩ := hG
  have hA : Hurwitz A := by
    obtain ⟨k, A', B', C', D', e, hm⟩ := stable_parts (p := p) (m := m) hN hR (recalc_current N _).1 (recalc_current N _).2 ⟨⟨rfl, rfl⟩, fun _ => ⟨rfl, rfl, rfl, rfl, rfl⟩⟩ hs rfl
    have e1 := (StateM.mk.inj e).1
    obtain rfl : n = k := congrArg Arr.r e1
    obtain rfl := Arr.of_inj.mp e1
    exact hurwitz_iff_motions.mpr hm
  obtain ⟨x, k1, k2, k3⟩ := C70_hinf_partial htol (StateObj.built N (stateOf A B C D none)) A B C D hm rfl hs hA hF hE v h hv
  obtain ⟨x', k1', k2', k3'⟩ := C70_hinf_partial htol (StateObj.built N (stateOf (τ • A) (τ • B) C D none)) (τ • A) (τ • B) C D hm rfl hs' ((hurwitz_unit hτ).mpr hA) hF' hE v' h' hv'
  obtain rfl : x' = x := ((isHinf_unit hτ).mp k1').unique k1
  constructor
  · calc v ≤ x' * (1 + 1 / 2 ^ 25) := k2
      _ ≤ v' * (1 + 1 / 2 ^ 25) * (1 + 1 / 2 ^ 25) := mul_le_mul_of_nonneg_right k3' (by norm_num)
      _ = v' * (1 + 1 / 2 ^ 25) ^ 2 := by ring
  · calc v' ≤ x' * (1 + 1 / 2 ^ 25) := k2'
      _ ≤ v * (1 + 1 / 2 ^ 25) * (1 + 1 / 2 ^ 25) := mul_le_mul_of_nonneg_right k3 (by norm_num)
      _ = v * (1 + 1 / 2 ^ 25) ^ 2 := by ring

end norms

/-! ## The hypotheses are satisfiable -/

-- `C115_hold`, `C115_rules`, `C115_prewarp`, `C115_simulate`, `C115_step` and `C115_simulate_partial`: `1/(s+1)` in seconds and in units of two seconds.
example {P : Type} (N : Numerics ℝ P) : ∃ (G G' : StateObj ℝ P) (y : SimOut), Rescaled 2 !![-1] !![1] !![1] !![(0 : ℝ)] G.g G'.g ∧ BalanceOk plainDNum ∧
    (∃ S S', discretize N plainDNum G (2 * 1) "zoh" 0 none = .ok S ∧ discretize N plainDNum G' 1 "zoh" 0 none = .ok S') ∧
    (∃ S S', discretize N plainDNum G (2 * 1) "tustin" 0 none = .ok S ∧ discretize N plainDNum G' 1 "tustin" 0 none = .ok S') ∧
    ((0 : ℝ) < 1 / 8 ∧ (1 / 8 : ℝ) < 1 / (2 * (2 * 1))) ∧
    simulate N plainDNum G (Arr.of (Matrix.of fun (_ : Fin 2) (_ : Fin 1) => (1 : ℝ))) (some ((List.range 2).map fun i : ℕ => 2 * (0 + i * 1))) none false =
      .ok (y, (List.range 2).map fun i : ℕ => 2 * (0 + i * 1)) := by
  let G : StateObj ℝ P := StateObj.recalc N ⟨stateOf (!![-1] : Matrix (Fin 1) (Fin 1) ℝ) (!![1] : Matrix (Fin 1) (Fin 1) ℝ) (!![1] : Matrix (Fin 1) (Fin 1) ℝ) !![0] none, (1, 1), none, none, 0, [], [], false⟩
  let G' : StateObj ℝ P := StateObj.recalc N ⟨stateOf ((2 : ℝ) • (!![-1] : Matrix (Fin 1) (Fin 1) ℝ)) ((2 : ℝ) • (!![1] : Matrix (Fin 1) (Fin 1) ℝ)) (!![1] : Matrix (Fin 1) (Fin 1) ℝ) !![0] none, (1, 1),
    none, none, 0, [], [], false⟩
  have hG : Rescaled 2 !![-1] !![1] !![1] !![(0 : ℝ)] G.g G'.g := ⟨rfl, rfl⟩
  obtain ⟨S, S', h1, h2, -⟩ := C115_hold (N := N) (h := 1) (q := none) (q' := none) plainDNum_ok two_pos one_pos hG (Or.inl rfl) 0 0
  have ht : checkT none ((List.range 2).map fun i : ℕ => (2 : ℝ) * (0 + i * 1)) = .ok ((List.range 2).map fun i : ℕ => (2 : ℝ) * (0 + i * 1)) := by
    have := checkT_uniform 0 two_pos (le_refl 2)
    rwa [show ((List.range 2).map fun i : ℕ => (0 : ℝ) + i * 2) = (List.range 2).map fun i : ℕ => 2 * (0 + (i : ℝ) * 1) from List.map_congr_left fun i _ => by ring] at this
  obtain ⟨Sd, k1, k2, -⟩ := discretize_zoh_gam (N := N) (pw := 0) (q := none) plainDNum_ok (show (0 : ℝ) < 2 by norm_num) hG.1
  have hmod : simModel N plainDNum G ((List.range 2).map fun i : ℕ => 2 * (0 + (i : ℝ) * 1)) = .ok Sd.g := by
    unfold simModel
    rw [hG.1]
    simp only [List.range_succ, List.range_zero]
    simp [k1, Bind.bind, Except.bind]
  rw [k2] at hmod
  refine ⟨G, G', _, hG, plainDNum_ok, ⟨S, S', h1, h2⟩, ?_, by norm_num, simulate_flat (le_refl 2) (le_refl 1) rfl rfl rfl ?_ (by simp) hmod (Or.inl ⟨rfl, rfl⟩) false (Or.inl rfl)⟩
  swap
  · unfold timeArray
    exact ht
  rcases C115_rules (N := N) (E := plainDNum) (r := .tustin) (pw := 0) (q := none) (q' := none) two_pos one_pos hG (method := "tustin") (by simp [Rule.names]) (fun _ => rfl) with ⟨h, -⟩ | ⟨S, S', h1, h2, -⟩
  · have ha := rule_args (B := plainDNum) (r := .tustin) (dt := 2 * 1) (pw := 0) (method := "tustin") (q := none) (by simp [Rule.names]) (fun _ => rfl) G.g
    have hd : (1 - ruleW (2 * 1) .tustin • (!![-1] : Matrix (Fin 1) (Fin 1) ℝ)).det ≠ 0 := by
      simp [ruleW]
    have h3 := (discretize_lft_ok (N := N) ha (fun _ _ => by norm_num) hG.1 (by simp [knownMethods])).2 hd (by norm_num)
    obtain ⟨S, h4, -⟩ := h3
    rw [h] at h4
    cases h4
  · exact ⟨S, S', h1, h2⟩

/-- `x' = 2 x + 2 u` with the weights 3 and 1: `X = 3/2`. -/
theorem careSol_unit : CareSol ((2 : ℝ) • (!![1] : Matrix (Fin 1) (Fin 1) ℝ)) ((2 : ℝ) • (!![1] : Matrix (Fin 1) (Fin 1) ℝ)) !![3] !![1] none !![3 / 2] := by
  refine ⟨by ext i j; fin_cases i; fin_cases j; rfl, by ext i j; fin_cases i; fin_cases j; rfl, ?_, ?_⟩
  · ext i j; fin_cases i; fin_cases j
    simp [Matrix.mul_apply, Matrix.vecMul, dotProduct]; norm_num
  · convert hurwitz_one (a := -4) (by norm_num) using 1
    ext i j; fin_cases i; fin_cases j
    simp [Matrix.mul_apply, Matrix.vecMul, dotProduct]; norm_num

-- `C115_lqr`.
example : ∃ (G G' : StateM ℝ) (k x : Arr ℝ) (Acl Acl' : Matrix (Fin 1) (Fin 1) ℝ), Rescaled 2 !![1] !![1] !![1] !![(0 : ℝ)] G G' ∧
    lqr exactAre G (Arr.of !![3]) (some (Arr.of !![1])) none "state".toList = .ok (k, x, Arr.of Acl) ∧ lqr exactAre G' (Arr.of !![3]) (some (Arr.of !![1])) none "state".toList = .ok (k, x.smul (1 / 2), Arr.of Acl') := by
  obtain ⟨k, x, Acl, h, hH⟩ := exactAre_lqr_cont !![1] !![1] (!![1] : Matrix (Fin 1) (Fin 1) ℝ) !![0] !![3] (some !![1]) none (by simp) careSol_one
  obtain ⟨k', x', Acl', h', hH'⟩ := exactAre_lqr_cont _ _ (!![1] : Matrix (Fin 1) (Fin 1) ℝ) !![0] !![3] (some !![1]) none (by simp) careSol_unit
  obtain ⟨rfl, rfl, -⟩ := C115_lqr exactAre exactAre !![1] !![0] two_pos !![3] (some !![1]) none _ (by decide) (exactAre_care _ _ _ _ _) (exactAre_care _ _ _ _ _) ⟨rfl, rfl⟩ h h' hH hH'
  exact ⟨_, _, k', x, Acl, Acl', ⟨rfl, rfl⟩, h, h'⟩

-- `C115_poles`, `C115_value` and `C115_h2_partial`.
example (X0 : Wk ℝ) (F : HinfNum) (eigTol : ℝ) : ∃ (N : Numerics ℝ ℂ) (L : LyapNum ℝ) (G G' : StateM ℝ) (x : ℝ), EigExact N ∧ RegionExact N ∧ Rescaled 2 !![-1] !![1] !![1] (0 : Matrix (Fin 1) (Fin 1) ℝ) G G' ∧
    systemNorm L X0 (1 / 10 ^ 8) F eigTol (StateObj.built N G) .two = .ok (.fin x) ∧ systemNorm L X0 (1 / 10 ^ 8) F eigTol (StateObj.built N G') .two = .ok (.fin (√2 * x)) := by
  obtain ⟨N, -, hN, hR, -⟩ := exists_pole_numerics
  obtain ⟨L, -, hL, -⟩ := exists_lyapNum
  have hcl : (0 : ℝ) ≤ 1 / 10 ^ 8 := by norm_num
  obtain ⟨x, hx, -⟩ := norm_fin_of hN hR hL X0 hcl F eigTol !![(1 : ℝ)] !![(1 : ℝ)] (by norm_num) (lag_motions (-1) (by norm_num))
  exact ⟨N, L, _, _, x, hN, hR, ⟨rfl, rfl⟩, hx, C115_h2_partial hN hR hL hcl two_pos one_pos ⟨rfl, rfl⟩ hx⟩

/-- `2 / (s + 2)` with any exact routines. -/
theorem hinf_unit_lag {F : HinfNum} {S : StateObj ℝ ℂ} (hS : S.g = stateOf !![-2] !![2] !![1] !![0] none) (hp : S.poles = [((-2 : ℝ) : ℂ)]) (hst : S.isstable = true)
    (hF : FreqExact F !![(-2 : ℝ)] !![2] !![1] !![(0 : ℝ)] none S.g) (hE : EigvalsExact F) : systemNormInf F (1 / 10 ^ 8) S = .ok (.fin (1 + 1 / 2 ^ 26)) := by
  rw [scalar_start hS hp hst hF (by simp)]
  have h1 : ‖((1 : ℝ) : ℂ) * (evalPoint none 0 - ((-2 : ℝ) : ℂ))⁻¹ * ((2 : ℝ) : ℂ) + ((0 : ℝ) : ℂ)‖ = 1 := by
    simp [evalPoint]
  have h2 : ‖((1 : ℝ) : ℂ) * (evalPoint none |(-2 : ℝ)| - ((-2 : ℝ) : ℂ))⁻¹ * ((2 : ℝ) : ℂ) + ((0 : ℝ) : ℂ)‖ ≤ 1 := by
    simp only [evalPoint, Option.elim]
    simp
    rw [inv_mul_le_one₀ (norm_pos_iff.mpr (fun h => by simpa using congrArg Complex.re h))]
    have := Complex.abs_re_le_norm (Complex.I * 2 + 2)
    simpa using this
  rw [h1, max_eq_left h2, abs_zero, max_eq_left zero_le_one, hS, hinfLoop_break hE]
  · simp only [Except.bind]; congr 2; rw [gammaStep]; norm_num
  · rw [scalar_hR, gammaStep]; norm_num
  · rw [scalar_hS, gammaStep]; norm_num
  · intro z hz
    rw [scalar_isEig] at hz
    rw [re_of_sq _ hz]
    · rw [gammaStep]
      apply Real.lt_sqrt_of_sq_lt
      norm_num
    · rw [gammaStep]; norm_num

open scoped Matrix.Norms.L2Operator in
-- `C115_hinf_partial`.
example (L : LyapNum ℝ) (X0 : Wk ℝ) (close : ℝ) : ∃ (N : Numerics ℝ ℂ) (F : HinfNum) (G G' : StateM ℝ) (v v' : ℝ), Rescaled 2 !![-1] !![1] !![1] !![(0 : ℝ)] G G' ∧
    systemNorm L X0 close F (1 / 10 ^ 8) (StateObj.built N G) .inf = .ok (.fin v) ∧ systemNorm L X0 close F (1 / 10 ^ 8) (StateObj.built N G') .inf = .ok (.fin v') ∧
    v ≤ v' * (1 + 1 / 2 ^ 25) ^ 2 ∧ v' ≤ v * (1 + 1 / 2 ^ 25) ^ 2 := by
  obtain ⟨N, -, hN, hR, -⟩ := exists_pole_numerics
  obtain ⟨F, hF, hE⟩ := exists_hinfNum
  have hG : Rescaled 2 !![-1] !![1] !![1] !![(0 : ℝ)] (stateOf !![-1] !![1] !![1] !![0] none) (stateOf ((2 : ℝ) • !![-1]) ((2 : ℝ) • !![1]) !![1] !![0] none) := ⟨rfl, rfl⟩
  have e1 : (2 : ℝ) • (!![-1] : Matrix (Fin 1) (Fin 1) ℝ) = !![-2] := by ext i j; fin_cases i; fin_cases j; simp
  have e2 : (2 : ℝ) • (!![1] : Matrix (Fin 1) (Fin 1) ℝ) = !![2] := by ext i j; fin_cases i; fin_cases j; simp
  have hst : (StateObj.built N (stateOf (!![-1] : Matrix (Fin 1) (Fin 1) ℝ) (!![1] : Matrix (Fin 1) (Fin 1) ℝ) (!![1] : Matrix (Fin 1) (Fin 1) ℝ) !![0] none)).isstable = true :=
    (flag_motions (p := 1) (m := 1) hN hR (recalc_current N _).1 (recalc_current N _).2 ⟨⟨rfl, rfl⟩, fun _ => ⟨rfl, rfl, rfl, rfl, rfl⟩⟩).mpr (Or.inr ⟨1, !![-1], rfl, lag_motions (-1) (by norm_num)⟩)
  obtain ⟨hp, hst'⟩ := C115_poles hN hR two_pos hG
  rw [lag_poles hN, List.map_singleton, List.perm_singleton] at hp
  rw [hst] at hst'
  have hv : ‖(!![0] : Matrix (Fin 1) (Fin 1) ℝ).map (algebraMap ℝ ℂ)‖ * (1 + 1 / 2 ^ 26) ≤ 1 + 1 / 2 ^ 26 := by
    have : (!![0] : Matrix (Fin 1) (Fin 1) ℝ).map (algebraMap ℝ ℂ) = 0 := by ext i j; fin_cases i; fin_cases j; simp
    rw [this, norm_zero]
    norm_num
  have n1 := hinf_lag_any (b := 1) (by norm_num) rfl (lag_poles hN) hst (hF _ _ _ _ _) hE
  have n2 : systemNormInf F (1 / 10 ^ 8) (StateObj.built N (stateOf ((2 : ℝ) • !![-1]) ((2 : ℝ) • !![1]) !![1] !![0] none)) = .ok (.fin (1 + 1 / 2 ^ 26)) := by
    refine hinf_unit_lag (by rw [e1, e2]; rfl) (by rw [hp]; norm_num) hst' ?_ hE
    rw [e1, e2]
    exact hF _ _ _ _ _
  exact ⟨N, F, _, _, _, _, hG, n1, n2, C115_hinf_partial (L := L) (X0 := X0) (close := close) hN hR (by norm_num) hE two_pos one_pos hG (hF _ _ _ _ _) (hF _ _ _ _ _) hst n1 n2 hv hv⟩

end Harold
