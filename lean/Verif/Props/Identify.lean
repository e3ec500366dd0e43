import Verif.Props.Minimality
import Verif.Props.Refine
import Verif.Props.Freq

/-!
# C129: finitely many samples determine a model
-/

namespace Harold

open Matrix Spec Filter NormedSpace

variable {n n' m p N : ℕ} {P : Type} {Nm : Numerics ℝ P} {E : DNum} {h t0 : ℝ} {auto : ℝ × ℝ}

section
variable {A : Matrix (Fin n) (Fin n) ℝ} {B : Matrix (Fin n) (Fin m) ℝ} {C : Matrix (Fin p) (Fin n) ℝ} {D : Matrix (Fin p) (Fin m) ℝ}
  {A' : Matrix (Fin n') (Fin n') ℝ} {B' : Matrix (Fin n') (Fin m) ℝ} {C' : Matrix (Fin p) (Fin n') ℝ} {D' : Matrix (Fin p) (Fin m) ℝ}

/-- Models of `n` and `n'` states that agree in the first `n + n' + 1` Markov parameters agree in all. -/
theorem markov_finite (hm : ∀ k < n + n' + 1, markov A B C D k = markov A' B' C' D' k) (k : ℕ) : markov A B C D k = markov A' B' C' D' k := by
  let φ : Polynomial ℝ →ₗ[ℝ] Matrix (Fin p) (Fin m) ℝ :=
    { toFun := fun q => C * Polynomial.aeval A q * B - C' * Polynomial.aeval A' q * B'
      map_add' := fun q r => by simp only [map_add, Matrix.mul_add, Matrix.add_mul]; abel
      map_smul' := fun c q => by simp only [map_smul, Matrix.mul_smul, Matrix.smul_mul, RingHom.id_apply, smul_sub] }
  have hφ : ∀ q, φ q = C * Polynomial.aeval A q * B - C' * Polynomial.aeval A' q * B' := fun _ => rfl
  have h1 : ∀ q : Polynomial ℝ, q.degree < ((n + n' : ℕ) : WithBot ℕ) → φ q = 0 := fun q hq => by
    by_cases h0 : q = 0
    · rw [h0, map_zero]
    rw [Polynomial.as_sum_range' q (n + n') ((Polynomial.natDegree_lt_iff_degree_lt h0).mpr hq), map_sum]
    refine Finset.sum_eq_zero fun i hi => ?_
    rw [← Polynomial.C_mul_X_pow_eq_monomial, ← Polynomial.smul_eq_C_mul, map_smul, hφ, map_pow, map_pow, Polynomial.aeval_X, Polynomial.aeval_X]
    have := hm (i + 1) (by have := Finset.mem_range.mp hi; omega)
    simp only [markov] at this
    rw [this, sub_self, smul_zero]
  let χ := A.charpoly * A'.charpoly
  have hχ : χ.Monic := A.charpoly_monic.mul A'.charpoly_monic
  have hdeg : χ.degree = ((n + n' : ℕ) : WithBot ℕ) := by
    rw [Polynomial.degree_mul, A.charpoly_degree_eq_dim, A'.charpoly_degree_eq_dim]
    simp
  have h2 : ∀ q, φ (χ * q) = 0 := fun q => by
    rw [hφ]
    simp only [χ, map_mul, Matrix.aeval_self_charpoly, Matrix.zero_mul, Matrix.mul_zero, sub_self]
  cases k with
  | zero => exact hm 0 (by omega)
  | succ k =>
    have h3 : φ (Polynomial.X ^ k) = 0 := by
      rw [← Polynomial.modByMonic_add_div (Polynomial.X ^ k) χ, map_add, h2, add_zero]
      exact h1 _ (hdeg ▸ Polynomial.degree_modByMonic_lt _ hχ)
    rw [hφ, map_pow, map_pow, Polynomial.aeval_X, Polynomial.aeval_X, sub_eq_zero] at h3
    exact h3

end

/-- Impulse and step responses of a discrete model by its Markov parameters. -/
theorem response_rep {T : StateObj ℝ P} (hN : 2 ≤ N) (hm : 1 ≤ m) (hc : Consistent T.g p m) (hT : T.g.dt = some h) (hh : 0 < h) :
    ∃ (n : ℕ) (A : Matrix (Fin n) (Fin n) ℝ) (B : Matrix (Fin n) (Fin m) ℝ) (C : Matrix (Fin p) (Fin n) ℝ) (D : Matrix (Fin p) (Fin m) ℝ), Rep T.g A B C D ∧
      (∃ y, impulseResponse Nm E T auto (some (eqGrid N t0 h)) = .ok (y, eqGrid N t0 h) ∧
        y.slices = List.ofFn fun k : Fin m => Arr.of (Matrix.of fun (i : Fin N) (l : Fin p) => markov A B C D i l k / h)) ∧
      ∃ y, stepResponse Nm E T auto (some (eqGrid N t0 h)) = .ok (y, eqGrid N t0 h) ∧
        y.slices = List.ofFn fun k : Fin m => Arr.of (Matrix.of fun (i : Fin N) (l : Fin p) => ∑ j ∈ Finset.range (i + 1), markov A B C D j l k) := by
  generalize hg : T.g = g at *
  obtain ⟨a, b, c, D, dt, rfl⟩ | ⟨n, A, B, C, D, dt, rfl⟩ := consistent_cases hc
  · obtain rfl : dt = some h := hT
    obtain ⟨⟨y, h1, h2⟩, y', h3, h4⟩ := C42_gain (Nm := Nm) (E := E) (t0 := t0) (auto := auto) hN hm hg (Or.inr rfl) hh
    refine ⟨0, _, _, _, D, rep_gain a b c D _, ⟨y', h3, ?_⟩, y, h1, ?_⟩
    · rw [h4]
      congr 1; funext k; congr 1; ext i l
      rcases hi : (i : ℕ) with _ | i' <;> simp [hi, markov]
    · rw [h2]
      congr 1; funext k; congr 1; ext i l
      simp [Finset.sum_range_succ', markov]
  · obtain rfl : dt = some h := hT
    exact ⟨n, A, B, C, D, rep_dyn A B C D _, C42_impulse hN hm hg hh, C42_step hN hm hg hh⟩

theorem slices_inj {f f' : Fin N → Fin p → Fin m → ℝ} (h : (List.ofFn fun k : Fin m => Arr.of (Matrix.of fun (i : Fin N) (l : Fin p) => f i l k)) = List.ofFn fun k : Fin m =>
    Arr.of (Matrix.of fun (i : Fin N) (l : Fin p) => f' i l k)) (i : Fin N) (l : Fin p) (k : Fin m) : f i l k = f' i l k := by
  have h1 := congrFun (List.ofFn_injective h) k
  exact congrFun (congrFun (Arr.of_inj.mp h1) i) l

/-! ## C129 -/

/-- **C129**, impulse responses: discrete models whose impulse responses agree at more points than the models have states together have the same transfer matrix, and conversely. -/
theorem C129_impulse (hE : BalanceOk E) {T T' : StateObj ℝ P} (hN : 2 ≤ N) (hm : 1 ≤ m) (hc : Consistent T.g p m) (hc' : Consistent T'.g p m) (hT : T.g.dt = some h) (hT' : T'.g.dt = some h) (hh : 0 < h)
    (ho : order T.g + order T'.g < N) :
    impulseResponse Nm E T auto (some (eqGrid N t0 h)) = impulseResponse Nm E T' auto (some (eqGrid N t0 h)) ↔ SameTF T.g T'.g p m := by
  obtain ⟨n, A, B, C, D, r, ⟨y, e1, e2⟩, -⟩ := response_rep (Nm := Nm) (E := E) (t0 := t0) (auto := auto) hN hm hc hT hh
  obtain ⟨n', A', B', C', D', r', ⟨y', e1', e2'⟩, -⟩ := response_rep (Nm := Nm) (E := E) (t0 := t0) (auto := auto) hN hm hc' hT' hh
  rw [r.ord, r'.ord] at ho
  constructor
  · intro h0
    rw [e1, e1'] at h0
    obtain rfl : y = y' := (Prod.ext_iff.mp (Except.ok.inj h0)).1
    rw [e2] at e2'
    refine rep_same r r' (markov_finite fun k hk => ?_)
    ext l j
    have := slices_inj (f := fun i l k => markov A B C D i l k / h) (f' := fun i l k => markov A' B' C' D' i l k / h) e2' ⟨k, by omega⟩ l j
    simpa [hh.ne'] using this
  · intro htf
    have hdt : DtOk T.g.dt := by rw [hT]; intro t ht; cases ht; exact hh
    have hl : (eqGrid N t0 h).length = N := by simp [eqGrid]
    unfold impulseResponse responseGrid at e1 ⊢
    simp only [checkCustomTime_eqGrid hN hh, Bind.bind, Except.bind] at e1 ⊢
    rw [show T.g.m = m from hc.1.2] at e1 ⊢
    rw [show T'.g.m = m from hc'.1.2]
    rw [e1]
    exact ((C84_realization_iff hE hc hc' hdt (hT'.trans hT.symm) hm htf).mp e1).symm

/-- **C129**, step responses: likewise. -/
theorem C129_step (hE : BalanceOk E) {T T' : StateObj ℝ P} (hN : 2 ≤ N) (hm : 1 ≤ m) (hc : Consistent T.g p m) (hc' : Consistent T'.g p m) (hT : T.g.dt = some h) (hT' : T'.g.dt = some h) (hh : 0 < h)
    (ho : order T.g + order T'.g < N) :
    stepResponse Nm E T auto (some (eqGrid N t0 h)) = stepResponse Nm E T' auto (some (eqGrid N t0 h)) ↔ SameTF T.g T'.g p m := by
  obtain ⟨n, A, B, C, D, r, -, ⟨y, e1, e2⟩⟩ := response_rep (Nm := Nm) (E := E) (t0 := t0) (auto := auto) hN hm hc hT hh
  obtain ⟨n', A', B', C', D', r', -, ⟨y', e1', e2'⟩⟩ := response_rep (Nm := Nm) (E := E) (t0 := t0) (auto := auto) hN hm hc' hT' hh
  rw [r.ord, r'.ord] at ho
  constructor
  · intro h0
    rw [e1, e1'] at h0
    obtain rfl : y = y' := (Prod.ext_iff.mp (Except.ok.inj h0)).1
    rw [e2] at e2'
    have key : ∀ k < N, ∀ l j, ∑ i ∈ Finset.range (k + 1), markov A B C D i l j = ∑ i ∈ Finset.range (k + 1), markov A' B' C' D' i l j := fun k hk l j =>
      slices_inj (f := fun i l k => ∑ j ∈ Finset.range (i + 1), markov A B C D j l k) (f' := fun i l k => ∑ j ∈ Finset.range (i + 1), markov A' B' C' D' j l k) e2' ⟨k, hk⟩ l j
    refine rep_same r r' (markov_finite fun k hk => ?_)
    ext l j
    have h1 := key k (by omega) l j
    rw [Finset.sum_range_succ, Finset.sum_range_succ] at h1
    cases k with
    | zero => simpa using h1
    | succ k => rw [key k (by omega) l j] at h1; exact add_left_cancel h1
  · intro htf
    have hdt : DtOk T.g.dt := by rw [hT]; intro t ht; cases ht; exact hh
    have hl : (eqGrid N t0 h).length = N := by simp [eqGrid]
    unfold stepResponse responseGrid at e1 ⊢
    simp only [checkCustomTime_eqGrid hN hh, Bind.bind, Except.bind] at e1 ⊢
    rw [show T.g.m = m from hc.1.2] at e1 ⊢
    rw [show T'.g.m = m from hc'.1.2]
    rw [e1]
    exact ((C84_realization_iff hE hc hc' hdt (hT'.trans hT.symm) hm htf).mp e1).symm

/-- **C129**, the future is determined: discrete models whose impulse responses agree at more points than the models have states together give the same result for every input, time grid and option. -/
theorem C129_future (hE : BalanceOk E) {T T' : StateObj ℝ P} (hN : 2 ≤ N) (hm : 1 ≤ m) (hc : Consistent T.g p m) (hc' : Consistent T'.g p m) (hT : T.g.dt = some h) (hT' : T'.g.dt = some h) (hh : 0 < h)
    (ho : order T.g + order T'.g < N) (h0 : impulseResponse Nm E T auto (some (eqGrid N t0 h)) = impulseResponse Nm E T' auto (some (eqGrid N t0 h)))
    {M : ℕ} (U : Matrix (Fin M) (Fin m) ℝ) (targ : Option (List ℝ)) (pc : Bool) (r : SimOut × List ℝ) :
    simulate Nm E T (Arr.of U) targ none pc = .ok r ↔ simulate Nm E T' (Arr.of U) targ none pc = .ok r :=
  C84_realization_iff hE hc hc' (by rw [hT]; intro t ht; cases ht; exact hh) (hT'.trans hT.symm) hm ((C129_impulse hE hN hm hc hc' hT hT' hh ho).mp h0)

/-! ## Continuous models -/

section
variable {A : Matrix (Fin n) (Fin n) ℝ} {B : Matrix (Fin n) (Fin m) ℝ} {C : Matrix (Fin p) (Fin n) ℝ} {D : Matrix (Fin p) (Fin m) ℝ}

/-- The step response of a continuous model is that of the model discretized with a hold. -/
theorem step_zoh_model (hE : BalanceOk E) {T : StateObj ℝ P} (hN : 2 ≤ N) (hm : 1 ≤ m) (hG : T.g = stateOf A B C D none) (hh : 0 < h) :
    ∃ T' : StateObj ℝ P, discretize Nm E T h "zoh" 0 none = .ok T' ∧ T'.g = stateOf (exp (h • A)) (gam (h • A) (h • B) 0) C D (some h) ∧
      stepResponse Nm E T auto (some (eqGrid N t0 h)) = stepResponse Nm E T' auto (some (eqGrid N t0 h)) := by
  obtain ⟨T', h1, h2⟩ := zoh_model (Nm := Nm) (pw := 0) (q := none) hE hh hG
  refine ⟨T', h1, h2, ?_⟩
  have hl : (eqGrid N t0 h).length = N := by simp [eqGrid]
  have h0 : (eqGrid N t0 h).getD 1 0 - (eqGrid N t0 h).getD 0 0 = h := by
    rw [eqGrid_get (by omega), eqGrid_get (by omega)]; push_cast; ring
  have hgrid := eqGrid_ok (t0 := t0) hN hh
  have hmod : simModel Nm E T (eqGrid N t0 h) = .ok T'.g := by
    unfold simModel
    rw [hG, h0]
    simp only [h1, Bind.bind, Except.bind]
  have hmod' : simModel Nm E T' (eqGrid N t0 h) = .ok T'.g := by
    unfold simModel
    rw [h2]
  have hU : ∀ m, Arr.ones (K := ℝ) N m = Arr.of (Matrix.of fun (_ : Fin N) (_ : Fin m) => 1) := fun m => rfl
  unfold stepResponse responseGrid
  simp only [checkCustomTime_eqGrid hN hh, Bind.bind, Except.bind]
  rw [hl, show T.g.m = m by rw [hG]; rfl, show T'.g.m = m by rw [h2]; rfl, hU]
  generalize (Matrix.of fun (_ : Fin N) (_ : Fin m) => (1 : ℝ)) = U
  have htime : timeArray T.g.dt (some (Arr.of U)) (some (eqGrid N t0 h)) = .ok (eqGrid N t0 h) := by
    unfold timeArray
    exact checkT_ok hgrid (by rw [hG]; intro d hd; cases hd)
  have htime' : timeArray T'.g.dt (some (Arr.of U)) (some (eqGrid N t0 h)) = .ok (eqGrid N t0 h) := by
    unfold timeArray
    rw [h2]
    exact checkT_ok hgrid (periodOk_eqGrid hN)
  have hz : InitArg (n := n) none 0 := Or.inl ⟨rfl, rfl⟩
  rw [h2] at hmod hmod'
  by_cases hm1 : m = 1
  · rw [simulate_flat hN hm (by rw [hG]) (by rw [hG]; rfl) (by rw [hG]; rfl) htime hl hmod hz true (Or.inr hm1),
      simulate_flat hN hm (by rw [h2]) (by rw [h2]; rfl) (by rw [h2]; rfl) htime' hl hmod' hz true (Or.inr hm1)]
  · rw [simulate_perChannel hN (by omega) (by rw [hG]) (by rw [hG]; rfl) (by rw [hG]; rfl) htime hl hmod hz,
      simulate_perChannel hN (by omega) (by rw [h2]) (by rw [h2]; rfl) (by rw [h2]; rfl) htime' hl hmod' hz]

/-- **C129**, continuous models: if the grid samples all modes more than twice per period, models whose step responses agree at more points than the models have states together have the same transfer matrix, and conversely. -/
theorem C129_continuous (hE : BalanceOk E) {T T' : StateObj ℝ P} {A' : Matrix (Fin n') (Fin n') ℝ} {B' : Matrix (Fin n') (Fin m) ℝ} {C' : Matrix (Fin p) (Fin n') ℝ} {D' : Matrix (Fin p) (Fin m) ℝ}
    (hN : 2 ≤ N) (hm : 1 ≤ m) (hG : T.g = stateOf A B C D none) (hG' : T'.g = stateOf A' B' C' D' none) (hh : 0 < h) (hA : ImBelow Real.pi (h • A)) (hA' : ImBelow Real.pi (h • A'))
    (ho : n + n' < N) : stepResponse Nm E T auto (some (eqGrid N t0 h)) = stepResponse Nm E T' auto (some (eqGrid N t0 h)) ↔ SameTF T.g T'.g p m := by
  obtain ⟨S, -, s2, s3⟩ := step_zoh_model (Nm := Nm) (auto := auto) (t0 := t0) hE hN hm hG hh
  obtain ⟨S', -, s2', s3'⟩ := step_zoh_model (Nm := Nm) (auto := auto) (t0 := t0) hE hN hm hG' hh
  rw [s3, s3', C129_step hE hN hm (p := p) (by rw [s2]; exact ⟨⟨rfl, rfl⟩, fun _ => ⟨rfl, rfl, rfl, rfl, rfl⟩⟩) (by rw [s2']; exact ⟨⟨rfl, rfl⟩, fun _ => ⟨rfl, rfl, rfl, rfl, rfl⟩⟩)
    (by rw [s2]) (by rw [s2']) hh (by rw [s2, s2']; simpa [order] using ho), s2, s2', hG, hG']
  have r := rep_dyn A B C D none
  have r' := rep_dyn A' B' C' D' none
  have q := rep_dyn (exp (h • A)) (gam (h • A) (h • B) 0) C D (some h)
  have q' := rep_dyn (exp (h • A')) (gam (h • A') (h • B') 0) C' D' (some h)
  have key := (markov_zoh_iff (B := h • B) (C := C) (D := D) (B' := h • B') (C' := C') (D' := D') hA hA').trans (markov_smul_iff hh.ne')
  exact ⟨fun h1 => rep_same r r' (key.mp (rep_markov q q' h1)), fun h1 => rep_same q q' (key.mpr (rep_markov r r' h1))⟩

end

/-! ## Frequency responses -/

/-- The entries of the transfer matrix as quotients of polynomials. -/
theorem entry_poly {g : StateM ℝ} (hc : Consistent g p m) : ∃ (Q : Polynomial ℝ) (R : Fin p → Fin m → Polynomial ℝ), Q.natDegree ≤ order g ∧ (∀ i j, (R i j).natDegree ≤ order g) ∧
    ∀ {L : Type} [Field L] [Algebra ℝ L] (s : L) (M : Matrix (Fin p) (Fin m) L), HasTF g p m s M → Polynomial.aeval s Q ≠ 0 ∧ ∀ i j, M i j = Polynomial.aeval s (R i j) / Polynomial.aeval s Q := by
  obtain ⟨a, b, c, D, dt, rfl⟩ | ⟨n, A, B, C, D, dt, rfl⟩ := consistent_cases hc
  · refine ⟨1, fun i j => Polynomial.C (D i j), by simp, by simp, fun s M hM => ⟨by simp, fun i j => ?_⟩⟩
    rw [HasTF_unique hM (Or.inl ⟨rfl, D, rfl, rfl⟩)]
    simp
  · have ho : order ⟨Arr.of A, Arr.of B, Arr.of C, Arr.of D, dt, false⟩ = n := by simp [order]
    have hχ : A.charpoly.natDegree = n := by simp [A.charpoly_natDegree_eq_dim]
    refine ⟨A.charpoly, fun i j => numPoly A (fun k => B k j) (C i) + Polynomial.C (D i j) * A.charpoly, by rw [hχ, ho], fun i j => ?_, fun s M hM => ?_⟩
    · rw [ho]
      refine (Polynomial.natDegree_add_le _ _).trans (max_le ?_ ((Polynomial.natDegree_C_mul_le _ _).trans hχ.le))
      exact Polynomial.natDegree_le_of_degree_le (degree_numPoly_lt A _ _).le
    · rcases hM with ⟨hg, -⟩ | ⟨-, n', A', B', C', D', hA, hB, hC, hD, h1, h2⟩
      · cases hg
      obtain rfl : n = n' := congrArg Arr.r hA
      rw [Arr.of_inj] at hA hB hC hD
      subst hA hB hC hD
      have h3 : Polynomial.aeval s A.charpoly ≠ 0 := by rw [aeval_charpoly]; exact h1
      refine ⟨h3, fun i j => ?_⟩
      have h4 := resolvent_entry A (fun k => B k j) (C i) s h1
      rw [map_add, map_mul, Polynomial.aeval_C, add_div, mul_div_cancel_right₀ _ h3, ← h4, h2, Matrix.add_apply, Matrix.mul_assoc]
      rfl

/-- **C129**, values: models whose transfer matrices agree at more points than the models have states together have the same transfer matrix. -/
theorem C129_points {g g' : StateM ℝ} (hc : Consistent g p m) (hc' : Consistent g' p m) (S : Finset ℂ) (hS : order g + order g' < S.card)
    (h : ∀ s ∈ S, ∃ M : Matrix (Fin p) (Fin m) ℂ, (HasTF g p m s M ∧ HasTF g' p m s M) ∨ HasTF g p m (starRingEnd ℂ s) M ∧ HasTF g' p m (starRingEnd ℂ s) M) : SameTF g g' p m := by
  obtain ⟨Q, R, d1, d2, e⟩ := entry_poly hc
  obtain ⟨Q', R', d1', d2', e'⟩ := entry_poly hc'
  have key : ∀ i j, R i j * Q' = R' i j * Q := by
    intro i j
    rw [← sub_eq_zero]
    have inj : Function.Injective (Polynomial.map (algebraMap ℝ ℂ)) := Polynomial.map_injective _ (algebraMap ℝ ℂ).injective
    apply inj
    rw [Polynomial.map_zero]
    have zero : ∀ s : ℂ, ∀ M : Matrix (Fin p) (Fin m) ℂ, HasTF g p m s M → HasTF g' p m s M → Polynomial.aeval s (R i j * Q' - R' i j * Q) = 0 := fun s M h1 h2 => by
      obtain ⟨a1, a2⟩ := e s M h1
      obtain ⟨b1, b2⟩ := e' s M h2
      have := (a2 i j).symm.trans (b2 i j)
      rw [div_eq_div_iff a1 b1] at this
      rw [map_sub, map_mul, map_mul, this, sub_self]
    refine Polynomial.eq_zero_of_natDegree_lt_card_of_eval_eq_zero' _ S (fun s hs => ?_) (lt_of_le_of_lt ?_ hS)
    · rw [Polynomial.eval_map_algebraMap]
      obtain ⟨M, ⟨h1, h2⟩ | ⟨h1, h2⟩⟩ := h s hs
      · exact zero s M h1 h2
      · have := zero _ M h1 h2
        rw [Polynomial.aeval_conj] at this
        exact (map_eq_zero _).mp this
    · refine Polynomial.natDegree_map_le.trans ((Polynomial.natDegree_sub_le _ _).trans (max_le (Polynomial.natDegree_mul_le.trans ?_) (Polynomial.natDegree_mul_le.trans ?_)))
      · exact add_le_add (d2 i j) d1'
      · rw [add_comm]; exact add_le_add d1 (d2' i j)
  refine Eventually.of_forall fun s M M' hM hM' => ?_
  obtain ⟨a1, a2⟩ := e s M hM
  obtain ⟨b1, b2⟩ := e' s M' hM'
  ext i j
  rw [a2, b2, div_eq_div_iff a1 b1, ← map_mul, ← map_mul, key]

/-- The point of a positive frequency below the Nyquist frequency lies in the upper half plane, and different frequencies have different points. -/
theorem evalPoint_inj {dt : Option ℝ} (hdt : DtOk dt) {ω ω' : ℝ} (h : 0 < ω) (hn : ∀ h, dt = some h → ω < Real.pi / h) (h' : 0 < ω') (hn' : ∀ h, dt = some h → ω' < Real.pi / h) :
    0 < (evalPoint dt ω).im ∧ (evalPoint dt ω = evalPoint dt ω' → ω = ω') := by
  cases dt with
  | none =>
    refine ⟨by simpa [evalPoint] using h, fun e => ?_⟩
    have := congrArg Complex.im e
    simpa [evalPoint] using this
  | some d =>
    have hd : 0 < d := hdt d rfl
    have e1 : ∀ x : ℝ, evalPoint (some d) x = Complex.exp ((x * d : ℝ) * Complex.I) := fun x => by
      simp [evalPoint, mul_comm]
    have l1 : ω * d < Real.pi := (lt_div_iff₀ hd).mp (hn d rfl)
    have l2 : ω' * d < Real.pi := (lt_div_iff₀ hd).mp (hn' d rfl)
    refine ⟨?_, fun e => ?_⟩
    · rw [e1, Complex.exp_ofReal_mul_I_im]
      exact Real.sin_pos_of_pos_of_lt_pi (by positivity) l1
    · rw [e1, e1] at e
      have := congrArg Complex.re e
      rw [Complex.exp_ofReal_mul_I_re, Complex.exp_ofReal_mul_I_re] at this
      have := Real.injOn_cos ⟨by positivity, l1.le⟩ ⟨by positivity, l2.le⟩ this
      exact mul_right_cancel₀ hd.ne' this

/-- **C129**, frequencies: models whose frequency responses agree at `k` positive frequencies below the Nyquist frequency have the same transfer matrix if they have less than `2 k` states together. -/
theorem C129_frequencies {g g' : StateM ℝ} (hc : Consistent g p m) (hc' : Consistent g' p m) {dt : Option ℝ} (hdt : DtOk dt) (Ω : Finset ℝ) (hΩ : order g + order g' < 2 * Ω.card)
    (h : ∀ ω ∈ Ω, 0 < ω ∧ (∀ d, dt = some d → ω < Real.pi / d) ∧ ∃ M : Matrix (Fin p) (Fin m) ℂ, HasTF g p m (evalPoint dt ω) M ∧ HasTF g' p m (evalPoint dt ω) M) : SameTF g g' p m := by
  classical
  let S := Ω.image (evalPoint dt)
  let S' := Ω.image fun ω => starRingEnd ℂ (evalPoint dt ω)
  have c1 : S.card = Ω.card := Finset.card_image_of_injOn fun x hx y hy e => (evalPoint_inj hdt (h x hx).1 (h x hx).2.1 (h y hy).1 (h y hy).2.1).2 e
  have c2 : S'.card = Ω.card := Finset.card_image_of_injOn fun x hx y hy e => (evalPoint_inj hdt (h x hx).1 (h x hx).2.1 (h y hy).1 (h y hy).2.1).2 ((starRingEnd ℂ).injective e)
  have c3 : Disjoint S S' := by
    rw [Finset.disjoint_left]
    intro z h1 h2
    obtain ⟨x, hx, rfl⟩ := Finset.mem_image.mp h1
    obtain ⟨y, hy, e⟩ := Finset.mem_image.mp h2
    have p1 := (evalPoint_inj hdt (h x hx).1 (h x hx).2.1 (h y hy).1 (h y hy).2.1).1
    have p2 := (evalPoint_inj hdt (h y hy).1 (h y hy).2.1 (h x hx).1 (h x hx).2.1).1
    rw [← e, Complex.conj_im] at p1
    linarith
  refine C129_points hc hc' (S ∪ S') (by rw [Finset.card_union_of_disjoint c3, c1, c2]; omega) fun s hs => ?_
  rcases Finset.mem_union.mp hs with h1 | h1
  · obtain ⟨x, hx, rfl⟩ := Finset.mem_image.mp h1
    obtain ⟨-, -, M, hM⟩ := h x hx
    exact ⟨M, Or.inl hM⟩
  · obtain ⟨x, hx, rfl⟩ := Finset.mem_image.mp h1
    obtain ⟨-, -, M, hM⟩ := h x hx
    exact ⟨M, Or.inr (by rwa [Complex.conj_conj])⟩

/-- **C129**, `frequency_response`: dynamic models with the same computed response on the same grid have the same transfer matrix, if the grid has `k` positive frequencies below the Nyquist frequency at which neither model has a pole and the response has been computed, and the models have less than `2 k` states together. -/
theorem C129_response {H : HessNum ℝ} {autoW : List ℝ} {A : Matrix (Fin n) (Fin n) ℝ} {B : Matrix (Fin n) (Fin m) ℝ} {C : Matrix (Fin p) (Fin n) ℝ} {D : Matrix (Fin p) (Fin m) ℝ}
    {A' : Matrix (Fin n') (Fin n') ℝ} {B' : Matrix (Fin n') (Fin m) ℝ} {C' : Matrix (Fin p) (Fin n') ℝ} {D' : Matrix (Fin p) (Fin m) ℝ} {dt : Option ℝ} (hdt : DtOk dt) (hn : 0 < n) (hn' : 0 < n')
    (hq : ∀ (n : ℕ) (b : Matrix (Fin n) (Fin 1) ℝ), QrOk H b) (hh : ∀ (n : ℕ) (M : Matrix (Fin n) (Fin n) ℝ), HessOk H M) {w : Option GridArg} {samples : Option ℕ} {iu ou : String} (hou : ou = "rad/s" ∨ IsHz ou) {R R' : FreqOut}
    (h : freqState H none autoW (stateOf A B C D dt) w samples iu ou = .ok R) (h' : freqState H none autoW (stateOf A' B' C' D' dt) w samples iu ou = .ok R')
    (hw : R.w = R'.w) (hr : R.resp = R'.resp) (Ω : Finset ℝ) (hΩ : n + n' < 2 * Ω.card)
    (hp : ∀ ω ∈ Ω, 0 < ω ∧ (∀ d, dt = some d → ω < Real.pi / d) ∧ (∃ (k : ℕ) (x : ℝ) (Y : Matrix (Fin p) (Fin m) ℂ), R.w[k]? = some x ∧ toRad ou x = ω ∧ R.resp[k]? = some (Arr.of (Y.map some))) ∧
      (∃ M : Matrix (Fin p) (Fin m) ℂ, HasTF (stateOf A B C D dt) p m (evalPoint dt ω) M) ∧ ∃ M : Matrix (Fin p) (Fin m) ℂ, HasTF (stateOf A' B' C' D' dt) p m (evalPoint dt ω) M) :
    SameTF (stateOf A B C D dt) (stateOf A' B' C' D' dt) p m := by
  have hc : Consistent (stateOf A B C D dt) p m := ⟨⟨rfl, rfl⟩, fun _ => ⟨rfl, rfl, rfl, rfl, rfl⟩⟩
  have hc' : Consistent (stateOf A' B' C' D' dt) p m := ⟨⟨rfl, rfl⟩, fun _ => ⟨rfl, rfl, rfl, rfl, rfl⟩⟩
  refine C129_frequencies hc hc' hdt Ω (by simpa [order] using hΩ) fun ω hω => ?_
  obtain ⟨h1, h2, ⟨k, x, Y, h3, rfl, h4⟩, ⟨M, h5⟩, M', h6⟩ := hp ω hω
  refine ⟨h1, h2, M, h5, ?_⟩
  obtain ⟨X, x1, x2⟩ := (C45_sound hn (hq n) (hh n) hou h).2 k x h3 M h5
  obtain ⟨X', x1', x2'⟩ := (C45_sound hn' (hq n') (hh n') hou h').2 k x (hw ▸ h3) M' h6
  rw [← hr, h4] at x1'
  rw [h4] at x1
  have e1 := Arr.of_inj.mp (Option.some.inj x1)
  have e2 := Arr.of_inj.mp (Option.some.inj x1')
  have : M = M' := by
    ext i j
    rw [← x2 i j (Y i j) (by rw [← e1]; rfl), ← x2' i j (Y i j) (by rw [← e2]; rfl)]
  rw [this]
  exact h6

/-! ## Fewer samples are not enough -/

/-- The delay by `n` samples: a chain of `n` states. -/
def delayA (n : ℕ) : Matrix (Fin n) (Fin n) ℝ := Matrix.of fun i j => if (j : ℕ) = i + 1 then 1 else 0

theorem delayA_pow (n k : ℕ) (i j : Fin n) : (delayA n ^ k) i j = if (j : ℕ) = i + k then 1 else 0 := by
  induction k generalizing i with
  | zero => simp [Matrix.one_apply, Fin.ext_iff, eq_comm]
  | succ k ih =>
    rw [pow_succ', Matrix.mul_apply]
    by_cases hi : (i : ℕ) + 1 < n
    · rw [Finset.sum_eq_single ⟨i + 1, hi⟩]
      · rw [ih]
        simp [delayA, add_assoc, add_comm 1 k]
      · intro b _ hb
        have : (b : ℕ) ≠ i + 1 := fun h => hb (Fin.ext h)
        simp [delayA, this]
      · simp
    · rw [Finset.sum_eq_zero, if_neg (by omega)]
      intro b _
      have : (b : ℕ) ≠ i + 1 := by omega
      simp [delayA, this]

/-- **C129**, sharpness: for every `n` there is a discrete model with `n + 1` states that is not zero, while its impulse response agrees with that of the zero gain at the first `n + 1` points. -/
theorem C129_sharp (n : ℕ) (hn : 1 ≤ n) (hh : 0 < h) {T T' : StateObj ℝ P}
    (hT : T.g = stateOf (delayA (n + 1)) (Matrix.of fun i (_ : Fin 1) => if i = Fin.last n then 1 else 0) (Matrix.of fun (_ : Fin 1) i => if i = 0 then 1 else 0) 0 (some h))
    (hT' : T'.g = ⟨Arr.empty, Arr.empty, Arr.empty, Arr.of (0 : Matrix (Fin 1) (Fin 1) ℝ), some h, true⟩) :
    order T.g + order T'.g = n + 1 ∧ (∃ y y', impulseResponse Nm E T auto (some (eqGrid (n + 1) t0 h)) = .ok (y, eqGrid (n + 1) t0 h) ∧
      impulseResponse Nm E T' auto (some (eqGrid (n + 1) t0 h)) = .ok (y', eqGrid (n + 1) t0 h) ∧ y.slices = y'.slices) ∧ ¬ SameTF T.g T'.g 1 1 := by
  have key : ∀ k, (Matrix.of fun (_ : Fin 1) i => if i = 0 then 1 else 0 : Matrix (Fin 1) (Fin (n + 1)) ℝ) * delayA (n + 1) ^ k * (Matrix.of fun i (_ : Fin 1) => if i = Fin.last n then 1 else 0 : Matrix (Fin (n + 1)) (Fin 1) ℝ)
      = Matrix.of fun _ _ => if k = n then 1 else 0 := fun k => by
    ext i j
    rw [Matrix.mul_apply, Finset.sum_eq_single (Fin.last n) (fun b _ hb => by simp [hb]) (by simp), Matrix.mul_apply, Finset.sum_eq_single 0 (fun b _ hb => by simp [hb]) (by simp)]
    simp [delayA_pow, eq_comm]
  obtain ⟨y, h1, h2⟩ := C42_impulse (Nm := Nm) (E := E) (t0 := t0) (auto := auto) (N := n + 1) (by omega) le_rfl hT hh
  obtain ⟨-, y', h3, h4⟩ := C42_gain (Nm := Nm) (E := E) (t0 := t0) (auto := auto) (N := n + 1) (by omega) le_rfl hT' (Or.inr rfl) hh
  refine ⟨by rw [hT, hT']; simp [order], ⟨y, y', h1, h3, ?_⟩, fun h5 => ?_⟩
  · rw [h2, h4]
    congr 1; funext k; congr 1; ext i l
    rcases hi : (i : ℕ) with _ | i'
    · simp [hi, markov]
    · have := i.2
      simp only [of_apply, hi, markov, key]
      rw [if_neg (by omega)]
      simp
  · rw [hT, hT'] at h5
    have := rep_markov (rep_dyn _ _ _ _ _) (rep_gain _ _ _ _ _) h5 (n + 1)
    simp only [markov, key] at this
    simpa using congrFun (congrFun this 0) 0

/-- Two models of the lag `x⁺ = x / 2 + u`, one with an additional state that is not seen: their responses at four points decide. -/
example (hE : BalanceOk E) {T T' : StateObj ℝ P} (hT : T.g = stateOf !![1 / 2] !![1] !![1] !![0] (some 1)) (hT' : T'.g = stateOf !![1 / 2, 0; 0, 3] !![1; 1] !![1, 0] !![0] (some 1)) :
    impulseResponse Nm E T auto (some (eqGrid 4 0 1)) = impulseResponse Nm E T' auto (some (eqGrid 4 0 1)) ↔ SameTF T.g T'.g 1 1 :=
  C129_impulse hE (by norm_num) le_rfl (by rw [hT]; exact ⟨⟨rfl, rfl⟩, fun _ => ⟨rfl, rfl, rfl, rfl, rfl⟩⟩) (by rw [hT']; exact ⟨⟨rfl, rfl⟩, fun _ => ⟨rfl, rfl, rfl, rfl, rfl⟩⟩)
    (by rw [hT]) (by rw [hT']) one_pos (by rw [hT, hT']; simp [order])

/-- `1 / (s + 1)` and `1 / (s + 2)`, sampled with any period: three points of the step responses decide. -/
example (hE : BalanceOk E) (hh : 0 < h) {T T' : StateObj ℝ P} (hT : T.g = stateOf !![-1] !![1] !![1] !![0] none) (hT' : T'.g = stateOf !![-2] !![1] !![1] !![0] none) :
    stepResponse Nm E T auto (some (eqGrid 3 0 h)) = stepResponse Nm E T' auto (some (eqGrid 3 0 h)) ↔ SameTF T.g T'.g 1 1 := by
  have key : ∀ a : ℝ, ImBelow Real.pi (h • !![a]) := fun a z hz => by
    simp only [IsEig, det_fin_one, Matrix.sub_apply, Matrix.smul_apply, one_apply_eq, smul_eq_mul, mul_one, map_apply, Matrix.of_apply, cons_val', cons_val_zero, cons_val_fin_one, sub_eq_zero] at hz
    rw [hz]
    simp [Real.pi_pos]
  exact C129_continuous hE (by norm_num) le_rfl hT hT' hh (key _) (key _) (by norm_num)

/-- The values of `1 / (s + 1)` and `1 / (s + 2)` at two frequencies differ, as they have two states together. -/
example : ¬ ∀ ω ∈ ({1, 2} : Finset ℝ), ∃ M : Matrix (Fin 1) (Fin 1) ℂ, HasTF (stateOf !![(-1 : ℝ)] !![1] !![1] !![0] none) 1 1 (evalPoint none ω) M ∧ HasTF (stateOf !![(-2 : ℝ)] !![1] !![1] !![0] none) 1 1 (evalPoint none ω) M := by
  intro h
  have hc : ∀ a : ℝ, Consistent (stateOf !![a] !![1] !![1] !![0] none) 1 1 := fun a => ⟨⟨rfl, rfl⟩, fun _ => ⟨rfl, rfl, rfl, rfl, rfl⟩⟩
  have h1 := C129_frequencies (hc (-1)) (hc (-2)) dtOk_none {1, 2} (by simp [order]) fun ω hω => ⟨by
    rcases Finset.mem_insert.mp hω with rfl | h2
    · exact one_pos
    · rw [Finset.mem_singleton.mp h2]; exact two_pos, fun d hd => (by cases hd), h ω hω⟩
  have h2 := rep_markov (rep_dyn _ _ _ _ _) (rep_dyn _ _ _ _ _) h1 2
  have h3 := congrFun (congrFun h2 0) 0
  simp [markov, Matrix.mul_apply] at h3

end Harold
