import Verif.Model.NormTransfer
import Verif.Props.SysNorm
import Verif.Props.Hinf
import Verif.Props.Motion
import Verif.Props.HoldTransfer

/-!
# C96: norms belong to the transfer function
-/

namespace Harold

open Matrix Spec Filter Topology

variable {n n' m p : ℕ}

/-- The weights of two models with states and the same transfer function. -/
theorem markov_same {A : Matrix (Fin n) (Fin n) ℝ} {B : Matrix (Fin n) (Fin m) ℝ} {C : Matrix (Fin p) (Fin n) ℝ} {D : Matrix (Fin p) (Fin m) ℝ}
    {A' : Matrix (Fin n') (Fin n') ℝ} {B' : Matrix (Fin n') (Fin m) ℝ} {C' : Matrix (Fin p) (Fin n') ℝ} {D' : Matrix (Fin p) (Fin m) ℝ} {dt dt' : Option ℝ}
    (h : SameTF (stateOf A B C D dt) (stateOf A' B' C' D' dt') p m) (k : ℕ) : markov A B C D k = markov A' B' C' D' k := by
  refine markov_of_tf k ?_
  filter_upwards [h, eventually_det A, eventually_det A'] with s hs h1 h2
  exact hs _ _ (Or.inr ⟨rfl, n, A, B, C, D, rfl, rfl, rfl, rfl, isTF_real.mpr ⟨h1, rfl⟩⟩) (Or.inr ⟨rfl, n', A', B', C', D', rfl, rfl, rfl, rfl, isTF_real.mpr ⟨h2, rfl⟩⟩)

/-- The Taylor series of the impulse response. -/
theorem hasSum_impulse (A : Matrix (Fin n) (Fin n) ℝ) (B : Matrix (Fin n) (Fin m) ℝ) (C : Matrix (Fin p) (Fin n) ℝ) (t : ℝ) (i : Fin p) (j : Fin m) :
    HasSum (fun r : ℕ => t ^ r / r.factorial * (C * A ^ r * B) i j) ((C * NormedSpace.exp (t • A) * B) i j) := by
  rw [Matrix.mul_apply]
  have e : ∀ r : ℕ, t ^ r / r.factorial * (C * A ^ r * B) i j = ∑ l, ((r.factorial : ℝ)⁻¹ * (C * (t • A) ^ r) i l) * B l j := by
    intro r
    rw [Matrix.mul_apply, Finset.mul_sum]
    refine Finset.sum_congr rfl fun l _ => ?_
    rw [smul_pow, Matrix.mul_smul, Matrix.smul_apply, smul_eq_mul]
    ring
  simp only [e]
  exact hasSum_sum fun l _ => (hasSum_mul_exp (t • A) C i l).mul_right _

/-- The impulse responses in continuous time agree. -/
theorem impulse_same {A : Matrix (Fin n) (Fin n) ℝ} {B : Matrix (Fin n) (Fin m) ℝ} {C : Matrix (Fin p) (Fin n) ℝ} {D : Matrix (Fin p) (Fin m) ℝ}
    {A' : Matrix (Fin n') (Fin n') ℝ} {B' : Matrix (Fin n') (Fin m) ℝ} {C' : Matrix (Fin p) (Fin n') ℝ} {D' : Matrix (Fin p) (Fin m) ℝ}
    (h : ∀ k, markov A B C D k = markov A' B' C' D' k) (t : ℝ) : C * NormedSpace.exp (t • A) * B = C' * NormedSpace.exp (t • A') * B' := by
  ext i j
  refine (hasSum_impulse A B C t i j).unique ?_
  have e : (fun r : ℕ => t ^ r / r.factorial * (C * A ^ r * B) i j) = fun r : ℕ => t ^ r / r.factorial * (C' * A' ^ r * B') i j := by
    funext r
    rw [show C * A ^ r * B = C' * A' ^ r * B' from h (r + 1)]
  rw [e]
  exact hasSum_impulse A' B' C' t i j

/-- Two stable models with states whose weights agree have the same 2-norm. -/
theorem norm2_same {P : Type} {L : LyapNum ℝ} (hL : ∀ {n : ℕ} (A : Matrix (Fin n) (Fin n) ℝ), SchurOk L A) (X0 : Wk ℝ) (tol : ℝ) {S S' : StateObj ℝ P}
    {A : Matrix (Fin n) (Fin n) ℝ} {B : Matrix (Fin n) (Fin m) ℝ} {C : Matrix (Fin p) (Fin n) ℝ} {D : Matrix (Fin p) (Fin m) ℝ}
    {A' : Matrix (Fin n') (Fin n') ℝ} {B' : Matrix (Fin n') (Fin m) ℝ} {C' : Matrix (Fin p) (Fin n') ℝ} {D' : Matrix (Fin p) (Fin m) ℝ} {dt : Option ℝ}
    (hS : S.g = stateOf A B C D dt) (hS' : S'.g = stateOf A' B' C' D' dt) (hn : 0 < n) (hn' : 0 < n') (hs : S.isstable = true) (hs' : S'.isstable = true)
    (hA : MotionsVanish dt A) (hA' : MotionsVanish dt A') (h : ∀ k, markov A B C D k = markov A' B' C' D' k) : systemNorm2 L X0 tol S = systemNorm2 L X0 tol S' := by
  obtain rfl : D = D' := h 0
  by_cases hD : ∀ i j, |D i j| ≤ tol
  · cases dt with
    | none =>
      obtain ⟨x, e1, e2, e3⟩ := C55_continuous_partial L X0 tol S A B C D hS hn (hL _) hs (hurwitz_iff_motions.mpr hA) hD
      obtain ⟨x', e1', e2', e3'⟩ := C55_continuous_partial L X0 tol S' A' B' C' D hS' hn' (hL _) hs' (hurwitz_iff_motions.mpr hA') hD
      have : x ^ 2 = x' ^ 2 := by
        unfold CEnergy at e3 e3'
        simp only [impulse_same h] at e3
        exact tendsto_nhds_unique e3 e3'
      rw [e1, e1', (sq_eq_sq₀ e2 e2').mp this]
    | some t =>
      obtain ⟨x, e1, e2, e3⟩ := C55_discrete_partial L X0 tol S A B C D t hS hn (hL _) hs (schur_iff_motions.mpr hA) hD
      obtain ⟨x', e1', e2', e3'⟩ := C55_discrete_partial L X0 tol S' A' B' C' D t hS' hn' (hL _) hs' (schur_iff_motions.mpr hA') hD
      have : x ^ 2 = x' ^ 2 := by
        have e : ∀ k, dimpulse A B C D k = dimpulse A' B' C' D k := fun k => by cases k; exacts [rfl, h (_ + 1)]
        unfold DEnergy at e3 e3'
        simp only [e] at e3
        exact e3.unique e3'
      rw [e1, e1', (sq_eq_sq₀ e2 e2').mp this]
  · push Not at hD
    rw [(C55_infinite_partial L X0 tol S).mpr (Or.inr (by rw [hS]; exact hD)), (C55_infinite_partial L X0 tol S').mpr (Or.inr (by rw [hS']; exact hD))]

/-- An entry of the transfer matrix as a quotient of polynomials. -/
theorem isTF_entry_aeval {L : Type} [Field L] [Algebra ℝ L] {A : Matrix (Fin n) (Fin n) ℝ} {B : Matrix (Fin n) (Fin m) ℝ} {C : Matrix (Fin p) (Fin n) ℝ} {D : Matrix (Fin p) (Fin m) ℝ} {s : L}
    {M : Matrix (Fin p) (Fin m) L} (h : IsTF (A.map (algebraMap ℝ L)) (B.map (algebraMap ℝ L)) (C.map (algebraMap ℝ L)) (D.map (algebraMap ℝ L)) s M) (i : Fin p) (j : Fin m) :
    M i j * Polynomial.aeval s A.charpoly = Polynomial.aeval s (numPoly A (fun l => B l j) (C i) + Polynomial.C (D i j) * A.charpoly) := by
  obtain ⟨h1, rfl⟩ := h
  have h2 := resolvent_entry A (fun l => B l j) (C i) s h1
  have h3 : Polynomial.aeval s A.charpoly ≠ 0 := by rw [aeval_charpoly]; exact h1
  have h4 : (C.map (algebraMap ℝ L) * (s • (1 : Matrix (Fin n) (Fin n) L) - A.map (algebraMap ℝ L))⁻¹ * B.map (algebraMap ℝ L)) i j =
      (fun i_1 => algebraMap ℝ L (C i i_1)) ⬝ᵥ ((s • (1 : Matrix (Fin n) (Fin n) L) - A.map (algebraMap ℝ L))⁻¹ *ᵥ fun l => algebraMap ℝ L (B l j)) := by
    rw [Matrix.mul_assoc]
    rfl
  rw [Matrix.add_apply, h4, h2, map_apply, map_add, map_mul, Polynomial.aeval_C, add_mul, div_mul_cancel₀ _ h3]

/-- Transfer matrices that agree for large real arguments agree at all complex arguments. -/
theorem tf_same_complex {A : Matrix (Fin n) (Fin n) ℝ} {B : Matrix (Fin n) (Fin m) ℝ} {C : Matrix (Fin p) (Fin n) ℝ} {D : Matrix (Fin p) (Fin m) ℝ}
    {A' : Matrix (Fin n') (Fin n') ℝ} {B' : Matrix (Fin n') (Fin m) ℝ} {C' : Matrix (Fin p) (Fin n') ℝ} {D' : Matrix (Fin p) (Fin m) ℝ} {dt dt' : Option ℝ}
    (h : SameTF (stateOf A B C D dt) (stateOf A' B' C' D' dt') p m) {s : ℂ} {M M' : Matrix (Fin p) (Fin m) ℂ}
    (hM : IsTF (A.map (algebraMap ℝ ℂ)) (B.map (algebraMap ℝ ℂ)) (C.map (algebraMap ℝ ℂ)) (D.map (algebraMap ℝ ℂ)) s M)
    (hM' : IsTF (A'.map (algebraMap ℝ ℂ)) (B'.map (algebraMap ℝ ℂ)) (C'.map (algebraMap ℝ ℂ)) (D'.map (algebraMap ℝ ℂ)) s M') : M = M' := by
  ext i j
  set P := numPoly A (fun l => B l j) (C i) + Polynomial.C (D i j) * A.charpoly with hP
  set P' := numPoly A' (fun l => B' l j) (C' i) + Polynomial.C (D' i j) * A'.charpoly with hP'
  have e : P * A'.charpoly = P' * A.charpoly := by
    by_contra hne
    have h0 := Polynomial.eventually_atTop_not_isRoot (P * A'.charpoly - P' * A.charpoly) (sub_ne_zero.mpr hne)
    obtain ⟨t, ht, ht0, h1, h2⟩ := (h.and (h0.and ((eventually_det A).and (eventually_det A')))).exists
    have i1 : IsTF (A.map (algebraMap ℝ ℝ)) (B.map (algebraMap ℝ ℝ)) (C.map (algebraMap ℝ ℝ)) (D.map (algebraMap ℝ ℝ)) t (tfReal A B C D t) := isTF_real.mpr ⟨h1, rfl⟩
    have i2 : IsTF (A'.map (algebraMap ℝ ℝ)) (B'.map (algebraMap ℝ ℝ)) (C'.map (algebraMap ℝ ℝ)) (D'.map (algebraMap ℝ ℝ)) t (tfReal A' B' C' D' t) := isTF_real.mpr ⟨h2, rfl⟩
    have h3 := ht _ _ (Or.inr ⟨rfl, n, A, B, C, D, rfl, rfl, rfl, rfl, i1⟩) (Or.inr ⟨rfl, n', A', B', C', D', rfl, rfl, rfl, rfl, i2⟩)
    have e1 := isTF_entry_aeval i1 i j
    have e2 := isTF_entry_aeval i2 i j
    rw [h3] at e1
    refine ht0 ?_
    rw [Polynomial.IsRoot.def, Polynomial.eval_sub, Polynomial.eval_mul, Polynomial.eval_mul]
    simp only [Polynomial.coe_aeval_eq_eval] at e1 e2
    rw [hP, hP', ← e1, ← e2]
    ring
  have e1 := isTF_entry_aeval hM i j
  have e2 := isTF_entry_aeval hM' i j
  have n1 : Polynomial.aeval s A.charpoly ≠ 0 := by rw [aeval_charpoly]; exact hM.1
  have n2 : Polynomial.aeval s A'.charpoly ≠ 0 := by rw [aeval_charpoly]; exact hM'.1
  have e3 := congrArg (Polynomial.aeval s) e
  rw [map_mul, map_mul, hP, hP', ← e1, ← e2] at e3
  refine mul_right_cancel₀ (mul_ne_zero n1 n2) ?_
  linear_combination e3

/-- Polynomials that agree for large arguments. -/
theorem poly_eq_of_eventually {P Q : Polynomial ℝ} (h : ∀ᶠ s : ℝ in atTop, P.eval s = Q.eval s) : P = Q := by
  by_contra hne
  obtain ⟨t, h1, h2⟩ := (h.and (Polynomial.eventually_atTop_not_isRoot (P - Q) (sub_ne_zero.mpr hne))).exists
  exact h2 (by rw [Polynomial.IsRoot, Polynomial.eval_sub, h1, sub_self])

/-- A difference equation has one solution. -/
theorem diffEq_unique {num den : List ℝ} (hl : den.getD 0 0 ≠ 0) {u y y' : ℕ → ℝ} (h : DiffEq num den u y) (h' : DiffEq num den u y') (k : ℕ) : y k = y' k := by
  induction k using Nat.strong_induction_on with
  | _ k ih =>
    have h1 := (h k).trans (h' k).symm
    rw [Finset.sum_range_succ', Finset.sum_range_succ', Finset.sum_congr rfl fun r hr => by rw [ih (k - (r + 1)) (by have := Finset.mem_range.mp hr; omega)]] at h1
    have h2 := add_left_cancel h1
    exact mul_left_cancel₀ hl h2

/-- A model whose flag says that it is stable, written out. -/
theorem stable_parts {N : Numerics ℝ ℂ} (hN : EigExact N) (hR : RegionExact N) {S : StateObj ℝ ℂ} (hp : PolesCurrent N S) (hf : FlagCurrent N S) (hc : Consistent S.g p m)
    (hs : S.isstable = true) (h0 : S.g.isgain = false) : ∃ (n : ℕ) (A : Matrix (Fin n) (Fin n) ℝ) (B : Matrix (Fin n) (Fin m) ℝ) (C : Matrix (Fin p) (Fin n) ℝ) (D : Matrix (Fin p) (Fin m) ℝ),
      S.g = stateOf A B C D S.g.dt ∧ MotionsVanish S.g.dt A := by
  have h1 := (flag_motions hN hR hp hf hc).mp hs
  obtain ⟨a, b, c, D, dt', hG⟩ | ⟨n, A, B, C, D, dt', hG⟩ := consistent_cases hc
  · rw [hG] at h0; cases h0
  · refine ⟨n, A, B, C, D, by rw [hG], ?_⟩
    rcases h1 with h1 | ⟨n', A', hA', h2⟩
    · rw [h0] at h1; cases h1
    · rw [hG] at hA'
      obtain rfl : n = n' := congrArg Arr.r hA'
      obtain rfl := Arr.of_inj.mp hA'
      exact h2

/-- **C96** for the 2-norm of `State` models: two models with states that have the same transfer function and sampling period and are reported stable have the same norm (both infinite, or the same
number). Missing from the full claim: exact arithmetic; a model with an unstable mode that cannot be seen from outside is reported unstable and its norm is infinite; static models, see
`C55_gain_violated`; flags that are out of date, see `C92_stale_violated`. -/
theorem C96_h2_realization_partial {N : Numerics ℝ ℂ} (hN : EigExact N) (hR : RegionExact N) {L : LyapNum ℝ} (hL : ∀ {n : ℕ} (A : Matrix (Fin n) (Fin n) ℝ), SchurOk L A) (X0 : Wk ℝ) (close : ℝ)
    (F : HinfNum) (eigTol : ℝ) {a b c d a' b' c' d' : Option (Arr ℝ)} {dt : Option ℝ} {S S' : StateObj ℝ ℂ} (hi : StateObj.init N a b c d dt = .ok S)
    (hi' : StateObj.init N a' b' c' d' dt = .ok S') (hc : Consistent S.g p m) (hc' : Consistent S'.g p m) (hs : S.isstable = true) (hs' : S'.isstable = true)
    (h0 : S.g.isgain = false ∧ 0 < S.g.a.r) (h0' : S'.g.isgain = false ∧ 0 < S'.g.a.r) (htf : SameTF S.g S'.g p m) :
    systemNorm L X0 close F eigTol S .two = systemNorm L X0 close F eigTol S' .two := by
  have d1 : ∀ {a b c d : Option (Arr ℝ)} {S : StateObj ℝ ℂ}, StateObj.init N a b c d dt = .ok S → S.g.dt = dt := fun h => by
    obtain ⟨g, hg, h⟩ := bind_ok h
    injection h with h
    rw [← h]
    exact (C12_consistent _ _ _ _ _ _ hg).2.2.1
  obtain ⟨n, A, B, C, D, hS, hA⟩ := stable_parts hN hR (C14_poles_zeros N hi []) (C14_flag_partial N hi [] (by simp)) hc hs h0.1
  obtain ⟨n', A', B', C', D', hS', hA'⟩ := stable_parts hN hR (C14_poles_zeros N hi' []) (C14_flag_partial N hi' [] (by simp)) hc' hs' h0'.1
  change S.g = stateOf A B C D S.g.dt at hS
  change S'.g = stateOf A' B' C' D' S'.g.dt at hS'
  change MotionsVanish S.g.dt A at hA
  change MotionsVanish S'.g.dt A' at hA'
  rw [d1 hi] at hS hA
  rw [d1 hi'] at hS' hA'
  have hn : 0 < n := by have := h0.2; rw [hS] at this; exact this
  have hn' : 0 < n' := by have := h0'.2; rw [hS'] at this; exact this
  rw [hS, hS'] at htf
  exact norm2_same hL X0 close hS hS' hn hn' hs hs' hA hA' (markov_same htf)

variable {E : TNum ℝ} {G : TransferM ℝ} {Nn Dn : Matrix (Fin p) (Fin m) (List ℝ)}

/-- The model that a stable `Transfer` model is converted to. -/
theorem t2s_core {N : Numerics ℝ ℂ} (hN : EigExact N) (hR : RegionExact N) (hbal : ∀ polys i, E.bal polys i ≠ 0) (hthr : E.lcmTol ≤ 1) (htol : ClearModel E.lcmTol E.remTol G)
    (hG : Normal G p m Nn Dn) (hroots : ∀ i j (s : ℂ), polyAt s (Dn i j) = 0 → StablePoint G.dt s) :
    ∃ T, transferToState E G = .ok T ∧ (StateObj.built N T).isstable = true ∧
      (∀ (L : Type) [Field L] [Algebra ℝ L] (s : L) (M : Matrix (Fin p) (Fin m) L), HasVal G p m s M → HasTF T p m s M) ∧
      (T.isgain = true ∨ ∃ (n : ℕ) (A : Matrix (Fin n) (Fin n) ℝ) (B : Matrix (Fin n) (Fin m) ℝ) (C : Matrix (Fin p) (Fin n) ℝ) (D : Matrix (Fin p) (Fin m) ℝ),
        T = stateOf A B C D G.dt ∧ MotionsVanish G.dt A ∧
        ∀ (L : Type) [Field L] [Algebra ℝ L] (s : L) (M : Matrix (Fin p) (Fin m) L), HasVal G p m s M →
          IsTF (A.map (algebraMap ℝ L)) (B.map (algebraMap ℝ L)) (C.map (algebraMap ℝ L)) (D.map (algebraMap ℝ L)) s M) := by
  obtain ⟨T, e1, e2, e3, e4, e5⟩ := t2s_stable (E := E) hbal hthr htol hG hroots
  have hf : (StateObj.built N T).isstable = true := (flag_motions (T := StateObj.built N T) hN hR (recalc_current N _).1 (recalc_current N _).2 e3).mpr e4
  refine ⟨T, e1, hf, fun L _ _ s M => e5 s M, ?_⟩
  by_cases hg : T.isgain = true
  · exact Or.inl hg
  rw [Bool.not_eq_true] at hg
  right
  obtain ⟨n, A, B, C, D, hT, hA⟩ := stable_parts hN hR (S := StateObj.built N T) (recalc_current N _).1 (recalc_current N _).2 e3 hf hg
  change T = _ at hT
  change MotionsVanish T.dt A at hA
  rw [show (StateObj.built N T).g.dt = T.dt from rfl, e2] at hT
  rw [e2] at hA
  subst hT
  refine ⟨n, A, B, C, D, rfl, hA, fun L _ _ s M hM => ?_⟩
  rcases e5 s M hM with ⟨h, -⟩ | ⟨-, n', A', B', C', D', hA', hB', hC', hD', hM⟩
  · cases h
  · obtain rfl : n = n' := congrArg Arr.r hA'
    obtain rfl := Arr.of_inj.mp hA'
    obtain rfl := Arr.of_inj.mp hB'
    obtain rfl := Arr.of_inj.mp hC'
    obtain rfl := Arr.of_inj.mp hD'
    exact hM

/-- A stable `Transfer` model that is not constant is converted to a stable model with states. -/
theorem t2s_built {N : Numerics ℝ ℂ} (hN : EigExact N) (hR : RegionExact N) (hbal : ∀ polys i, E.bal polys i ≠ 0) (hthr : E.lcmTol ≤ 1) (htol : ClearModel E.lcmTol E.remTol G)
    (hG : Normal G p m Nn Dn) (hroots : ∀ i j (s : ℂ), polyAt s (Dn i j) = 0 → StablePoint G.dt s)
    (hne : ∃ (s s' : ℝ) (M M' : Matrix (Fin p) (Fin m) ℝ), HasVal G p m s M ∧ HasVal G p m s' M' ∧ M ≠ M') :
    ∃ (n : ℕ) (A : Matrix (Fin n) (Fin n) ℝ) (B : Matrix (Fin n) (Fin m) ℝ) (C : Matrix (Fin p) (Fin n) ℝ) (D : Matrix (Fin p) (Fin m) ℝ), 0 < n ∧
      transferToState E G = .ok (stateOf A B C D G.dt) ∧ MotionsVanish G.dt A ∧ (StateObj.built N (stateOf A B C D G.dt)).isstable = true ∧
      ∀ (L : Type) [Field L] [Algebra ℝ L] (s : L) (M : Matrix (Fin p) (Fin m) L), HasVal G p m s M →
        IsTF (A.map (algebraMap ℝ L)) (B.map (algebraMap ℝ L)) (C.map (algebraMap ℝ L)) (D.map (algebraMap ℝ L)) s M := by
  obtain ⟨T, e1, hf, e5, hg | ⟨n, A, B, C, D, rfl, hA, tf⟩⟩ := t2s_core (N := N) hN hR hbal hthr htol hG hroots
  · obtain ⟨s, s', M, M', hM, hM', hne⟩ := hne
    rcases e5 ℝ s M hM with ⟨-, D, hD, rfl⟩ | ⟨h, -⟩
    · rcases e5 ℝ s' M' hM' with ⟨-, D', hD', rfl⟩ | ⟨h, -⟩
      · rw [hD, Arr.of_inj] at hD'
        exact absurd (by rw [hD']) hne
      · rw [hg] at h; cases h
    · rw [hg] at h; cases h
  · obtain ⟨s, s', M, M', hM, hM', hne⟩ := hne
    refine ⟨n, A, B, C, D, ?_, e1, hA, hf, tf⟩
    rcases Nat.eq_zero_or_pos n with rfl | h
    · exfalso
      apply hne
      rw [(isTF_real.mp (tf ℝ s M hM)).2, (isTF_real.mp (tf ℝ s' M' hM')).2]
      unfold tfReal
      congr 1
    · exact h

/-- **C96** for the 2-norm of `Transfer` models: the norm of a model that is not constant and has stable denominators is that of every stable `State` model with states, the same values and the same
sampling period. Missing from the full claim: exact arithmetic, static models. -/
theorem C96_h2_transfer_partial {N : Numerics ℝ ℂ} (hN : EigExact N) (hR : RegionExact N) {L : LyapNum ℝ} (hL : ∀ {n : ℕ} (A : Matrix (Fin n) (Fin n) ℝ), SchurOk L A) (X0 : Wk ℝ) (close : ℝ)
    (F : HinfNum) (eigTol : ℝ) (hbal : ∀ polys i, E.bal polys i ≠ 0) (hthr : E.lcmTol ≤ 1) (htol : ClearModel E.lcmTol E.remTol G) (hG : Normal G p m Nn Dn)
    (hroots : ∀ i j (s : ℂ), polyAt s (Dn i j) = 0 → StablePoint G.dt s) (hne : ∃ (s s' : ℝ) (M M' : Matrix (Fin p) (Fin m) ℝ), HasVal G p m s M ∧ HasVal G p m s' M' ∧ M ≠ M')
    {a b c d : Option (Arr ℝ)} {S : StateObj ℝ ℂ} (hi : StateObj.init N a b c d G.dt = .ok S) (hc : Consistent S.g p m) (hs : S.isstable = true) (h0 : S.g.isgain = false ∧ 0 < S.g.a.r)
    (hval : ∀ᶠ s : ℝ in atTop, ∀ M M' : Matrix (Fin p) (Fin m) ℝ, HasVal G p m s M → HasTF S.g p m s M' → M = M') :
    systemNormTransfer E N L X0 close F eigTol G .two = systemNorm L X0 close F eigTol S .two := by
  obtain ⟨n, A, B, C, D, hn, e1, hA, hf, tf⟩ := t2s_built hN hR hbal hthr htol hG hroots hne
  obtain ⟨n', A', B', C', D', hS', hA'⟩ := stable_parts hN hR (C14_poles_zeros N hi []) (C14_flag_partial N hi [] (by simp)) hc hs h0.1
  change MotionsVanish S.g.dt A' at hA'
  have hdt : S.g.dt = G.dt := by
    obtain ⟨g, hg, h⟩ := bind_ok hi
    injection h with h
    rw [← h]
    exact (C12_consistent _ _ _ _ _ _ hg).2.2.1
  change S.g = stateOf A' B' C' D' S.g.dt at hS'
  rw [hdt] at hS' hA'
  have htf : SameTF (stateOf A B C D G.dt) (stateOf A' B' C' D' G.dt) p m := by
    rw [hS'] at hval
    filter_upwards [hval, eventually_hasVal hG, eventually_det A] with s h1 h2 h3 M M' hM hM'
    rw [← h1 _ _ h2.2 hM']
    exact HasTF_unique hM (Or.inr ⟨rfl, n, A, B, C, D, rfl, rfl, rfl, rfl, tf ℝ s _ h2.2⟩)
  have hn' : 0 < n' := by have := h0.2; rw [hS'] at this; exact this
  unfold systemNormTransfer systemNorm
  simp only [e1, Bind.bind, Except.bind]
  exact norm2_same hL X0 close rfl hS' hn hn' hf hs hA hA' (markov_same htf)

/-- The weights of the converted model are the expansion of the quotients. -/
theorem weights_diffEq (hG : Normal G p m Nn Dn) {A : Matrix (Fin n) (Fin n) ℝ} {B : Matrix (Fin n) (Fin m) ℝ} {C : Matrix (Fin p) (Fin n) ℝ} {D : Matrix (Fin p) (Fin m) ℝ}
    (tf : ∀ (s : ℝ) (M : Matrix (Fin p) (Fin m) ℝ), HasVal G p m s M → IsTF (A.map (algebraMap ℝ ℝ)) (B.map (algebraMap ℝ ℝ)) (C.map (algebraMap ℝ ℝ)) (D.map (algebraMap ℝ ℝ)) s M)
    (i : Fin p) (j : Fin m) : DiffEq (Nn i j) (Dn i j) (fun k => if k = 0 then 1 else 0) fun k => markov A B C D k i j := by
  have h1 : ∀ᶠ s : ℝ in atTop, tfReal A B C D s i j * polyAt s (Dn i j) = polyAt s (Nn i j) := by
    filter_upwards [eventually_hasVal hG] with s hs
    have := (isTF_real.mp (tf s _ hs.2)).2
    rw [← this, Matrix.of_apply, div_mul_cancel₀ _ (hs.1 i j)]
  obtain ⟨l, hl⟩ : ∃ l, (Dn i j).length = l + 1 := by
    have := hG.lead i j
    cases hD : Dn i j with
    | nil => rw [hD] at this; simp at this
    | cons a b => exact ⟨_, rfl⟩
  have hpl : (padNum (Nn i j) (Dn i j)).length = l + 1 := by
    have := hG.causal i j
    simp [padNum]; omega
  have hz : ∀ (q : List ℝ) i, q.length = l + 1 → l < i → q.getD i 0 = 0 := fun q i hq hi => List.getD_eq_default _ _ (by omega)
  intro k
  have hs : ∑ r ∈ Finset.range (k + 1), (padNum (Nn i j) (Dn i j)).getD r 0 * (if k - r = 0 then (1 : ℝ) else 0) = (padNum (Nn i j) (Dn i j)).getD k 0 := by
    rw [Finset.sum_eq_single k (fun r hr hne => by rw [if_neg (by have := Finset.mem_range.mp hr; omega), mul_zero]) (fun h => absurd (Finset.mem_range.mpr k.lt_succ_self) h),
      Nat.sub_self, if_pos rfl, mul_one]
  refine Eq.trans ?_ hs.symm
  refine markov_recursion (l := l) (a := fun r => (Dn i j).getD r 0) (b := fun r => (padNum (Nn i j) (Dn i j)).getD r 0) (fun r hr => hz _ r hl hr) i j k (fun r hr => hz _ r hpl hr) ?_
  filter_upwards [h1] with s hs
  rwa [← polyAt_pad (num := Nn i j) (den := Dn i j), polyAt_decr, polyAt_decr, hl, hpl] at hs

/-- **C96** for the 2-norm of discrete time `Transfer` models, in terms of the numerators and denominators: the result is the square root of the energy of the impulse responses, the solutions of the
difference equations of the channels for a unit pulse. Missing from the full claim: exact arithmetic; feedthrough above the tolerance, see `C55_discrete_feedthrough_violated`; static models. -/
theorem C96_h2_discrete_partial {N : Numerics ℝ ℂ} (hN : EigExact N) (hR : RegionExact N) {L : LyapNum ℝ} (hL : ∀ {n : ℕ} (A : Matrix (Fin n) (Fin n) ℝ), SchurOk L A) (X0 : Wk ℝ) (close : ℝ)
    (F : HinfNum) (eigTol : ℝ) (hbal : ∀ polys i, E.bal polys i ≠ 0) (hthr : E.lcmTol ≤ 1) (htol : ClearModel E.lcmTol E.remTol G) (hG : Normal G p m Nn Dn) {dt : ℝ} (hdt : G.dt = some dt)
    (hroots : ∀ i j (s : ℂ), polyAt s (Dn i j) = 0 → ‖s‖ < 1) (hne : ∃ (s s' : ℝ) (M M' : Matrix (Fin p) (Fin m) ℝ), HasVal G p m s M ∧ HasVal G p m s' M' ∧ M ≠ M')
    {h : ℕ → Matrix (Fin p) (Fin m) ℝ} (hh : ∀ i j, DiffEq (Nn i j) (Dn i j) (fun k => if k = 0 then 1 else 0) fun k => h k i j) (h0 : ∀ i j, |h 0 i j| ≤ close) :
    ∃ x, systemNormTransfer E N L X0 close F eigTol G .two = .ok (.fin x) ∧ 0 ≤ x ∧ HasSum (fun k => fro2 (h k)) (x ^ 2) := by
  obtain ⟨n, A, B, C, D, hn, e1, hA, hf, tf⟩ := t2s_built hN hR hbal hthr htol hG (by rw [hdt]; simpa [StablePoint] using hroots) hne
  have hw : ∀ k, h k = markov A B C D k := by
    intro k
    ext i j
    exact diffEq_unique (hG.lead i j) (hh i j) (weights_diffEq hG (tf ℝ) i j) k
  rw [hdt] at hA
  obtain ⟨x, k1, k2, k3⟩ := C55_discrete_partial L X0 close (StateObj.built N (stateOf A B C D G.dt)) A B C D dt (by rw [hdt]; rfl) hn (hL _) hf (schur_iff_motions.mpr hA)
    (by intro i j; have := h0 i j; rwa [hw 0] at this)
  refine ⟨x, ?_, k2, ?_⟩
  · unfold systemNormTransfer
    simp only [e1, Bind.bind, Except.bind]
    exact k1
  · have e : (fun k => fro2 (h k)) = fun k => fro2 (dimpulse A B C D k) := by
      funext k
      rw [hw k]
      cases k <;> rfl
    rw [e]
    exact k3

/-- **C96** for the 2-norm of continuous time `Transfer` models, in terms of the numerators and denominators: with `h` the expansion of the quotients at infinity (`h 0` is the feedthrough), the
impulse response is the function with the Taylor coefficients `h 1, h 2, h 3 / 2!, ...`; the result is the square root of its energy. Missing from the full claim: exact arithmetic; feedthrough below
the tolerance is neglected, see `C55_continuous_feedthrough_violated`; static models. -/
theorem C96_h2_continuous_partial {N : Numerics ℝ ℂ} (hN : EigExact N) (hR : RegionExact N) {L : LyapNum ℝ} (hL : ∀ {n : ℕ} (A : Matrix (Fin n) (Fin n) ℝ), SchurOk L A) (X0 : Wk ℝ) (close : ℝ)
    (F : HinfNum) (eigTol : ℝ) (hbal : ∀ polys i, E.bal polys i ≠ 0) (hthr : E.lcmTol ≤ 1) (htol : ClearModel E.lcmTol E.remTol G) (hG : Normal G p m Nn Dn) (hdt : G.dt = none)
    (hroots : ∀ i j (s : ℂ), polyAt s (Dn i j) = 0 → s.re < 0) (hne : ∃ (s s' : ℝ) (M M' : Matrix (Fin p) (Fin m) ℝ), HasVal G p m s M ∧ HasVal G p m s' M' ∧ M ≠ M')
    {h : ℕ → Matrix (Fin p) (Fin m) ℝ} (hh : ∀ i j, DiffEq (Nn i j) (Dn i j) (fun k => if k = 0 then 1 else 0) fun k => h k i j) (h0 : ∀ i j, |h 0 i j| ≤ close) :
    ∃ (x : ℝ) (y : ℝ → Matrix (Fin p) (Fin m) ℝ), systemNormTransfer E N L X0 close F eigTol G .two = .ok (.fin x) ∧ 0 ≤ x ∧
      (∀ t i j, HasSum (fun r : ℕ => t ^ r / r.factorial * h (r + 1) i j) (y t i j)) ∧ Tendsto (fun T : ℝ => ∫ t in 0..T, fro2 (y t)) atTop (𝓝 (x ^ 2)) := by
  obtain ⟨n, A, B, C, D, hn, e1, hA, hf, tf⟩ := t2s_built hN hR hbal hthr htol hG (by rw [hdt]; simpa [StablePoint] using hroots) hne
  have hw : ∀ k, h k = markov A B C D k := by
    intro k
    ext i j
    exact diffEq_unique (hG.lead i j) (hh i j) (weights_diffEq hG (tf ℝ) i j) k
  rw [hdt] at hA
  obtain ⟨x, k1, k2, k3⟩ := C55_continuous_partial L X0 close (StateObj.built N (stateOf A B C D G.dt)) A B C D (by rw [hdt]; rfl) hn (hL _) hf (hurwitz_iff_motions.mpr hA)
    (by intro i j; have := h0 i j; rwa [hw 0] at this)
  refine ⟨x, fun t => C * NormedSpace.exp (t • A) * B, ?_, k2, fun t i j => ?_, k3⟩
  · unfold systemNormTransfer
    simp only [e1, Bind.bind, Except.bind]
    exact k1
  · simp only [hw]
    exact hasSum_impulse A B C t i j

/-- **C96**, the infinite results: the norm of a model with feedthrough above the tolerance is infinite. -/
theorem C96_feedthrough_partial {N : Numerics ℝ ℂ} {L : LyapNum ℝ} (X0 : Wk ℝ) (close : ℝ)
    (F : HinfNum) (eigTol : ℝ) (hbal : ∀ polys i, E.bal polys i ≠ 0) (hthr : E.lcmTol ≤ 1) (htol : ClearModel E.lcmTol E.remTol G) (hG : Normal G p m Nn Dn)
    {H : Matrix (Fin p) (Fin m) ℝ} (hH : AtInfinity Nn Dn H) {i : Fin p} {j : Fin m} (hij : close < |H i j|) :
    systemNormTransfer E N L X0 close F eigTol G .two = .ok .inf := by
  obtain ⟨T, H', e1, -, e3, e4, -⟩ := t2s_parts (E := E) hbal hthr htol hG
  obtain rfl : H = H' := by
    ext i j
    exact tendsto_nhds_unique (hH i j) (e4 i j)
  unfold systemNormTransfer
  simp only [e1, Bind.bind, Except.bind]
  rw [C55_infinite_partial]
  right
  change ∃ i j, close < |T.d.m i j|
  rw [e3]
  exact ⟨i, j, hij⟩

/-- **C96**, the infinite results: both norms of a model with a pole outside the stability region (a zero of a denominator that is not one of its numerator) are infinite. -/
theorem C96_unstable_partial {N : Numerics ℝ ℂ} (hN : EigExact N) (hR : RegionExact N) {L : LyapNum ℝ} (X0 : Wk ℝ) (close : ℝ)
    (F : HinfNum) (eigTol : ℝ) (hbal : ∀ polys i, E.bal polys i ≠ 0) (hthr : E.lcmTol ≤ 1) (htol : ClearModel E.lcmTol E.remTol G) (hG : Normal G p m Nn Dn)
    {i : Fin p} {j : Fin m} {z : ℂ} (hz : polyAt z (Dn i j) = 0) (hz' : polyAt z (Nn i j) ≠ 0) (hns : ¬ StablePoint G.dt z) :
    systemNormTransfer E N L X0 close F eigTol G .two = .ok .inf ∧ systemNormTransfer E N L X0 close F eigTol G .inf = .ok .inf := by
  obtain ⟨T, H, e1, e2, -, -, e5, -, e7⟩ := t2s_parts (E := E) hbal hthr htol hG
  have key : (StateObj.built N T).isstable = false := by
    by_contra hst
    rw [Bool.not_eq_false] at hst
    have hm := (flag_motions (T := StateObj.built N T) hN hR (recalc_current N _).1 (recalc_current N _).2 e5).mp hst
    have hm : StableModel T := hm
    obtain ⟨a, b, c, D, dt', hT⟩ | ⟨n, A, B, C, D, dt', hT⟩ := consistent_cases e5
    · have e : toPoly (Nn i j) = Polynomial.C (D i j) * toPoly (Dn i j) := by
        refine poly_eq_of_eventually ?_
        filter_upwards [eventually_hasVal hG] with s hs
        rcases e7 s _ hs.2 with ⟨-, D', hD', hM⟩ | ⟨h, -⟩
        · rw [hT] at hD'
          obtain rfl := Arr.of_inj.mp hD'
          have := congrFun (congrFun hM i) j
          rw [Matrix.of_apply, div_eq_iff (hs.1 i j)] at this
          simpa [polyAt, Polynomial.aeval_def] using this
        · rw [hT] at h; cases h
      apply hz'
      unfold polyAt at hz ⊢
      rw [e, map_mul, hz, mul_zero]
    · have e : (numPoly A (fun l => B l j) (C i) + Polynomial.C (D i j) * A.charpoly) * toPoly (Dn i j) = toPoly (Nn i j) * A.charpoly := by
        refine poly_eq_of_eventually ?_
        filter_upwards [eventually_hasVal hG] with s hs
        rcases e7 s _ hs.2 with ⟨h, -⟩ | ⟨-, n', A', B', C', D', hA', hB', hC', hD', hM⟩
        · rw [hT] at h; cases h
        · rw [hT] at hA' hB' hC' hD'
          obtain rfl : n = n' := congrArg Arr.r hA'
          obtain rfl := Arr.of_inj.mp hA'
          obtain rfl := Arr.of_inj.mp hB'
          obtain rfl := Arr.of_inj.mp hC'
          obtain rfl := Arr.of_inj.mp hD'
          have h1 := isTF_entry_aeval hM i j
          have h2 := hs.1 i j
          rw [Matrix.of_apply] at h1
          rw [Polynomial.eval_mul, Polynomial.eval_mul, ← Polynomial.coe_aeval_eq_eval]
          change _ * polyAt s (Dn i j) = polyAt s (Nn i j) * _
          rw [← h1]
          field_simp
      have e' := congrArg (Polynomial.aeval z) e
      rw [map_mul, map_mul, show Polynomial.aeval z (toPoly (Dn i j)) = 0 from hz, mul_zero] at e'
      have h3 : Polynomial.aeval z A.charpoly = 0 := (mul_eq_zero.mp e'.symm).resolve_left hz'
      rcases hm with h | ⟨n', A', hA', hm⟩
      · rw [hT] at h; cases h
      · rw [hT] at hA'
        obtain rfl : n = n' := congrArg Arr.r hA'
        obtain rfl := Arr.of_inj.mp hA'
        rw [e2] at hm
        exact hns (motions_iff.mp hm z (by unfold IsEig; rw [← aeval_charpoly]; exact h3))
  unfold systemNormTransfer
  simp only [e1, Bind.bind, Except.bind]
  exact ⟨(C55_infinite_partial L X0 close _).mpr (Or.inl key), C70_unstable F eigTol _ key⟩

/-- Any other order is refused. -/
theorem C96_order (N : Numerics ℝ ℂ) (L : LyapNum ℝ) (X0 : Wk ℝ) (close : ℝ) (F : HinfNum) (eigTol : ℝ) (G : TransferM ℝ) (S : StateObj ℝ ℂ) :
    systemNormTransfer E N L X0 close F eigTol G .other = .error .value ∧ systemNorm L X0 close F eigTol S .other = .error .value := ⟨rfl, rfl⟩

open scoped Matrix.Norms.L2Operator in
/-- **C96** for the ∞-norm of continuous time `Transfer` models, in terms of the values: a finite result is within a factor `1 + 2⁻²⁵` of the least upper bound of the largest singular values of the
transfer matrix on the imaginary axis. Missing from the full claim: the values must not be largest at infinity (the condition on the result); discrete time models, see `C70_discrete_violated`;
termination of the iteration. -/
theorem C96_hinf_transfer_partial {N : Numerics ℝ ℂ} (hN : EigExact N) (hR : RegionExact N) {L : LyapNum ℝ} (X0 : Wk ℝ) (close : ℝ) {F : HinfNum} {eigTol : ℝ} (htol0 : 0 ≤ eigTol)
    (hF : ∀ {n m p : ℕ} (A : Matrix (Fin n) (Fin n) ℝ) (B : Matrix (Fin n) (Fin m) ℝ) (C : Matrix (Fin p) (Fin n) ℝ) (D : Matrix (Fin p) (Fin m) ℝ), FreqExact F A B C D none (stateOf A B C D none))
    (hE : EigvalsExact F) (hbal : ∀ polys i, E.bal polys i ≠ 0) (hthr : E.lcmTol ≤ 1) (htol : ClearModel E.lcmTol E.remTol G) (hG : Normal G p m Nn Dn) (hm : 0 < m) (hdt : G.dt = none)
    (hroots : ∀ i j (s : ℂ), polyAt s (Dn i j) = 0 → s.re < 0) {v : ℝ} (h : systemNormTransfer E N L X0 close F eigTol G .inf = .ok (.fin v))
    (hv : ∀ H, AtInfinity Nn Dn H → ‖H.map (algebraMap ℝ ℂ)‖ * (1 + 1 / 2 ^ 26) ≤ v) :
    ∃ ν, IsLUB {g : ℝ | ∃ (ω : ℝ) (M : Matrix (Fin p) (Fin m) ℂ), HasVal G p m (Complex.I * ω) M ∧ g = ‖M‖} ν ∧ v ≤ ν * (1 + 1 / 2 ^ 25) ∧ ν ≤ v * (1 + 1 / 2 ^ 25) := by
  obtain ⟨T, e1, hf, -, hg | ⟨n, A, B, C, D, rfl, hA, tf⟩⟩ := t2s_core (N := N) hN hR hbal hthr htol hG (by rw [hdt]; simpa [StablePoint] using hroots) <;>
    unfold systemNormTransfer at h <;> simp only [e1, Bind.bind, Except.bind] at h
  · rw [C70_gain_violated F eigTol _ hf hg] at h
    cases h
  · rw [hdt] at hA h hf
    have hA := hurwitz_iff_motions.mpr hA
    have hinf : AtInfinity Nn Dn D := by
      intro i j
      refine (tendsto_pi_nhds.mp (tendsto_pi_nhds.mp (tfReal_tendsto A B C D) i) j).congr' ?_
      filter_upwards [eventually_hasVal hG] with s hs
      rw [← (isTF_real.mp (tf ℝ s _ hs.2)).2]
      rfl
    obtain ⟨ν, h1, h2⟩ := C70_hinf_partial htol0 (StateObj.built N (stateOf A B C D none)) A B C D hm rfl hf hA (hF A B C D) hE v h (hv D hinf)
    refine ⟨ν, ?_, h2⟩
    unfold IsHinf at h1
    convert h1 using 1
    ext g
    constructor
    · rintro ⟨ω, M, hM, rfl⟩
      exact ⟨ω, M, tf ℂ _ M hM, rfl⟩
    · rintro ⟨ω, M, hM, rfl⟩
      have hne : ∀ i j, polyAt (Complex.I * ω) (Dn i j) ≠ 0 := fun i j e => by
        have := hroots i j _ e
        simp at this
      have hV : HasVal G p m (Complex.I * ω) (Matrix.of fun i j => polyAt (Complex.I * ω) (Nn i j) / polyAt (Complex.I * ω) (Dn i j)) := ⟨Nn, Dn, hG.num, hG.den, fun i j => ⟨hne i j, rfl⟩⟩
      refine ⟨ω, _, hV, ?_⟩
      have := tf ℂ _ _ hV
      rw [hM.2, this.2]
      rfl

open scoped Matrix.Norms.L2Operator in
/-- **C96** for the ∞-norm of `State` models: finite results for two stable continuous time models with the same transfer function agree up to the tolerance of the iteration. Missing from the full
claim: as for `C96_hinf_transfer_partial`. -/
theorem C96_hinf_realization_partial {N : Numerics ℝ ℂ} (hN : EigExact N) (hR : RegionExact N) {L : LyapNum ℝ} (X0 : Wk ℝ) (close : ℝ) {F : HinfNum} {eigTol : ℝ} (htol0 : 0 ≤ eigTol)
    (hF : ∀ {n m p : ℕ} (A : Matrix (Fin n) (Fin n) ℝ) (B : Matrix (Fin n) (Fin m) ℝ) (C : Matrix (Fin p) (Fin n) ℝ) (D : Matrix (Fin p) (Fin m) ℝ), FreqExact F A B C D none (stateOf A B C D none))
    (hE : EigvalsExact F) (hm : 0 < m) {a b c d a' b' c' d' : Option (Arr ℝ)} {S S' : StateObj ℝ ℂ} (hi : StateObj.init N a b c d none = .ok S)
    (hi' : StateObj.init N a' b' c' d' none = .ok S') (hc : Consistent S.g p m) (hc' : Consistent S'.g p m) (hs : S.isstable = true) (hs' : S'.isstable = true)
    (htf : SameTF S.g S'.g p m) {v v' : ℝ} (h : systemNorm L X0 close F eigTol S .inf = .ok (.fin v)) (h' : systemNorm L X0 close F eigTol S' .inf = .ok (.fin v'))
    (hv : ∀ D : Matrix (Fin p) (Fin m) ℝ, S.g.d = Arr.of D → ‖D.map (algebraMap ℝ ℂ)‖ * (1 + 1 / 2 ^ 26) ≤ v)
    (hv' : ∀ D : Matrix (Fin p) (Fin m) ℝ, S'.g.d = Arr.of D → ‖D.map (algebraMap ℝ ℂ)‖ * (1 + 1 / 2 ^ 26) ≤ v') :
    v ≤ v' * (1 + 1 / 2 ^ 25) ^ 2 ∧ v' ≤ v * (1 + 1 / 2 ^ 25) ^ 2 := by
  have d1 : ∀ {a b c d : Option (Arr ℝ)} {S : StateObj ℝ ℂ}, StateObj.init N a b c d none = .ok S → S.g.dt = none := fun h => by
    obtain ⟨g, hg, h⟩ := bind_ok h
    injection h with h
    rw [← h]
    exact (C12_consistent _ _ _ _ _ _ hg).2.2.1
  have h0 : ∀ {S : StateObj ℝ ℂ} {v : ℝ}, S.isstable = true → systemNorm L X0 close F eigTol S .inf = .ok (.fin v) → S.g.isgain = false := by
    intro S v hs h
    by_contra hg
    rw [Bool.not_eq_false] at hg
    have h : systemNormInf F eigTol S = .ok (.fin v) := h
    rw [C70_gain_violated F eigTol S hs hg] at h
    cases h
  obtain ⟨n, A, B, C, D, hS, hA⟩ := stable_parts hN hR (C14_poles_zeros N hi []) (C14_flag_partial N hi [] (by simp)) hc hs (h0 hs h)
  obtain ⟨n', A', B', C', D', hS', hA'⟩ := stable_parts hN hR (C14_poles_zeros N hi' []) (C14_flag_partial N hi' [] (by simp)) hc' hs' (h0 hs' h')
  change S.g = stateOf A B C D S.g.dt at hS
  change S'.g = stateOf A' B' C' D' S'.g.dt at hS'
  change MotionsVanish S.g.dt A at hA
  change MotionsVanish S'.g.dt A' at hA'
  rw [d1 hi] at hS hA
  rw [d1 hi'] at hS' hA'
  have hA := hurwitz_iff_motions.mpr hA
  have hA' := hurwitz_iff_motions.mpr hA'
  rw [hS, hS'] at htf
  obtain ⟨ν, h1, h2, h3⟩ := C70_hinf_partial htol0 S A B C D hm hS hs hA (by rw [hS]; exact hF A B C D) hE v h (hv D (by rw [hS]))
  obtain ⟨ν', h1', h2', h3'⟩ := C70_hinf_partial htol0 S' A' B' C' D' hm hS' hs' hA' (by rw [hS']; exact hF A' B' C' D') hE v' h' (hv' D' (by rw [hS']))
  have e : {g | ∃ ω, IsGainAt A B C D none ω g} = {g | ∃ ω, IsGainAt A' B' C' D' none ω g} := by
    ext g
    constructor
    · rintro ⟨ω, M, hM, rfl⟩
      have hM' : IsTF (A'.map (algebraMap ℝ ℂ)) (B'.map (algebraMap ℝ ℂ)) (C'.map (algebraMap ℝ ℂ)) (D'.map (algebraMap ℝ ℂ)) (evalPoint none ω) _ := ⟨hurwitz_axis hA' ω, rfl⟩
      exact ⟨ω, _, hM', by rw [tf_same_complex htf hM hM']⟩
    · rintro ⟨ω, M, hM, rfl⟩
      have hM' : IsTF (A.map (algebraMap ℝ ℂ)) (B.map (algebraMap ℝ ℂ)) (C.map (algebraMap ℝ ℂ)) (D.map (algebraMap ℝ ℂ)) (evalPoint none ω) _ := ⟨hurwitz_axis hA ω, rfl⟩
      exact ⟨ω, _, hM', by rw [tf_same_complex htf hM' hM]⟩
  unfold IsHinf at h1 h1'
  rw [e] at h1
  obtain rfl := h1.unique h1'
  constructor <;> nlinarith

/-- The numerical routines of `C96_hinf_transfer_partial` exist. -/
theorem exists_hinfNum : ∃ F : HinfNum, (∀ {n m p : ℕ} (A : Matrix (Fin n) (Fin n) ℝ) (B : Matrix (Fin n) (Fin m) ℝ) (C : Matrix (Fin p) (Fin n) ℝ) (D : Matrix (Fin p) (Fin m) ℝ) (dt : Option ℝ),
    FreqExact F A B C D dt (stateOf A B C D dt)) ∧ EigvalsExact F := by
  classical
  refine ⟨⟨fun G w => if h : ∃ (n m p : ℕ) (A : Matrix (Fin n) (Fin n) ℝ) (B : Matrix (Fin n) (Fin m) ℝ) (C : Matrix (Fin p) (Fin n) ℝ) (D : Matrix (Fin p) (Fin m) ℝ), G = stateOf A B C D G.dt then
    (exactNum h.choose_spec.choose_spec.choose_spec.choose h.choose_spec.choose_spec.choose_spec.choose_spec.choose h.choose_spec.choose_spec.choose_spec.choose_spec.choose_spec.choose
      h.choose_spec.choose_spec.choose_spec.choose_spec.choose_spec.choose_spec.choose G.dt).freq G w else .error .value,
    (exactNum (0 : Matrix (Fin 0) (Fin 0) ℝ) (0 : Matrix (Fin 0) (Fin 0) ℝ) (0 : Matrix (Fin 0) (Fin 0) ℝ) (0 : Matrix (Fin 0) (Fin 0) ℝ) none).eig⟩, ?_,
    exactNum_eig (0 : Matrix (Fin 0) (Fin 0) ℝ) (0 : Matrix (Fin 0) (Fin 0) ℝ) (0 : Matrix (Fin 0) (Fin 0) ℝ) (0 : Matrix (Fin 0) (Fin 0) ℝ) none⟩
  intro n m p A B C D dt
  have h : ∃ (n' m' p' : ℕ) (A' : Matrix (Fin n') (Fin n') ℝ) (B' : Matrix (Fin n') (Fin m') ℝ) (C' : Matrix (Fin p') (Fin n') ℝ) (D' : Matrix (Fin p') (Fin m') ℝ),
    stateOf A B C D dt = stateOf A' B' C' D' (stateOf A B C D dt).dt := ⟨n, m, p, A, B, C, D, rfl⟩
  have key : ∀ w, (exactNum h.choose_spec.choose_spec.choose_spec.choose h.choose_spec.choose_spec.choose_spec.choose_spec.choose h.choose_spec.choose_spec.choose_spec.choose_spec.choose_spec.choose
      h.choose_spec.choose_spec.choose_spec.choose_spec.choose_spec.choose_spec.choose dt).freq (stateOf A B C D dt) w = (exactNum A B C D dt).freq (stateOf A B C D dt) w := by
    intro w
    have hs := h.choose_spec.choose_spec.choose_spec.choose_spec.choose_spec.choose_spec.choose_spec
    generalize h.choose_spec.choose_spec.choose_spec.choose_spec.choose_spec.choose_spec.choose = D' at *
    generalize h.choose_spec.choose_spec.choose_spec.choose_spec.choose_spec.choose = C' at *
    generalize h.choose_spec.choose_spec.choose_spec.choose_spec.choose = B' at *
    generalize h.choose_spec.choose_spec.choose_spec.choose = A' at *
    generalize h.choose_spec.choose_spec.choose = p' at *
    generalize h.choose_spec.choose = m' at *
    generalize h.choose = n' at *
    injection hs with k1 k2 k3 k4
    obtain rfl : n = n' := congrArg Arr.r k1
    obtain rfl : m = m' := congrArg Arr.c k2
    obtain rfl : p = p' := congrArg Arr.r k3
    obtain rfl := Arr.of_inj.mp k1
    obtain rfl := Arr.of_inj.mp k2
    obtain rfl := Arr.of_inj.mp k3
    obtain rfl := Arr.of_inj.mp k4
    rfl
  have hx := exactNum_freq A B C D dt (stateOf A B C D dt)
  refine ⟨fun e w => ?_, fun t e w hw hw' => ?_, fun t e => ?_⟩
  · rw [← hx.cont e w, ← key w]
    exact dif_pos h
  · rw [← hx.disc t e w hw hw', ← key w]
    exact dif_pos h
  · rw [← hx.empty t e, ← key []]
    exact dif_pos h

/-! ## Examples -/

/-- `1 / (s + 1)`. -/
def recipLag (dt : Option ℝ) (a : ℝ) : TransferM ℝ := ⟨constArr 1 1 [1], constArr 1 1 [1, a], false, dt⟩

theorem recipLag_mk (E : TNum ℝ) {dt : Option ℝ} (hdt : DtOk dt) (a : ℝ) : mkTransfer E (.vec [1]) (.vec [1, a]) dt = .ok (recipLag dt a) := by
  have := mkTransfer_siso_ok E (a := [1]) (b := [1, a]) (dt := dt) hdt (by simp) (by simp) (Or.inr ⟨1, [], rfl, one_ne_zero⟩) (by simp)
  rw [this]
  simp [recipLag]

theorem recipLag_normal {dt : Option ℝ} (hdt : DtOk dt) (a : ℝ) : Normal (recipLag dt a) 1 1 (Matrix.of fun _ _ => [1]) (Matrix.of fun _ _ => [1, a]) :=
  ⟨⟨one_pos, one_pos⟩, rfl, rfl, fun _ _ => Or.inr ⟨1, [], rfl, one_ne_zero⟩, fun _ _ => by simp, fun _ _ => by simp, by simp [recipLag], hdt⟩

theorem recipLag_clear {E : TNum ℝ} (hl : E.lcmTol ≤ 1) (hr : E.remTol ≤ 1) (dt : Option ℝ) (a : ℤ) : ClearModel E.lcmTol E.remTol (recipLag dt a) :=
  clearModel_int hl hr (N := Matrix.of fun (_ _ : Fin 1) => [1]) (D := Matrix.of fun (_ _ : Fin 1) => [1, (a : ℝ)]) rfl rfl (fun _ _ => [1]) (fun _ _ => [1, a]) (by simp) (by simp) (by simp)

theorem recipLag_val {dt : Option ℝ} {a s : ℝ} (h : s + a ≠ 0) : HasVal (recipLag dt a) 1 1 s (!![1 / (s + a)] : Matrix (Fin 1) (Fin 1) ℝ) := by
  refine ⟨Matrix.of fun _ _ => [1], Matrix.of fun _ _ => [1, a], rfl, rfl, fun i j => ⟨?_, ?_⟩⟩
  · simpa [polyAt, toPoly] using h
  · fin_cases i; fin_cases j
    simp [polyAt, toPoly]

theorem recipLag_ne (dt : Option ℝ) (a : ℝ) :
    ∃ (s s' : ℝ) (M M' : Matrix (Fin 1) (Fin 1) ℝ), HasVal (recipLag dt a) 1 1 s M ∧ HasVal (recipLag dt a) 1 1 s' M' ∧ M ≠ M' := by
  refine ⟨1 - a, 2 - a, _, _, recipLag_val (by norm_num), recipLag_val (by norm_num), fun h => ?_⟩
  have := congrFun (congrFun h 0) 0
  norm_num at this

theorem lagS_parts {N : Numerics ℝ ℂ} (hN : EigExact N) (hR : RegionExact N) : (lagS N (-1) none).isstable = true ∧ Consistent (lagS N (-1) none).g 1 1 ∧
    (lagS N (-1) none).g = stateOf !![-1] !![1] !![1] !![0] none :=
  ⟨(C92_constructed hN hR (lagS_init N (-1) dtOk_none) rfl).mpr (hurwitz_iff_motions.mp (one_state_hurwitz (by norm_num))), ⟨⟨rfl, rfl⟩, fun _ => ⟨rfl, rfl, rfl, rfl, rfl⟩⟩, rfl⟩

theorem lagS_val {dt : Option ℝ} {s : ℝ} {M : Matrix (Fin 1) (Fin 1) ℝ} (hs : 0 < s) (h : HasTF (stateOf !![-1] !![1] !![1] !![0] dt) 1 1 s M) : M = !![1 / (s + 1)] := by
  refine HasTF_unique h (Or.inr ⟨rfl, 1, !![-1], !![1], !![1], !![0], rfl, rfl, rfl, rfl, ?_⟩)
  have e : s - -1 ≠ 0 := by linarith
  refine ⟨by simpa using e, ?_⟩
  ext i j
  fin_cases i; fin_cases j
  simp [Matrix.inv_def, Matrix.adjugate_fin_one, Matrix.mul_apply]

/-- `system_norm(Transfer(1, [1, 1]))` is `system_norm(State(-1, 1, 1, 0))`. -/
example {E : TNum ℝ} (hbal : ∀ polys i, E.bal polys i ≠ 0) (hl : E.lcmTol ≤ 1) (hr : E.remTol ≤ 1) (X0 : Wk ℝ) (close : ℝ) (F : HinfNum) (eigTol : ℝ) : ∃ (N : Numerics ℝ ℂ) (L : LyapNum ℝ) (S : StateObj ℝ ℂ),
    StateObj.init N (some (Arr.of !![-1])) (some (Arr.of !![1])) (some (Arr.of !![1])) (some (Arr.of !![0])) none = .ok S ∧
    systemNormTransfer E N L X0 close F eigTol (recipLag none 1) .two = systemNorm L X0 close F eigTol S .two := by
  obtain ⟨N, -, hN, hR, -⟩ := exists_pole_numerics
  obtain ⟨L, -, hL, -⟩ := exists_lyapNum
  have hi := lagS_init N (-1) (dt := none) dtOk_none
  obtain ⟨h1, h2, h3⟩ := lagS_parts hN hR
  generalize lagS N (-1) none = S at hi h1 h2 h3
  refine ⟨N, L, S, hi, C96_h2_transfer_partial hN hR hL X0 close F eigTol hbal hl (by simpa using recipLag_clear hl hr none 1) (recipLag_normal dtOk_none 1) ?_ (recipLag_ne none 1) hi h2 h1
    (by rw [h3]; exact ⟨rfl, one_pos⟩) ?_⟩
  · intro i j s hs
    have e : s + 1 = 0 := by simpa [polyAt, toPoly] using hs
    rw [eq_neg_of_add_eq_zero_left e]
    simp [StablePoint, recipLag]
  · filter_upwards [eventually_gt_atTop 0] with s hs M M' hM hM'
    rw [h3] at hM'
    rw [lagS_val hs hM']
    exact hasVal_unique hM (recipLag_val (by linarith))

/-- A model with a mode that the input does not reach. -/
noncomputable def hiddenS (N : Numerics ℝ ℂ) : StateObj ℝ ℂ :=
  StateObj.recalc N ⟨⟨Arr.of !![-1, 0; 0, -2], Arr.of !![1; 0], Arr.of !![1, 3], Arr.of !![0], none, false⟩, (1, 1), none, none, 0, [], [], false⟩

theorem hiddenS_init (N : Numerics ℝ ℂ) :
    StateObj.init N (some (Arr.of !![-1, 0; 0, -2])) (some (Arr.of !![1; 0])) (some (Arr.of !![1, 3])) (some (Arr.of !![0])) none = .ok (hiddenS N) := by
  unfold StateObj.init
  rw [mkState_of dtOk_none]
  rfl

/-- `State(-1, 1, 1, 0)` and a model with another stable mode that the input does not reach have the same norm. -/
example (X0 : Wk ℝ) (close : ℝ) (F : HinfNum) (eigTol : ℝ) : ∃ (N : Numerics ℝ ℂ) (L : LyapNum ℝ) (S S' : StateObj ℝ ℂ),
    StateObj.init N (some (Arr.of !![-1])) (some (Arr.of !![1])) (some (Arr.of !![1])) (some (Arr.of !![0])) none = .ok S ∧
    StateObj.init N (some (Arr.of !![-1, 0; 0, -2])) (some (Arr.of !![1; 0])) (some (Arr.of !![1, 3])) (some (Arr.of !![0])) none = .ok S' ∧
    systemNorm L X0 close F eigTol S .two = systemNorm L X0 close F eigTol S' .two := by
  obtain ⟨N, -, hN, hR, -⟩ := exists_pole_numerics
  obtain ⟨L, -, hL, -⟩ := exists_lyapNum
  have hi := lagS_init N (-1) (dt := none) dtOk_none
  have hi' := hiddenS_init N
  obtain ⟨h1, h2, h3⟩ := lagS_parts hN hR
  have h3' : (hiddenS N).g = stateOf !![-1, 0; 0, -2] !![1; 0] !![1, 3] !![0] none := rfl
  have h2' : Consistent (hiddenS N).g 1 1 := ⟨⟨rfl, rfl⟩, fun _ => ⟨rfl, rfl, rfl, rfl, rfl⟩⟩
  have h1' : (hiddenS N).isstable = true := by
    refine (C92_constructed hN hR hi' rfl).mpr (hurwitz_iff_motions.mp ?_)
    intro z hz
    unfold IsEig at hz
    rw [Matrix.det_fin_two] at hz
    have e : (z + 1) * (z + 2) = 0 := by
      simp at hz
      rcases hz with h | h
      · rw [h]; ring
      · rw [h]; ring
    rcases mul_eq_zero.mp e with e | e
    · rw [eq_neg_of_add_eq_zero_left e]; simp
    · rw [eq_neg_of_add_eq_zero_left e]; simp
  generalize lagS N (-1) none = S at hi h1 h2 h3
  generalize hiddenS N = S' at hi' h1' h2' h3'
  refine ⟨N, L, S, S', hi, hi', C96_h2_realization_partial hN hR hL X0 close F eigTol hi hi' h2 h2' h1 h1' (by rw [h3]; exact ⟨rfl, one_pos⟩) (by rw [h3']; exact ⟨rfl, two_pos⟩) ?_⟩
  rw [h3, h3']
  unfold SameTF
  filter_upwards [eventually_gt_atTop 0] with s hs M M' hM hM'
  rw [lagS_val hs hM]
  refine HasTF_unique (Or.inr ⟨rfl, 2, !![-1, 0; 0, -2], !![1; 0], !![1, 3], !![0], rfl, rfl, rfl, rfl, ?_⟩) hM'
  have e1 : s + 1 ≠ 0 := by linarith
  have e2 : s + 2 ≠ 0 := by linarith
  have hinv : (s • (1 : Matrix (Fin 2) (Fin 2) ℝ) - (!![-1, 0; 0, -2] : Matrix (Fin 2) (Fin 2) ℝ).map (algebraMap ℝ ℝ)) * !![1 / (s + 1), 0; 0, 1 / (s + 2)] = 1 := by
    ext i j
    fin_cases i <;> fin_cases j <;> simp [Matrix.mul_apply, Fin.sum_univ_two] <;> field_simp
  refine ⟨?_, ?_⟩
  · intro h
    have := congrArg Matrix.det hinv
    rw [Matrix.det_mul, h, zero_mul, Matrix.det_one] at this
    exact zero_ne_one this
  · rw [Matrix.inv_eq_right_inv hinv]
    ext i j
    fin_cases i; fin_cases j
    simp [Matrix.mul_apply, Fin.sum_univ_two]

/-- The norm of the delay `1 / z` is one. -/
example {E : TNum ℝ} (hbal : ∀ polys i, E.bal polys i ≠ 0) (hl : E.lcmTol ≤ 1) (hr : E.remTol ≤ 1) (X0 : Wk ℝ) (F : HinfNum) (eigTol : ℝ) : ∃ (N : Numerics ℝ ℂ) (L : LyapNum ℝ),
    systemNormTransfer E N L X0 (1 / 10 ^ 8) F eigTol (recipLag (some 1) 0) .two = .ok (.fin 1) := by
  obtain ⟨N, -, hN, hR, -⟩ := exists_pole_numerics
  obtain ⟨L, -, hL, -⟩ := exists_lyapNum
  have hd : DtOk (some (1 : ℝ)) := by intro t h; cases h; norm_num
  obtain ⟨x, h1, h2, h3⟩ := C96_h2_discrete_partial hN hR hL X0 (1 / 10 ^ 8) F eigTol hbal hl (by simpa using recipLag_clear hl hr (some 1) 0) (recipLag_normal hd 0) rfl
    (fun i j s hs => by
      have e : s = 0 := by simpa [polyAt, toPoly] using hs
      rw [e]; simp) (recipLag_ne (some 1) 0) (h := fun k => if k = 1 then !![1] else !![0])
    (fun i j k => by
      fin_cases i; fin_cases j
      have e1 : ∀ l, ([1, 0] : List ℝ).getD l 0 = if l = 0 then 1 else 0 := by intro l; rcases l with _ | _ | l <;> simp
      have e2 : ∀ l, (padNum ([1] : List ℝ) [1, 0]).getD l 0 = if l = 1 then 1 else 0 := by intro l; rcases l with _ | _ | l <;> simp [padNum]
      simp only [Matrix.of_apply, e1, e2]
      rw [Finset.sum_eq_single 0 (fun r _ hr => by rw [if_neg hr, zero_mul]) (fun h => absurd (Finset.mem_range.mpr k.succ_pos) h)]
      rcases k with _ | k
      · simp
      · rw [Finset.sum_eq_single 1 (fun r _ hr => by rw [if_neg hr, zero_mul]) (fun h => absurd (Finset.mem_range.mpr (by omega)) h)]
        rcases k with _ | k <;> simp)
    (fun i j => by fin_cases i; fin_cases j; norm_num)
  refine ⟨N, L, ?_⟩
  have h4 : HasSum (fun k => fro2 ((if k = 1 then !![1] else !![0] : Matrix (Fin 1) (Fin 1) ℝ))) 1 := by
    have := hasSum_ite_eq (1 : ℕ) (1 : ℝ)
    convert this using 1
    funext k
    split_ifs <;> simp [fro2]
  have h5 : x = 1 := by
    have := h3.unique h4
    exact (sq_eq_sq₀ h2 zero_le_one).mp (by rw [this]; norm_num)
  rw [h1, h5]

/-- The hypotheses of `C96_h2_continuous_partial` are met by `1 / (s + 1) = s⁻¹ - s⁻² + s⁻³ - ...`. -/
example {E : TNum ℝ} (hbal : ∀ polys i, E.bal polys i ≠ 0) (hl : E.lcmTol ≤ 1) (hr : E.remTol ≤ 1) (X0 : Wk ℝ) (F : HinfNum) (eigTol : ℝ) : ∃ (N : Numerics ℝ ℂ) (L : LyapNum ℝ) (x : ℝ),
    systemNormTransfer E N L X0 (1 / 10 ^ 8) F eigTol (recipLag none 1) .two = .ok (.fin x) := by
  obtain ⟨N, -, hN, hR, -⟩ := exists_pole_numerics
  obtain ⟨L, -, hL, -⟩ := exists_lyapNum
  obtain ⟨x, y, h1, -⟩ := C96_h2_continuous_partial hN hR hL X0 (1 / 10 ^ 8) F eigTol hbal hl (by simpa using recipLag_clear hl hr none 1) (recipLag_normal dtOk_none 1) rfl
    (fun i j s hs => by
      have e : s + 1 = 0 := by simpa [polyAt, toPoly] using hs
      rw [eq_neg_of_add_eq_zero_left e]; simp) (recipLag_ne none 1) (h := fun k => !![if k = 0 then 0 else (-1) ^ (k - 1)])
    (fun i j k => by
      fin_cases i; fin_cases j
      have e1 : ∀ l, ([1, 1] : List ℝ).getD (l + 2) 0 = 0 := by intro l; simp
      have e2 : ∀ l, (padNum ([1] : List ℝ) [1, 1]).getD l 0 = if l = 1 then 1 else 0 := by intro l; rcases l with _ | _ | l <;> simp [padNum]
      simp only [Matrix.of_apply, e2]
      rcases k with _ | k
      · simp
      · rw [Finset.sum_range_succ', Finset.sum_range_succ', Finset.sum_eq_zero (fun r _ => by rw [e1, zero_mul]),
          Finset.sum_range_succ' (n := k + 1), Finset.sum_range_succ' (n := k), Finset.sum_eq_zero (fun r _ => by rw [if_neg (by omega), zero_mul])]
        rcases k with _ | k
        · simp
        · simp [pow_succ])
    (fun i j => by fin_cases i; fin_cases j; norm_num)
  exact ⟨N, L, x, h1⟩

/-- The norms of `1 / (s - 1)` are infinite. -/
example {E : TNum ℝ} (hbal : ∀ polys i, E.bal polys i ≠ 0) (hl : E.lcmTol ≤ 1) (hr : E.remTol ≤ 1) (X0 : Wk ℝ) (close : ℝ) (F : HinfNum) (eigTol : ℝ) : ∃ (N : Numerics ℝ ℂ) (L : LyapNum ℝ),
    systemNormTransfer E N L X0 close F eigTol (recipLag none (-1)) .two = .ok .inf ∧ systemNormTransfer E N L X0 close F eigTol (recipLag none (-1)) .inf = .ok .inf := by
  obtain ⟨N, -, hN, hR, -⟩ := exists_pole_numerics
  obtain ⟨L, -, hL, -⟩ := exists_lyapNum
  exact ⟨N, L, C96_unstable_partial hN hR X0 close F eigTol hbal hl (by simpa using recipLag_clear hl hr none (-1)) (recipLag_normal dtOk_none (-1)) (i := 0) (j := 0) (z := 1)
    (by simp [polyAt, toPoly]) (by simp [polyAt, toPoly]) (by simp [StablePoint, recipLag])⟩

/-- The 2-norm of `(s + 2) / (s + 1)` is infinite. -/
example {E : TNum ℝ} (hbal : ∀ polys i, E.bal polys i ≠ 0) (hl : E.lcmTol ≤ 1) (hr : E.remTol ≤ 1) (N : Numerics ℝ ℂ) (L : LyapNum ℝ) (X0 : Wk ℝ) (F : HinfNum) (eigTol : ℝ) : ∃ G,
    mkTransfer E (.vec [1, 2]) (.vec [1, 1]) none = .ok G ∧ systemNormTransfer E N L X0 (1 / 10 ^ 8) F eigTol G .two = .ok .inf := by
  have hmk := mkTransfer_siso_ok E (a := [1, 2]) (b := [1, 1]) (dt := none) dtOk_none (by simp) (by simp) (Or.inr ⟨1, [2], rfl, one_ne_zero⟩) (by simp)
  refine ⟨_, hmk, ?_⟩
  have hn : Normal (⟨constArr 1 1 [1, 2], constArr 1 1 [1, 1], false, none⟩ : TransferM ℝ) 1 1 (Matrix.of fun _ _ => [1, 2]) (Matrix.of fun _ _ => [1, 1]) :=
    ⟨⟨one_pos, one_pos⟩, rfl, rfl, fun _ _ => Or.inr ⟨1, [2], rfl, one_ne_zero⟩, fun _ _ => by simp, fun _ _ => by simp, by simp, dtOk_none⟩
  refine C96_feedthrough_partial X0 (1 / 10 ^ 8) F eigTol hbal hl
    (clearModel_int hl hr hn.num hn.den (fun _ _ => [1, 2]) (fun _ _ => [1, 1]) (by simp) (by simp) (by simp)) hn (H := !![1]) (fun i j => ?_) (i := 0) (j := 0) (by norm_num)
  fin_cases i; fin_cases j
  have h1 : Tendsto (fun s : ℝ => 1 + (s + 1)⁻¹) atTop (𝓝 (1 + 0)) := tendsto_const_nhds.add (tendsto_inv_atTop_zero.comp (tendsto_atTop_add_const_right _ 1 tendsto_id))
  rw [add_zero] at h1
  refine h1.congr' ?_
  filter_upwards [eventually_gt_atTop 0] with s hs
  have : s + 1 ≠ 0 := by linarith
  simp [polyAt, toPoly]
  field_simp
  ring

/-- `1 / (s + 1)` with any exact routines. -/
theorem hinf_lag_any {F : HinfNum} {S : StateObj ℝ ℂ} {b : ℝ} (hb : b * b = 1) (hS : S.g = stateOf !![-1] !![b] !![b] !![0] none) (hp : S.poles = [((-1 : ℝ) : ℂ)]) (hst : S.isstable = true)
    (hF : FreqExact F !![(-1 : ℝ)] !![b] !![b] !![(0 : ℝ)] none S.g) (hE : EigvalsExact F) : systemNormInf F (1 / 10 ^ 8) S = .ok (.fin (1 + 1 / 2 ^ 26)) := by
  rw [scalar_start hS hp hst hF (by simp)]
  have hb' : (b : ℂ) * b = 1 := by exact_mod_cast hb
  have e : ∀ z : ℂ, (b : ℂ) * z * b = z := fun z => by linear_combination z * hb'
  have h1 : ‖(b : ℂ) * (evalPoint none 0 - ((-1 : ℝ) : ℂ))⁻¹ * (b : ℂ) + ((0 : ℝ) : ℂ)‖ = 1 := by
    rw [e]
    simp [evalPoint]
  have h2 : ‖(b : ℂ) * (evalPoint none |(-1 : ℝ)| - ((-1 : ℝ) : ℂ))⁻¹ * (b : ℂ) + ((0 : ℝ) : ℂ)‖ ≤ 1 := by
    rw [e]
    simp only [evalPoint, Option.elim]
    simp
    apply inv_le_one_of_one_le₀
    have := Complex.abs_re_le_norm (Complex.I + 1)
    simpa using this
  rw [h1, max_eq_left h2, abs_zero, max_eq_left zero_le_one, hS, hinfLoop_break hE]
  · simp only [Except.bind]; congr 2; rw [gammaStep]; norm_num
  · rw [scalar_hR, gammaStep]; norm_num
  · rw [scalar_hS, gammaStep]; norm_num
  · intro z hz
    obtain rfl | rfl : b = 1 ∨ b = -1 := mul_self_eq_one_iff.mp hb
    all_goals
      rw [scalar_isEig] at hz
      rw [re_of_sq _ hz]
      · rw [gammaStep]
        apply Real.lt_sqrt_of_sq_lt
        norm_num
      · rw [gammaStep]; norm_num

theorem lag_poles {N : Numerics ℝ ℂ} (hN : EigExact N) {b : ℝ} : (StateObj.built N (stateOf !![-1] !![b] !![b] !![0] none)).poles = [((-1 : ℝ) : ℂ)] := by
  have h1 := (recalc_current N ⟨stateOf !![-1] !![b] !![b] !![0] none, (1, 1), none, none, 0, [], [], false⟩).1.1
  refine h1.trans ?_
  change N.eig (Arr.of !![-1]) = _
  have h2 := hN (!![-1] : Matrix (Fin 1) (Fin 1) ℝ)
  have h3 : (!![-1] : Matrix (Fin 1) (Fin 1) ℝ).charpoly.map (algebraMap ℝ ℂ) = (({((-1 : ℝ) : ℂ)} : Multiset ℂ).map fun z => Polynomial.X - Polynomial.C z).prod := by
    simp [Matrix.charpoly, Matrix.charmatrix]
  rw [h3, ← Multiset.prod_coe, ← Multiset.map_coe] at h2
  have h4 := congrArg Polynomial.roots h2
  rw [Polynomial.roots_multiset_prod_X_sub_C, Polynomial.roots_multiset_prod_X_sub_C] at h4
  exact Multiset.coe_eq_singleton.mp h4.symm

open scoped Matrix.Norms.L2Operator in
/-- The hypotheses of `C96_hinf_realization_partial` are met by `State(-1, 1, 1, 0)` and `State(-1, -1, -1, 0)`. -/
example (L : LyapNum ℝ) (X0 : Wk ℝ) (close : ℝ) : ∃ (N : Numerics ℝ ℂ) (F : HinfNum) (S S' : StateObj ℝ ℂ) (v v' : ℝ),
    StateObj.init N (some (Arr.of !![-1])) (some (Arr.of !![1])) (some (Arr.of !![1])) (some (Arr.of !![0])) none = .ok S ∧
    StateObj.init N (some (Arr.of !![-1])) (some (Arr.of !![-1])) (some (Arr.of !![-1])) (some (Arr.of !![0])) none = .ok S' ∧
    systemNorm L X0 close F (1 / 10 ^ 8) S .inf = .ok (.fin v) ∧ systemNorm L X0 close F (1 / 10 ^ 8) S' .inf = .ok (.fin v') ∧ v ≤ v' * (1 + 1 / 2 ^ 25) ^ 2 := by
  obtain ⟨N, -, hN, hR, -⟩ := exists_pole_numerics
  obtain ⟨F, hF, hE⟩ := exists_hinfNum
  have key : ∀ b : ℝ, b * b = 1 → ∃ S, StateObj.init N (some (Arr.of !![-1])) (some (Arr.of !![b])) (some (Arr.of !![b])) (some (Arr.of !![0])) none = .ok S ∧ Consistent S.g 1 1 ∧
      S.isstable = true ∧ S.g = stateOf !![-1] !![b] !![b] !![0] none ∧ systemNorm L X0 close F (1 / 10 ^ 8) S .inf = .ok (.fin (1 + 1 / 2 ^ 26)) := by
    intro b hb
    have hi : StateObj.init N (some (Arr.of !![-1])) (some (Arr.of !![b])) (some (Arr.of !![b])) (some (Arr.of !![0])) none = .ok (StateObj.built N (stateOf !![-1] !![b] !![b] !![0] none)) := by
      unfold StateObj.init
      rw [mkState_of dtOk_none]
      rfl
    have hst := (C92_constructed hN hR hi rfl).mpr (hurwitz_iff_motions.mp (one_state_hurwitz (by norm_num)))
    exact ⟨_, hi, ⟨⟨rfl, rfl⟩, fun _ => ⟨rfl, rfl, rfl, rfl, rfl⟩⟩, hst, rfl, hinf_lag_any hb rfl (lag_poles hN) hst (hF _ _ _ _ _) hE⟩
  obtain ⟨S, a1, a2, a3, a4, a5⟩ := key 1 (by norm_num)
  obtain ⟨S', b1, b2, b3, b4, b5⟩ := key (-1) (by norm_num)
  have hv : ∀ {b : ℝ} {S : StateObj ℝ ℂ} (D : Matrix (Fin 1) (Fin 1) ℝ), S.g = stateOf !![-1] !![b] !![b] !![0] none → S.g.d = Arr.of D → ‖D.map (algebraMap ℝ ℂ)‖ * (1 + 1 / 2 ^ 26) ≤ 1 + 1 / 2 ^ 26 := by
    intro b S D h h'
    rw [h] at h'
    obtain rfl := Arr.of_inj.mp h'
    have : (!![0] : Matrix (Fin 1) (Fin 1) ℝ).map (algebraMap ℝ ℂ) = 0 := by ext i j; fin_cases i; fin_cases j; simp
    rw [this, norm_zero]
    norm_num
  refine ⟨N, F, S, S', _, _, a1, b1, a5, b5, (C96_hinf_realization_partial hN hR X0 close (by norm_num) (fun A B C D => hF A B C D none) hE one_pos a1 b1 a2 b2 a3 b3 ?_ a5 b5
    (fun D h => hv D a4 h) (fun D h => hv D b4 h)).1⟩
  rw [a4, b4]
  unfold SameTF
  filter_upwards [eventually_gt_atTop 0] with s hs M M' hM hM'
  rw [lagS_val hs hM]
  refine HasTF_unique (Or.inr ⟨rfl, 1, !![-1], !![-1], !![-1], !![0], rfl, rfl, rfl, rfl, ?_⟩) hM'
  have e : s - -1 ≠ 0 := by linarith
  refine ⟨by simpa using e, ?_⟩
  ext i j
  fin_cases i; fin_cases j
  simp

theorem recipLag_t2s (E : TNum ℝ) : transferToState E (recipLag none 1) = .ok (stateOf !![-1] !![1] !![1] !![0] none) := by
  have h1 : t2sData E (constArr 1 1 [1]) (constArr 1 1 [1, 1]) false = t2sSiso E.remTol [1] [1, 1] := by
    unfold t2sData
    rw [if_neg (by simp), if_pos (by simp [constArr])]
    rfl
  have h2 : t2sSiso E.remTol [1] [1, 1] = .ok (some (Arr.of !![-1], Arr.of !![1], Arr.of !![1]), Arr.of !![0]) := by
    unfold t2sSiso
    simp only [companion_eq [1, (1 : ℝ)] (trimZeros_of_cons one_ne_zero [1]) one_ne_zero (by simp), Bind.bind, Except.bind,
      vstack_last 1 one_pos, trimZeros_of_cons (one_ne_zero : (1 : ℝ) ≠ 0) [1], trimZeros_of_cons (one_ne_zero : (1 : ℝ) ≠ 0) [],
      List.getD_cons_zero, div_one, List.map_id', List.length_cons, List.length_nil]
    rw [if_pos (by norm_num)]
    have e1 : compM (monicCoeffs (1 : ℝ) [1]) = !![-1] := by
      ext i j
      obtain rfl := Fin.eq_zero i
      obtain rfl := Fin.eq_zero j
      simp [compM, monicCoeffs]
    have e2 : (Matrix.of fun (i : Fin 1) (_ : Fin 1) => if i.val + 1 = 1 then (1 : ℝ) else 0) = !![1] := by
      ext i j
      fin_cases i; fin_cases j; rfl
    have e3 : rowOf (1 + 1 - 1) ([1] : List ℝ).reverse = Arr.of !![1] := by
      unfold rowOf
      congr 1
      ext i j
      fin_cases i; fin_cases j; rfl
    have e4 : (Arr.scalar 0 : Arr ℝ) = Arr.of !![0] := by
      unfold Arr.scalar
      congr 1
      ext i j
      fin_cases i; fin_cases j; rfl
    rw [e4]
    refine congrArg Except.ok (congrArg (·, Arr.of !![0]) (congrArg some ?_))
    refine Prod.ext (congrArg Arr.of e1) (Prod.ext (congrArg Arr.of e2) e3)
  unfold transferToState
  have h3 : t2sData E (recipLag none 1).num (recipLag none 1).den (recipLag none 1).isgain = t2sSiso E.remTol [1] [1, 1] := h1
  simp only [h3, h2, Bind.bind, Except.bind]
  exact mkState_of dtOk_none _ _ _ _

open scoped Matrix.Norms.L2Operator in
/-- The ∞-norm of `1 / (s + 1)`: the hypotheses of `C96_hinf_transfer_partial` are met, and the least upper bound is within the tolerance of one. -/
example {E : TNum ℝ} (hbal : ∀ polys i, E.bal polys i ≠ 0) (hl : E.lcmTol ≤ 1) (hr : E.remTol ≤ 1) (L : LyapNum ℝ) (X0 : Wk ℝ) (close : ℝ) : ∃ (N : Numerics ℝ ℂ) (F : HinfNum) (ν : ℝ),
    systemNormTransfer E N L X0 close F (1 / 10 ^ 8) (recipLag none 1) .inf = .ok (.fin (1 + 1 / 2 ^ 26)) ∧
    IsLUB {g : ℝ | ∃ (ω : ℝ) (M : Matrix (Fin 1) (Fin 1) ℂ), HasVal (recipLag none 1) 1 1 (Complex.I * ω) M ∧ g = ‖M‖} ν ∧ ν ≤ (1 + 1 / 2 ^ 26) * (1 + 1 / 2 ^ 25) := by
  obtain ⟨N, -, hN, hR, -⟩ := exists_pole_numerics
  obtain ⟨F, hF, hE⟩ := exists_hinfNum
  have hf : (StateObj.built N (stateOf !![-1] !![1] !![1] !![0] none)).isstable = true := (lagS_parts hN hR).1
  have h : systemNormTransfer E N L X0 close F (1 / 10 ^ 8) (recipLag none 1) .inf = .ok (.fin (1 + 1 / 2 ^ 26)) := by
    unfold systemNormTransfer
    simp only [recipLag_t2s, Bind.bind, Except.bind]
    exact hinf_lag_any (by norm_num) rfl (lag_poles hN) hf (hF _ _ _ _ _) hE
  obtain ⟨ν, h1, -, h3⟩ := C96_hinf_transfer_partial hN hR X0 close (by norm_num) (fun A B C D => hF A B C D none) hE hbal hl (by simpa using recipLag_clear hl hr none 1)
    (recipLag_normal dtOk_none 1) one_pos rfl (fun i j s hs => by
      have e : s + 1 = 0 := by simpa [polyAt, toPoly] using hs
      rw [eq_neg_of_add_eq_zero_left e]
      simp) h (fun H hH => by
      have : H = 0 := by
        ext i j
        refine tendsto_nhds_unique (hH i j) ?_
        have h1 : Tendsto (fun s : ℝ => (s + 1)⁻¹) atTop (𝓝 0) := tendsto_inv_atTop_zero.comp (tendsto_atTop_add_const_right _ 1 tendsto_id)
        refine h1.congr fun s => ?_
        simp [polyAt, toPoly]
      rw [this]
      have : (0 : Matrix (Fin 1) (Fin 1) ℝ).map (algebraMap ℝ ℂ) = 0 := by ext; simp
      rw [this, norm_zero]
      norm_num)
  exact ⟨N, F, ν, h, h1, h3⟩

end Harold
