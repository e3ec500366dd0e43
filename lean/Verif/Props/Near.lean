import Verif.Lemmas.Near
import Verif.Props.Refine
import Verif.Props.DiscLimit
import Verif.Props.LoopPoles
import Verif.Props.Kalman
import Verif.Lemmas.Truncate

/-!
# C135: small changes of the data of a model
-/

namespace Harold

open Matrix Spec NormedSpace Filter Topology

section poles

variable {N : Numerics ℝ ℂ} {n m p : ℕ} {dt : Option ℝ} {S : StateObj ℝ ℂ}
  {A : Matrix (Fin n) (Fin n) ℝ} {B : Matrix (Fin n) (Fin m) ℝ} {C : Matrix (Fin p) (Fin n) ℝ} {D : Matrix (Fin p) (Fin m) ℝ}

theorem init_parts (hN : EigExact N) (h : StateObj.init N (some (Arr.of A)) (some (Arr.of B)) (some (Arr.of C)) (some (Arr.of D)) dt = .ok S) :
    S.g = stateOf A B C D dt ∧ (∀ z, z ∈ S.poles ↔ IsEig A z) ∧ FlagCurrent N S := by
  have hd : DtOk dt := by
    intro t ht
    subst ht
    by_contra h0
    obtain ⟨e, he⟩ := init_bad_dt (N := N) (a := some (Arr.of A)) (b := some (Arr.of B)) (c := some (Arr.of C)) (d := some (Arr.of D)) (not_lt.mp h0)
    rw [h] at he
    cases he
  obtain ⟨S', h1, h2⟩ := init_of (N := N) hd A B C D
  rw [h] at h1
  obtain rfl := Except.ok.inj h1
  have hP : PolesCurrent N S := C14_poles_zeros N h []
  refine ⟨h2, fun z => ?_, C14_flag_partial N h [] (by simp)⟩
  rw [mem_poles (p := p) (m := m) hN hP (by rw [h2]; exact ⟨⟨rfl, rfl⟩, fun _ => ⟨rfl, rfl, rfl, rfl, rfl⟩⟩), char_zero_eig (p := p) (m := m) (by rw [h2]; exact ⟨⟨rfl, rfl⟩, fun _ => ⟨rfl, rfl, rfl, rfl, rfl⟩⟩), h2]
  constructor
  · rintro ⟨-, n', A', h3, h4⟩
    obtain rfl : n = n' := congrArg Arr.r h3
    obtain rfl := Arr.of_inj.mp h3
    exact h4
  · exact fun h3 => ⟨rfl, n, A, rfl, h3⟩

/-- **C135**, poles: for every accuracy there is a bound for the changes of the entries of the four matrices such that every pole of the changed model is close to a pole of the model and every pole of the model is close
to a pole of the changed model. -/
theorem C135_poles (hN : EigExact N) (h : StateObj.init N (some (Arr.of A)) (some (Arr.of B)) (some (Arr.of C)) (some (Arr.of D)) dt = .ok S) {δ : ℝ} (hδ : 0 < δ) :
    ∃ ε > 0, ∀ A' B' C' D', Near4 ε A A' B B' C C' D D' → ∃ S', StateObj.init N (some (Arr.of A')) (some (Arr.of B')) (some (Arr.of C')) (some (Arr.of D')) dt = .ok S' ∧
      (∀ z' ∈ S'.poles, ∃ z ∈ S.poles, ‖z' - z‖ < δ) ∧ ∀ z ∈ S.poles, ∃ z' ∈ S'.poles, ‖z' - z‖ < δ := by
  classical
  obtain ⟨-, h2, -⟩ := init_parts hN h
  have e1 : ∀ᶠ A' in 𝓝 A, ∀ z', IsEig A' z' → z' ∈ {z' | ∃ z ∈ S.poles, ‖z' - z‖ < δ} := by
    refine eig_upper ?_ fun z hz => ⟨z, (h2 z).mpr hz, by simpa using hδ⟩
    have : {z' : ℂ | ∃ z ∈ S.poles, ‖z' - z‖ < δ} = ⋃ z ∈ {z | z ∈ S.poles}, Metric.ball z δ := by
      ext z'
      simp [dist_eq_norm]
    rw [this]
    exact isOpen_biUnion fun z _ => Metric.isOpen_ball
  have e2 : ∀ᶠ A' in 𝓝 A, ∀ z ∈ S.poles.toFinset, ∃ z', IsEig A' z' ∧ ‖z' - z‖ < δ :=
    (eventually_all_finset _).mpr fun z hz => eig_lower ((h2 z).mp (List.mem_toFinset.mp hz)) hδ
  obtain ⟨ε, h3, h4⟩ := near_mem (e1.and e2)
  refine ⟨ε, h3, fun A' B' C' D' hn => ?_⟩
  have hd : DtOk dt := by
    intro t ht
    subst ht
    by_contra h0
    obtain ⟨e, he⟩ := init_bad_dt (N := N) (a := some (Arr.of A)) (b := some (Arr.of B)) (c := some (Arr.of C)) (d := some (Arr.of D)) (not_lt.mp h0)
    rw [h] at he
    cases he
  obtain ⟨S', k1, -⟩ := init_of (N := N) hd A' B' C' D'
  obtain ⟨-, k2, -⟩ := init_parts hN k1
  obtain ⟨k3, k4⟩ := h4 A' hn.1
  refine ⟨S', k1, fun z' hz' => k3 z' ((k2 z').mp hz'), fun z hz => ?_⟩
  obtain ⟨z', z1, z2⟩ := k4 z (List.mem_toFinset.mpr hz)
  exact ⟨z', (k2 z').mpr z1, z2⟩

/-- **C135**, stability: models close to one reported stable are reported stable; models close to one with a pole outside the closure of the stability region are reported unstable. -/
theorem C135_stability (hN : EigExact N) (hR : RegionExact N) (h : StateObj.init N (some (Arr.of A)) (some (Arr.of B)) (some (Arr.of C)) (some (Arr.of D)) dt = .ok S) :
    ∃ ε > 0, ∀ A' B' C' D', Near4 ε A A' B B' C C' D D' → ∃ S', StateObj.init N (some (Arr.of A')) (some (Arr.of B')) (some (Arr.of C')) (some (Arr.of D')) dt = .ok S' ∧
      (S.isstable = true → S'.isstable = true) ∧ ((∃ z ∈ S.poles, if dt.isSome then 1 < ‖z‖ else 0 < z.re) → S'.isstable = false) := by
  obtain ⟨g1, -, g3⟩ := init_parts hN h
  -- the distance of every pole to the boundary of the region
  have key : ∃ δ > 0, ∀ z ∈ S.poles, ∀ z' : ℂ, ‖z' - z‖ < δ → (StablePoint dt z → StablePoint dt z') ∧ ((if dt.isSome then 1 < ‖z‖ else 0 < z.re) → ¬ StablePoint dt z') := by
    have : ∀ l : List ℂ, ∃ δ > 0, ∀ z ∈ l, ∀ z' : ℂ, ‖z' - z‖ < δ → (StablePoint dt z → StablePoint dt z') ∧ ((if dt.isSome then 1 < ‖z‖ else 0 < z.re) → ¬ StablePoint dt z') := by
      intro l
      induction l with
      | nil => exact ⟨1, one_pos, by simp⟩
      | cons a l ih =>
        obtain ⟨δ, d1, d2⟩ := ih
        have : ∃ γ > 0, ∀ z' : ℂ, ‖z' - a‖ < γ → (StablePoint dt a → StablePoint dt z') ∧ ((if dt.isSome then 1 < ‖a‖ else 0 < a.re) → ¬ StablePoint dt z') := by
          cases dt with
          | none =>
            by_cases ha : a.re = 0
            · exact ⟨1, one_pos, fun z' _ => ⟨fun h0 => by simp [StablePoint, ha] at h0, fun h0 => by simp [ha] at h0⟩⟩
            · refine ⟨|a.re|, abs_pos.mpr ha, fun z' hz => ?_⟩
              have h1 := (Complex.abs_re_le_norm (z' - a)).trans_lt hz
              rw [Complex.sub_re] at h1
              simp only [StablePoint, Option.isSome_none, Bool.false_eq_true, if_false, not_lt]
              refine ⟨fun h0 => ?_, fun h0 => ?_⟩
              · rw [abs_of_neg h0] at h1
                have := (abs_lt.mp h1).2
                linarith
              · rw [abs_of_pos h0] at h1
                have := (abs_lt.mp h1).1
                linarith
          | some t =>
            by_cases ha : ‖a‖ = 1
            · exact ⟨1, one_pos, fun z' _ => ⟨fun h0 => by simp [StablePoint, ha] at h0, fun h0 => by simp [ha] at h0⟩⟩
            · refine ⟨|‖a‖ - 1|, abs_pos.mpr (sub_ne_zero.mpr ha), fun z' hz => ?_⟩
              have h1 := (abs_norm_sub_norm_le z' a).trans_lt hz
              simp only [StablePoint, Option.isSome_some, if_true, not_lt]
              refine ⟨fun h0 => ?_, fun h0 => ?_⟩
              · have := (abs_lt.mp (h1.trans_eq (abs_of_neg (sub_neg.mpr h0)))).2
                linarith
              · have := (abs_lt.mp (h1.trans_eq (abs_of_pos (sub_pos.mpr h0)))).1
                linarith
        obtain ⟨γ, c1, c2⟩ := this
        refine ⟨min δ γ, lt_min d1 c1, fun z hz z' hz' => ?_⟩
        rcases List.mem_cons.mp hz with rfl | hz
        · exact c2 z' (hz'.trans_le (min_le_right _ _))
        · exact d2 z hz z' (hz'.trans_le (min_le_left _ _))
    exact this _
  have hflag : ∀ {T : StateObj ℝ ℂ}, FlagCurrent N T → T.g.dt = dt → (T.isstable = true ↔ ∀ z ∈ T.poles, StablePoint dt z) := fun {T} hT hd => by
    cases dt with
    | none => simpa [StablePoint] using flag_cont hR hT hd
    | some t => simpa [StablePoint] using flag_disc hR hT (by rw [hd]; rfl)
  obtain ⟨δ, d1, d2⟩ := key
  obtain ⟨ε, e1, e2⟩ := C135_poles hN h d1
  refine ⟨ε, e1, fun A' B' C' D' hn => ?_⟩
  obtain ⟨S', k1, k2, k3⟩ := e2 A' B' C' D' hn
  obtain ⟨g1', -, g3'⟩ := init_parts hN k1
  refine ⟨S', k1, fun hs => ?_, fun ⟨z, hz, hz1⟩ => ?_⟩
  · rw [hflag g3' (by rw [g1'])]
    intro z' hz'
    obtain ⟨z, hz, hzz⟩ := k2 z' hz'
    exact (d2 z hz z' hzz).1 ((hflag g3 (by rw [g1])).mp hs z hz)
  · rw [← Bool.not_eq_true, hflag g3' (by rw [g1'])]
    obtain ⟨z', hz', hzz⟩ := k3 z hz
    exact fun h0 => (d2 z hz z' hzz).2 hz1 (h0 z' hz')

end poles

section values

variable {P : Type} {Nm : Numerics ℝ P} {E : DNum} {S : StateObj ℝ P} {n m p N : ℕ} {dt : Option ℝ} {h t0 : ℝ}
  {A : Matrix (Fin n) (Fin n) ℝ} {B : Matrix (Fin n) (Fin m) ℝ} {C : Matrix (Fin p) (Fin n) ℝ} {D : Matrix (Fin p) (Fin m) ℝ}

/-- **C135**, transfer matrix: at every point that is not a pole the changed models have a value, which is as close as desired to that of the model. -/
theorem C135_transfer {s : ℂ} {M : Matrix (Fin p) (Fin m) ℂ} (hM : HasTF (stateOf A B C D dt) p m s M) {δ : ℝ} (hδ : 0 < δ) :
    ∃ ε > 0, ∀ A' B' C' D', Near4 ε A A' B B' C C' D D' → ∃ F, HasTF (stateOf A' B' C' D' dt) p m s F ∧ ∀ i j, ‖F i j - M i j‖ < δ := by
  rw [hasTF_stateOf] at hM
  obtain ⟨ε, h1, h2⟩ := near4_of (tf_near hM hδ)
  refine ⟨ε, h1, fun A' B' C' D' hn => ?_⟩
  obtain ⟨F, h3, h4⟩ := h2 A' B' C' D' hn
  exact ⟨F, hasTF_stateOf.mpr h3, h4⟩

theorem output_near {Φ : Matrix (Fin n) (Fin n) ℝ × Matrix (Fin n) (Fin m) ℝ × Matrix (Fin p) (Fin n) ℝ × Matrix (Fin p) (Fin m) ℝ → Matrix (Fin n) (Fin n) ℝ}
    {Γ : Matrix (Fin n) (Fin n) ℝ × Matrix (Fin n) (Fin m) ℝ × Matrix (Fin p) (Fin n) ℝ × Matrix (Fin p) (Fin m) ℝ → Matrix (Fin n) (Fin m) ℝ} (hΦ : Continuous Φ) (hΓ : Continuous Γ)
    (x0 : Fin n → ℝ) (U : Matrix (Fin N) (Fin m) ℝ) {δ : ℝ} (hδ : 0 < δ) :
    ∃ ε > 0, ∀ A' B' C' D' U', Near4 ε A A' B B' C C' D D' → Near ε U' U → ∀ i k,
      |output (Φ (A', B', C', D')) (Γ (A', B', C', D')) C' D' x0 U' i k - output (Φ (A, B, C, D)) (Γ (A, B, C, D)) C D x0 U i k| < δ := by
  have hc : Continuous fun q : (Matrix (Fin n) (Fin n) ℝ × Matrix (Fin n) (Fin m) ℝ × Matrix (Fin p) (Fin n) ℝ × Matrix (Fin p) (Fin m) ℝ) × Matrix (Fin N) (Fin m) ℝ =>
      fun i => output (Φ q.1) (Γ q.1) q.1.2.2.1 q.1.2.2.2 x0 q.2 i := by
    refine continuous_pi fun i => ?_
    unfold output
    have c1 : Continuous fun q : (Matrix (Fin n) (Fin n) ℝ × Matrix (Fin n) (Fin m) ℝ × Matrix (Fin p) (Fin n) ℝ × Matrix (Fin p) (Fin m) ℝ) × Matrix (Fin N) (Fin m) ℝ => Φ q.1 := hΦ.comp continuous_fst
    have c2 : Continuous fun q : (Matrix (Fin n) (Fin n) ℝ × Matrix (Fin n) (Fin m) ℝ × Matrix (Fin p) (Fin n) ℝ × Matrix (Fin p) (Fin m) ℝ) × Matrix (Fin N) (Fin m) ℝ => Γ q.1 := hΓ.comp continuous_fst
    have c3 : Continuous fun q : (Matrix (Fin n) (Fin n) ℝ × Matrix (Fin n) (Fin m) ℝ × Matrix (Fin p) (Fin n) ℝ × Matrix (Fin p) (Fin m) ℝ) × Matrix (Fin N) (Fin m) ℝ => q.1.2.2.1 :=
      continuous_fst.comp (continuous_snd.comp (continuous_snd.comp continuous_fst))
    have c4 : Continuous fun q : (Matrix (Fin n) (Fin n) ℝ × Matrix (Fin n) (Fin m) ℝ × Matrix (Fin p) (Fin n) ℝ × Matrix (Fin p) (Fin m) ℝ) × Matrix (Fin N) (Fin m) ℝ => q.1.2.2.2 :=
      continuous_snd.comp (continuous_snd.comp (continuous_snd.comp continuous_fst))
    have c5 : ∀ j, Continuous fun q : (Matrix (Fin n) (Fin n) ℝ × Matrix (Fin n) (Fin m) ℝ × Matrix (Fin p) (Fin n) ℝ × Matrix (Fin p) (Fin m) ℝ) × Matrix (Fin N) (Fin m) ℝ => q.2 j :=
      fun j => (continuous_apply j).comp continuous_snd
    refine ((c3.matrix_mulVec ((c1.pow _).matrix_mulVec continuous_const)).add (continuous_finsetSum _ fun j _ => ?_)).add (c4.matrix_mulVec (c5 i))
    exact c3.matrix_mulVec ((c1.pow _).matrix_mulVec (c2.matrix_mulVec (c5 j)))
  have h1 := (hc.tendsto ((A, B, C, D), U)).eventually (Metric.ball_mem_nhds _ hδ)
  obtain ⟨s, hs, t, ht, hst⟩ := mem_nhds_prod_iff.mp h1
  obtain ⟨a, a0, ha⟩ := near4_of hs
  obtain ⟨b, b0, hb⟩ := near_mem ht
  refine ⟨min a b, lt_min a0 b0, fun A' B' C' D' U' hn hu i k => ?_⟩
  have h2 := hst (Set.mk_mem_prod (ha A' B' C' D' ⟨near_mono hn.1 (min_le_left _ _), near_mono hn.2.1 (min_le_left _ _), near_mono hn.2.2.1 (min_le_left _ _), near_mono hn.2.2.2 (min_le_left _ _)⟩)
    (hb U' (near_mono hu (min_le_right _ _))))
  have h3 := (dist_pi_lt_iff hδ).mp h2 i
  exact (Real.dist_eq _ _).symm.trans_lt ((dist_pi_lt_iff hδ).mp h3 k)

/-- **C135**, simulation of discrete models: over a given number of samples the outputs depend continuously on the matrices and on the input samples. -/
theorem C135_simulation (hN : 2 ≤ N) (hm : 1 ≤ m) (hG : S.g = stateOf A B C D (some h)) {xarg : Option (List ℝ)} {x0 : Fin n → ℝ} (hx : InitArg xarg x0) (U : Matrix (Fin N) (Fin m) ℝ) {δ : ℝ} (hδ : 0 < δ) :
    ∃ (t : List ℝ) (Y : Matrix (Fin N) (Fin p) ℝ), simulate Nm E S (Arr.of U) none xarg false = .ok (.flat (Arr.of Y), t) ∧
      ∃ ε > 0, ∀ A' B' C' D' U', Near4 ε A A' B B' C C' D D' → Near ε U' U → ∀ S' : StateObj ℝ P, S'.g = stateOf A' B' C' D' (some h) →
        ∃ Y' : Matrix (Fin N) (Fin p) ℝ, simulate Nm E S' (Arr.of U') none xarg false = .ok (.flat (Arr.of Y'), t) ∧ ∀ i k, |Y' i k - Y i k| < δ := by
  obtain ⟨ε, e1, e2⟩ := output_near (A := A) (B := B) (C := C) (D := D) (Φ := fun q => q.1) (Γ := fun q => q.2.1) continuous_fst (continuous_fst.comp continuous_snd) x0 U hδ
  refine ⟨_, _, C39_output_partial hN hm hG hx, ε, e1, fun A' B' C' D' U' hn hu S' hS' => ⟨_, C39_output_partial hN hm hS' hx, fun i k => ?_⟩⟩
  exact e2 A' B' C' D' U' hn hu i k

/-- **C135**, simulation of continuous models on equidistant grids. -/
theorem C135_continuous (hE : BalanceOk E) (hN : 2 ≤ N) (hm : 1 ≤ m) (hh : 0 < h) (hG : S.g = stateOf A B C D none) {xarg : Option (List ℝ)} {x0 : Fin n → ℝ} (hx : InitArg xarg x0)
    (U : Matrix (Fin N) (Fin m) ℝ) {δ : ℝ} (hδ : 0 < δ) :
    ∃ Y : Matrix (Fin N) (Fin p) ℝ, simulate Nm E S (Arr.of U) (some (eqGrid N t0 h)) xarg false = .ok (.flat (Arr.of Y), eqGrid N t0 h) ∧
      ∃ ε > 0, ∀ A' B' C' D' U', Near4 ε A A' B B' C C' D D' → Near ε U' U → ∀ S' : StateObj ℝ P, S'.g = stateOf A' B' C' D' none →
        ∃ Y' : Matrix (Fin N) (Fin p) ℝ, simulate Nm E S' (Arr.of U') (some (eqGrid N t0 h)) xarg false = .ok (.flat (Arr.of Y'), eqGrid N t0 h) ∧ ∀ i k, |Y' i k - Y i k| < δ := by
  have key : ∀ (A : Matrix (Fin n) (Fin n) ℝ) (B : Matrix (Fin n) (Fin m) ℝ) (C : Matrix (Fin p) (Fin n) ℝ) (D : Matrix (Fin p) (Fin m) ℝ) (U : Matrix (Fin N) (Fin m) ℝ) (S : StateObj ℝ P), S.g = stateOf A B C D none →
      simulate Nm E S (Arr.of U) (some (eqGrid N t0 h)) xarg false = .ok (.flat (Arr.of (Matrix.of fun i => output (exp (h • A)) (gam (h • A) (h • B) 0) C D x0 U i)), eqGrid N t0 h) := by
    intro A B C D U S hG
    obtain ⟨w, hw⟩ : ∃ w : ℕ → Fin m → ℝ, ∀ i : Fin N, U i = w i := ⟨fun k => if hk : k < N then U ⟨k, hk⟩ else 0, fun i => by simp⟩
    rw [simulate_held hE hN hm hG hh hx w hw]
    congr 4
    funext i
    exact (output_run w hw i).symm
  obtain ⟨c1, c2⟩ := gam_continuous (ι := Matrix (Fin n) (Fin n) ℝ × Matrix (Fin n) (Fin m) ℝ × Matrix (Fin p) (Fin n) ℝ × Matrix (Fin p) (Fin m) ℝ) (f := fun q => h • q.1) (g := fun q => h • q.2.1)
    (continuous_fst.const_smul h) ((continuous_fst.comp continuous_snd).const_smul h)
  obtain ⟨ε, e1, e2⟩ := output_near (A := A) (B := B) (C := C) (D := D) c1 c2 x0 U hδ
  refine ⟨_, key A B C D U S hG, ε, e1, fun A' B' C' D' U' hn hu S' hS' => ⟨_, key A' B' C' D' U' S' hS', fun i k => ?_⟩⟩
  exact e2 A' B' C' D' U' hn hu i k

theorem reach_near (hr : Reachable A B) : ∃ ε > 0, ∀ A' B', Near ε A' A → Near ε B' B → Reachable A' B' := by
  have key : ∀ (A : Matrix (Fin n) (Fin n) ℝ) (B : Matrix (Fin n) (Fin m) ℝ), Reachable A B ↔ (ctrbM A B (n - 1) * (ctrbM A B (n - 1))ᵀ).det ≠ 0 := fun A B => by
    rw [reachable_iff_rank, ← Matrix.rank_self_mul_transpose]
    refine ⟨fun h0 => ?_, fun h0 => (rank_of_det_ne_zero h0).trans (Fintype.card_fin n)⟩
    have h1 := LinearMap.range_eq_top.mp ((rank_eq_iff_range _).mp h0)
    exact ((Matrix.isUnit_iff_isUnit_det _).mp (Matrix.mulVec_surjective_iff_isUnit.mp h1)).ne_zero
  have hc : Continuous fun q : Matrix (Fin n) (Fin n) ℝ × Matrix (Fin n) (Fin m) ℝ => (ctrbM q.1 q.2 (n - 1) * (ctrbM q.1 q.2 (n - 1))ᵀ).det :=
    ((ctrb_continuous (n - 1)).matrix_mul (ctrb_continuous (n - 1)).matrix_transpose).matrix_det
  have h1 := (hc.tendsto (A, B)).eventually_ne ((key A B).mp hr)
  obtain ⟨s, hs, t, ht, hst⟩ := mem_nhds_prod_iff.mp h1
  obtain ⟨a, a0, ha⟩ := near_mem hs
  obtain ⟨b, b0, hb⟩ := near_mem ht
  refine ⟨min a b, lt_min a0 b0, fun A' B' h2 h3 => (key A' B').mpr (hst (Set.mk_mem_prod (ha A' (near_mono h2 (min_le_left _ _))) (hb B' (near_mono h3 (min_le_right _ _)))))⟩

/-- **C135**, Kalman tests: models close to a controllable one pass the test of controllability, whenever the rank decision is right for them. -/
theorem C135_controllable {V : SvdNum ℝ} (he : 0 ≤ V.eps) (hV : SvdExact V (ctrbM A B (n - 1))) (hn : 0 < n) (hm : 0 < m) (ht : isKalmanControllable V (Arr.of A) (Arr.of B) = .ok true) :
    ∃ ε > 0, ∀ A' B', Near ε A' A → Near ε B' B → SvdExact V (ctrbM A' B' (n - 1)) → isKalmanControllable V (Arr.of A') (Arr.of B') = .ok true := by
  obtain ⟨t, h1, h2⟩ := C48_controllable he hV hn hm
  rw [ht] at h1
  obtain rfl := Except.ok.inj h1
  obtain ⟨ε, e1, e2⟩ := reach_near (h2.mp rfl)
  refine ⟨ε, e1, fun A' B' hA hB hV' => ?_⟩
  obtain ⟨t, h3, h4⟩ := C48_controllable he hV' hn hm
  rw [h3, h4.mpr (e2 A' B' hA hB)]

/-- **C135**, Kalman tests: models close to an observable one pass the test of observability, whenever the rank decision is right for them. -/
theorem C135_observable {V : SvdNum ℝ} (he : 0 ≤ V.eps) (hV : SvdExact V (obsvM A C (n - 1))) (hn : 0 < n) (hp : 0 < p) (ht : isKalmanObservable V (Arr.of A) (Arr.of C) = .ok true) :
    ∃ ε > 0, ∀ A' C', Near ε A' A → Near ε C' C → SvdExact V (obsvM A' C' (n - 1)) → isKalmanObservable V (Arr.of A') (Arr.of C') = .ok true := by
  obtain ⟨t, h1, h2⟩ := C48_observable he hV hn hp
  rw [ht] at h1
  obtain rfl := Except.ok.inj h1
  obtain ⟨ε, e1, e2⟩ := reach_near ((observable_iff_dual A C).mp (h2.mp rfl))
  refine ⟨ε, e1, fun A' C' hA hC hV' => ?_⟩
  obtain ⟨t, h3, h4⟩ := C48_observable he hV' hn hp
  rw [h3, h4.mpr ((observable_iff_dual A' C').mpr (e2 A'ᵀ C'ᵀ (fun i j => hA j i) fun i j => hC j i))]

end values

/-- The hypotheses are met by a lag (stable), by an unstable model, and by the double integrator (controllable). -/
example : ∃ (N : Numerics ℝ ℂ) (V : SvdNum ℝ), EigExact N ∧ RegionExact N ∧ (lagS N (-1) none).isstable = true ∧
    StateObj.init N (some (Arr.of !![-1])) (some (Arr.of !![1])) (some (Arr.of !![1])) (some (Arr.of !![0])) none = .ok (lagS N (-1) none) ∧
    (∃ z ∈ (lagS N 2 (some 1)).poles, if (some (1 : ℝ)).isSome then 1 < ‖z‖ else 0 < z.re) ∧ V.eps = 0 ∧
    isKalmanControllable V (Arr.of (!![0, 1; 0, 0] : Matrix (Fin 2) (Fin 2) ℝ)) (Arr.of (!![0; 1] : Matrix (Fin 2) (Fin 1) ℝ)) = .ok true := by
  obtain ⟨N, -, hN, hR, -⟩ := exists_pole_numerics
  obtain ⟨V, hV, hx⟩ := exists_svdNum
  obtain ⟨t, h1, h2⟩ := C48_controllable (A := (!![0, 1; 0, 0] : Matrix (Fin 2) (Fin 2) ℝ)) (B := (!![0; 1] : Matrix (Fin 2) (Fin 1) ℝ)) hV.ge (hx _) (by norm_num) (by norm_num)
  obtain rfl : t = true := h2.mpr fun x => ⟨[fun _ => x 0, fun _ => x 1], by
    ext i
    fin_cases i <;> simp [finalState, Matrix.mulVec, dotProduct, Fin.sum_univ_two]⟩
  refine ⟨N, V, hN, hR, (C92_constructed hN hR (lagS_init N (-1) dtOk_none) rfl).mpr (motions_iff.mpr fun z hz => one_state_hurwitz (by norm_num) z hz), lagS_init N (-1) dtOk_none, ⟨2, ?_, by simp⟩, hV, h1⟩
  exact ((init_parts hN (lagS_init N 2 dtOk_one)).2.1 2).mpr (by simp [IsEig])

end Harold
