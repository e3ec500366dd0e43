import Verif.Spec.Hinf
import Verif.Lemmas.Hinf
import Verif.Props.Lqr

/-!
# C70: the H∞ norm
-/

namespace Harold

open Matrix Spec Filter Topology
open scoped Matrix.Norms.L2Operator

variable {n m p : ℕ}

theorem map_inv_of {K L : Type} [Field K] [Field L] (f : K →+* L) {k : ℕ} (M : Matrix (Fin k) (Fin k) K)
    (h : M.det ≠ 0) : M⁻¹.map f = (M.map f)⁻¹ := by
  symm
  apply Matrix.inv_eq_right_inv
  rw [← Matrix.map_mul, Matrix.mul_nonsing_inv _ (isUnit_iff_ne_zero.2 h)]
  exact Matrix.map_one f f.map_zero f.map_one

/-- The four blocks of the Hamiltonian. -/
noncomputable def hR (g : ℝ) (D : Matrix (Fin p) (Fin m) ℝ) : Matrix (Fin m) (Fin m) ℝ :=
  Dᵀ * D - g ^ 2 • 1

/-- The four blocks of the Hamiltonian. -/
noncomputable def hS (g : ℝ) (D : Matrix (Fin p) (Fin m) ℝ) : Matrix (Fin p) (Fin p) ℝ :=
  D * Dᵀ - g ^ 2 • 1

/-- The Hamiltonian. -/
noncomputable def hamM (g : ℝ) (A : Matrix (Fin n) (Fin n) ℝ) (B : Matrix (Fin n) (Fin m) ℝ)
    (C : Matrix (Fin p) (Fin n) ℝ) (D : Matrix (Fin p) (Fin m) ℝ) : Matrix (Fin (n + n)) (Fin (n + n)) ℝ :=
  blk (A - B * ((hR g D)⁻¹ * Dᵀ) * C) ((-g) • B * ((hR g D)⁻¹ * Bᵀ))
    (g • Cᵀ * ((hS g D)⁻¹ * C)) (-(A - B * ((hR g D)⁻¹ * Dᵀ) * C)ᵀ)

theorem hamiltonian_of (g : ℝ) (A : Matrix (Fin n) (Fin n) ℝ) (B : Matrix (Fin n) (Fin m) ℝ)
    (C : Matrix (Fin p) (Fin n) ℝ) (D : Matrix (Fin p) (Fin m) ℝ) :
    hamiltonian g (Arr.of A) (Arr.of B) (Arr.of C) (Arr.of D) =
      if (hR g D).det = 0 ∨ (hS g D).det = 0 then .error .linAlg else .ok (Arr.of (hamM g A B C D)) := by
  have e1 : hamR g (Arr.of D) = .ok (Arr.of (hR g D)) := by
    unfold hamR hR
    simp only [Arr.T_of, Arr.matmul_of, Bind.bind, Except.bind, Arr.eye, Arr.smul_of, Arr.sub_of]
  have e2 : hamS g (Arr.of D) = .ok (Arr.of (hS g D)) := by
    unfold hamS hS
    simp only [Arr.T_of, Arr.matmul_of, Bind.bind, Except.bind, Arr.eye, Arr.smul_of, Arr.sub_of]
  unfold hamiltonian
  simp only [e1, e2, Bind.bind, Except.bind]
  by_cases hr : (hR g D).det = 0
  · rw [if_pos (.inl hr)]
    simp only [hamA, Arr.T_of, Arr.solve_of, hr, if_true, Bind.bind, Except.bind]
  · by_cases hs : (hS g D).det = 0
    · rw [if_pos (.inr hs)]
      simp only [hamA, Arr.T_of, Arr.solve_of, hr, if_false, hs, if_true, Bind.bind, Except.bind,
        Arr.matmul_of, Arr.sub_of, Arr.smul_of]
    · rw [if_neg (by tauto)]
      simp only [hamA, Arr.T_of, Arr.solve_of, hr, if_false, hs, Bind.bind, Except.bind,
        Arr.matmul_of, Arr.sub_of, Arr.smul_of, Arr.hstack_of, Arr.neg_of, Arr.vstack_of, hamM,
        vcat_hcat]

/-- The matrix with complex entries. -/
noncomputable abbrev cx {r c : ℕ} (M : Matrix (Fin r) (Fin c) ℝ) : Matrix (Fin r) (Fin c) ℂ :=
  M.map (algebraMap ℝ ℂ)

theorem cx_mul {r c d : ℕ} (M : Matrix (Fin r) (Fin c) ℝ) (N : Matrix (Fin c) (Fin d) ℝ) :
    cx (M * N) = cx M * cx N := Matrix.map_mul

theorem cx_sub {r c : ℕ} (M N : Matrix (Fin r) (Fin c) ℝ) : cx (M - N) = cx M - cx N := by
  ext i j; simp [cx]

theorem cx_neg {r c : ℕ} (M : Matrix (Fin r) (Fin c) ℝ) : cx (-M) = -cx M := by
  ext i j; simp [cx]

theorem cx_smul {r c : ℕ} (k : ℝ) (M : Matrix (Fin r) (Fin c) ℝ) : cx (k • M) = (k : ℂ) • cx M := by
  ext i j; simp [cx]

theorem cx_one {r : ℕ} : cx (1 : Matrix (Fin r) (Fin r) ℝ) = 1 :=
  Matrix.map_one _ (map_zero _) (map_one _)

theorem cx_transpose {r c : ℕ} (M : Matrix (Fin r) (Fin c) ℝ) : cx Mᵀ = (cx M)ᴴ := by
  ext i j; simp [cx]

theorem cx_det {r : ℕ} (M : Matrix (Fin r) (Fin r) ℝ) : (cx M).det = (M.det : ℂ) :=
  (RingHom.map_det (algebraMap ℝ ℂ) M).symm

theorem cx_inv {r : ℕ} {M : Matrix (Fin r) (Fin r) ℝ} (h : M.det ≠ 0) : cx M⁻¹ = (cx M)⁻¹ :=
  map_inv_of (algebraMap ℝ ℂ) M h

theorem cx_hR (g : ℝ) (D : Matrix (Fin p) (Fin m) ℝ) :
    cx (hR g D) = (cx D)ᴴ * cx D - ((g ^ 2 : ℝ) : ℂ) • 1 := by
  rw [hR, cx_sub, cx_mul, cx_transpose, cx_smul, cx_one]

theorem cx_hS (g : ℝ) (D : Matrix (Fin p) (Fin m) ℝ) :
    cx (hS g D) = cx D * (cx D)ᴴ - ((g ^ 2 : ℝ) : ℂ) • 1 := by
  rw [hS, cx_sub, cx_mul, cx_transpose, cx_smul, cx_one]

theorem hurwitz_axis {A : Matrix (Fin n) (Fin n) ℝ} (hA : Hurwitz A) (w : ℝ) :
    ((Complex.I * w) • (1 : Matrix (Fin n) (Fin n) ℂ) - cx A).det ≠ 0 := by
  intro h
  have := hA _ h
  simp at this

/-- A singular value on the imaginary axis is an eigenvalue of the Hamiltonian. -/
theorem isEig_ham {A : Matrix (Fin n) (Fin n) ℝ} {B : Matrix (Fin n) (Fin m) ℝ}
    {C : Matrix (Fin p) (Fin n) ℝ} {D : Matrix (Fin p) (Fin m) ℝ} {g w : ℝ} (hg : g ≠ 0)
    (hr : (hR g D).det ≠ 0) (hs : (hS g D).det ≠ 0) (hA : Hurwitz A)
    (h : ‖tfAt (cx A) (cx B) (cx C) (cx D) (Complex.I * w)‖ = g) :
    IsEig (hamM g A B C D) (Complex.I * w) := by
  obtain ⟨u, hu, huG⟩ := exists_singular _ (by rw [h]; exact hg)
  rw [h] at huG
  have hr' : (cx (hR g D)).det ≠ 0 := by rw [cx_det]; exact Complex.ofReal_ne_zero.2 hr
  have hs' : (cx (hS g D)).det ≠ 0 := by rw [cx_det]; exact Complex.ofReal_ne_zero.2 hs
  rw [cx_hR] at hr'
  rw [cx_hS] at hs'
  obtain ⟨x, y, hxy, h1, h2⟩ := ham_eigenvector (cx A) (cx B) (cx C) (cx D) g (Complex.I * w) hg
    (by simp) hr' hs' (hurwitz_axis hA w) u hu huG
  rw [← cx_hR, ← cx_inv hr, ← cx_transpose D, ← cx_mul, ← cx_mul, ← cx_mul, ← cx_sub] at h1
  rw [← cx_hS, ← cx_inv hs, ← cx_hR, ← cx_inv hr, ← cx_transpose D, ← cx_mul (hS g D)⁻¹,
    ← cx_mul (hR g D)⁻¹, ← cx_mul B, ← cx_mul _ C, ← cx_sub, ← cx_transpose C,
    ← cx_transpose (A - _)] at h2
  rw [← cx_transpose B, ← cx_mul] at h1
  have e1 : (-(g : ℂ)) • cx B = cx ((-g) • B) := by rw [cx_smul]; simp
  rw [e1, ← cx_mul] at h1
  rw [← cx_smul, ← cx_mul, ← cx_neg] at h2
  unfold IsEig hamM
  rw [blk_map]
  exact det_blk_eq_zero _ _ _ _ _ x y hxy h1 h2

/-- Without eigenvalues of the Hamiltonian on the imaginary axis, the gain stays below `g`. -/
theorem gain_lt_of_no_eig {A : Matrix (Fin n) (Fin n) ℝ} {B : Matrix (Fin n) (Fin m) ℝ}
    {C : Matrix (Fin p) (Fin n) ℝ} {D : Matrix (Fin p) (Fin m) ℝ} {g : ℝ} (hg : ‖cx D‖ < g)
    (hr : (hR g D).det ≠ 0) (hs : (hS g D).det ≠ 0) (hA : Hurwitz A)
    (hno : ∀ w : ℝ, ¬ IsEig (hamM g A B C D) (Complex.I * w)) (w : ℝ) :
    ‖tfAt (cx A) (cx B) (cx C) (cx D) (Complex.I * w)‖ < g := by
  have hg0 : g ≠ 0 := ((norm_nonneg (cx D)).trans_lt hg).ne'
  by_contra hcon
  push Not at hcon
  have hc : Continuous fun w : ℝ => ‖tfAt (cx A) (cx B) (cx C) (cx D) (Complex.I * w)‖ :=
    (continuous_tfAt _ _ _ _ (hurwitz_axis hA)).norm
  have ht := tendsto_tfAt (cx A) (cx B) (cx C) (cx D) (hurwitz_axis hA)
  obtain ⟨w1, hw1, hlt⟩ := ((eventually_ge_atTop w).and (ht.eventually_lt_const hg)).exists
  obtain ⟨v, -, hv⟩ := intermediate_value_Icc' hw1 hc.continuousOn ⟨hlt.le, hcon⟩
  exact hno v (isEig_ham hg0 hr hs hA hv)

/-- A lower bound that the loop may hold: the gain at some frequency, or at infinity. -/
def Attained (A : Matrix (Fin n) (Fin n) ℝ) (B : Matrix (Fin n) (Fin m) ℝ)
    (C : Matrix (Fin p) (Fin n) ℝ) (D : Matrix (Fin p) (Fin m) ℝ) (g : ℝ) : Prop :=
  (∃ w : ℝ, g = ‖tfAt (cx A) (cx B) (cx C) (cx D) (Complex.I * w)‖) ∨ g = ‖cx D‖

theorem npMax_mem {l : List ℝ} {x : ℝ} (h : npMax l = .ok x) : x ∈ l := by
  cases l with
  | nil => cases h
  | cons a l =>
    simp only [npMax, Except.ok.injEq] at h
    subst h
    induction l generalizing a with
    | nil => simp
    | cons b l ih =>
      rw [List.foldl_cons]
      rcases max_choice a b with h | h <;> rw [h]
      · rcases List.mem_cons.1 (ih a) with h' | h'
        · rw [h']; simp
        · exact List.mem_cons_of_mem _ (List.mem_cons_of_mem _ h')
      · exact List.mem_cons_of_mem _ (ih b)

theorem norm_one_one (M : Matrix (Fin 1) (Fin 1) ℂ) : ‖M‖ = ‖M 0 0‖ := by
  have : M = diagonal fun _ => M 0 0 := by
    ext i j
    rw [Subsingleton.elim i 0, Subsingleton.elim j 0]; simp
  rw [this, l2_opNorm_diagonal]
  simp [Pi.norm_def]

theorem peak_mem {siso : Bool} {f : List (Arr ℂ)} {x : ℝ} (hs : siso = true → ∀ a ∈ f, a.r = 1 ∧ a.c = 1)
    (h : peak siso f = .ok x) : ∃ a ∈ f, x = a.norm2 := by
  obtain ⟨a, ha, rfl⟩ := List.mem_map.1 (npMax_mem h)
  refine ⟨a, ha, ?_⟩
  cases siso with
  | false => rfl
  | true =>
    obtain ⟨r, c, M⟩ := a
    obtain ⟨h1, h2⟩ := hs rfl _ ha
    simp only at h1 h2
    subst h1 h2
    simp only [if_true, Arr.norm2]
    rw [norm_one_one]
    rfl

theorem evalPoint_none (w : ℝ) : evalPoint none w = Complex.I * w := rfl

theorem hinf_attained {E : HinfNum} {A : Matrix (Fin n) (Fin n) ℝ} {B : Matrix (Fin n) (Fin m) ℝ}
    {C : Matrix (Fin p) (Fin n) ℝ} {D : Matrix (Fin p) (Fin m) ℝ} {G : StateM ℝ}
    (hG : G.d = Arr.of D) (hE : FreqExact E A B C D none G) {w : List ℝ} {f : List (Arr ℂ)} {x : ℝ}
    (hf : E.freq G w = .ok f) (hx : peak G.isSISO f = .ok x) : Attained A B C D x := by
  rw [hE.cont rfl] at hf
  simp only [Except.ok.injEq] at hf
  obtain ⟨a, ha, rfl⟩ := peak_mem (fun hs a ha => by
    rw [← hf] at ha
    obtain ⟨ω, -, rfl⟩ := List.mem_map.1 ha
    rw [StateM.isSISO, hG] at hs
    simpa using hs) hx
  rw [← hf] at ha
  obtain ⟨ω, -, rfl⟩ := List.mem_map.1 ha
  exact .inl ⟨ω, rfl⟩

theorem attained_nonneg {A : Matrix (Fin n) (Fin n) ℝ} {B : Matrix (Fin n) (Fin m) ℝ}
    {C : Matrix (Fin p) (Fin n) ℝ} {D : Matrix (Fin p) (Fin m) ℝ} {g : ℝ}
    (h : Attained A B C D g) : 0 ≤ g := by
  rcases h with ⟨w, rfl⟩ | rfl <;> exact norm_nonneg _

theorem hinfLoop_spec {E : HinfNum} {tol : ℝ} (htol : 0 ≤ tol) {A : Matrix (Fin n) (Fin n) ℝ}
    {B : Matrix (Fin n) (Fin m) ℝ} {C : Matrix (Fin p) (Fin n) ℝ} {D : Matrix (Fin p) (Fin m) ℝ}
    (hE : FreqExact E A B C D none (stateOf A B C D none)) (hEig : EigvalsExact E) (k : ℕ) (lb v : ℝ)
    (hlb : Attained A B C D lb) (h : hinfLoop E tol (stateOf A B C D none) k lb = .ok v) :
    ∃ g, Attained A B C D g ∧ v = (g + g * (1 + gammaStep)) / 2 ∧
      (hR (g * (1 + gammaStep)) D).det ≠ 0 ∧ (hS (g * (1 + gammaStep)) D).det ≠ 0 ∧
      ∀ w : ℝ, ¬ IsEig (hamM (g * (1 + gammaStep)) A B C D) (Complex.I * w) := by
  induction k generalizing lb with
  | zero => simp [hinfLoop] at h
  | succ k ih =>
    rw [hinfLoop] at h
    have hH := hamiltonian_of (lb * (1 + gammaStep)) A B C D
    simp only [stateOf] at h ih hE
    rw [hH] at h
    by_cases hdet : (hR (lb * (1 + gammaStep)) D).det = 0 ∨ (hS (lb * (1 + gammaStep)) D).det = 0
    · rw [if_pos hdet] at h
      simp [Bind.bind, Except.bind] at h
    rw [if_neg hdet] at h
    push Not at hdet
    simp only [Bind.bind, Except.bind] at h
    split at h
    · rename_i him
      simp only [Except.ok.injEq] at h
      refine ⟨lb, hlb, h.symm, hdet.1, hdet.2, fun w hw => ?_⟩
      have : Complex.I * (w : ℂ) ∈ imEigs tol (E.eig (Arr.of (hamM (lb * (1 + gammaStep)) A B C D))) := by
        unfold imEigs
        rw [List.mem_filter]
        exact ⟨(hEig _ _ _).2 hw, by simpa using htol⟩
      rw [him] at this
      simp at this
    · split at h
      · cases h
      · rename_i f hf
        split at h
        · cases h
        · rename_i x hx
          exact ih x (hinf_attained rfl hE hf hx) h

theorem isGainAt_iff {A : Matrix (Fin n) (Fin n) ℝ} {B : Matrix (Fin n) (Fin m) ℝ}
    {C : Matrix (Fin p) (Fin n) ℝ} {D : Matrix (Fin p) (Fin m) ℝ} (hA : Hurwitz A) {w g : ℝ} :
    IsGainAt A B C D none w g ↔ g = ‖tfAt (cx A) (cx B) (cx C) (cx D) (Complex.I * w)‖ := by
  constructor
  · rintro ⟨M, ⟨-, rfl⟩, rfl⟩; rfl
  · rintro rfl
    exact ⟨_, ⟨hurwitz_axis hA w, rfl⟩, rfl⟩

theorem gammaStep_pos : 0 < gammaStep := by unfold gammaStep; norm_num

/-- An upper bound of the gains is at least every attained value. -/
theorem attained_le {A : Matrix (Fin n) (Fin n) ℝ} {B : Matrix (Fin n) (Fin m) ℝ}
    {C : Matrix (Fin p) (Fin n) ℝ} {D : Matrix (Fin p) (Fin m) ℝ} (hA : Hurwitz A) {g N : ℝ}
    (h : Attained A B C D g)
    (hN : ∀ w : ℝ, ‖tfAt (cx A) (cx B) (cx C) (cx D) (Complex.I * w)‖ ≤ N) : g ≤ N := by
  rcases h with ⟨w, rfl⟩ | rfl
  · exact hN w
  · exact le_of_tendsto (tendsto_tfAt _ _ _ _ (hurwitz_axis hA)) (Eventually.of_forall hN)

/-- What a run that returns a number has established. -/
theorem hinf_run {E : HinfNum} {tol : ℝ} (htol : 0 ≤ tol) (S : StateObj ℝ ℂ)
    (A : Matrix (Fin n) (Fin n) ℝ) (B : Matrix (Fin n) (Fin m) ℝ) (C : Matrix (Fin p) (Fin n) ℝ)
    (D : Matrix (Fin p) (Fin m) ℝ) (hSg : S.g = stateOf A B C D none)
    (hst : S.isstable = true) (hE : FreqExact E A B C D none S.g)
    (hEig : EigvalsExact E) (v : ℝ) (h : systemNormInf E tol S = .ok (.fin v)) :
    ∃ g, Attained A B C D g ∧ v = (g + g * (1 + gammaStep)) / 2 ∧
      (hR (g * (1 + gammaStep)) D).det ≠ 0 ∧ (hS (g * (1 + gammaStep)) D).det ≠ 0 ∧
      ∀ w : ℝ, ¬ IsEig (hamM (g * (1 + gammaStep)) A B C D) (Complex.I * w) := by
  unfold systemNormInf at h
  rw [if_neg (by rw [hst]; simp)] at h
  rw [hSg] at h hE
  obtain ⟨w, hw⟩ : ∃ w, lowDamp (stateOf A B C D none).isgain S.poles = .ok w := by
    rcases hq : lowDamp (stateOf A B C D none).isgain S.poles with e | w
    · rw [hq] at h; simp [Bind.bind, Except.bind] at h
    · exact ⟨w, rfl⟩
  rw [hw] at h
  simp only [Bind.bind, Except.bind] at h
  split at h
  · cases h
  rename_i f hf
  split at h
  · cases h
  rename_i lb hlb
  split at h
  · cases h
  rename_i x hx
  simp only [Except.ok.injEq, FVal.fin.injEq] at h
  subst h
  have hlb' := hinf_attained (G := stateOf A B C D none) rfl hE hf hlb
  have hmax : Attained A B C D (max lb (stateOf A B C D none).d.toC.norm2) := by
    rcases max_choice lb (stateOf A B C D none).d.toC.norm2 with h | h <;> rw [h]
    · exact hlb'
    · exact .inr rfl
  exact hinfLoop_spec htol hE hEig 51 _ x hmax hx

/-- **C70.** For a stable continuous time model, a returned number that is not below the largest
singular value of the feedthrough is the H∞ norm up to a relative error of `2⁻²⁵`. The eigenvalue
tolerance may be any nonnegative number. Missing: the number may be smaller than the gain of the
feedthrough (then it is not an upper bound), the method may raise (`C70_gain_violated`,
`C70_zero_violated`), and discrete time models (`C70_discrete_violated`, `C70_delay_violated`). -/
theorem C70_hinf_partial {E : HinfNum} {tol : ℝ} (htol : 0 ≤ tol) (S : StateObj ℝ ℂ)
    (A : Matrix (Fin n) (Fin n) ℝ) (B : Matrix (Fin n) (Fin m) ℝ) (C : Matrix (Fin p) (Fin n) ℝ)
    (D : Matrix (Fin p) (Fin m) ℝ) (hm : 0 < m) (hS : S.g = stateOf A B C D none)
    (hst : S.isstable = true) (hA : Hurwitz A) (hE : FreqExact E A B C D none S.g)
    (hEig : EigvalsExact E) (v : ℝ) (h : systemNormInf E tol S = .ok (.fin v))
    (hv : ‖D.map (algebraMap ℝ ℂ)‖ * (1 + 1 / 2 ^ 26) ≤ v) :
    ∃ N, IsHinf A B C D none N ∧ v ≤ N * (1 + 1 / 2 ^ 25) ∧ N ≤ v * (1 + 1 / 2 ^ 25) := by
  obtain ⟨g, hg, hxg, hr, hs, hno⟩ := hinf_run htol S A B C D hS hst hE hEig v h
  have hg0 := attained_nonneg hg
  have hx' : v = g * (1 + 1 / 2 ^ 26) := by rw [hxg, gammaStep]; ring
  have hD : ‖cx D‖ ≤ g := by
    rw [hx'] at hv
    exact le_of_mul_le_mul_right hv (by norm_num)
  have hgpos : 0 < g := by
    rcases hg0.lt_or_eq with h | h
    · exact h
    · exfalso
      have hD0 : cx D = 0 := norm_le_zero_iff.1 (by rw [h]; exact hD)
      have hD00 : D = 0 := by
        ext i j
        have := congrFun (congrFun hD0 i) j
        simpa [cx] using this
      apply hr
      rw [← h, hR, hD00]
      haveI : Nonempty (Fin m) := ⟨⟨0, hm⟩⟩
      simp
  have hlt : ‖cx D‖ < g * (1 + gammaStep) := by
    have := gammaStep_pos
    nlinarith
  have hup := gain_lt_of_no_eig hlt hr hs hA hno
  have hbdd : BddAbove {y | ∃ ω, IsGainAt A B C D none ω y} := by
    refine ⟨g * (1 + gammaStep), ?_⟩
    rintro y ⟨ω, hy⟩
    rw [isGainAt_iff hA] at hy
    rw [hy]; exact (hup ω).le
  have hne : {y | ∃ ω, IsGainAt A B C D none ω y}.Nonempty := ⟨_, 0, (isGainAt_iff hA).2 rfl⟩
  have hlub := isLUB_csSup hne hbdd
  refine ⟨_, hlub, ?_, ?_⟩
  · have hgN : g ≤ sSup {y | ∃ ω, IsGainAt A B C D none ω y} :=
      attained_le hA hg fun ω => hlub.1 ⟨ω, (isGainAt_iff hA).2 rfl⟩
    rw [hx']
    have : g * (1 + 1 / 2 ^ 26) ≤ g * (1 + 1 / 2 ^ 25) := by
      apply mul_le_mul_of_nonneg_left _ hg0; norm_num
    refine this.trans (mul_le_mul_of_nonneg_right hgN (by norm_num))
  · refine ((isLUB_le_iff hlub (b := g * (1 + gammaStep))).2 ?_).trans ?_
    · rintro y ⟨ω, hy⟩
      rw [isGainAt_iff hA] at hy
      rw [hy]; exact (hup ω).le
    · rw [hx', gammaStep]
      nlinarith

/-- **C70, strictly proper models.** Whatever number is returned is the H∞ norm up to a relative error
of `2⁻²⁵`. Missing: models with feedthrough are in `C70_hinf_partial`; discrete models (`C70_discrete_violated`). -/
theorem C70_strictly_proper_partial {E : HinfNum} {tol : ℝ} (htol : 0 ≤ tol) (S : StateObj ℝ ℂ)
    (A : Matrix (Fin n) (Fin n) ℝ) (B : Matrix (Fin n) (Fin m) ℝ) (C : Matrix (Fin p) (Fin n) ℝ)
    (hm : 0 < m) (hS : S.g = stateOf A B C 0 none)
    (hst : S.isstable = true) (hA : Hurwitz A) (hE : FreqExact E A B C 0 none S.g)
    (hEig : EigvalsExact E) (v : ℝ) (h : systemNormInf E tol S = .ok (.fin v)) :
    ∃ N, IsHinf A B C 0 none N ∧ v ≤ N * (1 + 1 / 2 ^ 25) ∧ N ≤ v * (1 + 1 / 2 ^ 25) := by
  refine C70_hinf_partial htol S A B C 0 hm hS hst hA hE hEig v h ?_
  obtain ⟨g, hg, hxg, -⟩ := hinf_run htol S A B C 0 hS hst hE hEig v h
  have hg0 := attained_nonneg hg
  have := gammaStep_pos
  rw [hxg]
  simp
  positivity

/-! ### Models with one state, one input and one output -/

theorem scalar_mul (a b : ℝ) : (!![a] : Matrix (Fin 1) (Fin 1) ℝ) * !![b] = !![a * b] := by
  ext i j; fin_cases i; fin_cases j; simp [Matrix.mul_apply]

theorem scalar_inv (a : ℝ) : (!![a] : Matrix (Fin 1) (Fin 1) ℝ)⁻¹ = !![a⁻¹] := by
  rw [Matrix.inv_def]
  ext i j; fin_cases i; fin_cases j; simp [Matrix.adjugate_fin_one]

theorem scalar_T (a : ℝ) : (!![a] : Matrix (Fin 1) (Fin 1) ℝ)ᵀ = !![a] := by
  ext i j; fin_cases i; fin_cases j; rfl

theorem scalar_hR (g d : ℝ) : hR g (!![d] : Matrix (Fin 1) (Fin 1) ℝ) = !![d * d - g ^ 2] := by
  rw [hR, scalar_T, scalar_mul]
  ext i j; fin_cases i; fin_cases j; simp

theorem scalar_hS (g d : ℝ) : hS g (!![d] : Matrix (Fin 1) (Fin 1) ℝ) = !![d * d - g ^ 2] := by
  rw [hS, scalar_T, scalar_mul]
  ext i j; fin_cases i; fin_cases j; simp

theorem scalar_ham (g a b c d : ℝ) :
    hamM g (!![a] : Matrix (Fin 1) (Fin 1) ℝ) !![b] !![c] !![d] =
      !![a - b * ((d * d - g ^ 2)⁻¹ * d) * c, (-g * b) * ((d * d - g ^ 2)⁻¹ * b);
        (g * c) * ((d * d - g ^ 2)⁻¹ * c), -(a - b * ((d * d - g ^ 2)⁻¹ * d) * c)] := by
  rw [hamM, scalar_hR, scalar_hS, scalar_inv]
  simp only [scalar_T, scalar_mul]
  have e1 : (-g) • (!![b] : Matrix (Fin 1) (Fin 1) ℝ) = !![-g * b] := by
    ext i j; fin_cases i; fin_cases j; simp
  have e2 : g • (!![c] : Matrix (Fin 1) (Fin 1) ℝ) = !![g * c] := by
    ext i j; fin_cases i; fin_cases j; simp
  rw [e1, e2, scalar_mul, scalar_mul]
  ext i j
  fin_cases i <;> fin_cases j <;> rfl

theorem scalar_isEig (g a b c d : ℝ) (z : ℂ) :
    IsEig (hamM g (!![a] : Matrix (Fin 1) (Fin 1) ℝ) !![b] !![c] !![d]) z ↔
      z ^ 2 = (((a - b * ((d * d - g ^ 2)⁻¹ * d) * c) ^ 2 -
        (g * b * c * (d * d - g ^ 2)⁻¹) ^ 2 : ℝ) : ℂ) := by
  rw [scalar_ham, IsEig, Matrix.det_fin_two]
  generalize (d * d - g ^ 2)⁻¹ = r
  generalize a - b * (r * d) * c = α
  simp
  constructor <;> intro h <;> linear_combination h

theorem scalar_tf (a b c d : ℝ) (s : ℂ) :
    cx (!![c] : Matrix (Fin 1) (Fin 1) ℝ) * (s • (1 : Matrix (Fin 1) (Fin 1) ℂ) -
      cx (!![a] : Matrix (Fin 1) (Fin 1) ℝ))⁻¹ * cx (!![b] : Matrix (Fin 1) (Fin 1) ℝ) +
      cx (!![d] : Matrix (Fin 1) (Fin 1) ℝ) = !![c * (s - a)⁻¹ * b + d] := by
  rw [Matrix.inv_def]
  ext i j; fin_cases i; fin_cases j
  simp [Matrix.mul_apply, Matrix.adjugate_fin_one]
  ring

theorem scalar_norm (x : ℂ) : ‖(!![x] : Matrix (Fin 1) (Fin 1) ℂ)‖ = ‖x‖ := by
  rw [norm_one_one]; rfl

/-- One round of the loop without eigenvalue near the imaginary axis. -/
theorem hinfLoop_break {E : HinfNum} (hEig : EigvalsExact E) {tol lb : ℝ} {A : Matrix (Fin n) (Fin n) ℝ}
    {B : Matrix (Fin n) (Fin m) ℝ} {C : Matrix (Fin p) (Fin n) ℝ} {D : Matrix (Fin p) (Fin m) ℝ}
    {dt : Option ℝ} (k : ℕ) (hr : (hR (lb * (1 + gammaStep)) D).det ≠ 0)
    (hs : (hS (lb * (1 + gammaStep)) D).det ≠ 0)
    (h : ∀ z, IsEig (hamM (lb * (1 + gammaStep)) A B C D) z → tol < |z.re|) :
    hinfLoop E tol (stateOf A B C D dt) (k + 1) lb = .ok ((lb + lb * (1 + gammaStep)) / 2) := by
  rw [hinfLoop]
  have hH := hamiltonian_of (lb * (1 + gammaStep)) A B C D
  rw [if_neg (by tauto)] at hH
  simp only [stateOf, hH, Bind.bind, Except.bind]
  have : imEigs tol (E.eig (Arr.of (hamM (lb * (1 + gammaStep)) A B C D))) = [] := by
    unfold imEigs
    rw [List.filter_eq_nil_iff]
    intro z hz
    have := h z ((hEig _ _ _).1 hz)
    simp only [decide_eq_true_eq, not_le]
    exact this
  rw [this]

/-- A square with positive real part is the square of a number away from the imaginary axis. -/
theorem re_of_sq {z : ℂ} {x : ℝ} (hx : 0 ≤ x) (h : z ^ 2 = (x : ℂ)) : |z.re| = √x := by
  have h1 := congrArg Complex.re h
  have h2 := congrArg Complex.im h
  simp [pow_two] at h1 h2
  have : z.im = 0 := by
    rcases mul_eq_zero.1 (show z.re * z.im = 0 by linarith) with h | h
    · rw [h] at h1
      have := mul_self_nonneg z.im
      have : z.im * z.im = 0 := by linarith
      exact mul_self_eq_zero.1 this
    · exact h
  rw [this] at h1
  rw [← Real.sqrt_sq_eq_abs]
  congr 1
  linarith [pow_two z.re]

/-- The initial lower bound of a model with one real pole. -/
theorem scalar_start {E : HinfNum} {tol : ℝ} {S : StateObj ℝ ℂ} {a b c d : ℝ} {dt : Option ℝ}
    (hS : S.g = stateOf !![a] !![b] !![c] !![d] dt) (hp : S.poles = [(a : ℂ)]) (hst : S.isstable = true)
    (hE : FreqExact E !![a] !![b] !![c] !![d] dt S.g) (ht : ∀ t, dt = some t → 0 < t ∧ |a| ≤ Real.pi / t) :
    systemNormInf E tol S = (hinfLoop E tol S.g 51 (max (max ‖c * (evalPoint dt 0 - a)⁻¹ * b + d‖
      ‖c * (evalPoint dt |a| - a)⁻¹ * b + d‖) |d|)).bind fun v => .ok (.fin v) := by
  unfold systemNormInf
  rw [if_neg (by rw [hst]; simp), hp]
  have hw : lowDamp S.g.isgain [(a : ℂ)] = .ok |a| := by
    rw [hS]
    simp [lowDamp, npMin]
  rw [hw]
  have hf : E.freq S.g [0, |a|] = .ok [Arr.of !![c * (evalPoint dt 0 - a)⁻¹ * b + d],
      Arr.of !![c * (evalPoint dt |a| - a)⁻¹ * b + d]] := by
    have e := scalar_tf a b c d
    rcases dt with _ | t
    · rw [hE.cont rfl]
      simp only [List.map_cons, List.map_nil]
      rw [e, e]
    · obtain ⟨ht0, ht1⟩ := ht t rfl
      rw [hE.disc t rfl _ (by simp) (by
        intro ω hω
        simp at hω
        rcases hω with rfl | rfl
        · exact div_nonneg Real.pi_pos.le ht0.le
        · exact ht1)]
      simp only [List.map_cons, List.map_nil]
      rw [e, e]
  simp only [Bind.bind, Except.bind]
  rw [hf]
  have hsi : S.g.isSISO = true := by rw [hS]; rfl
  simp only [hsi, peak, if_true, List.map_cons, List.map_nil, npMax, List.foldl_cons, List.foldl_nil]
  have hd : S.g.d.toC.norm2 = |d| := by
    rw [hS]
    have := scalar_norm (d : ℂ)
    simp only [Complex.norm_real, Real.norm_eq_abs] at this
    rw [← this]
    unfold Arr.toC Arr.norm2
    congr 1
    ext i j; fin_cases i; fin_cases j; rfl
  rw [hd]
  rfl

open Classical in
/-- Exact routines for a given model. -/
noncomputable def exactNum (A : Matrix (Fin n) (Fin n) ℝ) (B : Matrix (Fin n) (Fin m) ℝ)
    (C : Matrix (Fin p) (Fin n) ℝ) (D : Matrix (Fin p) (Fin m) ℝ) (dt : Option ℝ) : HinfNum where
  freq _ w := if w = [] ∧ dt ≠ none then .error .value else .ok (w.map fun ω => Arr.of
    (cx C * (evalPoint dt ω • (1 : Matrix (Fin n) (Fin n) ℂ) - cx A)⁻¹ * cx B + cx D))
  eig H := if h : H.r = H.c then
    ((Matrix.of fun i j => (H.m i (Fin.cast h j) : ℂ)) : Matrix (Fin H.r) (Fin H.r) ℂ).charpoly.roots.toList else []

theorem exactNum_freq (A : Matrix (Fin n) (Fin n) ℝ) (B : Matrix (Fin n) (Fin m) ℝ)
    (C : Matrix (Fin p) (Fin n) ℝ) (D : Matrix (Fin p) (Fin m) ℝ) (dt : Option ℝ) (G : StateM ℝ) :
    FreqExact (exactNum A B C D dt) A B C D dt G := by
  refine ⟨fun h w => ?_, fun t h w hw _ => ?_, fun t h => ?_⟩
  · exact if_neg fun q => q.2 h
  · exact if_neg fun q => hw q.1
  · exact if_pos ⟨rfl, by simp [h]⟩

theorem exactNum_eig (A : Matrix (Fin n) (Fin n) ℝ) (B : Matrix (Fin n) (Fin m) ℝ)
    (C : Matrix (Fin p) (Fin n) ℝ) (D : Matrix (Fin p) (Fin m) ℝ) (dt : Option ℝ) :
    EigvalsExact (exactNum A B C D dt) := by
  intro k H z
  rw [isEig_iff_mem, Matrix.mem_spectrum_iff_isRoot_charpoly]
  have : (exactNum A B C D dt).eig (Arr.of H) = (H.map (algebraMap ℝ ℂ)).charpoly.roots.toList := by
    exact dif_pos (show (Arr.of H).r = (Arr.of H).c from rfl)
  rw [this, Multiset.mem_toList, Polynomial.mem_roots (Matrix.charpoly_monic _).ne_zero]

/-- The object of a first order model. -/
noncomputable def firstOrder (a b c d : ℝ) (dt : Option ℝ) : StateObj ℝ ℂ :=
  ⟨stateOf !![a] !![b] !![c] !![d] dt, (1, 1), none, none, 0, [(a : ℂ)], [], true⟩

/-- `1 / (s + 1)`. -/
theorem hinf_lag :
    systemNormInf (exactNum !![(-1 : ℝ)] !![1] !![1] !![0] none) (1 / 10 ^ 8)
      (firstOrder (-1) 1 1 0 none) = .ok (.fin (1 + 1 / 2 ^ 26)) := by
  rw [scalar_start rfl rfl rfl (exactNum_freq _ _ _ _ _ _) (by simp)]
  have h1 : ‖((1 : ℝ) : ℂ) * (evalPoint none 0 - ((-1 : ℝ) : ℂ))⁻¹ * ((1 : ℝ) : ℂ) + ((0 : ℝ) : ℂ)‖ = 1 := by
    simp [evalPoint]
  have h2 : ‖((1 : ℝ) : ℂ) * (evalPoint none |(-1 : ℝ)| - ((-1 : ℝ) : ℂ))⁻¹ * ((1 : ℝ) : ℂ) + ((0 : ℝ) : ℂ)‖ ≤ 1 := by
    simp only [evalPoint, Option.elim]
    simp
    apply inv_le_one_of_one_le₀
    have := Complex.abs_re_le_norm (Complex.I + 1)
    simpa using this
  rw [h1, max_eq_left h2, abs_zero, max_eq_left zero_le_one]
  rw [show (firstOrder (-1) 1 1 0 none).g = stateOf !![-1] !![1] !![1] !![0] none from rfl,
    hinfLoop_break (exactNum_eig _ _ _ _ _)]
  · simp only [Except.bind]; congr 2; rw [gammaStep]; norm_num
  · rw [scalar_hR, gammaStep]; norm_num
  · rw [scalar_hS, gammaStep]; norm_num
  · intro z hz
    rw [scalar_isEig] at hz
    rw [re_of_sq _ hz]
    · rw [gammaStep]
      apply Real.lt_sqrt_of_sq_lt
      norm_num
    · rw [gammaStep]; norm_num

/-- The hypotheses of `C70_hinf_partial` and `C70_strictly_proper_partial` are met by `1 / (s + 1)`. -/
example : ∃ N, IsHinf !![(-1 : ℝ)] !![1] !![1] (0 : Matrix (Fin 1) (Fin 1) ℝ) none N ∧
    (1 + 1 / 2 ^ 26 : ℝ) ≤ N * (1 + 1 / 2 ^ 25) ∧ N ≤ (1 + 1 / 2 ^ 26) * (1 + 1 / 2 ^ 25) := by
  have h0 : (0 : Matrix (Fin 1) (Fin 1) ℝ) = !![0] := by
    ext i j; fin_cases i; fin_cases j; rfl
  refine C70_strictly_proper_partial (tol := 1 / 10 ^ 8) (by norm_num) (firstOrder (-1) 1 1 0 none) _ _ _
    zero_lt_one (by rw [h0]; rfl) rfl ?_ (E := exactNum !![(-1 : ℝ)] !![1] !![1] !![0] none)
    (by rw [h0]; exact exactNum_freq _ _ _ _ _ _) (exactNum_eig _ _ _ _ _) _ hinf_lag
  intro z hz
  rw [IsEig] at hz
  simp at hz
  have : z = -1 := by linear_combination hz
  rw [this]; simp

/-- **C70, unstable models.** The norm is reported as infinite. -/
theorem C70_unstable (E : HinfNum) (tol : ℝ) (S : StateObj ℝ ℂ) (h : S.isstable = false) :
    systemNormInf E tol S = .ok .inf := by
  rw [systemNormInf, if_pos h]

/-- **C70 fails for discrete time models.** The Hamiltonian of the continuous time test is used. The
model `-2z / (z + 1/2)` has gain `4` at the Nyquist frequency, `2 (1 + 2⁻²⁶)` is returned. -/
theorem C70_discrete_violated : ∃ (E : HinfNum) (S : StateObj ℝ ℂ)
    (A B C D : Matrix (Fin 1) (Fin 1) ℝ) (v : ℝ),
    S.g = stateOf A B C D (some 1) ∧ S.isstable = true ∧ Schur A ∧ FreqExact E A B C D (some 1) S.g ∧
      EigvalsExact E ∧ systemNormInf E (1 / 10 ^ 8) S = .ok (.fin v) ∧ v < 3 ∧ IsGainAt A B C D (some 1) Real.pi 4 := by
  refine ⟨exactNum !![-1/2] !![1] !![1] !![-2] (some 1), firstOrder (-1/2) 1 1 (-2) (some 1),
    !![-1/2], !![1], !![1], !![-2], 2 * (1 + 1 / 2 ^ 26), rfl, rfl, ?_, exactNum_freq _ _ _ _ _ _,
    exactNum_eig _ _ _ _ _, ?_, by norm_num, ?_⟩
  · intro z hz
    rw [IsEig] at hz
    simp at hz
    have : z = -1/2 := by linear_combination hz
    rw [this]; norm_num
  · have hpi := Real.two_le_pi
    rw [scalar_start rfl rfl rfl (exactNum_freq _ _ _ _ _ _) (by
      rintro t h; cases h; refine ⟨zero_lt_one, ?_⟩; rw [div_one]; norm_num [abs_of_neg]; linarith)]
    have key : ∀ w : ℝ, 1/2 ≤ Real.cos w →
        ‖((1 : ℝ) : ℂ) * (evalPoint (some 1) w - ((-1/2 : ℝ) : ℂ))⁻¹ * ((1 : ℝ) : ℂ) + ((-2 : ℝ) : ℂ)‖ ≤ 2 := by
      intro w hw
      have hs : ‖evalPoint (some 1) w‖ = 1 := by
        simp only [evalPoint, Option.elim, Complex.ofReal_one, mul_one]
        rw [mul_comm, Complex.norm_exp_ofReal_mul_I]
      have hre : (evalPoint (some 1) w).re = Real.cos w := by
        simp only [evalPoint, Option.elim, Complex.ofReal_one, mul_one]
        rw [mul_comm, Complex.exp_ofReal_mul_I_re]
      generalize evalPoint (some 1) w = s at hs hre ⊢
      have hn1 : 1 ≤ ‖s + 1 / 2‖ := by
        refine le_trans ?_ (Complex.re_le_norm _)
        simp only [Complex.add_re, hre]
        norm_num; linarith
      have hne : s + 1 / 2 ≠ 0 := by rw [← norm_pos_iff]; linarith
      have e : ((1 : ℝ) : ℂ) * (s - ((-1/2 : ℝ) : ℂ))⁻¹ * ((1 : ℝ) : ℂ) + ((-2 : ℝ) : ℂ)
          = -2 * s / (s + 1 / 2) := by
        have : s - ((-1/2 : ℝ) : ℂ) = s + 1 / 2 := by push_cast; ring
        rw [this]
        rw [eq_div_iff hne, add_mul]
        push_cast
        rw [one_mul, mul_one, inv_mul_cancel₀ hne]
        ring
      rw [e, norm_div, norm_mul, hs, norm_neg, Complex.norm_ofNat, mul_one]
      exact div_le_self (by norm_num) hn1
    have h1 := key 0 (by norm_num)
    have h2 := key |(-1/2 : ℝ)| (by
      have e : |(-1/2 : ℝ)| = 1/2 := by norm_num [abs_of_neg]
      have := Real.cos_le_cos_of_nonneg_of_le_pi (x := 1/2) (y := Real.pi / 3) (by norm_num)
        (by linarith) (by linarith)
      rw [e]
      rwa [Real.cos_pi_div_three] at this)
    rw [show |(-2 : ℝ)| = 2 by norm_num, max_eq_right (max_le h1 h2)]
    rw [show (firstOrder (-1/2) 1 1 (-2) (some 1)).g = stateOf !![-1/2] !![1] !![1] !![-2] (some 1) from rfl,
      hinfLoop_break (exactNum_eig _ _ _ _ _)]
    · simp only [Except.bind]; congr 2; rw [gammaStep]; norm_num
    · rw [scalar_hR, gammaStep]; norm_num
    · rw [scalar_hS, gammaStep]; norm_num
    · intro z hz
      rw [scalar_isEig] at hz
      rw [re_of_sq _ hz]
      · rw [gammaStep]
        apply Real.lt_sqrt_of_sq_lt
        norm_num
      · rw [gammaStep]; norm_num
  · have e : evalPoint (some 1) Real.pi = -1 := by
      simp only [evalPoint, Option.elim, Complex.ofReal_one, mul_one]
      rw [mul_comm, Complex.exp_pi_mul_I]
    refine ⟨_, ⟨?_, rfl⟩, ?_⟩
    · rw [e]; simp; norm_num
    · have := scalar_tf (-1/2) 1 1 (-2) (evalPoint (some 1) Real.pi)
      rw [this, scalar_norm, e]
      norm_num

theorem midpoints_single {l : List ℂ} {x : ℝ} (h : ∀ z ∈ l, |z.im| = x) : midpoints l = [] := by
  have h1 : ((l.map fun z => |z.im|).dedup).length ≤ 1 := by
    have hn := List.nodup_dedup (l.map fun z => |z.im|)
    have ha : ∀ y ∈ (l.map fun z => |z.im|).dedup, y = x := by
      intro y hy
      rw [List.mem_dedup, List.mem_map] at hy
      obtain ⟨z, hz, rfl⟩ := hy
      exact h z hz
    rcases hL : (l.map fun z => |z.im|).dedup with _ | ⟨a, _ | ⟨b, t⟩⟩
    · rw [hL]; simp
    · rw [hL]; simp
    · rw [hL] at hn ha
      have e1 := ha a (by simp)
      have e2 := ha b (by simp)
      subst e1; subst e2
      simp at hn
  rw [← List.length_eq_zero_iff]
  simp only [midpoints, List.length_zipWith, List.length_tail, List.length_dropLast,
    List.length_insertionSort]
  omega

/-- **C70 fails for a delay.** `1/z` has gain one at every frequency, the method raises: the
Hamiltonian has one pair of imaginary eigenvalues, no midpoint is left. -/
theorem C70_delay_violated : ∃ (E : HinfNum) (S : StateObj ℝ ℂ)
    (A B C D : Matrix (Fin 1) (Fin 1) ℝ),
    S.g = stateOf A B C D (some 1) ∧ S.isstable = true ∧ Schur A ∧ FreqExact E A B C D (some 1) S.g ∧
      EigvalsExact E ∧ IsHinf A B C D (some 1) 1 ∧ systemNormInf E (1 / 10 ^ 8) S = .error .value := by
  have hs : ∀ w : ℝ, ‖evalPoint (some 1) w‖ = 1 := by
    intro w
    simp only [evalPoint, Option.elim, Complex.ofReal_one, mul_one]
    rw [mul_comm, Complex.norm_exp_ofReal_mul_I]
  have key : ∀ w : ℝ, ‖((1 : ℝ) : ℂ) * (evalPoint (some 1) w - ((0 : ℝ) : ℂ))⁻¹ * ((1 : ℝ) : ℂ) +
      ((0 : ℝ) : ℂ)‖ = 1 := by
    intro w
    simp [hs w]
  refine ⟨exactNum !![0] !![1] !![1] !![0] (some 1), firstOrder 0 1 1 0 (some 1),
    !![0], !![1], !![1], !![0], rfl, rfl, ?_, exactNum_freq _ _ _ _ _ _,
    exactNum_eig _ _ _ _ _, ?_, ?_⟩
  · intro z hz
    rw [IsEig] at hz
    simp at hz
    rw [hz]; norm_num
  · have : {g | ∃ ω, IsGainAt (!![0] : Matrix (Fin 1) (Fin 1) ℝ) !![1] !![1] !![0] (some 1) ω g} = {1} := by
      ext g
      simp only [Set.mem_setOf_eq, Set.mem_singleton_iff]
      constructor
      · rintro ⟨ω, M, ⟨-, rfl⟩, rfl⟩
        have := scalar_tf 0 1 1 0 (evalPoint (some 1) ω)
        rw [this, scalar_norm, key]
      · rintro rfl
        refine ⟨0, _, ⟨?_, rfl⟩, ?_⟩
        · simp [evalPoint]
        · have := scalar_tf 0 1 1 0 (evalPoint (some 1) 0)
          rw [this, scalar_norm, key]
    rw [IsHinf, this]
    exact isLUB_singleton
  · rw [scalar_start rfl rfl rfl (exactNum_freq _ _ _ _ _ _) (by
      rintro t h; cases h; refine ⟨zero_lt_one, ?_⟩; simp [Real.pi_pos.le])]
    rw [key, key, max_self, abs_zero, max_eq_left zero_le_one]
    have hH := hamiltonian_of (1 * (1 + gammaStep)) (!![0] : Matrix (Fin 1) (Fin 1) ℝ) !![1] !![1] !![0]
    rw [if_neg (by rw [scalar_hR, scalar_hS, gammaStep]; norm_num)] at hH
    have hEg := exactNum_eig (!![0] : Matrix (Fin 1) (Fin 1) ℝ) !![1] !![1] !![0] (some 1)
    have hz : ∀ z : ℂ, z ∈ imEigs (1 / 10 ^ 8) ((exactNum (!![0] : Matrix (Fin 1) (Fin 1) ℝ) !![1] !![1] !![0] (some 1)).eig
        (Arr.of (hamM (1 * (1 + gammaStep)) (!![0] : Matrix (Fin 1) (Fin 1) ℝ) !![1] !![1] !![0]))) ↔
        z ^ 2 = ((-((1 + gammaStep)⁻¹) ^ 2 : ℝ) : ℂ) := by
      intro z
      have hpos := gammaStep_pos
      have e : ((0 - 1 * ((0 * 0 - (1 * (1 + gammaStep)) ^ 2)⁻¹ * 0) * 1) ^ 2 -
        (1 * (1 + gammaStep) * 1 * 1 * (0 * 0 - (1 * (1 + gammaStep)) ^ 2)⁻¹) ^ 2 : ℝ) = -((1 + gammaStep)⁻¹) ^ 2 := by
        have : (1 + gammaStep : ℝ) ≠ 0 := by positivity
        field_simp
        ring
      rw [imEigs, List.mem_filter, hEg, scalar_isEig, e]
      simp only [decide_eq_true_eq, and_iff_left_iff_imp]
      intro h
      have h1 := congrArg Complex.re h
      have h2 := congrArg Complex.im h
      rw [Complex.ofReal_re] at h1
      rw [Complex.ofReal_im] at h2
      simp only [pow_two, Complex.mul_re, Complex.mul_im] at h1 h2
      have : z.re = 0 := by
        rcases mul_eq_zero.1 (show z.re * z.im = 0 by linarith) with h | h
        · exact h
        · rw [h] at h1
          have := mul_self_nonneg (1 + gammaStep)⁻¹
          have : z.re * z.re = 0 := le_antisymm (by linarith) (mul_self_nonneg _)
          exact mul_self_eq_zero.1 this
      rw [this]; norm_num
    have himv : ∀ z : ℂ, z ^ 2 = ((-((1 + gammaStep)⁻¹) ^ 2 : ℝ) : ℂ) → |z.im| = (1 + gammaStep)⁻¹ := by
      intro z h
      have hpos := gammaStep_pos
      have hsq : (z - Complex.I * ((1 + gammaStep)⁻¹ : ℝ)) * (z + Complex.I * ((1 + gammaStep)⁻¹ : ℝ)) = 0 := by
        have : (z - Complex.I * ((1 + gammaStep)⁻¹ : ℝ)) * (z + Complex.I * ((1 + gammaStep)⁻¹ : ℝ))
          = z ^ 2 - Complex.I ^ 2 * (((1 + gammaStep)⁻¹ : ℝ) : ℂ) ^ 2 := by ring
        rw [this, h, Complex.I_sq]
        push_cast; ring
      have hi : 0 < (1 + gammaStep)⁻¹ := by positivity
      generalize (1 + gammaStep)⁻¹ = q at hsq hi ⊢
      rcases mul_eq_zero.1 hsq with q | q
      · rw [sub_eq_zero.1 q]; simp [abs_of_pos hi]
      · rw [eq_neg_of_add_eq_zero_left q]; simp [abs_of_pos hi]
    have hloop : hinfLoop (exactNum (!![0] : Matrix (Fin 1) (Fin 1) ℝ) !![1] !![1] !![0] (some 1)) (1 / 10 ^ 8)
        (stateOf !![0] !![1] !![1] !![0] (some 1)) (50 + 1) 1 = .error .value := by
      rw [hinfLoop]
      simp only [stateOf, hH, Bind.bind, Except.bind]
      split
      · rename_i hnil
        have := (hz (Complex.I * ((1 + gammaStep)⁻¹ : ℝ))).2 (by
          rw [mul_pow, Complex.I_sq]; push_cast; ring)
        rw [hnil] at this
        simp at this
      · rename_i z im hcons
        have hmid : midpoints (z :: im) = [] :=
          midpoints_single fun y hy => himv y ((hz y).1 (hcons ▸ hy))
        rw [hmid]
        rw [(exactNum_freq (!![0] : Matrix (Fin 1) (Fin 1) ℝ) !![1] !![1] !![0] (some 1) _).empty 1 rfl]
    have : (firstOrder 0 1 1 0 (some 1)).g = stateOf !![0] !![1] !![1] !![0] (some 1) := rfl
    rw [this, hloop]
    rfl

/-- **C70 fails for a static gain.** The poles of a gain are a plain list without `imag`. -/
theorem C70_gain_violated (E : HinfNum) (tol : ℝ) (S : StateObj ℝ ℂ) (h : S.isstable = true)
    (hg : S.g.isgain = true) : systemNormInf E tol S = .error .attribute := by
  have : lowDamp S.g.isgain S.poles = .error .attribute := if_pos hg
  rw [systemNormInf, if_neg (by rw [h]; simp), this]
  rfl

theorem npMin_ok {l : List ℝ} (h : l ≠ []) : ∃ x, npMin l = .ok x := by
  cases l with
  | nil => exact absurd rfl h
  | cons a l => exact ⟨_, rfl⟩

theorem lowDamp_ok {l : List ℂ} (h : l ≠ []) : ∃ x, lowDamp false l = .ok x := by
  unfold lowDamp
  rw [if_neg (by simp)]
  split
  · cases l with
    | nil => exact absurd rfl h
    | cons a l => exact ⟨_, rfl⟩
  · exact npMin_ok (by simpa using h)

/-- **C70 fails for models without response.** If no input reaches a state or an output the H∞ norm is
zero; the bound is zero then and the test matrix singular. -/
theorem C70_zero_violated (E : HinfNum) (tol : ℝ) (S : StateObj ℝ ℂ) (A : Matrix (Fin n) (Fin n) ℝ)
    (C : Matrix (Fin p) (Fin n) ℝ) (hm : 0 < m)
    (hS : S.g = stateOf A (0 : Matrix (Fin n) (Fin m) ℝ) C 0 none)
    (hst : S.isstable = true) (hA : Hurwitz A)
    (hpoles : S.poles ≠ [])
    (hE : FreqExact E A (0 : Matrix (Fin n) (Fin m) ℝ) C 0 none S.g) :
    IsHinf A (0 : Matrix (Fin n) (Fin m) ℝ) C 0 none 0 ∧ systemNormInf E tol S = .error .linAlg := by
  constructor
  · have : {g | ∃ ω, IsGainAt A (0 : Matrix (Fin n) (Fin m) ℝ) C 0 none ω g} = {0} := by
      ext g
      simp only [Set.mem_setOf_eq, Set.mem_singleton_iff]
      constructor
      · rintro ⟨ω, M, ⟨-, rfl⟩, rfl⟩
        simp
      · rintro rfl
        refine ⟨0, _, ⟨hurwitz_axis hA 0, rfl⟩, ?_⟩
        simp
    rw [IsHinf, this]
    exact isLUB_singleton
  · obtain ⟨w, hw⟩ := lowDamp_ok hpoles
    rw [hS] at hE
    rw [systemNormInf, if_neg (by rw [hst]; simp), hS, hw]
    simp only [Bind.bind, Except.bind]
    rw [hE.cont rfl]
    have hz : ∀ ω : ℝ, cx C * (evalPoint none ω • (1 : Matrix (Fin n) (Fin n) ℂ) - cx A)⁻¹ *
        cx (0 : Matrix (Fin n) (Fin m) ℝ) + cx (0 : Matrix (Fin p) (Fin m) ℝ) = 0 := by
      intro ω
      have : ∀ r c, cx (0 : Matrix (Fin r) (Fin c) ℝ) = 0 := fun r c => by ext i j; simp [cx]
      rw [this, this, Matrix.mul_zero, add_zero]
    have hwk : (Arr.of (0 : Matrix (Fin p) (Fin m) ℂ)).wk 0 0 = 0 := by
      unfold Arr.wk
      split <;> rfl
    have hn2 : (Arr.of (0 : Matrix (Fin p) (Fin m) ℂ)).norm2 = 0 := by
      unfold Arr.norm2; exact norm_zero
    have hd : (Arr.of (0 : Matrix (Fin p) (Fin m) ℝ)).toC.norm2 = 0 := by
      unfold Arr.norm2 Arr.toC
      rw [norm_eq_zero]
      ext i j; simp
    simp only [List.map_cons, List.map_nil, hz, peak, hwk, hn2, norm_zero, ite_self, npMax,
      List.foldl_cons, List.foldl_nil, max_self, hd]
    rw [hinfLoop]
    have hH := hamiltonian_of (0 * (1 + gammaStep)) A (0 : Matrix (Fin n) (Fin m) ℝ) C 0
    rw [if_pos (.inl (by
      rw [hR]
      haveI : Nonempty (Fin m) := ⟨⟨0, hm⟩⟩
      simp))] at hH
    rw [hH]
    rfl

/-- The hypotheses of `C70_zero_violated` are met. -/
example : systemNormInf (exactNum !![(-1 : ℝ)] (0 : Matrix (Fin 1) (Fin 1) ℝ) !![1] 0 none) (1 / 10 ^ 8)
    ⟨stateOf !![(-1 : ℝ)] (0 : Matrix (Fin 1) (Fin 1) ℝ) !![1] 0 none, (1, 1), none, none, 0, [-1], [],
      true⟩ = .error .linAlg := by
  refine (C70_zero_violated _ _ _ !![(-1 : ℝ)] !![1] zero_lt_one rfl rfl ?_ (by simp)
    (exactNum_freq _ _ _ _ _ _)).2
  intro z hz
  rw [IsEig] at hz
  simp at hz
  have : z = -1 := by linear_combination hz
  rw [this]; simp

/-- The hypotheses of `C70_gain_violated` and of `C70_unstable` are met. -/
example (E : HinfNum) :
    systemNormInf E (1 / 10 ^ 8) ⟨⟨Arr.of (0 : Matrix (Fin 0) (Fin 0) ℝ), Arr.of (0 : Matrix (Fin 0) (Fin 1) ℝ),
      Arr.of (0 : Matrix (Fin 1) (Fin 0) ℝ), Arr.of !![5], none, true⟩, (1, 1), none, none, 0, [], [],
      true⟩ = .error .attribute ∧
    systemNormInf E (1 / 10 ^ 8) ⟨stateOf !![(1 : ℝ)] !![1] !![1] !![0] none, (1, 1), none, none, 0, [1], [],
      false⟩ = .ok .inf :=
  ⟨C70_gain_violated _ _ _ rfl rfl, C70_unstable _ _ _ rfl⟩

end Harold
