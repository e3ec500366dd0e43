import Verif.Spec.Minimality
import Verif.Lemmas.Minimality
import Verif.Props.NormTransfer
import Verif.Props.LoopPoles
import Verif.Props.MinrealState
import Verif.Props.KalmanArg

/-!
# C107: models with the least number of states
-/

namespace Harold

open Matrix Spec Filter Topology

variable {n n' m p : ℕ}

/-- Matrices of a model; a static gain has `0 × 0` matrices. -/
structure Rep (g : StateM ℝ) (A : Matrix (Fin n) (Fin n) ℝ) (B : Matrix (Fin n) (Fin m) ℝ) (C : Matrix (Fin p) (Fin n) ℝ) (D : Matrix (Fin p) (Fin m) ℝ) : Prop where
  ord : order g = n
  tf : ∀ s : ℝ, (s • (1 : Matrix (Fin n) (Fin n) ℝ) - A).det ≠ 0 → HasTF g p m s (tfReal A B C D s)
  char : ∀ {L : Type} [Field L] [Algebra ℝ L] (s v : L), CharAt g s v ↔ v = (s • (1 : Matrix (Fin n) (Fin n) L) - A.map (algebraMap ℝ L)).det

theorem rep_dyn (A : Matrix (Fin n) (Fin n) ℝ) (B : Matrix (Fin n) (Fin m) ℝ) (C : Matrix (Fin p) (Fin n) ℝ) (D : Matrix (Fin p) (Fin m) ℝ) (dt : Option ℝ) :
    Rep ⟨Arr.of A, Arr.of B, Arr.of C, Arr.of D, dt, false⟩ A B C D where
  ord := by simp [order]
  tf s hs := Or.inr ⟨rfl, n, A, B, C, D, rfl, rfl, rfl, rfl, isTF_real.mpr ⟨hs, rfl⟩⟩
  char s v := ⟨fun h => CharAt_unique h (Or.inr ⟨rfl, n, A, rfl, rfl⟩), fun h => Or.inr ⟨rfl, n, A, rfl, h⟩⟩

theorem rep_gain (a b c : Arr ℝ) (D : Matrix (Fin p) (Fin m) ℝ) (dt : Option ℝ) :
    Rep ⟨a, b, c, Arr.of D, dt, true⟩ (0 : Matrix (Fin 0) (Fin 0) ℝ) (0 : Matrix (Fin 0) (Fin m) ℝ) (0 : Matrix (Fin p) (Fin 0) ℝ) D where
  ord := by simp [order]
  tf s _ := by
    rw [tfReal_zero]
    exact Or.inl ⟨rfl, D, rfl, by ext; simp⟩
  char s v := by
    rw [det_fin_zero]
    exact ⟨fun h => CharAt_unique h (Or.inl ⟨rfl, rfl⟩), fun h => Or.inl ⟨rfl, h⟩⟩

theorem exists_rep {g : StateM ℝ} (h : Consistent g p m) : ∃ (n : ℕ) (A : Matrix (Fin n) (Fin n) ℝ) (B : Matrix (Fin n) (Fin m) ℝ) (C : Matrix (Fin p) (Fin n) ℝ)
    (D : Matrix (Fin p) (Fin m) ℝ), Rep g A B C D := by
  obtain ⟨a, b, c, D, dt, rfl⟩ | ⟨n, A, B, C, D, dt, rfl⟩ := consistent_cases h
  · exact ⟨0, 0, 0, 0, D, rep_gain a b c D dt⟩
  · exact ⟨n, A, B, C, D, rep_dyn A B C D dt⟩

section
variable {g g' : StateM ℝ} {A : Matrix (Fin n) (Fin n) ℝ} {B : Matrix (Fin n) (Fin m) ℝ} {C : Matrix (Fin p) (Fin n) ℝ} {D : Matrix (Fin p) (Fin m) ℝ}
  {A' : Matrix (Fin n') (Fin n') ℝ} {B' : Matrix (Fin n') (Fin m) ℝ} {C' : Matrix (Fin p) (Fin n') ℝ} {D' : Matrix (Fin p) (Fin m) ℝ}

theorem rep_markov (h : Rep g A B C D) (h' : Rep g' A' B' C' D') (htf : SameTF g g' p m) (k : ℕ) : markov A B C D k = markov A' B' C' D' k := by
  refine markov_of_tf k ?_
  filter_upwards [htf, eventually_det A, eventually_det A'] with s hs h1 h2
  exact hs _ _ (h.tf s h1) (h'.tf s h2)

theorem rep_same (h : Rep g A B C D) (h' : Rep g' A' B' C' D') (hm : ∀ k, markov A B C D k = markov A' B' C' D' k) : SameTF g g' p m := by
  filter_upwards [eventually_det A, eventually_det A'] with s h1 h2 M M' hM hM'
  rw [HasTF_unique hM (h.tf s h1), HasTF_unique hM' (h'.tf s h2), tf_of_markov hm h1 h2]

/-- A model whose matrices are reachable and observable has least order. -/
theorem rep_least (h : Rep g A B C D) (hr : Reachable A B) (ho : Observable A C) : LeastOrder g p m := by
  intro g' hg' htf
  obtain ⟨n', A', B', C', D', h'⟩ := exists_rep hg'
  rw [h.ord, h'.ord]
  exact order_le (fun k => rep_markov h h' htf (k + 1)) hr ho

/-- ... and conversely. -/
theorem rep_least_iff (h : Rep g A B C D) : LeastOrder g p m ↔ Reachable A B ∧ Observable A C := by
  refine ⟨fun hl => ?_, fun hh => rep_least h hh.1 hh.2⟩
  obtain ⟨r, A', B', C', h1, -, -, h4, h5, -⟩ := exists_minimal A B C
  have h' := rep_dyn A' B' C' D none
  have hle := hl ⟨Arr.of A', Arr.of B', Arr.of C', Arr.of D, none, false⟩ ⟨⟨rfl, rfl⟩, fun _ => ⟨rfl, rfl, rfl, rfl, rfl⟩⟩
    (rep_same h h' fun k => by cases k with | zero => rfl | succ k => exact h4 k)
  rw [h.ord, h'.ord] at hle
  exact h5 (le_antisymm h1 hle)
end

/-- **C107**: a model with states has the least number of states of all models with its transfer matrix exactly if both Kalman tests succeed. -/
theorem C107_tests {S : SvdNum ℝ} (he : 0 ≤ S.eps) (hS : ∀ (k l : ℕ) (M : Matrix (Fin k) (Fin l) ℝ), SvdExact S M) {g : StateM ℝ} (hc : Consistent g p m)
    (hg : g.isgain = false) (hn : 0 < g.a.r) (hm : 0 < m) (hp : 0 < p) :
    (isKalmanControllableArg S (.state g) = .ok true ∧ isKalmanObservableArg S (.state g) = .ok true) ↔ LeastOrder g p m := by
  obtain ⟨a, b, c, D, dt, rfl⟩ | ⟨n, A, B, C, D, dt, rfl⟩ := consistent_cases hc
  · cases hg
  · obtain ⟨⟨t, h1, h2⟩, t', h3, h4⟩ := C77_tests he (A := A) (B := B) (C := C) hS hn hm hp (G := .state ⟨Arr.of A, Arr.of B, Arr.of C, Arr.of D, dt, false⟩)
      (H := .state ⟨Arr.of A, Arr.of B, Arr.of C, Arr.of D, dt, false⟩) (.state _ rfl rfl) (.state _ rfl rfl)
    rw [h1, h3, rep_least_iff (rep_dyn A B C D dt), ← h2, ← h4]
    simp

/-- **C107**, uniqueness: two models with the least number of states and the same transfer matrix differ only by the choice of coordinates of the state. -/
theorem C107_coordinates {A : Matrix (Fin n) (Fin n) ℝ} {B : Matrix (Fin n) (Fin m) ℝ} {C : Matrix (Fin p) (Fin n) ℝ} {D : Matrix (Fin p) (Fin m) ℝ}
    {A' : Matrix (Fin n') (Fin n') ℝ} {B' : Matrix (Fin n') (Fin m) ℝ} {C' : Matrix (Fin p) (Fin n') ℝ} {D' : Matrix (Fin p) (Fin m) ℝ} {dt dt' : Option ℝ}
    (h : LeastOrder ⟨Arr.of A, Arr.of B, Arr.of C, Arr.of D, dt, false⟩ p m) (h' : LeastOrder ⟨Arr.of A', Arr.of B', Arr.of C', Arr.of D', dt', false⟩ p m)
    (htf : SameTF ⟨Arr.of A, Arr.of B, Arr.of C, Arr.of D, dt, false⟩ ⟨Arr.of A', Arr.of B', Arr.of C', Arr.of D', dt', false⟩ p m) :
    n = n' ∧ D = D' ∧ ∃ T : Matrix (Fin n) (Fin n) ℝ, T.det ≠ 0 ∧ Arr.of A' = Arr.of (T⁻¹ * A * T) ∧ Arr.of B' = Arr.of (T⁻¹ * B) ∧ Arr.of C' = Arr.of (C * T) := by
  have r := rep_dyn A B C D dt
  have r' := rep_dyn A' B' C' D' dt'
  obtain ⟨h1, h2⟩ := (rep_least_iff r).mp h
  obtain ⟨h3, h4⟩ := (rep_least_iff r').mp h'
  have hm := rep_markov r r' htf
  obtain rfl : n = n' := le_antisymm (order_le (fun k => hm (k + 1)) h1 h2) (order_le (fun k => (hm (k + 1)).symm) h3 h4)
  obtain ⟨T, hT, rfl, rfl, rfl⟩ := similar_of_markov (fun k => hm (k + 1)) h1 h2
  exact ⟨rfl, hm 0, T, hT, rfl, rfl, rfl⟩

/-- **C107**, poles: the poles of a model with the least number of states are among the poles of every model with the same transfer matrix. -/
theorem C107_poles {g g' : StateM ℝ} (hc : Consistent g p m) (hc' : Consistent g' p m) (h : LeastOrder g p m) (htf : SameTF g g' p m) {s : ℂ}
    (hs : CharAt g s 0) : CharAt g' s 0 := by
  obtain ⟨n, A, B, C, D, r⟩ := exists_rep hc
  obtain ⟨n', A', B', C', D', r'⟩ := exists_rep hc'
  have hm := rep_markov r r' htf
  obtain ⟨h1, h2⟩ := (rep_least_iff r).mp h
  obtain ⟨k, A₁, B₁, C₁, -, g2, g3, g4, -, g6⟩ := exists_minimal A' B' C'
  have hm1 : ∀ k, C * A ^ k * B = C₁ * A₁ ^ k * B₁ := fun k => (hm (k + 1)).trans (g4 k)
  obtain rfl : n = k := le_antisymm (order_le hm1 h1 h2) (order_le (fun k => (hm1 k).symm) g2 g3)
  obtain ⟨T, hT, rfl, rfl, rfl⟩ := similar_of_markov (fun k => (hm1 k).symm) g2 g3
  rw [r'.char]
  refine (g6 ℂ s ?_).symm
  rw [r.char] at hs
  have hu := isUnit_iff_ne_zero.mpr hT
  refine det_embed (P := T) (Q := T⁻¹) ?_ (nonsing_inv_mul T hu) hs.symm
  rw [← Matrix.mul_assoc, ← Matrix.mul_assoc, mul_nonsing_inv T hu, Matrix.one_mul]

/-- **C107**, characteristic polynomials: two models with the least number of states and the same transfer matrix have the same number of states and the same
characteristic polynomial, so the same poles with the same multiplicities. -/
theorem C107_characteristic {g g' : StateM ℝ} (hc : Consistent g p m) (hc' : Consistent g' p m) (h : LeastOrder g p m) (h' : LeastOrder g' p m)
    (htf : SameTF g g' p m) : order g = order g' ∧ ∀ s v : ℂ, CharAt g s v ↔ CharAt g' s v := by
  obtain ⟨n, A, B, C, D, r⟩ := exists_rep hc
  obtain ⟨n', A', B', C', D', r'⟩ := exists_rep hc'
  have hm := rep_markov r r' htf
  obtain ⟨h1, h2⟩ := (rep_least_iff r).mp h
  obtain ⟨h3, h4⟩ := (rep_least_iff r').mp h'
  obtain rfl : n = n' := le_antisymm (order_le (fun k => hm (k + 1)) h1 h2) (order_le (fun k => (hm (k + 1)).symm) h3 h4)
  obtain ⟨T, hT, rfl, rfl, rfl⟩ := similar_of_markov (fun k => hm (k + 1)) h1 h2
  refine ⟨r.ord.trans r'.ord.symm, fun s v => ?_⟩
  have hu := isUnit_iff_ne_zero.mpr hT
  have hTT : T⁻¹.map (algebraMap ℝ ℂ) * T.map (algebraMap ℝ ℂ) = 1 := by
    rw [← Matrix.map_mul, nonsing_inv_mul T hu]
    simp
  have e : s • (1 : Matrix (Fin n) (Fin n) ℂ) - (T⁻¹ * A * T).map (algebraMap ℝ ℂ) = T⁻¹.map (algebraMap ℝ ℂ) * (s • 1 - A.map (algebraMap ℝ ℂ)) * T.map (algebraMap ℝ ℂ) := by
    rw [Matrix.mul_sub, Matrix.sub_mul, Matrix.mul_smul, Matrix.smul_mul, Matrix.mul_one, hTT, Matrix.map_mul, Matrix.map_mul]
  rw [r.char, r'.char, e, det_mul_right_comm, hTT, Matrix.one_mul]

/-- **C107**, stability: if some model with the same transfer matrix is stable, then so is the model with the least number of states. -/
theorem C107_stable {g g' : StateM ℝ} (hc : Consistent g p m) (hc' : Consistent g' p m) (hdt : g'.dt = g.dt) (h : LeastOrder g p m) (htf : SameTF g g' p m)
    (hs : StableModel g') : StableModel g := by
  rw [stable_iff_char hc]
  rw [stable_iff_char hc', hdt] at hs
  exact fun z hz => hs z (C107_poles hc hc' h htf hz)

/-- **C107**, `minimal_realization`: in exact arithmetic the result for an observable model has the least number of states of all models with the transfer matrix of
the given model. Missing: as in `C67_partial`, and models that are not observable, for which it can fail (`C68_violated`). -/
theorem C107_minimal_realization_partial {S : SvdNum ℝ} {N : MinNum ℝ} {tol : ℝ} (hS : ∀ (a b : ℕ) (M : Matrix (Fin a) (Fin b) ℝ), SvdOk S M) (he : S.eps = 0)
    (hN : Decides N tol) (hb : Balances N) {G : StateM ℝ} {A : Matrix (Fin n) (Fin n) ℝ} {B : Matrix (Fin n) (Fin m) ℝ} {C : Matrix (Fin p) (Fin n) ℝ}
    {D : Matrix (Fin p) (Fin m) ℝ} (hG : G = ⟨Arr.of A, Arr.of B, Arr.of C, Arr.of D, G.dt, false⟩) (hdt : DtOk G.dt) (hn : 0 < n) (hB : B ≠ 0) (hC : C.rank < n)
    (ho : Observable A C) : ∃ F, minrealState S N tol G = .ok F ∧ ∀ g, Consistent g p m → SameTF G g p m → order F ≤ order g := by
  obtain ⟨F, h1, hcF, -, -, h5⟩ := C67_partial hS he hN hb hG hdt hn hB hC
  obtain ⟨F', h1', h2⟩ := C68_partial hS he hN hb hG hdt hn hB hC
  obtain rfl : F = F' := Except.ok.inj (h1.symm.trans h1')
  refine ⟨F, h1, fun g hg htf => ?_⟩
  have hleast : LeastOrder F p m := by
    rcases h2 with h2 | ⟨k, A', B', C', e1, e2, e3, h3, h4⟩
    · intro g' _ _
      simp [order, h2]
    · obtain ⟨a, b, c, D', dt, rfl⟩ | ⟨k', A₁, B₁, C₁, D₁, dt, rfl⟩ := consistent_cases hcF
      · intro g' _ _
        simp [order]
      · obtain rfl : k' = k := congrArg Arr.r e1
        obtain rfl := Arr.of_inj.mp e1
        obtain rfl := Arr.of_inj.mp e2
        obtain rfl := Arr.of_inj.mp e3
        exact rep_least (rep_dyn _ _ _ _ _) h3 (h4 ho)
  refine hleast g hg ?_
  have hcG : Consistent G p m := by rw [hG]; exact ⟨⟨rfl, rfl⟩, fun _ => ⟨rfl, rfl, rfl, rfl, rfl⟩⟩
  obtain ⟨k, A₁, B₁, C₁, D₁, r⟩ := exists_rep hcG
  filter_upwards [htf, eventually_det A₁] with s hs hd M M' hM hM'
  rw [← hs _ _ (r.tf s hd) hM']
  exact (h5 ℝ s _ _ (r.tf s hd) hM).symm

/-- One state connected to input and output: least order. -/
theorem lag_least : LeastOrder (⟨Arr.of !![-1], Arr.of !![1], Arr.of !![1], Arr.of !![0], none, false⟩ : StateM ℝ) 1 1 := by
  refine rep_least (rep_dyn _ _ _ _ _) (fun x => ⟨[x], ?_⟩) fun x hx => ?_
  · ext i
    fin_cases i
    simp [finalState, vecHead]
  · have := congrFun (hx 0) 0
    ext i
    fin_cases i
    simpa [vecHead] using this

/-- A model with an unused state: not of least order. -/
example : ¬ LeastOrder (⟨Arr.of !![-1, 0; 0, 5], Arr.of !![1; 0], Arr.of !![1, 1], Arr.of !![0], none, false⟩ : StateM ℝ) 1 1 := by
  rw [rep_least_iff (rep_dyn _ _ _ _ _)]
  rintro ⟨h, -⟩
  obtain ⟨us, hus⟩ := h ![0, 1]
  have : ∀ us : List (Fin 1 → ℝ), finalState !![-1, 0; 0, 5] !![1; 0] us 1 = 0 := by
    intro us
    induction us using List.reverseRecOn with
    | nil => simp [finalState]
    | append_singleton us u ih =>
      rw [finalState_concat]
      simp [dotProduct, Fin.sum_univ_two, ih]
  have h1 := this us
  rw [hus] at h1
  simp at h1

example : ∃ S : SvdNum ℝ, 0 ≤ S.eps ∧ (∀ (k l : ℕ) (M : Matrix (Fin k) (Fin l) ℝ), SvdExact S M) ∧
    isKalmanControllableArg S (.state ⟨Arr.of !![-1], Arr.of !![1], Arr.of !![1], Arr.of !![0], none, false⟩) = .ok true := by
  obtain ⟨S, h1, h2⟩ := exists_svdNum
  refine ⟨S, h1.ge, fun k l M => h2 M, ((C107_tests h1.ge (fun k l M => h2 M) ⟨⟨rfl, rfl⟩, fun _ => ⟨rfl, rfl, rfl, rfl, rfl⟩⟩ rfl ?_ one_pos one_pos).mpr lag_least).1⟩
  simp

/-- The lag has the transfer function of the model with the unused state, which is not stable. -/
theorem lag_same : SameTF (⟨Arr.of !![-1], Arr.of !![1], Arr.of !![1], Arr.of !![0], none, false⟩ : StateM ℝ)
    ⟨Arr.of !![-1, 0; 0, 5], Arr.of !![1; 0], Arr.of !![1, 1], Arr.of !![0], none, false⟩ 1 1 := by
  refine rep_same (rep_dyn _ _ _ _ _) (rep_dyn _ _ _ _ _) fun k => ?_
  cases k with
  | zero => rfl
  | succ k =>
    change !![1] * !![-1] ^ k * !![1] = !![1, 1] * !![-1, 0; 0, 5] ^ k * !![1; 0]
    have e : (!![-1, 0; 0, 5] : Matrix (Fin 2) (Fin 2) ℝ) ^ k * (!![1; 0] : Matrix (Fin 2) (Fin 1) ℝ) = ((-1 : ℝ) ^ k) • (!![1; 0] : Matrix (Fin 2) (Fin 1) ℝ) := by
      induction k with
      | zero => simp
      | succ k ih =>
        rw [pow_succ', Matrix.mul_assoc, ih, Matrix.mul_smul, pow_succ', mul_comm, mul_smul]
        congr 1
        ext i j
        fin_cases i <;> fin_cases j <;> simp
    have e' : (!![-1] : Matrix (Fin 1) (Fin 1) ℝ) ^ k = ((-1 : ℝ) ^ k) • 1 := by
      rw [show (!![-1] : Matrix (Fin 1) (Fin 1) ℝ) = (-1 : ℝ) • 1 by ext i j; fin_cases i; fin_cases j; simp, smul_pow, one_pow]
    rw [Matrix.mul_assoc, Matrix.mul_assoc, e, e']
    ext i j
    fin_cases i
    fin_cases j
    simp

example : ∃ (g g' : StateM ℝ), Consistent g 1 1 ∧ Consistent g' 1 1 ∧ LeastOrder g 1 1 ∧ SameTF g g' 1 1 ∧ order g < order g' :=
  ⟨_, _, ⟨⟨rfl, rfl⟩, fun _ => ⟨rfl, rfl, rfl, rfl, rfl⟩⟩, ⟨⟨rfl, rfl⟩, fun _ => ⟨rfl, rfl, rfl, rfl, rfl⟩⟩, lag_least, lag_same, by simp [order]⟩

end Harold
