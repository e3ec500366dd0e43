import Verif.Lemmas.Sim
import Verif.Spec.Sim
import Verif.Props.Hold
import Mathlib.Data.List.GetD

/-!
# C39, C40, C41, C42, C43: time domain simulation
-/

namespace Harold

open Matrix Harold.Spec Set

variable {P : Type} {Nm : Numerics ℝ P} {E : DNum} {S : StateObj ℝ P} {n m p N : ℕ}
  {A A' : Matrix (Fin n) (Fin n) ℝ} {B B' : Matrix (Fin n) (Fin m) ℝ}
  {C C' : Matrix (Fin p) (Fin n) ℝ} {D D' : Matrix (Fin p) (Fin m) ℝ}
  {U U' : Matrix (Fin N) (Fin m) ℝ} {x0 : Fin n → ℝ} {xarg : Option (List ℝ)}
  {t : List ℝ} {targ : Option (List ℝ)} {dt : Option ℝ} {h : ℝ}

/-! ## Building blocks -/

theorem mul_transpose_row {r c k : ℕ} (X : Matrix (Fin r) (Fin c) ℝ) (Y : Matrix (Fin k) (Fin c) ℝ)
    (i : Fin r) : (X * Yᵀ) i = Y *ᵥ X i := by
  funext j
  simp [Matrix.mul_apply, Matrix.mulVec, dotProduct, mul_comm]

theorem flat_output (i : Fin N) :
    (stateMat A (U * Bᵀ) x0 * Cᵀ + U * Dᵀ) i = output A B C D x0 U i := by
  have e : (stateMat A (U * Bᵀ) x0 * Cᵀ + U * Dᵀ) i
      = (stateMat A (U * Bᵀ) x0 * Cᵀ) i + (U * Dᵀ) i := rfl
  rw [e, mul_transpose_row, mul_transpose_row]
  unfold output
  congr 1
  rw [stateMat_row, Matrix.mulVec_add, Matrix.mulVec_sum]
  congr 1
  refine Finset.sum_congr rfl fun j _ => ?_
  rw [mul_transpose_row]

theorem squeezeU_of (hN : 2 ≤ N) : squeezeU (Arr.of U) = some (Arr.of U) := by
  unfold squeezeU
  rw [if_neg (by simp; omega), if_neg (by simp; omega)]

theorem checkX0_of (hx : InitArg xarg x0) {g : StateM ℝ} (hg : g.isgain = false) (hn : g.n = n) :
    ∃ (v : Option (Arr ℝ)) (r : Matrix (Fin 1) (Fin n) ℝ), checkX0 g xarg = .ok v ∧ x0Row n v = Arr.of r ∧ r 0 = x0 := by
  rcases hx with ⟨rfl, rfl⟩ | ⟨rfl, h1⟩
  · exact ⟨none, 0, rfl, rfl, rfl⟩
  · refine ⟨some (Arr.of (Matrix.of fun (_ : Fin 1) (j : Fin (List.ofFn x0).length) =>
      (List.ofFn x0).get j)), Matrix.of fun (_ : Fin 1) (j : Fin n) => x0 j, ?_, ?_, rfl⟩
    · simp only [checkX0, hg, List.length_ofFn, h1, hn]
      simp
    · simp only [x0Row, Option.getD_some]
      refine Arr.ext_cast rfl (by simp) fun i j => ?_
      simp
      rfl

/-- Everything after the argument checks. -/
theorem simulate_of (hN : 2 ≤ N) (hm : 1 ≤ m)
    (hS : S.g.isgain = false) (hSn : S.g.n = n) (hSm : S.g.m = m)
    (ht : timeArray S.g.dt (some (Arr.of U)) targ = .ok t) (htl : t.length = N)
    (hmod : simModel Nm E S t = .ok ⟨Arr.of A, Arr.of B, Arr.of C, Arr.of D, dt, false⟩)
    (hx : InitArg xarg x0) (pc : Bool) :
    ∃ (v : Option (Arr ℝ)) (r : Matrix (Fin 1) (Fin n) ℝ), x0Row n v = Arr.of r ∧ r 0 = x0 ∧
    simulate Nm E S (Arr.of U) targ xarg pc
      = (simDyn ⟨Arr.of A, Arr.of B, Arr.of C, Arr.of D, dt, false⟩ (Arr.of U) v pc).bind
          fun y => .ok (y, t) := by
  obtain ⟨v, r, h1, h2, h3⟩ := checkX0_of hx hS hSn
  refine ⟨v, r, h2, h3, ?_⟩
  have hc : checkUT S.g.m S.g.dt (squeezeU (Arr.of U)) targ = .ok (Arr.of U, t) := by
    rw [squeezeU_of hN]
    unfold checkUT
    rw [ht]
    simp only [bind, Except.bind, Arr.of_r, Arr.of_c]
    have : ¬ (N * m < 1) := by
      have := Nat.mul_pos (by omega : 0 < N) (by omega : 0 < m)
      omega
    rw [if_neg this, if_neg (by simp [htl]), if_neg (by simp [hSm])]
  unfold simulate
  rw [h1]
  simp only [bind, Except.bind, hc, hS, hmod]
  simp

theorem simulate_flat (hN : 2 ≤ N) (hm : 1 ≤ m)
    (hS : S.g.isgain = false) (hSn : S.g.n = n) (hSm : S.g.m = m)
    (ht : timeArray S.g.dt (some (Arr.of U)) targ = .ok t) (htl : t.length = N)
    (hmod : simModel Nm E S t = .ok ⟨Arr.of A, Arr.of B, Arr.of C, Arr.of D, dt, false⟩)
    (hx : InitArg xarg x0) (pc : Bool) (hpc : pc = false ∨ m = 1) :
    simulate Nm E S (Arr.of U) targ xarg pc
      = .ok (.flat (Arr.of (Matrix.of (output A B C D x0 U))), t) := by
  obtain ⟨v, r, h1, h2, h3⟩ := simulate_of hN hm hS hSn hSm ht htl hmod hx pc
  rw [h3]
  have e : simDyn ⟨Arr.of A, Arr.of B, Arr.of C, Arr.of D, dt, false⟩ (Arr.of U) v pc
      = .ok (.flat (Arr.of (Matrix.of (output A B C D x0 U)))) := by
    unfold simDyn
    rw [if_neg (by rcases hpc with rfl | rfl <;> simp [StateM.m]), simFlat_of U dt v r h1, h2]
    simp only [bind, Except.bind]
    congr 3
    ext i j
    rw [flat_output]; rfl
  rw [e]
  rfl

/-- The input with all channels but `k` removed. -/
def onlyChannel (U : Matrix (Fin N) (Fin m) ℝ) (k : Fin m) : Matrix (Fin N) (Fin m) ℝ :=
  Matrix.of fun i j => if j = k then U i j else 0

theorem channel_mul {r : ℕ} (X : Matrix (Fin r) (Fin m) ℝ) (k : Fin m) :
    (U.submatrix id fun _ : Fin 1 => k) * (X.submatrix id fun _ : Fin 1 => k)ᵀ
      = onlyChannel U k * Xᵀ := by
  ext i j
  simp [Matrix.mul_apply, onlyChannel]

theorem simulate_perChannel (hN : 2 ≤ N) (hm : 2 ≤ m)
    (hS : S.g.isgain = false) (hSn : S.g.n = n) (hSm : S.g.m = m)
    (ht : timeArray S.g.dt (some (Arr.of U)) targ = .ok t) (htl : t.length = N)
    (hmod : simModel Nm E S t = .ok ⟨Arr.of A, Arr.of B, Arr.of C, Arr.of D, dt, false⟩)
    (hx : InitArg xarg x0) :
    simulate Nm E S (Arr.of U) targ xarg true
      = .ok (.perChannel (List.ofFn fun k =>
          Arr.of (Matrix.of (output A B C D x0 (onlyChannel U k)))), t) := by
  obtain ⟨v, r, h1, h2, h3⟩ := simulate_of hN (by omega) hS hSn hSm ht htl hmod hx true
  rw [h3]
  have e : simDyn ⟨Arr.of A, Arr.of B, Arr.of C, Arr.of D, dt, false⟩ (Arr.of U) v true
      = .ok (.perChannel (List.ofFn fun k =>
          Arr.of (Matrix.of (output A B C D x0 (onlyChannel U k))))) := by
    unfold simDyn
    have hm1 : m ≠ 1 := by omega
    rw [if_pos (by simp [StateM.m, hm1])]
    have hk : ∀ k : Fin m, simChannel ⟨Arr.of A, Arr.of B, Arr.of C, Arr.of D, dt, false⟩ (Arr.of U) v k
        = .ok (Arr.of (Matrix.of (output A B C D x0 (onlyChannel U k)))) := by
      intro k
      rw [simChannel_of U dt v r h1 k, h2, channel_mul, channel_mul]
      congr 2
      ext i j
      rw [flat_output]; rfl
    have := mapM_range_ok hk
    simp only [StateM.m, Arr.of_c, this, bind, Except.bind]
  rw [e]
  rfl

theorem simulate_gain (hN : 2 ≤ N) (hm : 1 ≤ m) {a b c : Arr ℝ}
    (hS : S.g = ⟨a, b, c, Arr.of D, dt, true⟩)
    (ht : timeArray S.g.dt (some (Arr.of U)) targ = .ok t) (htl : t.length = N) (pc : Bool) :
    simulate Nm E S (Arr.of U) targ none pc
      = (simGain ⟨a, b, c, Arr.of D, dt, true⟩ (Arr.of U) pc).bind fun y => .ok (y, t) := by
  have hc : checkUT S.g.m S.g.dt (squeezeU (Arr.of U)) targ = .ok (Arr.of U, t) := by
    rw [squeezeU_of hN]
    unfold checkUT
    rw [ht]
    simp only [bind, Except.bind, Arr.of_r, Arr.of_c]
    have : ¬ (N * m < 1) := by
      have := Nat.mul_pos (by omega : 0 < N) (by omega : 0 < m)
      omega
    rw [if_neg this, if_neg (by simp [htl]), if_neg (by simp [hS, StateM.m])]
  unfold simulate
  simp only [checkX0, bind, Except.bind, hc]
  simp [hS]

theorem simGain_flat {a b c : Arr ℝ} (pc : Bool) (hpc : pc = false ∨ m = 1) :
    simGain ⟨a, b, c, Arr.of D, dt, true⟩ (Arr.of U) pc = .ok (.flat (Arr.of (U * Dᵀ))) := by
  unfold simGain
  split_ifs with h1 h2
  · simp only [StateM.isSISO, Arr.of_r, Arr.of_c, decide_eq_true_eq] at h1
    obtain ⟨rfl, rfl⟩ := h1
    rw [Arr.smul_of]
    congr 3
    ext i j
    have := get_of D 0 0
    fin_cases j
    simp only [Fin.val_zero] at this
    simp [Matrix.mul_apply, this]
    ring
  · exfalso
    rcases hpc with rfl | rfl <;> simp [StateM.m] at h2
  · simp [bind, Except.bind]

/-! ## C39 -/

theorem timeArray_none (U : Matrix (Fin N) (Fin m) ℝ) :
    timeArray (some h) (some (Arr.of U)) none = .ok ((List.range N).map fun k : ℕ => (k : ℝ) * h) := rfl

/-- **C39**, outputs of dynamic discrete models: `y_k = C A^k x0 + ∑_{j<k} C A^(k-1-j) B u_j + D u_k`
(`Spec.output`) at the times `k dt`. Missing from the full claim: inputs of a single sample, and
initial states for models with one state (see the `_violated` theorems). -/
theorem C39_output_partial (hN : 2 ≤ N) (hm : 1 ≤ m)
    (hG : S.g = ⟨Arr.of A, Arr.of B, Arr.of C, Arr.of D, some h, false⟩) (hx : InitArg xarg x0) :
    simulate Nm E S (Arr.of U) none xarg false
      = .ok (.flat (Arr.of (Matrix.of fun i => output A B C D x0 U i)),
          (List.range N).map fun k : ℕ => (k : ℝ) * h) :=
  simulate_flat hN hm (by rw [hG]) (by rw [hG]; rfl) (by rw [hG]; rfl)
    (by rw [hG]; exact timeArray_none U) (by simp) (by rw [simModel, hG]) hx false (Or.inl rfl)

/-- **C39**, static gains: `y_k = D u_k`. Missing: a single sample or a single row of inputs (`C39_single_sample_violated`). -/
theorem C39_gain_partial (hN : 2 ≤ N) (hm : 1 ≤ m) {a b c : Arr ℝ}
    (hG : S.g = ⟨a, b, c, Arr.of D, some h, true⟩) :
    simulate Nm E S (Arr.of U) none none false
      = .ok (.flat (Arr.of (Matrix.of fun i => D *ᵥ U i)),
          (List.range N).map fun k : ℕ => (k : ℝ) * h) := by
  rw [simulate_gain hN hm hG (by rw [hG]; exact timeArray_none U) (by simp), simGain_flat _ (Or.inl rfl)]
  have e : (U * Dᵀ) = Matrix.of fun i => D *ᵥ U i := by
    ext i j; rw [mul_transpose_row]; rfl
  rw [e]
  rfl

theorem output_linear (a b : ℝ) (x x' : Fin n → ℝ) (i : Fin N) :
    output A B C D (a • x + b • x') (a • U + b • U' : Matrix _ _ _) i
      = a • output A B C D x U i + b • output A B C D x' U' i := by
  have e : ∀ j, (a • U + b • U') j = a • U j + b • U' j := fun j => rfl
  unfold output
  simp only [e, Matrix.mulVec_add, Matrix.mulVec_smul, smul_add, Finset.sum_add_distrib,
    Finset.smul_sum]
  abel

/-- **C39**: the response is linear in initial state and input. Missing: a single sample (`C39_single_sample_violated`), initial states of models with one state (`C39_first_order_x0_violated`). -/
theorem C39_linear_partial (hN : 2 ≤ N) (hm : 1 ≤ m)
    (hG : S.g = ⟨Arr.of A, Arr.of B, Arr.of C, Arr.of D, some h, false⟩) {x x' : Fin n → ℝ} {a b : ℝ}
    {xa xb xc : Option (List ℝ)} (hxa : InitArg xa x) (hxb : InitArg xb x')
    (hxc : InitArg xc (a • x + b • x')) :
    ∃ (Y Y' : Matrix (Fin N) (Fin p) ℝ) (t : List ℝ),
      simulate Nm E S (Arr.of U) none xa false = .ok (.flat (Arr.of Y), t) ∧
      simulate Nm E S (Arr.of U') none xb false = .ok (.flat (Arr.of Y'), t) ∧
      simulate Nm E S (Arr.of (a • U + b • U')) none xc false = .ok (.flat (Arr.of (a • Y + b • Y')), t) := by
  refine ⟨_, _, _, C39_output_partial hN hm hG hxa, C39_output_partial hN hm hG hxb, ?_⟩
  rw [C39_output_partial hN hm hG hxc]
  congr 4
  ext i j
  rw [Matrix.of_apply, output_linear]
  rfl

/-- **C39**: outputs up to sample `k` depend on the inputs up to sample `k` only. Missing: as in `C39_linear_partial`. -/
theorem C39_causal_partial (hN : 2 ≤ N) (hm : 1 ≤ m)
    (hG : S.g = ⟨Arr.of A, Arr.of B, Arr.of C, Arr.of D, some h, false⟩) (hx : InitArg xarg x0) :
    ∃ (Y Y' : Matrix (Fin N) (Fin p) ℝ) (t : List ℝ),
      simulate Nm E S (Arr.of U) none xarg false = .ok (.flat (Arr.of Y), t) ∧
      simulate Nm E S (Arr.of U') none xarg false = .ok (.flat (Arr.of Y'), t) ∧
      ∀ k, (∀ i ≤ k, U i = U' i) → ∀ i ≤ k, Y i = Y' i := by
  refine ⟨_, _, _, C39_output_partial hN hm hG hx, C39_output_partial hN hm hG hx, fun k hk i hi => ?_⟩
  show output A B C D x0 U i = output A B C D x0 U' i
  unfold output
  rw [hk i hi]
  congr 2
  refine Finset.sum_congr rfl fun j hj => ?_
  rw [hk j ((Finset.mem_filter.mp hj).2.le.trans hi)]

/-- The outputs as sums over all earlier samples of an infinite input sequence. -/
theorem output_range (u : ℕ → Fin m → ℝ) (hu : ∀ i : Fin N, U i = u i) (i : Fin N) :
    output A B C D x0 U i = C *ᵥ (A ^ (i : ℕ) *ᵥ x0)
      + ∑ j ∈ Finset.range i, C *ᵥ (A ^ ((i : ℕ) - 1 - j) *ᵥ (B *ᵥ u j)) + D *ᵥ u i := by
  unfold output
  rw [sum_lt_fin, hu]
  congr 2
  exact Finset.sum_congr rfl fun j _ => by rw [hu]

/-- The input delayed by `d` samples. -/
def delayed (d : ℕ) (U : Matrix (Fin N) (Fin m) ℝ) : Matrix (Fin N) (Fin m) ℝ :=
  Matrix.of fun i => if (i : ℕ) < d then 0 else U ⟨i - d, by omega⟩

theorem output_delayed (d : ℕ) :
    Matrix.of (fun i => output A B C D 0 (delayed d U) i)
      = delayed d (Matrix.of fun i => output A B C D 0 U i) := by
  ext i l
  obtain ⟨u, hu⟩ : ∃ u : ℕ → Fin m → ℝ, ∀ i : Fin N, U i = u i :=
    ⟨fun k => if hk : k < N then U ⟨k, hk⟩ else 0, fun i => by simp⟩
  have hd : ∀ {q : ℕ} (V : Matrix (Fin N) (Fin q) ℝ) (i : Fin N),
      delayed d V i = if (i : ℕ) < d then 0 else V ⟨i - d, by omega⟩ := fun _ _ => rfl
  have hu' : ∀ i : Fin N, (delayed d U) i = (fun k => if k < d then 0 else u (k - d)) (i : ℕ) := by
    intro i
    rw [hd, hu]
  have h1 := output_range (A := A) (B := B) (C := C) (D := D) (x0 := 0) (U := delayed d U)
    (fun k => if k < d then 0 else u (k - d)) hu' i
  rw [hd, Matrix.of_apply]
  by_cases hi : (i : ℕ) < d
  · rw [if_pos hi]
    rw [h1]
    simp only [hi, if_true, Matrix.mulVec_zero, add_zero, zero_add]
    rw [Finset.sum_eq_zero]
    intro j hj
    have := Finset.mem_range.mp hj
    rw [if_pos (by omega)]
    simp
  · rw [if_neg hi]
    rw [h1]
    have h2 := output_range (A := A) (B := B) (C := C) (D := D) (x0 := 0) _ hu ⟨(i : ℕ) - d, by omega⟩
    rw [Matrix.of_apply, h2]
    simp only [hi, if_false, Matrix.mulVec_zero, zero_add]
    obtain ⟨k, hk⟩ : ∃ k, (i : ℕ) = d + k := ⟨i - d, by omega⟩
    rw [hk, Finset.sum_range_add, Nat.add_sub_cancel_left]
    have h3 : ∑ x ∈ Finset.range d, C *ᵥ A ^ (d + k - 1 - x) *ᵥ B *ᵥ (if x < d then 0 else u (x - d)) = 0 := by
      refine Finset.sum_eq_zero fun x hx => ?_
      rw [if_pos (Finset.mem_range.mp hx)]
      simp
    have h4 : ∀ x ∈ Finset.range k, C *ᵥ A ^ (d + k - 1 - (d + x)) *ᵥ B *ᵥ
        (if d + x < d then 0 else u (d + x - d)) = C *ᵥ A ^ (k - 1 - x) *ᵥ B *ᵥ u x := by
      intro x hx
      rw [if_neg (by omega), Nat.add_sub_cancel_left, show d + k - 1 - (d + x) = k - 1 - x by omega]
    rw [h3, zero_add, Finset.sum_congr rfl h4]

/-- **C39**: delaying the input delays the response (zero initial state). Missing: as in `C39_linear_partial`. -/
theorem C39_time_invariant_partial (hN : 2 ≤ N) (hm : 1 ≤ m)
    (hG : S.g = ⟨Arr.of A, Arr.of B, Arr.of C, Arr.of D, some h, false⟩) (d : ℕ) :
    ∃ (Y : Matrix (Fin N) (Fin p) ℝ) (t : List ℝ),
      simulate Nm E S (Arr.of U) none none false = .ok (.flat (Arr.of Y), t) ∧
      simulate Nm E S (Arr.of (delayed d U)) none none false = .ok (.flat (Arr.of (delayed d Y)), t) := by
  refine ⟨_, _, C39_output_partial hN hm hG (Or.inl ⟨rfl, rfl⟩), ?_⟩
  rw [C39_output_partial hN hm hG (Or.inl ⟨rfl, rfl⟩), output_delayed]

/-- **C39** fails for models with one state: any initial condition raises `IndexError`. -/
theorem C39_first_order_x0_violated (hg : S.g.isgain = false) (u : Arr ℝ) (v : ℝ) (pc : Bool) :
    simulate Nm E S u targ (some [v]) pc = .error .index := by
  simp [simulate, checkX0, hg, bind, Except.bind]

/-- **C39** fails for inputs of a single sample: `TypeError` for one input (a `1 × 1` array), and
`ValueError` for several. -/
theorem C39_single_sample_violated
    (hG : S.g = ⟨Arr.of A, Arr.of B, Arr.of C, Arr.of D, some h, false⟩)
    (U : Matrix (Fin 1) (Fin m) ℝ) (pc : Bool) :
    simulate Nm E S (Arr.of U) none none pc = if m = 1 then .error .type else .error .value := by
  unfold simulate
  by_cases hm : m = 1
  · subst hm
    simp [checkX0, bind, Except.bind, squeezeU, hG, checkUT, timeArray]
  · simp only [checkX0, bind, Except.bind, squeezeU, hG, checkUT, timeArray, Arr.of_r, Arr.of_c, hm,
      if_false, and_false, Arr.T, StateM.m, if_true, linTimes]
    split_ifs <;> simp_all

/-- **C39**: an initial state is accepted by dynamic models with as many states as it has entries only. Static gains, and any other
length than the number of states, raise `ValueError` (`IndexError` for a single entry, see `C39_first_order_x0_violated`). -/
theorem C39_x0_rejects (u : Arr ℝ) (v : List ℝ) (pc : Bool) :
    (S.g.isgain = true → simulate Nm E S u targ (some v) pc = .error .value) ∧
    (S.g.isgain = false → v.length ≠ 1 → v.length ≠ S.g.n → simulate Nm E S u targ (some v) pc = .error .value) ∧
    (∀ r, simulate Nm E S u targ (some v) pc = .ok r → S.g.isgain = false ∧ v.length = S.g.n) := by
  refine ⟨fun hg => ?_, fun hg h1 h2 => ?_, fun r hr => ?_⟩
  · simp [simulate, checkX0, hg, bind, Except.bind]
  · simp [simulate, checkX0, hg, bind, Except.bind, h1, Ne.symm h2]
  · unfold simulate at hr
    cases hx : checkX0 S.g (some v) with
    | error e => simp [hx, bind, Except.bind] at hr
    | ok x => ?_
    unfold checkX0 at hx
    simp only at hx
    split_ifs at hx with h1 h2 h3
    exact ⟨by simpa using h1, (not_not.mp h3).symm⟩

/-- The hypotheses of `C39_x0_rejects` are met: three initial values for a model with two states. -/
example (u : Arr ℝ) (hS : S.g = ⟨Arr.of (1 : Matrix (Fin 2) (Fin 2) ℝ), Arr.of (1 : Matrix (Fin 2) (Fin 2) ℝ), Arr.of (1 : Matrix (Fin 2) (Fin 2) ℝ),
    Arr.of (0 : Matrix (Fin 2) (Fin 2) ℝ), some 1, false⟩) : simulate Nm E S u none (some [1, 2, 3]) false = .error .value :=
  (C39_x0_rejects u _ false).2.1 (by rw [hS]) (by simp) (by rw [hS]; simp [StateM.n])

/-! ## Accepted arguments (C43) -/

theorem mem_diffs {x : ℝ} :
    x ∈ diffs t ↔ ∃ i, i + 1 < t.length ∧ x = t.getD (i + 1) 0 - t.getD i 0 := by
  rw [diffs, List.mem_iff_getElem]
  constructor
  · rintro ⟨i, hi, rfl⟩
    have hi' : i + 1 < t.length := by simp at hi; omega
    refine ⟨i, hi', ?_⟩
    rw [List.getElem_zipWith, List.getElem_tail, List.getD_eq_getElem _ _ hi',
      List.getD_eq_getElem _ _ (by omega)]
  · rintro ⟨i, hi, rfl⟩
    have hi' : i < (List.zipWith (fun a b => b - a) t t.tail).length := by simp; omega
    refine ⟨i, hi', ?_⟩
    rw [List.getElem_zipWith, List.getElem_tail, List.getD_eq_getElem _ _ hi,
      List.getD_eq_getElem _ _ (by omega)]

theorem diffs_cons (ht : 2 ≤ t.length) :
    ∃ ds, diffs t = (t.getD 1 0 - t.getD 0 0) :: ds := by
  rcases t with _ | ⟨a, _ | ⟨b, r⟩⟩
  · simp at ht
  · simp at ht
  · exact ⟨_, rfl⟩

theorem checkT_ok (h1 : GridOk t) (h2 : PeriodOk dt t) : checkT dt t = .ok t := by
  obtain ⟨hl, hp, he⟩ := h1
  obtain ⟨ds, hds⟩ := diffs_cons hl
  have hall : ∀ x ∈ (t.getD 1 0 - t.getD 0 0) :: ds, isClose x (t.getD 1 0 - t.getD 0 0) := by
    intro x hx
    rw [← hds] at hx
    obtain ⟨i, hi, rfl⟩ := mem_diffs.mp hx
    exact he i hi
  unfold checkT
  rw [if_neg (by omega), hds]
  simp only
  rw [if_neg (by push Not; exact ⟨hall, hp⟩)]
  cases dt with
  | none => rfl
  | some h =>
    have h3 : isClose h (t.getD 1 0 - t.getD 0 0) := h2 h rfl
    simp only
    rw [if_neg (not_not.mpr h3)]

theorem checkT_error (ht : t ≠ []) (h : ¬ (GridOk t ∧ PeriodOk dt t)) :
    checkT dt t = .error .value := by
  unfold checkT
  split_ifs with h1
  · rfl
  · have hl : 2 ≤ t.length := by
      have := List.length_pos_iff.mpr ht
      omega
    obtain ⟨ds, hds⟩ := diffs_cons hl
    rw [hds]
    simp only
    split_ifs with h2
    · rfl
    · push Not at h2
      have hg : GridOk t := by
        refine ⟨hl, h2.2, fun i hi => ?_⟩
        have := h2.1 (t.getD (i + 1) 0 - t.getD i 0) (by rw [← hds]; exact mem_diffs.mpr ⟨i, hi, rfl⟩)
        exact this
      cases dt with
      | none => exact absurd ⟨hg, fun h h' => by cases h'⟩ h
      | some d =>
        simp only
        split_ifs with h3
        · exact absurd ⟨hg, fun h h' => by cases h'; exact h3⟩ h
        · rfl

theorem checkT_inv {t' : List ℝ} (h : checkT dt t = .ok t') : t' = t ∧ GridOk t ∧ PeriodOk dt t := by
  by_cases hc : GridOk t ∧ PeriodOk dt t
  · rw [checkT_ok hc.1 hc.2] at h
    cases h
    exact ⟨rfl, hc⟩
  · exfalso
    by_cases ht : t = []
    · subst ht
      simp [checkT, diffs] at h
    · rw [checkT_error ht hc] at h
      cases h

theorem timeArray_rows (r : ℕ) (u u' : Arr ℝ) (hu : u.r = r) (hu' : u'.r = r) :
    timeArray dt (some u) targ = timeArray dt (some u') targ := by
  unfold timeArray
  cases targ with
  | some t => rfl
  | none => cases dt <;> simp [hu, hu']

/-- What a successful call implies. -/
theorem simulate_inv {y : SimOut} {pc : Bool} (hm : 1 ≤ m) (hSm : S.g.m = m)
    (h : simulate Nm E S (Arr.of U) targ xarg pc = .ok (y, t)) :
    2 ≤ N ∧ timeArray S.g.dt (some (Arr.of U)) targ = .ok t ∧ t.length = N := by
  unfold simulate at h
  obtain ⟨x, h1, h2⟩ := bind_ok h
  obtain ⟨⟨u, t'⟩, h3, h4⟩ := bind_ok h2
  have ht : t' = t := by
    simp only at h4
    split_ifs at h4
    · obtain ⟨y', -, h6⟩ := bind_ok h4
      cases h6; rfl
    · obtain ⟨g, -, h5⟩ := bind_ok h4
      obtain ⟨y', -, h6⟩ := bind_ok h5
      cases h6; rfl
  subst ht
  unfold checkUT at h3
  obtain ⟨t'', h5, h6⟩ := bind_ok h3
  by_cases hN : 2 ≤ N
  · rw [squeezeU_of hN] at h5 h6
    simp only at h6
    split_ifs at h6 with h7 h8 h9
    cases h6
    refine ⟨hN, h5, ?_⟩
    simpa using (not_not.mp h8).symm
  · exfalso
    unfold squeezeU at h5 h6
    by_cases hN1 : N = 1
    · by_cases hm1 : m = 1
      · rw [if_pos ⟨hN1, hm1⟩] at h6
        cases h6
      · rw [if_neg (by simp [hm1]), if_pos hN1] at h6
        simp only [Arr.T] at h6
        by_cases h9 : N = S.g.m
        · exact hm1 (by rw [← hSm, ← h9, hN1])
        · simp [h9] at h6
    · obtain rfl : N = 0 := by omega
      simp at h6

theorem simModel_ok (hE : BalanceOk E)
    (hG : S.g = ⟨Arr.of A, Arr.of B, Arr.of C, Arr.of D, dt, false⟩)
    (ht : 0 < t.getD 1 0 - t.getD 0 0) :
    ∃ (A' : Matrix (Fin n) (Fin n) ℝ) (B' : Matrix (Fin n) (Fin m) ℝ) (dt' : Option ℝ),
      simModel Nm E S t = .ok ⟨Arr.of A', Arr.of B', Arr.of C, Arr.of D, dt', false⟩ := by
  unfold simModel
  cases dt with
  | some d => rw [hG]; exact ⟨A, B, some d, rfl⟩
  | none =>
    obtain ⟨Sd, h1, h2, -⟩ := discretize_zoh_of (N := Nm) (pw := 0) (q := none) hE ht hG
    rw [hG]
    simp only [h1, bind, Except.bind, h2]
    exact ⟨_, _, _, rfl⟩

theorem simGain_perChannel {a b c : Arr ℝ} (hm : 2 ≤ m) :
    simGain ⟨a, b, c, Arr.of D, dt, true⟩ (Arr.of U) true
      = .ok (.perChannel (List.ofFn fun k => Arr.of (onlyChannel U k * Dᵀ))) := by
  have hm1 : m ≠ 1 := by omega
  unfold simGain
  rw [if_neg (by simp [StateM.isSISO, hm1]), if_pos (by simp [StateM.m, hm1])]
  have hk : ∀ k : Fin m, ((Arr.of U).col k).matmul ((Arr.of D).col k).T
      = .ok (Arr.of (onlyChannel U k * Dᵀ)) := by
    intro k
    rw [col_of, col_of, Arr.T_of, Arr.matmul_of, channel_mul]
  have := mapM_range_ok (f := fun k => ((Arr.of U).col k).matmul ((Arr.of D).col k).T) hk
  simp only [StateM.m, Arr.of_c, this, bind, Except.bind]

/-- The first time increment of an accepted time array is positive. -/
theorem timeArray_pos (hdt : DtOk dt) (u : Arr ℝ) (hu : 2 ≤ u.r)
    (h : timeArray dt (some u) targ = .ok t) : 0 < t.getD 1 0 - t.getD 0 0 := by
  unfold timeArray at h
  cases targ with
  | some t' =>
    obtain ⟨rfl, h2, -⟩ := checkT_inv h
    exact h2.2.1
  | none =>
    cases dt with
    | none => cases h
    | some d =>
      cases h
      have hd := hdt d rfl
      rw [List.getD_eq_getElem _ _ (by simp [linTimes]; omega),
        List.getD_eq_getElem _ _ (by simp [linTimes]; omega)]
      simp [linTimes, hd]

/-- Accepted arguments give a result. -/
theorem simulate_total (hE : BalanceOk E) (hG : Consistent S.g p m) (hdt : DtOk S.g.dt) (hN : 2 ≤ N)
    (hm : 1 ≤ m) (ht : timeArray S.g.dt (some (Arr.of U)) targ = .ok t) (htl : t.length = N)
    (pc : Bool) : ∃ y, simulate Nm E S (Arr.of U) targ none pc = .ok (y, t) := by
  have hpos := timeArray_pos hdt (Arr.of U) hN ht
  have hcase : (pc = false ∨ m = 1) ∨ (pc = true ∧ 2 ≤ m) := by
    cases pc
    · exact Or.inl (Or.inl rfl)
    · by_cases h : m = 1
      · exact Or.inl (Or.inr h)
      · exact Or.inr ⟨rfl, by omega⟩
  obtain ⟨a, b, c, D, dt', hG'⟩ | ⟨n, A, B, C, D, dt', hG'⟩ := consistent_cases hG
  · rw [simulate_gain hN hm hG' ht htl]
    rcases hcase with h | ⟨rfl, h⟩
    · rw [simGain_flat _ h]
      exact ⟨_, rfl⟩
    · rw [simGain_perChannel h]
      exact ⟨_, rfl⟩
  · obtain ⟨A', B', dt'', hmod⟩ := simModel_ok (Nm := Nm) hE hG' hpos
    rcases hcase with h | ⟨rfl, h⟩
    · rw [simulate_flat (x0 := 0) hN hm (by rw [hG']) (by rw [hG']; rfl) (by rw [hG']; rfl) ht htl hmod
        (Or.inl ⟨rfl, rfl⟩) pc h]
      exact ⟨_, rfl⟩
    · rw [simulate_perChannel (x0 := 0) hN h (by rw [hG']) (by rw [hG']; rfl) (by rw [hG']; rfl) ht htl
        hmod (Or.inl ⟨rfl, rfl⟩)]
      exact ⟨_, rfl⟩

/-- **C43**, accepted: an input with as many rows as the time grid and as many columns as the model has
inputs is simulated when the grid is valid and matches the sampling period. -/
theorem C43_accepts (hE : BalanceOk E) (hG : Consistent S.g p m) (hdt : DtOk S.g.dt) (hm : 1 ≤ m)
    (hgrid : GridOk t) (hper : PeriodOk S.g.dt t) (htl : t.length = N) (U : Matrix (Fin N) (Fin m) ℝ)
    (pc : Bool) : ∃ y, simulate Nm E S (Arr.of U) (some t) none pc = .ok (y, t) :=
  simulate_total hE hG hdt (htl ▸ hgrid.1) hm
    (by unfold timeArray; exact checkT_ok hgrid hper) htl pc

/-- **C43**, rejected: everything else raises `ValueError`, for non-empty time grids and inputs that
are not a single row. Missing from the full claim: the tolerance built into `GridOk` and `PeriodOk` is
absolute for small increments (`C43_equidistant_violated`), an empty grid raises `IndexError`
(`C43_empty_violated`), and single rows are transposed (`C39_single_sample_violated`). -/
theorem C43_rejects_partial (u : Arr ℝ) (hu : u.r ≠ 1) (ht : t ≠ []) (pc : Bool)
    (h : ¬ (GridOk t ∧ PeriodOk S.g.dt t ∧ u.r = t.length ∧ u.c = S.g.m)) :
    simulate Nm E S u (some t) none pc = .error .value := by
  have hsq : squeezeU u = some u := by
    unfold squeezeU
    rw [if_neg (fun h => hu h.1), if_neg hu]
  have key : checkUT S.g.m S.g.dt (some u) (some t) = .error .value := by
    unfold checkUT
    by_cases hg : GridOk t ∧ PeriodOk S.g.dt t
    · have := checkT_ok hg.1 hg.2
      simp only [timeArray, this, bind, Except.bind]
      split_ifs with h1 h2 h3
      · rfl
      · rfl
      · rfl
      · exact absurd ⟨hg.1, hg.2, not_not.mp h2, not_not.mp h3⟩ h
    · have := checkT_error ht hg
      simp [timeArray, this, bind, Except.bind]
  unfold simulate
  simp only [checkX0, bind, Except.bind, hsq, key]

/-- **C43**, without a time array: continuous models are rejected, discrete models accept any number of
samples (at least two) with the right number of columns. -/
theorem C43_no_time (hE : BalanceOk E) (hG : Consistent S.g p m) (hdt : DtOk S.g.dt) (hm : 1 ≤ m)
    (pc : Bool) :
    (S.g.dt = none → ∀ u : Arr ℝ, simulate Nm E S u none none pc = .error .value) ∧
    (∀ d, S.g.dt = some d → ∀ u : Arr ℝ, u.r ≠ 1 →
      ((∃ y, simulate Nm E S u none none pc = .ok (y, (List.range u.r).map fun k : ℕ => (k : ℝ) * d)) ↔
        u.c = m ∧ u.r ≠ 0) ∧
      (¬ (u.c = m ∧ u.r ≠ 0) → simulate Nm E S u none none pc = .error .value)) := by
  constructor
  · intro hc u
    unfold simulate
    simp only [checkX0, bind, Except.bind, checkUT, hc, timeArray]
  · intro d hd u hu
    have hSm : S.g.m = m := hG.1.2
    have hsq : squeezeU u = some u := by
      unfold squeezeU
      rw [if_neg (fun h => hu h.1), if_neg hu]
    have hrej : ¬ (u.c = m ∧ u.r ≠ 0) → simulate Nm E S u none none pc = .error .value := by
      intro hn
      unfold simulate
      simp only [checkX0, bind, Except.bind, checkUT, hd, timeArray, hsq, linTimes]
      have : u.r * u.c < 1 ∨ u.c ≠ S.g.m := by
        by_cases h1 : u.c = m
        · left
          have : u.r = 0 := by by_contra h2; exact hn ⟨h1, h2⟩
          simp [this]
        · right; rw [hSm]; exact h1
      by_cases h1 : u.r * u.c < 1
      · simp [h1]
      · have h2 := this.resolve_left h1
        simp [h1, h2]
    refine ⟨⟨fun ⟨y, hy⟩ => ?_, fun ⟨h1, h2⟩ => ?_⟩, hrej⟩
    · by_contra hn
      rw [hrej hn] at hy
      cases hy
    · obtain ⟨r, hr⟩ : ∃ r, u.r = r := ⟨_, rfl⟩
      obtain ⟨U, rfl⟩ := Arr.exists_of hr h1
      exact simulate_total hE hG hdt (by simp at hu h2 ⊢; omega) hm (by rw [hd]; rfl) (by simp) pc

/-- **C43**, step and impulse responses: a time grid that is too short (also the empty one), not increasing or not equidistant raises `ValueError`. -/
theorem C43_response_rejects (auto : ℝ × ℝ) (h : ¬ GridOk t) :
    stepResponse Nm E S auto (some t) = .error .value ∧ impulseResponse Nm E S auto (some t) = .error .value := by
  have key : responseGrid auto (some t) = .error .value := by
    unfold responseGrid checkCustomTime
    simp only
    by_cases h1 : t.length < 2
    · rw [if_pos h1]
    by_cases h2 : t.getD 1 0 - t.getD 0 0 ≤ 0
    · rw [if_neg h1, if_pos h2]
    rw [if_neg h1, if_neg h2, if_pos]
    intro h3
    exact h ⟨by omega, not_le.mp h2, fun i hi => h3 _ (mem_diffs.mpr ⟨i, hi, rfl⟩)⟩
  constructor
  · simp [stepResponse, key, bind, Except.bind]
  · simp [impulseResponse, key, bind, Except.bind]

/-- The hypothesis of `C43_response_rejects` is met by the empty grid and by a decreasing one. -/
example : ¬ GridOk [] ∧ ¬ GridOk [2, 1, 0] := ⟨fun h => by simpa using h.1, fun h => by have := h.2.1; norm_num at this⟩

/-- **C43** fails for tiny increments: the grid `0, 1e-9, 5e-9` is accepted. -/
theorem C43_equidistant_violated : GridOk [0, 1 / 1000000000, 5 / 1000000000] := by
  refine ⟨by simp, by simp, fun i hi => ?_⟩
  have : i = 0 ∨ i = 1 := by simp at hi; omega
  rcases this with rfl | rfl
  · simp; positivity
  · simp
    norm_num [abs_of_pos]

/-- **C43** fails for an empty time array: `IndexError` instead of `ValueError`. -/
theorem C43_empty_violated (u : Arr ℝ) (pc : Bool) :
    simulate Nm E S u (some []) none pc = .error .index := by
  simp [simulate, checkX0, bind, Except.bind, checkUT, timeArray, checkT, diffs]

/-! ## C40 -/

theorem sum_onlyChannel (U : Matrix (Fin N) (Fin m) ℝ) : ∑ k, onlyChannel U k = U := by
  ext i j
  rw [Matrix.sum_apply]
  simp [onlyChannel]

theorem output_sum (V : Fin m → Matrix (Fin N) (Fin m) ℝ) (i : Fin N) :
    output A B C D 0 (∑ k, V k : Matrix _ _ _) i = ∑ k, output A B C D 0 (V k) i := by
  have e : ∀ j, (∑ k, V k) j = ∑ k, V k j := fun j => by
    ext l; simp [Matrix.sum_apply]
  unfold output
  simp only [e, Matrix.mulVec_sum, Finset.sum_add_distrib, Matrix.mulVec_zero, zero_add]
  congr 1
  rw [Finset.sum_comm]

/-- **C40**: whenever a simulation of a model with several inputs succeeds, so does the per channel
simulation; each slice is the response to that channel alone, and the slices add up. -/
theorem C40_sum (hE : BalanceOk E) (hG : Consistent S.g p m) (hdt : DtOk S.g.dt) (hm : 2 ≤ m)
    {y : SimOut} (h : simulate Nm E S (Arr.of U) targ none false = .ok (y, t)) :
    ∃ Y : Fin m → Matrix (Fin N) (Fin p) ℝ,
      simulate Nm E S (Arr.of U) targ none true
        = .ok (.perChannel (List.ofFn fun k => Arr.of (Y k)), t) ∧
      (∀ k, simulate Nm E S (Arr.of (onlyChannel U k)) targ none false = .ok (.flat (Arr.of (Y k)), t)) ∧
      y = .flat (Arr.of (∑ k, Y k)) := by
  obtain ⟨hN, ht, htl⟩ := simulate_inv (by omega) hG.1.2 h
  have ht' : ∀ k, timeArray S.g.dt (some (Arr.of (onlyChannel U k))) targ = .ok t := fun k => by
    rw [← ht]; exact timeArray_rows N _ _ rfl rfl
  have hpos := timeArray_pos hdt (Arr.of U) hN ht
  obtain ⟨a, b, c, D, dt', hG'⟩ | ⟨n, A, B, C, D, dt', hG'⟩ := consistent_cases hG
  · refine ⟨fun k => onlyChannel U k * Dᵀ, ?_, fun k => ?_, ?_⟩
    · rw [simulate_gain hN (by omega) hG' ht htl, simGain_perChannel hm]; rfl
    · rw [simulate_gain hN (by omega) hG' (ht' k) htl, simGain_flat _ (Or.inl rfl)]; rfl
    · rw [simulate_gain hN (by omega) hG' ht htl, simGain_flat _ (Or.inl rfl)] at h
      rw [← Matrix.sum_mul, sum_onlyChannel]
      cases h
      rfl
  · obtain ⟨A', B', dt'', hmod⟩ := simModel_ok (Nm := Nm) hE hG' hpos
    have hz : InitArg (n := n) none 0 := Or.inl ⟨rfl, rfl⟩
    refine ⟨fun k => Matrix.of (output A' B' C D 0 (onlyChannel U k)), ?_, fun k => ?_, ?_⟩
    · exact simulate_perChannel hN hm (by rw [hG']) (by rw [hG']; rfl) (by rw [hG']; rfl) ht htl hmod hz
    · exact simulate_flat hN (by omega) (by rw [hG']) (by rw [hG']; rfl) (by rw [hG']; rfl) (ht' k) htl
        hmod hz false (Or.inl rfl)
    · rw [simulate_flat hN (by omega) (by rw [hG']) (by rw [hG']; rfl) (by rw [hG']; rfl) ht htl
        hmod hz false (Or.inl rfl)] at h
      cases h
      congr 2
      ext i l
      have e := output_sum (A := A') (B := B') (C := C) (D := D) (onlyChannel U) i
      rw [sum_onlyChannel] at e
      rw [Matrix.sum_apply, Matrix.of_apply, e]
      simp

/-! ## C41 -/

/-- The equidistant grid `t0, t0 + h, ..., t0 + (N-1) h`. -/
def eqGrid (N : ℕ) (t0 h : ℝ) : List ℝ := List.ofFn fun k : Fin N => t0 + k * h

theorem eqGrid_get {t0 : ℝ} {k : ℕ} (hk : k < N) : (eqGrid N t0 h).getD k 0 = t0 + k * h := by
  rw [eqGrid, List.getD_eq_getElem _ _ (by simpa using hk)]
  simp

theorem eqGrid_ok {t0 : ℝ} (hN : 2 ≤ N) (hh : 0 < h) : GridOk (eqGrid N t0 h) := by
  have h0 : (eqGrid N t0 h).getD 1 0 - (eqGrid N t0 h).getD 0 0 = h := by
    rw [eqGrid_get (by omega), eqGrid_get (by omega)]; push_cast; ring
  refine ⟨by simpa [eqGrid] using hN, by rw [h0]; exact hh, fun i hi => ?_⟩
  have hi' : i + 1 < N := by simpa [eqGrid] using hi
  rw [h0, eqGrid_get hi', eqGrid_get (by omega)]
  have : t0 + ((i + 1 : ℕ) : ℝ) * h - (t0 + i * h) - h = 0 := by push_cast; ring
  rw [this, abs_zero]
  positivity

/-- **C41**: for a continuous model, an equidistant grid and an input held constant between samples, the
returned outputs are `C x(t_k) + D u_k` for every solution `x` of `x' = A x + B u` that starts at `x0`. -/
theorem C41_continuous (hE : BalanceOk E) (hN : 2 ≤ N) (hm : 1 ≤ m)
    (hG : S.g = ⟨Arr.of A, Arr.of B, Arr.of C, Arr.of D, none, false⟩) {t0 : ℝ} (hh : 0 < h)
    {u : ℝ → Fin m → ℝ} {x : ℝ → Fin n → ℝ} (hx : IsSolution A B u x t0 (t0 + (N - 1) * h))
    (hu : ∀ i : Fin N, ∀ τ ∈ Ico (t0 + i * h) (t0 + (i + 1) * h), u τ = U i)
    (hx0 : InitArg xarg (x t0)) :
    simulate Nm E S (Arr.of U) (some (eqGrid N t0 h)) xarg false
      = .ok (.flat (Arr.of (Matrix.of fun i : Fin N => C *ᵥ x (t0 + i * h) + D *ᵥ U i)), eqGrid N t0 h) := by
  have hgrid := eqGrid_ok (t0 := t0) hN hh
  have h0 : (eqGrid N t0 h).getD 1 0 - (eqGrid N t0 h).getD 0 0 = h := by
    rw [eqGrid_get (by omega), eqGrid_get (by omega)]; push_cast; ring
  have htime : timeArray S.g.dt (some (Arr.of U)) (some (eqGrid N t0 h)) = .ok (eqGrid N t0 h) := by
    unfold timeArray
    exact checkT_ok hgrid (by rw [hG]; intro d hd; cases hd)
  obtain ⟨Sd, h1, h2, -⟩ := discretize_zoh_of (N := Nm) (pw := 0) (q := none) hE hh hG
  have hmod : simModel Nm E S (eqGrid N t0 h) = .ok Sd.g := by
    unfold simModel
    rw [hG, h0]
    simp only [h1, bind, Except.bind]
  rw [h2] at hmod
  rw [simulate_flat hN hm (by rw [hG]) (by rw [hG]; rfl) (by rw [hG]; rfl) htime (by simp [eqGrid]) hmod
    hx0 false (Or.inl rfl)]
  congr 4
  funext i
  obtain ⟨w, hw⟩ : ∃ w : ℕ → Fin m → ℝ, ∀ i : Fin N, U i = w i :=
    ⟨fun k => if hk : k < N then U ⟨k, hk⟩ else 0, fun i => by simp⟩
  refine Eq.trans (output_range w hw i) ?_
  show _ = C *ᵥ x (t0 + i * h) + D *ᵥ U i
  rw [hw]
  congr 1
  set Ad := (NormedSpace.exp (h • zohM A B)).submatrix (Fin.castAdd m) (Fin.castAdd m) with hAd
  set Bd := (NormedSpace.exp (h • zohM A B)).submatrix (Fin.castAdd m) (Fin.natAdd n) with hBd
  have key : ∀ k : ℕ, k < N → x (t0 + k * h)
      = Ad ^ k *ᵥ x t0 + ∑ j ∈ Finset.range k, Ad ^ (k - 1 - j) *ᵥ (Bd *ᵥ w j) := by
    intro k
    induction k with
    | zero => intro _; simp
    | succ k ih =>
      intro hk
      have hk' : k < N := by omega
      have hkN : (k : ℝ) + 1 ≤ N - 1 := by
        have : ((k + 1 + 1 : ℕ) : ℝ) ≤ N := by exact_mod_cast hk
        push_cast at this
        linarith
      have hstep := zoh_step (A := A) (B := B) (x := x) (u := u) (a := t0 + k * h)
        (b := t0 + (k + 1) * h) (u₀ := U ⟨k, hk'⟩) (by nlinarith)
        (hx.mono (by nlinarith [mul_nonneg (Nat.cast_nonneg (α := ℝ) k) hh.le])
          (by nlinarith)) (fun τ hτ => hu ⟨k, hk'⟩ τ hτ)
      have e : t0 + (k + 1) * h - (t0 + k * h) = h := by ring
      rw [e, ← hAd, ← hBd, ih hk', hw] at hstep
      push_cast
      rw [hstep, Finset.sum_range_succ, Matrix.mulVec_add, Matrix.mulVec_mulVec, ← pow_succ',
        Matrix.mulVec_sum, add_assoc]
      congr 2
      · refine Finset.sum_congr rfl fun j hj => ?_
        rw [Matrix.mulVec_mulVec, ← pow_succ']
        congr 2
        have := Finset.mem_range.mp hj
        omega
      · simp
  rw [key i i.isLt, Matrix.mulVec_add, Matrix.mulVec_sum]

/-! ## C42 -/

theorem checkCustomTime_eqGrid {t0 : ℝ} (hN : 2 ≤ N) (hh : 0 < h) :
    checkCustomTime (eqGrid N t0 h) = .ok (eqGrid N t0 h, h) := by
  have h0 : (eqGrid N t0 h).getD 1 0 - (eqGrid N t0 h).getD 0 0 = h := by
    rw [eqGrid_get (by omega), eqGrid_get (by omega)]; push_cast; ring
  have hl : (eqGrid N t0 h).length = N := by simp [eqGrid]
  obtain ⟨_, _, hall⟩ := eqGrid_ok (t0 := t0) hN hh
  unfold checkCustomTime
  rw [if_neg (by omega)]
  simp only [h0]
  rw [if_neg (not_le.mpr hh), if_neg]
  intro hn
  apply hn
  intro x hx
  obtain ⟨i, hi, rfl⟩ := mem_diffs.mp hx
  exact hall i hi

theorem periodOk_eqGrid {t0 : ℝ} (hN : 2 ≤ N) : PeriodOk (some h) (eqGrid N t0 h) := by
  intro d hd
  cases hd
  have h0 : (eqGrid N t0 h).getD 1 0 - (eqGrid N t0 h).getD 0 0 = h := by
    rw [eqGrid_get (by omega), eqGrid_get (by omega)]; push_cast; ring
  rw [h0, sub_self, abs_zero]
  positivity

/-- The response to one channel of a sum of inputs, via Markov parameters. -/
theorem output_markov (U : Matrix (Fin N) (Fin m) ℝ) (i : Fin N) :
    output A B C D 0 U i = ∑ j : Fin N with j ≤ i, markov A B C D ((i : ℕ) - j) *ᵥ U j := by
  have hsplit : (Finset.univ.filter fun j : Fin N => j ≤ i)
      = insert i (Finset.univ.filter fun j : Fin N => j < i) := by
    ext j; simp [le_iff_eq_or_lt]
  rw [hsplit, Finset.sum_insert (by simp)]
  unfold output
  rw [Matrix.mulVec_zero, Matrix.mulVec_zero, zero_add, add_comm]
  congr 1
  · simp [markov]
  · refine Finset.sum_congr rfl fun j hj => ?_
    have hj' : j < i := (Finset.mem_filter.mp hj).2
    obtain ⟨k, hk⟩ : ∃ k, (i : ℕ) - j = k + 1 := ⟨i - j - 1, by have : (j : ℕ) < i := hj'; omega⟩
    rw [hk, markov, Matrix.mulVec_mulVec, Matrix.mulVec_mulVec]
    congr 3
    have : (j : ℕ) < i := hj'
    congr 1
    omega

/-- The slices of a 3-D result, or the only slice of a 2-D result. -/
def SimOut.slices : SimOut → List (Arr ℝ)
  | .flat y => [y]
  | .perChannel ys => ys

theorem response_slices (hN : 2 ≤ N) (hm : 1 ≤ m) {t0 : ℝ}
    (hG : S.g = ⟨Arr.of A, Arr.of B, Arr.of C, Arr.of D, some h, false⟩) (hh : 0 < h) :
    ∃ y, simulate Nm E S (Arr.of U) (some (eqGrid N t0 h)) none true = .ok (y, eqGrid N t0 h) ∧
      y.slices = List.ofFn fun k => Arr.of (Matrix.of (output A B C D 0 (onlyChannel U k))) := by
  have htime : timeArray S.g.dt (some (Arr.of U)) (some (eqGrid N t0 h)) = .ok (eqGrid N t0 h) := by
    unfold timeArray
    rw [hG]
    exact checkT_ok (eqGrid_ok hN hh) (periodOk_eqGrid hN)
  have hmod : simModel Nm E S (eqGrid N t0 h)
      = .ok ⟨Arr.of A, Arr.of B, Arr.of C, Arr.of D, some h, false⟩ := by rw [simModel, hG]
  have hz : InitArg (n := n) none 0 := Or.inl ⟨rfl, rfl⟩
  by_cases h1 : m = 1
  · refine ⟨_, simulate_flat hN hm (by rw [hG]) (by rw [hG]; rfl) (by rw [hG]; rfl) htime
      (by simp [eqGrid]) hmod hz true (Or.inr h1), ?_⟩
    subst h1
    have e : onlyChannel U 0 = U := by
      ext i j; fin_cases j; simp [onlyChannel]
    simp [SimOut.slices, e]
  · exact ⟨_, simulate_perChannel hN (by omega) (by rw [hG]) (by rw [hG]; rfl) (by rw [hG]; rfl) htime
      (by simp [eqGrid]) hmod hz, rfl⟩

/-- **C42**, impulse responses of dynamic discrete models: slice `k` is column `k` of the Markov
parameters divided by the sampling period. -/
theorem C42_impulse (hN : 2 ≤ N) (hm : 1 ≤ m) {t0 : ℝ} {auto : ℝ × ℝ}
    (hG : S.g = ⟨Arr.of A, Arr.of B, Arr.of C, Arr.of D, some h, false⟩) (hh : 0 < h) :
    ∃ y, impulseResponse Nm E S auto (some (eqGrid N t0 h)) = .ok (y, eqGrid N t0 h) ∧
      y.slices = List.ofFn fun k : Fin m =>
        Arr.of (Matrix.of fun (i : Fin N) (l : Fin p) => markov A B C D i l k / h) := by
  unfold impulseResponse responseGrid
  simp only [checkCustomTime_eqGrid hN hh, bind, Except.bind]
  have hl : (eqGrid N t0 h).length = N := by simp [eqGrid]
  rw [hl]
  have hSm : S.g.m = m := by rw [hG]; rfl
  rw [hSm]
  obtain ⟨y, h1, h2⟩ := response_slices (Nm := Nm) (E := E)
    (U := Matrix.of fun (i : Fin N) (_ : Fin m) => if (i : ℕ) = 0 then 1 / h else 0)
    hN hm (t0 := t0) hG hh
  refine ⟨y, h1, ?_⟩
  rw [h2]
  congr 1
  funext k
  congr 2
  ext i l
  have hzero : (⟨0, by omega⟩ : Fin N) ≤ i := by
    rw [Fin.le_def]; simp
  rw [output_markov, Finset.sum_apply, Finset.sum_eq_single ⟨0, by omega⟩]
  · simp [Matrix.mulVec, dotProduct, onlyChannel, div_eq_mul_inv]
  · intro j _ hj
    have : (j : ℕ) ≠ 0 := fun h => hj (Fin.ext h)
    simp [Matrix.mulVec, dotProduct, onlyChannel, this]
  · intro hn
    exact (hn (by simpa using hzero)).elim

/-- **C42**, step responses of dynamic discrete models: slice `k` is column `k` of the partial sums of
the Markov parameters. -/
theorem C42_step (hN : 2 ≤ N) (hm : 1 ≤ m) {t0 : ℝ} {auto : ℝ × ℝ}
    (hG : S.g = ⟨Arr.of A, Arr.of B, Arr.of C, Arr.of D, some h, false⟩) (hh : 0 < h) :
    ∃ y, stepResponse Nm E S auto (some (eqGrid N t0 h)) = .ok (y, eqGrid N t0 h) ∧
      y.slices = List.ofFn fun k : Fin m =>
        Arr.of (Matrix.of fun (i : Fin N) (l : Fin p) =>
          ∑ j ∈ Finset.range (i + 1), markov A B C D j l k) := by
  unfold stepResponse responseGrid
  simp only [checkCustomTime_eqGrid hN hh, bind, Except.bind]
  have hl : (eqGrid N t0 h).length = N := by simp [eqGrid]
  rw [hl]
  have hSm : S.g.m = m := by rw [hG]; rfl
  rw [hSm]
  obtain ⟨y, h1, h2⟩ := response_slices (Nm := Nm) (E := E)
    (U := Matrix.of fun (_ : Fin N) (_ : Fin m) => (1 : ℝ)) hN hm (t0 := t0) hG hh
  refine ⟨y, h1, ?_⟩
  rw [h2]
  congr 1
  funext k
  congr 2
  ext i l
  rw [output_markov, Finset.sum_apply]
  have e : ∀ j : Fin N, (markov A B C D ((i : ℕ) - j) *ᵥ
      onlyChannel (Matrix.of fun (_ : Fin N) (_ : Fin m) => (1 : ℝ)) k j) l
      = markov A B C D ((i : ℕ) - j) l k := by
    intro j
    simp [Matrix.mulVec, dotProduct, onlyChannel]
  simp only [e]
  rw [← Finset.sum_range_reflect]
  have h3 : ∑ j ∈ Finset.range ((i : ℕ) + 1), markov A B C D ((i : ℕ) + 1 - 1 - j) l k
      = ∑ j ∈ Finset.range ((i : ℕ) + 1), markov A B C D ((i : ℕ) - j) l k := rfl
  rw [h3, Finset.sum_range_succ, sum_lt_fin (fun j => markov A B C D ((i : ℕ) - j) l k) i]
  have hsplit : (Finset.univ.filter fun j : Fin N => j ≤ i)
      = insert i (Finset.univ.filter fun j : Fin N => j < i) := by
    ext j; simp [le_iff_eq_or_lt]
  rw [hsplit, Finset.sum_insert (by simp), add_comm]

theorem gain_slices (hN : 2 ≤ N) (hm : 1 ≤ m) {t0 : ℝ} {a b c : Arr ℝ}
    (hG : S.g = ⟨a, b, c, Arr.of D, dt, true⟩) (hdt : dt = none ∨ dt = some h) (hh : 0 < h) :
    ∃ y, simulate Nm E S (Arr.of U) (some (eqGrid N t0 h)) none true = .ok (y, eqGrid N t0 h) ∧
      y.slices = List.ofFn fun k => Arr.of (onlyChannel U k * Dᵀ) := by
  have htime : timeArray S.g.dt (some (Arr.of U)) (some (eqGrid N t0 h)) = .ok (eqGrid N t0 h) := by
    unfold timeArray
    rw [hG]
    refine checkT_ok (eqGrid_ok hN hh) ?_
    rcases hdt with rfl | rfl
    · intro d hd; cases hd
    · exact periodOk_eqGrid hN
  rw [simulate_gain hN hm hG htime (by simp [eqGrid])]
  by_cases h1 : m = 1
  · rw [simGain_flat _ (Or.inr h1)]
    refine ⟨_, rfl, ?_⟩
    subst h1
    have e : onlyChannel U 0 = U := by
      ext i j; fin_cases j; simp [onlyChannel]
    simp [SimOut.slices, e]
  · rw [simGain_perChannel (by omega)]
    exact ⟨_, rfl, rfl⟩

/-- **C42**, static gains: the step response is `D` at every sample, the impulse response is `D / h` at
the first sample and zero afterwards. -/
theorem C42_gain (hN : 2 ≤ N) (hm : 1 ≤ m) {t0 : ℝ} {auto : ℝ × ℝ} {a b c : Arr ℝ}
    (hG : S.g = ⟨a, b, c, Arr.of D, dt, true⟩) (hdt : dt = none ∨ dt = some h) (hh : 0 < h) :
    (∃ y, stepResponse Nm E S auto (some (eqGrid N t0 h)) = .ok (y, eqGrid N t0 h) ∧
      y.slices = List.ofFn fun k : Fin m => Arr.of (Matrix.of fun (_ : Fin N) (l : Fin p) => D l k)) ∧
    ∃ y, impulseResponse Nm E S auto (some (eqGrid N t0 h)) = .ok (y, eqGrid N t0 h) ∧
      y.slices = List.ofFn fun k : Fin m =>
        Arr.of (Matrix.of fun (i : Fin N) (l : Fin p) => if (i : ℕ) = 0 then D l k / h else 0) := by
  have hl : (eqGrid N t0 h).length = N := by simp [eqGrid]
  have hSm : S.g.m = m := by rw [hG]; rfl
  unfold stepResponse impulseResponse responseGrid
  simp only [checkCustomTime_eqGrid hN hh, bind, Except.bind, hl, hSm]
  constructor
  · obtain ⟨y, h1, h2⟩ := gain_slices (Nm := Nm) (E := E)
      (U := Matrix.of fun (_ : Fin N) (_ : Fin m) => (1 : ℝ)) hN hm (t0 := t0) hG hdt hh
    refine ⟨y, h1, ?_⟩
    rw [h2]
    congr 1
    funext k
    congr 2
    ext i l
    simp [Matrix.mul_apply, onlyChannel]
  · obtain ⟨y, h1, h2⟩ := gain_slices (Nm := Nm) (E := E)
      (U := Matrix.of fun (i : Fin N) (_ : Fin m) => if (i : ℕ) = 0 then 1 / h else 0)
      hN hm (t0 := t0) hG hdt hh
    refine ⟨y, h1, ?_⟩
    rw [h2]
    congr 1
    funext k
    congr 2
    ext i l
    by_cases hi : (i : ℕ) = 0
    · simp [Matrix.mul_apply, onlyChannel, hi, div_eq_inv_mul]
    · simp [Matrix.mul_apply, onlyChannel, hi]

/-! ## Non-vacuity -/

/-- A discrete model with two states, two inputs and one output. -/
noncomputable def sim2 (P : Type) : StateObj ℝ P :=
  { lagObj P with
    g := ⟨Arr.of !![1 / 2, 1; 0, 1 / 3], Arr.of !![1, 0; 0, 1], Arr.of !![1, 1], Arr.of !![0, 2],
      some 1, false⟩ }

example : Consistent (sim2 P).g 1 2 ∧ DtOk (sim2 P).g.dt ∧ InitArg (some [1, 2]) ![(1 : ℝ), 2] ∧
    GridOk (eqGrid 5 0 1) ∧ PeriodOk (sim2 P).g.dt (eqGrid 5 0 1) :=
  ⟨by simp [Consistent, sim2], by intro t ht; cases ht; exact one_pos,
    Or.inr ⟨by simp, by norm_num⟩, eqGrid_ok (by norm_num) one_pos,
    periodOk_eqGrid (by norm_num)⟩

/-- The hypothesis of `C40_sum` is met. -/
example : ∃ y t, simulate Nm plainDNum (sim2 P) (Arr.of !![1, 2; 3, 4; 5, 6]) none none false = .ok (y, t) :=
  ⟨_, _, C39_output_partial (by norm_num) (by norm_num) rfl (Or.inl ⟨rfl, rfl⟩)⟩

/-- The hypotheses of `C41_continuous`: the step response of the lag, sampled at `0, 1/4, ..., 1`. -/
example : IsSolution (!![-1] : Matrix (Fin 1) (Fin 1) ℝ) (!![1] : Matrix (Fin 1) (Fin 1) ℝ) (fun _ _ => 1)
    (fun t _ => 1 - Real.exp (-t)) 0 (0 + ((5 : ℕ) - 1) * (1 / 4)) ∧
    InitArg none ((fun (t : ℝ) (_ : Fin 1) => 1 - Real.exp (-t)) 0) := by
  refine ⟨⟨continuousOn_pi.mpr fun i => by fun_prop, fun t _ => ?_⟩, Or.inl ⟨rfl, by funext i; simp⟩⟩
  refine hasDerivWithinAt_pi.mpr fun i => ?_
  have h1 : HasDerivAt (fun t : ℝ => 1 - Real.exp (-t)) (-(Real.exp (-t) * -1)) t :=
    ((Real.hasDerivAt_exp (-t)).comp t (hasDerivAt_neg t)).const_sub 1
  convert h1.hasDerivWithinAt using 1
  fin_cases i
  simp [Matrix.mulVec, dotProduct]

end Harold
