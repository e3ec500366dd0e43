import Verif.Lemmas.Weights
import Verif.Spec.SimTransfer

/-!
# Expansions at infinity and convolutions

`Expand K f w`: `f s = w 0 + w 1 / s + ... + w K / s^K + o(s^-K)` as `s → ∞`. Products of functions have the Cauchy product of the coefficients as coefficients.
-/

namespace Harold

open Matrix Filter Topology Harold.Spec

variable {p q m r n : ℕ}

/-- The Cauchy product of two sequences of matrices. -/
def cauchy (w : ℕ → Matrix (Fin p) (Fin q) ℝ) (v : ℕ → Matrix (Fin q) (Fin m) ℝ) : ℕ → Matrix (Fin p) (Fin m) ℝ
  | 0 => w 0 * v 0
  | k + 1 => cauchy (fun i => w (i + 1)) v k + w 0 * v (k + 1)

theorem cauchy_sum (w : ℕ → Matrix (Fin p) (Fin q) ℝ) (v : ℕ → Matrix (Fin q) (Fin m) ℝ) (k : ℕ) : cauchy w v k = ∑ i ∈ Finset.range (k + 1), w i * v (k - i) := by
  induction k generalizing w with
  | zero => simp [cauchy]
  | succ k ih =>
    rw [cauchy, ih, Finset.sum_range_succ' _ (k + 1)]
    simp only [Nat.add_sub_add_right, Nat.sub_zero]

theorem cauchy_add_left (w w' : ℕ → Matrix (Fin p) (Fin q) ℝ) (v : ℕ → Matrix (Fin q) (Fin m) ℝ) (k : ℕ) :
    cauchy (fun i => w i + w' i) v k = cauchy w v k + cauchy w' v k := by
  simp only [cauchy_sum, Matrix.add_mul, Finset.sum_add_distrib]

theorem cauchy_add_right (w : ℕ → Matrix (Fin p) (Fin q) ℝ) (v v' : ℕ → Matrix (Fin q) (Fin m) ℝ) (k : ℕ) :
    cauchy w (fun i => v i + v' i) k = cauchy w v k + cauchy w v' k := by
  simp only [cauchy_sum, Matrix.mul_add, Finset.sum_add_distrib]

theorem cauchy_smul_left (c : ℝ) (w : ℕ → Matrix (Fin p) (Fin q) ℝ) (v : ℕ → Matrix (Fin q) (Fin m) ℝ) (k : ℕ) :
    cauchy (fun i => c • w i) v k = c • cauchy w v k := by
  simp only [cauchy_sum, Matrix.smul_mul, Finset.smul_sum]

theorem cauchy_smul_right (c : ℝ) (w : ℕ → Matrix (Fin p) (Fin q) ℝ) (v : ℕ → Matrix (Fin q) (Fin m) ℝ) (k : ℕ) :
    cauchy w (fun i => c • v i) k = c • cauchy w v k := by
  simp only [cauchy_sum, Matrix.mul_smul, Finset.smul_sum]

theorem cauchy_const_left (C : Matrix (Fin r) (Fin p) ℝ) (w : ℕ → Matrix (Fin p) (Fin q) ℝ) (v : ℕ → Matrix (Fin q) (Fin m) ℝ) (k : ℕ) :
    cauchy (fun i => C * w i) v k = C * cauchy w v k := by
  simp only [cauchy_sum, Matrix.mul_assoc, Matrix.mul_sum]

theorem cauchy_congr {w w' : ℕ → Matrix (Fin p) (Fin q) ℝ} {v v' : ℕ → Matrix (Fin q) (Fin m) ℝ} {k : ℕ} (hw : ∀ i ≤ k, w i = w' i) (hv : ∀ i ≤ k, v i = v' i) :
    cauchy w v k = cauchy w' v' k := by
  simp only [cauchy_sum]
  refine Finset.sum_congr rfl fun i hi => ?_
  have := Finset.mem_range.mp hi
  rw [hw i (by omega), hv (k - i) (by omega)]

theorem cauchy_assoc (w : ℕ → Matrix (Fin r) (Fin p) ℝ) (v : ℕ → Matrix (Fin p) (Fin q) ℝ) (x : ℕ → Matrix (Fin q) (Fin m) ℝ) (k : ℕ) :
    cauchy (cauchy w v) x k = cauchy w (cauchy v x) k := by
  induction k generalizing w with
  | zero => simp [cauchy, Matrix.mul_assoc]
  | succ k ih =>
    have e : (fun i => cauchy w v (i + 1)) = fun i => cauchy (fun i => w (i + 1)) v i + w 0 * v (i + 1) := rfl
    have h1 : cauchy (cauchy w v) x (k + 1) = cauchy (fun i => cauchy w v (i + 1)) x k + cauchy w v 0 * x (k + 1) := rfl
    have h2 : cauchy w (cauchy v x) (k + 1) = cauchy (fun i => w (i + 1)) (cauchy v x) k + w 0 * (cauchy (fun i => v (i + 1)) x k + v 0 * x (k + 1)) := rfl
    rw [h1, e, cauchy_add_left, cauchy_const_left, ih, h2, Matrix.mul_add, ← Matrix.mul_assoc, add_assoc]
    rfl

/-- The sequence `1, 0, 0, ...`. -/
def unitSeq (m : ℕ) : ℕ → Matrix (Fin m) (Fin m) ℝ := fun k => if k = 0 then 1 else 0

theorem cauchy_unit_left (v : ℕ → Matrix (Fin p) (Fin m) ℝ) (k : ℕ) : cauchy (unitSeq p) v k = v k := by
  rw [cauchy_sum, Finset.sum_eq_single 0]
  · simp [unitSeq]
  · intro i _ hi; simp [unitSeq, hi]
  · simp

/-- If the first coefficient is invertible, the Cauchy product determines the factor. -/
theorem cauchy_cancel {w : ℕ → Matrix (Fin m) (Fin m) ℝ} {v v' : ℕ → Matrix (Fin m) (Fin q) ℝ} {K : ℕ} (hw : (w 0).det ≠ 0) (h : ∀ k ≤ K, cauchy w v k = cauchy w v' k) :
    ∀ k ≤ K, v k = v' k := by
  intro k
  induction k using Nat.strong_induction_on with
  | _ k ih =>
    intro hk
    have h1 := h k hk
    rw [cauchy_sum, cauchy_sum, Finset.sum_range_succ', Finset.sum_range_succ', Nat.sub_zero] at h1
    have h2 : ∑ i ∈ Finset.range k, w (i + 1) * v (k - (i + 1)) = ∑ i ∈ Finset.range k, w (i + 1) * v' (k - (i + 1)) := by
      refine Finset.sum_congr rfl fun i hi => ?_
      have := Finset.mem_range.mp hi
      rw [ih (k - (i + 1)) (by omega) (by omega)]
    rw [h2, add_right_inj] at h1
    have h3 := congrArg (fun X => (w 0)⁻¹ * X) h1
    simp only [← Matrix.mul_assoc, Matrix.nonsing_inv_mul _ (isUnit_iff_ne_zero.mpr hw), Matrix.one_mul] at h3
    exact h3

/-! ## Expansions -/

def Expand : ℕ → (ℝ → Matrix (Fin p) (Fin m) ℝ) → (ℕ → Matrix (Fin p) (Fin m) ℝ) → Prop
  | 0, f, w => Tendsto f atTop (𝓝 (w 0))
  | K + 1, f, w => Tendsto f atTop (𝓝 (w 0)) ∧ Expand K (fun s => s • (f s - w 0)) (fun k => w (k + 1))

variable {f f' : ℝ → Matrix (Fin p) (Fin m) ℝ} {w w' : ℕ → Matrix (Fin p) (Fin m) ℝ} {K : ℕ}

theorem Expand.lim (h : Expand K f w) : Tendsto f atTop (𝓝 (w 0)) := by
  cases K with
  | zero => exact h
  | succ K => exact h.1

theorem Expand.pred (h : Expand (K + 1) f w) : Expand K f w := by
  induction K generalizing f w with
  | zero => exact h.1
  | succ K ih => exact ⟨h.1, ih h.2⟩

theorem Expand.congr (h : Expand K f w) (e : ∀ᶠ s in atTop, f s = f' s) : Expand K f' w := by
  induction K generalizing f f' w with
  | zero => exact Tendsto.congr' e h
  | succ K ih =>
    refine ⟨h.1.congr' e, ih h.2 ?_⟩
    filter_upwards [e] with s hs
    rw [hs]

theorem Expand.unique (h : Expand K f w) (h' : Expand K f w') : ∀ k ≤ K, w k = w' k := by
  induction K generalizing f w w' with
  | zero =>
    intro k hk
    obtain rfl : k = 0 := by omega
    exact tendsto_nhds_unique h h'
  | succ K ih =>
    have h0 : w 0 = w' 0 := tendsto_nhds_unique h.1 h'.1
    intro k hk
    cases k with
    | zero => exact h0
    | succ k =>
      have h2 := h'.2
      rw [← h0] at h2
      exact ih h.2 h2 k (by omega)

theorem Expand.add (h : Expand K f w) (h' : Expand K f' w') : Expand K (fun s => f s + f' s) fun k => w k + w' k := by
  induction K generalizing f f' w w' with
  | zero => exact Tendsto.add h h'
  | succ K ih =>
    refine ⟨h.1.add h'.1, (ih h.2 h'.2).congr (Eventually.of_forall fun s => ?_)⟩
    rw [← smul_add]
    exact congrArg _ (add_sub_add_comm _ _ _ _).symm

theorem Expand.const_mul {g : ℝ → Matrix (Fin m) (Fin q) ℝ} {v : ℕ → Matrix (Fin m) (Fin q) ℝ} (C : Matrix (Fin p) (Fin m) ℝ) (h : Expand K g v) :
    Expand K (fun s => C * g s) fun k => C * v k := by
  have hc : Continuous fun X : Matrix (Fin m) (Fin q) ℝ => C * X := by fun_prop
  induction K generalizing g v with
  | zero => exact (hc.tendsto _).comp h
  | succ K ih =>
    refine ⟨(hc.tendsto _).comp h.1, (ih h.2).congr (Eventually.of_forall fun s => ?_)⟩
    rw [Matrix.mul_smul, Matrix.mul_sub]

theorem Expand.smul (c : ℝ) (h : Expand K f w) : Expand K (fun s => c • f s) fun k => c • w k := by
  induction K generalizing f w with
  | zero => exact Tendsto.const_smul h c
  | succ K ih =>
    refine ⟨h.1.const_smul c, (ih h.2).congr (Eventually.of_forall fun s => ?_)⟩
    rw [smul_comm, smul_sub]

theorem Expand.mul {g : ℝ → Matrix (Fin m) (Fin q) ℝ} {v : ℕ → Matrix (Fin m) (Fin q) ℝ} (h : Expand K f w) (h' : Expand K g v) :
    Expand K (fun s => f s * g s) (cauchy w v) := by
  have hl : ∀ {f : ℝ → Matrix (Fin p) (Fin m) ℝ} {g : ℝ → Matrix (Fin m) (Fin q) ℝ} {A B}, Tendsto f atTop (𝓝 A) → Tendsto g atTop (𝓝 B) →
      Tendsto (fun s => f s * g s) atTop (𝓝 (A * B)) := by
    intro f g A B hf hg
    have hc : Continuous fun X : Matrix (Fin p) (Fin m) ℝ × Matrix (Fin m) (Fin q) ℝ => X.1 * X.2 := by fun_prop
    exact (hc.tendsto (A, B)).comp (hf.prodMk_nhds hg)
  induction K generalizing f w g v with
  | zero => exact hl h h'
  | succ K ih =>
    refine ⟨hl h.1 h'.1, ((ih h.2 h'.pred).add (h'.2.const_mul (w 0))).congr (Eventually.of_forall fun s => ?_)⟩
    simp only [cauchy, Matrix.smul_mul, Matrix.mul_smul, Matrix.sub_mul, Matrix.mul_sub]
    rw [← smul_add]
    congr 1
    abel

theorem Expand.const (D : Matrix (Fin p) (Fin m) ℝ) : Expand K (fun _ => D) fun k => if k = 0 then D else 0 := by
  have hz : ∀ K, Expand K (fun _ => (0 : Matrix (Fin p) (Fin m) ℝ)) fun _ => 0 := by
    intro K
    induction K with
    | zero => exact tendsto_const_nhds
    | succ K ih =>
      refine ⟨tendsto_const_nhds, ih.congr (Eventually.of_forall fun s => ?_)⟩
      simp
  cases K with
  | zero => exact tendsto_const_nhds
  | succ K =>
    refine ⟨tendsto_const_nhds, ?_⟩
    have := (hz K).congr (f' := fun s : ℝ => s • (D - if (0 : ℕ) = 0 then D else 0)) (Eventually.of_forall fun s => by simp)
    simpa using this

/-- The Markov parameters are the coefficients of the transfer function. -/
theorem expand_markov (A : Matrix (Fin n) (Fin n) ℝ) (B : Matrix (Fin n) (Fin m) ℝ) (C : Matrix (Fin p) (Fin n) ℝ) (D : Matrix (Fin p) (Fin m) ℝ) (K : ℕ) :
    Expand K (tfReal A B C D) (markov A B C D) := by
  induction K generalizing C D with
  | zero => exact tfReal_tendsto A B C D
  | succ K ih =>
    have e : (fun k => markov A B C D (k + 1)) = markov A B (C * A) (C * B) := funext (markov_shift A B C D)
    refine ⟨tfReal_tendsto A B C D, ?_⟩
    rw [e]
    refine (ih (C * A) (C * B)).congr ?_
    filter_upwards [eventually_det A] with s hs
    exact tfReal_shift A B C D hs

end Harold
