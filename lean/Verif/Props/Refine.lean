import Verif.Props.Bibo
import Verif.Props.PoleMap

/-!
# C122: sampling faster

Discretization with "zoh" at `k h` is `k` steps of the discretization at `h`, so a simulation of a continuous model on a finer grid with the same held input agrees with the one on the coarse grid at the
common points.
-/

namespace Harold

open Matrix Spec NormedSpace

variable {n m p N k : ℕ} {A : Matrix (Fin n) (Fin n) ℝ} {B : Matrix (Fin n) (Fin m) ℝ} {C : Matrix (Fin p) (Fin n) ℝ} {D : Matrix (Fin p) (Fin m) ℝ} {P : Type} {Nm : Numerics ℝ P} {E : DNum}
  {S : StateObj ℝ P} {h t0 : ℝ} {U : Matrix (Fin N) (Fin m) ℝ}

theorem zohM_blk (h : ℝ) : h • zohM A B = blk (h • A) (h • B) 0 (0 : Matrix (Fin m) (Fin m) ℝ) := by
  unfold zohM
  have e : (0 : Matrix (Fin m) (Fin (n + m)) ℝ) = hcat 0 0 := by
    ext i j; refine Fin.addCases (fun j => ?_) (fun j => ?_) j <;> simp [hcat]
  rw [e, vcat_hcat]
  ext i j
  simp only [Matrix.smul_apply, blk, submatrix_apply]
  rcases finSumFinEquiv.symm i with i | i <;> rcases finSumFinEquiv.symm j with j | j <;> simp

/-- `k` steps of the held model. -/
theorem exp_steps (A : Matrix (Fin n) (Fin n) ℝ) (B : Matrix (Fin n) (Fin m) ℝ) (h : ℝ) (k : ℕ) :
    exp (((k : ℝ) * h) • A) = exp (h • A) ^ k ∧ gam (((k : ℝ) * h) • A) (((k : ℝ) * h) • B) 0 = ∑ i ∈ Finset.range k, exp (h • A) ^ i * gam (h • A) (h • B) 0 := by
  have e1 := exp_blk (((k : ℝ) * h) • A) (((k : ℝ) * h) • B) (0 : Matrix (Fin m) (Fin m) ℝ)
  have e2 := exp_blk (h • A) (h • B) (0 : Matrix (Fin m) (Fin m) ℝ)
  have e3 : exp (blk (((k : ℝ) * h) • A) (((k : ℝ) * h) • B) 0 (0 : Matrix (Fin m) (Fin m) ℝ)) = exp (blk (h • A) (h • B) 0 (0 : Matrix (Fin m) (Fin m) ℝ)) ^ k := by
    rw [← zohM_blk, ← zohM_blk, ← Matrix.exp_nsmul, mul_smul, Nat.cast_smul_eq_nsmul]
  rw [e1, e2, exp_zero, blk_one_pow] at e3
  obtain ⟨h1, h2, -, -⟩ := blk_inj e3
  exact ⟨h1, h2⟩

theorem zoh_model (hE : BalanceOk E) (hh : 0 < h) (hG : S.g = stateOf A B C D none) {pw : ℝ} {q : Option (Arr ℝ)} : ∃ T, discretize Nm E S h "zoh" pw q = .ok T ∧
    T.g = stateOf (exp (h • A)) (gam (h • A) (h • B) 0) C D (some h) := by
  obtain ⟨T, h1, h2, -⟩ := discretize_zoh_of (N := Nm) (pw := pw) (q := q) hE hh hG
  refine ⟨T, h1, ?_⟩
  rw [h2, zohM_blk, exp_blk]
  unfold stateOf
  congr 2 <;> ext i j <;> simp [blk]

/-- **C122**: the zero-order hold at `k h` is `k` steps of the zero-order hold at `h`. -/
theorem C122_period (hE : BalanceOk E) (hh : 0 < h) (hk : 0 < k) (hG : S.g = stateOf A B C D none) {pw : ℝ} {q : Option (Arr ℝ)} :
    ∃ (T T' : StateObj ℝ P) (Ad : Matrix (Fin n) (Fin n) ℝ) (Bd : Matrix (Fin n) (Fin m) ℝ), discretize Nm E S h "zoh" pw q = .ok T ∧ discretize Nm E S (k * h) "zoh" pw q = .ok T' ∧
      T.g = stateOf Ad Bd C D (some h) ∧ T'.g = stateOf (Ad ^ k) (∑ i ∈ Finset.range k, Ad ^ i * Bd) C D (some (k * h)) := by
  obtain ⟨T, h1, h2⟩ := zoh_model (Nm := Nm) (pw := pw) (q := q) hE hh hG
  obtain ⟨T', h3, h4⟩ := zoh_model (Nm := Nm) (h := k * h) (pw := pw) (q := q) hE (by positivity) hG
  obtain ⟨e1, e2⟩ := exp_steps A B h k
  refine ⟨T, T', _, _, h1, h3, h2, ?_⟩
  rw [h4, e1, e2]

/-- The states reached from `x` with the inputs `w`. -/
def runStates (A : Matrix (Fin n) (Fin n) ℝ) (B : Matrix (Fin n) (Fin m) ℝ) (w : ℕ → Fin m → ℝ) (x : Fin n → ℝ) : ℕ → Fin n → ℝ
  | 0 => x
  | i + 1 => A *ᵥ runStates A B w x i + B *ᵥ w i

theorem runStates_eq (w : ℕ → Fin m → ℝ) (x : Fin n → ℝ) (i : ℕ) : runStates A B w x i = A ^ i *ᵥ x + ∑ j ∈ Finset.range i, A ^ (i - 1 - j) *ᵥ (B *ᵥ w j) := by
  induction i with
  | zero => simp [runStates]
  | succ i ih =>
    rw [runStates, ih, mulVec_add, mulVec_mulVec, ← pow_succ', Finset.sum_range_succ, ← add_assoc]
    simp only [Nat.add_sub_cancel, Nat.sub_self, pow_zero, one_mulVec]
    congr 2
    rw [Matrix.mulVec_sum]
    refine Finset.sum_congr rfl fun j hj => ?_
    rw [mulVec_mulVec, ← pow_succ', show i - 1 - j + 1 = i - j by have := Finset.mem_range.mp hj; omega]

theorem output_run {x0 : Fin n → ℝ} (w : ℕ → Fin m → ℝ) (hw : ∀ i : Fin N, U i = w i) (i : Fin N) : output A B C D x0 U i = C *ᵥ runStates A B w x0 i + D *ᵥ w i := by
  rw [output_range w hw, runStates_eq, mulVec_add, Matrix.mulVec_sum]

theorem run_const (w : ℕ → Fin m → ℝ) (x : Fin n → ℝ) (i : ℕ) {v : Fin m → ℝ} (j : ℕ) (hw : ∀ l < j, w (i + l) = v) :
    runStates A B w x (i + j) = A ^ j *ᵥ runStates A B w x i + (∑ l ∈ Finset.range j, A ^ l * B) *ᵥ v := by
  induction j with
  | zero => simp
  | succ j ih =>
    rw [← add_assoc, runStates, ih fun l hl => hw l (by omega), hw j (by omega), mulVec_add, mulVec_mulVec, ← pow_succ', mulVec_mulVec, add_assoc, ← add_mulVec, Finset.sum_range_succ', Matrix.mul_sum]
    simp only [pow_zero, Matrix.one_mul, pow_succ', Matrix.mul_assoc]

theorem run_coarse (hk : 0 < k) (w : ℕ → Fin m → ℝ) (x : Fin n → ℝ) (i : ℕ) :
    runStates (A ^ k) (∑ l ∈ Finset.range k, A ^ l * B) w x i = runStates A B (fun j => w (j / k)) x (k * i) := by
  induction i with
  | zero => rfl
  | succ i ih =>
    rw [runStates, ih, Nat.mul_succ, run_const (v := w i)]
    intro l hl
    rw [Nat.mul_add_div hk, Nat.div_eq_of_lt hl, add_zero]

theorem simulate_held (hE : BalanceOk E) (hN : 2 ≤ N) (hm : 1 ≤ m) (hG : S.g = stateOf A B C D none) (hh : 0 < h) {x0 : Fin n → ℝ} {xarg : Option (List ℝ)} (hx : InitArg xarg x0) (w : ℕ → Fin m → ℝ)
    (hw : ∀ i : Fin N, U i = w i) : simulate Nm E S (Arr.of U) (some (eqGrid N t0 h)) xarg false =
      .ok (.flat (Arr.of (Matrix.of fun i : Fin N => C *ᵥ runStates (exp (h • A)) (gam (h • A) (h • B) 0) w x0 i + D *ᵥ w i)), eqGrid N t0 h) := by
  have hgrid := eqGrid_ok (t0 := t0) hN hh
  have h0 : (eqGrid N t0 h).getD 1 0 - (eqGrid N t0 h).getD 0 0 = h := by
    rw [eqGrid_get (by omega), eqGrid_get (by omega)]; push_cast; ring
  have htime : timeArray S.g.dt (some (Arr.of U)) (some (eqGrid N t0 h)) = .ok (eqGrid N t0 h) := by
    unfold timeArray
    exact checkT_ok hgrid (by rw [hG]; intro d hd; cases hd)
  obtain ⟨T, h1, h2⟩ := zoh_model (Nm := Nm) (pw := 0) (q := none) hE hh hG
  have hmod : simModel Nm E S (eqGrid N t0 h) = .ok T.g := by
    unfold simModel
    rw [hG, h0]
    simp only [h1, bind, Except.bind]
  rw [h2] at hmod
  rw [simulate_flat hN hm (by rw [hG]) (by rw [hG]; rfl) (by rw [hG]; rfl) htime (by simp [eqGrid]) hmod hx false (Or.inl rfl)]
  congr 4
  funext i
  exact output_run w hw i

/-- **C122**, simulation of continuous models: on a grid that is `k` times as fine, with every input sample repeated `k` times, the outputs at the common points are the same. -/
theorem C122_simulate (hE : BalanceOk E) (hN : 2 ≤ N) (hm : 1 ≤ m) (hG : S.g = stateOf A B C D none) (hh : 0 < h) (hk : 0 < k) {x0 : Fin n → ℝ} {xarg : Option (List ℝ)} (hx : InitArg xarg x0)
    {N' : ℕ} (hN' : N' = k * (N - 1) + 1) {U' : Matrix (Fin N') (Fin m) ℝ} (hU : ∀ (i : Fin N) (j : Fin N'), (j : ℕ) / k = i → U' j = U i) :
    ∃ (Y : Matrix (Fin N) (Fin p) ℝ) (Y' : Matrix (Fin N') (Fin p) ℝ), simulate Nm E S (Arr.of U) (some (eqGrid N t0 (k * h))) xarg false = .ok (.flat (Arr.of Y), eqGrid N t0 (k * h)) ∧
      simulate Nm E S (Arr.of U') (some (eqGrid N' t0 h)) xarg false = .ok (.flat (Arr.of Y'), eqGrid N' t0 h) ∧ ∀ (i : Fin N) (j : Fin N'), (j : ℕ) = k * i → Y' j = Y i := by
  obtain ⟨w, hw⟩ : ∃ w : ℕ → Fin m → ℝ, ∀ i : Fin N, U i = w i := ⟨fun k => if hk : k < N then U ⟨k, hk⟩ else 0, fun i => by simp⟩
  have hk' : N - 1 ≤ k * (N - 1) := Nat.le_mul_of_pos_left _ hk
  have hw' : ∀ j : Fin N', U' j = (fun j => w (j / k)) j := fun j => by
    have hj : (j : ℕ) / k < N := by
      have h1 : (j : ℕ) ≤ k * (N - 1) := by have := j.2; omega
      have h2 := Nat.div_le_of_le_mul h1
      omega
    rw [hU ⟨_, hj⟩ j rfl, hw]
  refine ⟨_, _, simulate_held (t0 := t0) hE hN hm hG (by positivity) hx w hw, simulate_held (t0 := t0) hE (by omega) hm hG hh hx (fun j => w (j / k)) hw', fun i j hj => ?_⟩
  obtain ⟨e1, e2⟩ := exp_steps A B h k
  funext l
  simp only [of_apply]
  rw [hj, e1, e2, run_coarse hk, Nat.mul_div_cancel_left _ hk]

/-- The step responses are the sums of the weights. -/
theorem step_held (hE : BalanceOk E) (hN : 2 ≤ N) (hm : 1 ≤ m) (hG : S.g = stateOf A B C D none) (hh : 0 < h) (auto : ℝ × ℝ) :
    ∃ y, stepResponse Nm E S auto (some (eqGrid N t0 h)) = .ok (y, eqGrid N t0 h) ∧ y.slices = List.ofFn fun r : Fin m => Arr.of (Matrix.of fun (i : Fin N) (l : Fin p) =>
      (C * (∑ j ∈ Finset.range i, exp (h • A) ^ j * gam (h • A) (h • B) 0) + D) l r) := by
  have hl : (eqGrid N t0 h).length = N := by simp [eqGrid]
  have hgrid := eqGrid_ok (t0 := t0) hN hh
  have h0 : (eqGrid N t0 h).getD 1 0 - (eqGrid N t0 h).getD 0 0 = h := by
    rw [eqGrid_get (by omega), eqGrid_get (by omega)]; push_cast; ring
  have hdt : S.g.dt = none := by rw [hG]
  have hSm : S.g.m = m := by rw [hG]; rfl
  have ht : timeArray S.g.dt (some (Arr.of (Matrix.of fun (_ : Fin N) (_ : Fin m) => (1 : ℝ)))) (some (eqGrid N t0 h)) = .ok (eqGrid N t0 h) := by
    unfold timeArray
    exact checkT_ok hgrid (by rw [hG]; intro d hd; cases hd)
  have hs := weights_dynamic (Nm := Nm) hE hG (by rw [hdt]; exact dtOk_none) true hN hm ht hl
  refine ⟨convResult (weights S.g.dt (eqGrid N t0 h) A B C D) (Matrix.of fun (_ : Fin N) (_ : Fin m) => (1 : ℝ)) true, ?_, ?_⟩
  · simp only [stepResponse, responseGrid, checkCustomTime_eqGrid hN hh, Bind.bind, Except.bind, hSm, hl]
    exact hs
  · rw [convResult_slices _ _ hm]
    congr 1
    funext r
    congr 1
    ext i l
    simp only [conv_ones, of_apply]
    simp only [weights, hdt, h0, Finset.sum_range_succ', markov]
    rw [Matrix.add_apply, Matrix.mul_sum, Matrix.sum_apply]
    simp only [Matrix.mul_assoc]

theorem sum_blocks (F : Matrix (Fin n) (Fin n) ℝ) (M : Matrix (Fin n) (Fin m) ℝ) (k i : ℕ) :
    ∑ j ∈ Finset.range i, (F ^ k) ^ j * (∑ l ∈ Finset.range k, F ^ l * M) = ∑ j ∈ Finset.range (k * i), F ^ j * M := by
  induction i with
  | zero => simp
  | succ i ih =>
    rw [Finset.sum_range_succ, ih, Nat.mul_succ, Finset.sum_range_add, Matrix.mul_sum]
    simp only [← Matrix.mul_assoc, ← pow_mul, ← pow_add]

/-- **C122**, step responses of continuous models on a grid that is `k` times as fine agree at the common points. -/
theorem C122_step (hE : BalanceOk E) (hN : 2 ≤ N) (hm : 1 ≤ m) (hG : S.g = stateOf A B C D none) (hh : 0 < h) (hk : 0 < k) {N' : ℕ} (hN' : N' = k * (N - 1) + 1) (auto : ℝ × ℝ) :
    ∃ (y y' : SimOut) (Y : Fin m → Matrix (Fin N) (Fin p) ℝ) (Y' : Fin m → Matrix (Fin N') (Fin p) ℝ), stepResponse Nm E S auto (some (eqGrid N t0 (k * h))) = .ok (y, eqGrid N t0 (k * h)) ∧
      stepResponse Nm E S auto (some (eqGrid N' t0 h)) = .ok (y', eqGrid N' t0 h) ∧ y.slices = List.ofFn (fun r => Arr.of (Y r)) ∧ y'.slices = List.ofFn (fun r => Arr.of (Y' r)) ∧
      ∀ (r : Fin m) (i : Fin N) (j : Fin N'), (j : ℕ) = k * i → Y' r j = Y r i := by
  have hk' : N - 1 ≤ k * (N - 1) := Nat.le_mul_of_pos_left _ hk
  obtain ⟨y, h1, h2⟩ := step_held (Nm := Nm) (t0 := t0) (h := k * h) hE hN hm hG (by positivity) auto
  obtain ⟨y', h3, h4⟩ := step_held (Nm := Nm) (t0 := t0) (N := N') hE (by omega) hm hG hh auto
  refine ⟨y, y', _, _, h1, h3, h2, h4, fun r i j hj => ?_⟩
  obtain ⟨e1, e2⟩ := exp_steps A B h k
  funext l
  simp only [of_apply]
  rw [hj, e1, e2, sum_blocks]

/-- The double integrator sampled twice as fast. -/
example {P : Type} (N : Numerics ℝ P) (auto : ℝ × ℝ) (S : StateObj ℝ P) (hS : S.g = stateOf !![0, 1; 0, 0] !![0; 1] !![1, 0] !![(0 : ℝ)] none) :
    ∃ (y y' : SimOut) (Y : Fin 1 → Matrix (Fin 3) (Fin 1) ℝ) (Y' : Fin 1 → Matrix (Fin 5) (Fin 1) ℝ), stepResponse N plainDNum S auto (some (eqGrid 3 0 ((2 : ℕ) * (1 / 2)))) = .ok (y, eqGrid 3 0 ((2 : ℕ) * (1 / 2))) ∧
      stepResponse N plainDNum S auto (some (eqGrid 5 0 (1 / 2))) = .ok (y', eqGrid 5 0 (1 / 2)) ∧ y.slices = List.ofFn (fun r => Arr.of (Y r)) ∧ y'.slices = List.ofFn (fun r => Arr.of (Y' r)) ∧
      ∀ (r : Fin 1) (i : Fin 3) (j : Fin 5), (j : ℕ) = 2 * i → Y' r j = Y r i :=
  C122_step (N := 3) (k := 2) (h := 1 / 2) (t0 := 0) (N' := 5) plainDNum_ok (by norm_num) le_rfl hS (by norm_num) (by norm_num) rfl auto

end Harold
