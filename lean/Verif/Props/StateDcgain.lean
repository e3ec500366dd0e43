import Verif.Lemmas.StateDcgain
import Verif.Props.MinrealState

/-!
# C72: `State.dcgain`
-/

namespace Harold

open Matrix Spec Polynomial

variable {K : Type} [Field K] [LinearOrder K] {n m p : ℕ} {S : SvdNum K} {tol big : K}

/-- Entry `(i, j)` of the transfer matrix as quotient of `entryNum A B C D i j` and the characteristic polynomial of `A`. -/
noncomputable def entryNum (A : Matrix (Fin n) (Fin n) K) (B : Matrix (Fin n) (Fin m) K) (C : Matrix (Fin p) (Fin n) K) (D : Matrix (Fin p) (Fin m) K)
    (i : Fin p) (j : Fin m) : K[X] :=
  numPoly A (fun l => B l j) (C i) + Polynomial.C (D i j) * A.charpoly

omit [LinearOrder K] in
/-- `entryNum` is what it is called: where the transfer matrix is defined, its entries are the quotients. -/
theorem entryNum_tf (A : Matrix (Fin n) (Fin n) K) (B : Matrix (Fin n) (Fin m) K) (C : Matrix (Fin p) (Fin n) K) (D : Matrix (Fin p) (Fin m) K)
    {z : K} {M : Matrix (Fin p) (Fin m) K} (h : IsTF A B C D z M) (i : Fin p) (j : Fin m) :
    A.charpoly.eval z ≠ 0 ∧ M i j = (entryNum A B C D i j).eval z / A.charpoly.eval z := by
  obtain ⟨h1, rfl⟩ := h
  have h2 : A.charpoly.eval z ≠ 0 := by rwa [eval_charpoly, scalar_apply, ← smul_one_eq_diagonal]
  refine ⟨h2, ?_⟩
  rw [Matrix.add_apply, Matrix.mul_assoc, resolvent_num A B C z h2, entryNum, eval_add, eval_mul, eval_C]
  field_simp

theorem dcFirst_of {N : MinNum K} {A : Matrix (Fin n) (Fin n) K} {B : Matrix (Fin n) (Fin m) K} {C : Matrix (Fin p) (Fin n) K} (D : Matrix (Fin p) (Fin m) K)
    (dt : Option K) {k : ℕ} {A' : Matrix (Fin k) (Fin k) K} {B' : Matrix (Fin k) (Fin m) K} {C' : Matrix (Fin p) (Fin k) K}
    (h : minrealMatrices S N tol (Arr.of A) (Arr.of B) (Arr.of C) = .ok (Arr.of A', Arr.of B', Arr.of C')) :
    dcFirst S N tol big ⟨Arr.of A, Arr.of B, Arr.of C, Arr.of D, dt, false⟩ =
      if A'.charpoly.eval (zeroFreq dt) = 0 then .error .linAlg else
        .ok (Arr.of (Matrix.of fun i j => (capAbove big ((numPoly A' (fun l => B' l j) (C' i)).eval (zeroFreq dt) / A'.charpoly.eval (zeroFreq dt))).addNum (D i j))) := by
  unfold dcFirst
  simp only [bind, Except.bind, h, dcMatrix_of, Arr.solve_of, det_scalar]
  by_cases h0 : A'.charpoly.eval (zeroFreq dt) = 0
  · rw [if_pos h0, if_pos h0]
  · rw [if_neg h0, if_neg h0]
    simp only [Arr.matmul_of]
    refine (dcPlus_of _ D).trans ?_
    congr 2
    ext i j
    rw [of_apply, of_apply, map_apply, resolvent_num A' B' C' _ h0]

theorem dcChannel_of [IsStrictOrderedRing K] {N : MinNum K} {A : Matrix (Fin n) (Fin n) K} {B : Matrix (Fin n) (Fin m) K} {C : Matrix (Fin p) (Fin n) K} (D : Matrix (Fin p) (Fin m) K)
    (dt : Option K) {k : ℕ} {A' : Matrix (Fin k) (Fin k) K} {B' : Matrix (Fin k) (Fin 1) K} {C' : Matrix (Fin 1) (Fin k) K} (i : Fin p) (j : Fin m)
    (h : minrealMatrices S N tol (Arr.of A) (Arr.of (B.submatrix id fun _ : Fin 1 => j)) (Arr.of (C.submatrix (fun _ : Fin 1 => i) id))
      = .ok (Arr.of A', Arr.of B', Arr.of C')) :
    dcChannel S N tol big ⟨Arr.of A, Arr.of B, Arr.of C, Arr.of D, dt, false⟩ i j =
      .ok (if A'.charpoly.eval (zeroFreq dt) = 0 then .inf else
        capAbs big ((numPoly A' (fun l => B' l 0) (C' 0)).eval (zeroFreq dt) / A'.charpoly.eval (zeroFreq dt))) := by
  have e1 : (Arr.of B).slice 0 n j (j + 1) = Arr.of (B.submatrix id fun _ : Fin 1 => j) := by
    rw [slice_of (a := n) (b := 1) _ _ _ _ _ (by omega) (by omega), Arr.of_inj]
    ext a b
    have : b = 0 := Subsingleton.elim _ _
    subst this
    simp
  have e2 : (Arr.of C).slice i (i + 1) 0 n = Arr.of (C.submatrix (fun _ : Fin 1 => i) id) := by
    rw [slice_of (a := 1) (b := n) _ _ _ _ _ (by omega) (by omega), Arr.of_inj]
    ext a b
    have : a = 0 := Subsingleton.elim _ _
    subst this
    simp
  unfold dcChannel
  simp only [bind, Except.bind, Arr.of_r, Arr.of_c]
  rw [e1, e2, h]
  simp only [dcMatrixCh_of, dcChannelVal, bind, Except.bind, Arr.solve_of, det_scalar]
  by_cases h0 : A'.charpoly.eval (zeroFreq dt) = 0
  · rw [if_pos h0, if_pos h0]
    rfl
  · rw [if_neg h0, if_neg h0]
    simp only [Arr.matmul_of]
    rw [dif_pos ⟨one_pos, one_pos⟩]
    unfold orInf
    simp only
    congr 2
    exact resolvent_num A' B' C' _ h0 0 0

theorem dcgain_dynamic (N : ℕ → MinNum K) (a b c d : Arr K) (dt : Option K) :
    StateM.dcgain S N tol big ⟨a, b, c, d, dt, false⟩ = dcSecond S N tol big ⟨a, b, c, d, dt, false⟩ (dcFirst S (N 0) tol big ⟨a, b, c, d, dt, false⟩) := by
  unfold StateM.dcgain
  rw [if_neg (by simp)]

/-- The entry `P / Q` of the transfer matrix, if finite at frequency zero, is not above the bound there. -/
def NotHuge (big z₀ : K) (P Q : K[X]) : Prop := ∀ x, LowFreqGain z₀ P Q (.fin x) → |x| ≤ big

theorem lowFreq_capAbs {z₀ : K} {P Q : K[X]} {x : K} (h : LowFreqGain z₀ P Q (.fin x)) (hb : NotHuge big z₀ P Q) : capAbs big x = .fin x :=
  if_neg (not_lt.mpr (hb x h))

theorem lowFreq_capAbove {z₀ : K} {P Q : K[X]} {x : K} (h : LowFreqGain z₀ P Q (.fin x)) (hb : NotHuge big z₀ P Q) : capAbove big x = .fin x :=
  if_neg (not_lt.mpr ((le_abs_self x).trans (hb x h)))

theorem lowFreq_quot {z₀ : K} {P Q P' Q' : K[X]} (hQ : Q ≠ 0) (h : P * Q' = P' * Q) (h0 : Q'.eval z₀ ≠ 0) :
    LowFreqGain z₀ P Q (.fin (P'.eval z₀ / Q'.eval z₀)) := by
  have hv := lowFreq_div (z₀ := z₀) (P := P') (Q := Q') (Or.inr h0)
  rw [DcVal.div, if_neg h0] at hv
  exact lowFreq_congr hQ (fun h1 => h0 (by rw [h1, eval_zero])) h hv

/-- The value of a channel is right if it is finite, or if the channel is observable. -/
def ChannelOk (big z₀ : K) (A : Matrix (Fin n) (Fin n) K) (B : Matrix (Fin n) (Fin m) K) (C : Matrix (Fin p) (Fin n) K) (D : Matrix (Fin p) (Fin m) K)
    (i : Fin p) (j : Fin m) (v : DcVal K) : Prop :=
  (∀ x, v = .fin x → LowFreqGain z₀ (entryNum A B C D i j) A.charpoly (.fin x)) ∧
    (Observable A (C.submatrix (fun _ : Fin 1 => i) id) → NotHuge big z₀ (numPoly A (fun l => B l j) (C i)) A.charpoly →
      LowFreqGain z₀ (entryNum A B C D i j) A.charpoly v)

theorem channelOk_value {z₀ : K} {A : Matrix (Fin n) (Fin n) K} {B : Matrix (Fin n) (Fin m) K} {C : Matrix (Fin p) (Fin n) K} (D : Matrix (Fin p) (Fin m) K)
    {i : Fin p} {j : Fin m} {x : K} (h : LowFreqGain z₀ (numPoly A (fun l => B l j) (C i)) A.charpoly (.fin x)) {w : DcVal K} (hw : w = .inf ∨ w = .fin x)
    (hc : NotHuge big z₀ (numPoly A (fun l => B l j) (C i)) A.charpoly → w = .fin x) : ChannelOk big z₀ A B C D i j (w.addNum (D i j)) := by
  have h1 := lowFreq_add h (D i j)
  constructor
  · intro y hy
    rcases hw with rfl | rfl
    · simp [DcVal.addNum] at hy
    · rw [← hy]
      exact h1
  · intro _ hb
    rw [hc hb]
    exact h1

variable [IsStrictOrderedRing K]

theorem dcChannel_exact (hS : ∀ (a b : ℕ) (M : Matrix (Fin a) (Fin b) K), SvdOk S M) (he : S.eps = 0) {N : MinNum K} (hN : Decides N tol) (hb : Balances N)
    (A : Matrix (Fin n) (Fin n) K) {B : Matrix (Fin n) (Fin m) K} {C : Matrix (Fin p) (Fin n) K} (D : Matrix (Fin p) (Fin m) K) (dt : Option K)
    (hn : 0 < n) (hC : C.rank < n) (i : Fin p) (j : Fin m) (hB : (fun l => B l j) ≠ 0) :
    ∃ v, dcChannel S N tol big ⟨Arr.of A, Arr.of B, Arr.of C, Arr.of D, dt, false⟩ i j = .ok v ∧ ChannelOk big (zeroFreq dt) A B C D i j (v.addNum (D i j)) := by
  have hB1 : B.submatrix id (fun _ : Fin 1 => j) ≠ 0 := fun h => hB <| by
    ext l
    exact congrFun (congrFun h l) 0
  have hC1 : (C.submatrix (fun _ : Fin 1 => i) id).rank < n := lt_of_le_of_lt (rank_submatrix_le C _ _) hC
  obtain ⟨k, A', B', C', h1, -, h3, h4, h5⟩ := minrealMatrices_exact hS he hN hb A (B := B.submatrix id (fun _ : Fin 1 => j)) (C := C.submatrix (fun _ : Fin 1 => i) id) hn hB1 hC1
  refine ⟨_, dcChannel_of D dt i j h1, ?_⟩
  have hp := tf_poly h5 0 0
  simp only [submatrix_apply, id] at hp
  have hp : numPoly A (fun l => B l j) (C i) * A'.charpoly = numPoly A' (fun l => B' l 0) (C' 0) * A.charpoly := hp
  by_cases h0 : A'.charpoly.eval (zeroFreq dt) = 0
  · rw [if_pos h0]
    refine ⟨fun x hx => by simp [DcVal.addNum] at hx, fun ho _ => ?_⟩
    have hk : k ≠ 0 := by
      rintro rfl
      simp [charpoly] at h0
    have h6 := minimal_coprime (h3.resolve_left hk) (h4 ho).1 (zeroFreq dt)
    have h7 := lowFreq_div h6
    rw [DcVal.div, if_pos h0, if_neg (h6.resolve_right (by simp [h0]))] at h7
    exact lowFreq_add (lowFreq_congr A.charpoly_monic.ne_zero A'.charpoly_monic.ne_zero hp h7) (D i j)
  · rw [if_neg h0]
    have h6 := lowFreq_quot A.charpoly_monic.ne_zero hp h0
    refine channelOk_value D h6 ?_ (lowFreq_capAbs h6)
    unfold capAbs
    split
    · exact Or.inl rfl
    · exact Or.inr rfl

/-- All cases of `dcgain` in exact arithmetic. -/
theorem dcgain_exact (hS : ∀ (a b : ℕ) (M : Matrix (Fin a) (Fin b) K), SvdOk S M) (he : S.eps = 0) {N : ℕ → MinNum K} (hN : ∀ k, Decides (N k) tol)
    (hb : ∀ k, Balances (N k)) (A : Matrix (Fin n) (Fin n) K) {B : Matrix (Fin n) (Fin m) K} {C : Matrix (Fin p) (Fin n) K} (D : Matrix (Fin p) (Fin m) K)
    (dt : Option K) (hn : 0 < n) (hB : B ≠ 0) (hC : C.rank < n) (hcol : p = 1 ∧ m = 1 ∨ ∀ j, (fun l => B l j) ≠ 0) :
    ∃ R : Matrix (Fin p) (Fin m) (DcVal K), StateM.dcgain S N tol big ⟨Arr.of A, Arr.of B, Arr.of C, Arr.of D, dt, false⟩ = .ok (Arr.of R) ∧
      ∀ i j, ChannelOk big (zeroFreq dt) A B C D i j (R i j) := by
  obtain ⟨k, A', B', C', h1, -, h3, h4, h5⟩ := minrealMatrices_exact hS he (hN 0) (hb 0) A (B := B) (C := C) hn hB hC
  rw [dcgain_dynamic, dcFirst_of D dt h1]
  by_cases h0 : A'.charpoly.eval (zeroFreq dt) = 0
  · rw [if_pos h0]
    unfold dcSecond
    simp only
    by_cases hs : p = 1 ∧ m = 1
    · obtain ⟨rfl, rfl⟩ := hs
      rw [if_pos (by simp [StateM.isSISO])]
      refine ⟨_, rfl, fun i j => ?_⟩
      obtain rfl : i = 0 := Subsingleton.elim _ _
      obtain rfl : j = 0 := Subsingleton.elim _ _
      refine ⟨fun x hx => by simp at hx, fun ho _ => ?_⟩
      have hk : k ≠ 0 := by
        rintro rfl
        simp [charpoly] at h0
      have e : C.submatrix (fun _ : Fin 1 => 0) id = C := by
        ext a b
        obtain rfl : a = 0 := Subsingleton.elim _ _
        rfl
      rw [e] at ho
      have h6 := minimal_coprime (h3.resolve_left hk) (h4 ho).1 (zeroFreq dt)
      have h7 := lowFreq_div h6
      rw [DcVal.div, if_pos h0, if_neg (h6.resolve_right (by simp [h0]))] at h7
      exact lowFreq_add (lowFreq_congr A.charpoly_monic.ne_zero A'.charpoly_monic.ne_zero (tf_poly h5 0 0) h7) (D 0 0)
    · rw [if_neg (by simpa [StateM.isSISO] using hs)]
      have hcol := hcol.resolve_left hs
      unfold dcChannels
      have h6 : ∀ (c : Fin m) (r : Fin p), ∃ v, dcChannel S (N (1 + c * p + r)) tol big ⟨Arr.of A, Arr.of B, Arr.of C, Arr.of D, dt, false⟩ r c = .ok v ∧
          ChannelOk big (zeroFreq dt) A B C D r c (v.addNum (D r c)) := fun c r => dcChannel_exact hS he (hN _) (hb _) A D dt hn hC r c (hcol c)
      choose g hg1 hg2 using h6
      have h7 : matM (fun (c : Fin m) (r : Fin p) => dcChannel S (N (1 + c * p + r)) tol big ⟨Arr.of A, Arr.of B, Arr.of C, Arr.of D, dt, false⟩ r c) = .ok g :=
        matM_ok.mpr hg1
      have h8 : matM (fun (c : Fin (Arr.of D).c) (r : Fin (Arr.of D).r) => dcChannel S (N (1 + c * (Arr.of D).r + r)) tol big
          ⟨Arr.of A, Arr.of B, Arr.of C, Arr.of D, dt, false⟩ r c) = .ok g := h7
      simp only [bind, Except.bind]
      rw [h8]
      refine ⟨Matrix.of fun i j => (g j i).addNum (D i j), dcPlus_of _ _, fun i j => hg2 j i⟩
  · rw [if_neg h0]
    refine ⟨_, rfl, fun i j => ?_⟩
    have h6 := lowFreq_quot A.charpoly_monic.ne_zero (tf_poly h5 i j) h0
    refine channelOk_value D h6 ?_ (lowFreq_capAbove h6)
    unfold capAbove
    split
    · exact Or.inl rfl
    · exact Or.inr rfl

/-- **C72** in exact arithmetic, finite values: every finite entry of `G.dcgain` is the value at `s = 0` (`z = 1`) of that entry of the transfer matrix, with
common factors cancelled. Here every input acts on the states, unless the model has one input and one output, and `C` does not have rank `n`.
The hypotheses `he`, `hN` say that the rank decisions are right.
Missing: infinite entries (`C72_partial`, `C72_regular_partial`, `C72_unobservable_violated`) and models excluded here (`C72_first_order_partial`,
`C72_zero_input_violated`, `C72_rank_violated`). -/
theorem C72_finite_partial (hS : ∀ (a b : ℕ) (M : Matrix (Fin a) (Fin b) K), SvdOk S M) (he : S.eps = 0) {N : ℕ → MinNum K} (hN : ∀ k, Decides (N k) tol)
    (hb : ∀ k, Balances (N k)) (A : Matrix (Fin n) (Fin n) K) {B : Matrix (Fin n) (Fin m) K} {C : Matrix (Fin p) (Fin n) K} (D : Matrix (Fin p) (Fin m) K)
    (dt : Option K) (hn : 0 < n) (hB : B ≠ 0) (hC : C.rank < n) (hcol : p = 1 ∧ m = 1 ∨ ∀ j, (fun l => B l j) ≠ 0) :
    ∃ R : Matrix (Fin p) (Fin m) (DcVal K), StateM.dcgain S N tol big ⟨Arr.of A, Arr.of B, Arr.of C, Arr.of D, dt, false⟩ = .ok (Arr.of R) ∧
      ∀ i j x, R i j = .fin x → LowFreqGain (zeroFreq dt) (entryNum A B C D i j) A.charpoly (.fin x) := by
  obtain ⟨R, h1, h2⟩ := dcgain_exact (big := big) hS he hN hb A D dt hn hB hC hcol
  exact ⟨R, h1, fun i j => (h2 i j).1⟩

/-- **C72** in exact arithmetic, models that are observable from each output: `G.dcgain` has the value of the transfer matrix at `s = 0` (`z = 1`), `inf` where
a pole remains after cancellation. Values above `2^52` are excluded, they are replaced by `inf`. Missing: models that are not observable (`C72_unobservable_violated`), unconnected inputs and outputs (`C72_zero_input_violated`). -/
theorem C72_partial (hS : ∀ (a b : ℕ) (M : Matrix (Fin a) (Fin b) K), SvdOk S M) (he : S.eps = 0) {N : ℕ → MinNum K} (hN : ∀ k, Decides (N k) tol)
    (hb : ∀ k, Balances (N k)) (A : Matrix (Fin n) (Fin n) K) {B : Matrix (Fin n) (Fin m) K} {C : Matrix (Fin p) (Fin n) K} (D : Matrix (Fin p) (Fin m) K)
    (dt : Option K) (hn : 0 < n) (hB : B ≠ 0) (hC : C.rank < n) (hcol : p = 1 ∧ m = 1 ∨ ∀ j, (fun l => B l j) ≠ 0)
    (ho : ∀ i, Observable A (C.submatrix (fun _ : Fin 1 => i) id)) (hbig : ∀ i j, NotHuge big (zeroFreq dt) (numPoly A (fun l => B l j) (C i)) A.charpoly) :
    ∃ R : Matrix (Fin p) (Fin m) (DcVal K), StateM.dcgain S N tol big ⟨Arr.of A, Arr.of B, Arr.of C, Arr.of D, dt, false⟩ = .ok (Arr.of R) ∧
      ∀ i j, LowFreqGain (zeroFreq dt) (entryNum A B C D i j) A.charpoly (R i j) := by
  obtain ⟨R, h1, h2⟩ := dcgain_exact (big := big) hS he hN hb A D dt hn hB hC hcol
  exact ⟨R, h1, fun i j => (h2 i j).2 (ho i) (hbig i j)⟩

/-- **C72** in exact arithmetic, observable models without pole at `s = 0` (`z = 1`): `G.dcgain` is the transfer matrix there. Missing: as in `C72_partial`. -/
theorem C72_regular_partial (hS : ∀ (a b : ℕ) (M : Matrix (Fin a) (Fin b) K), SvdOk S M) (he : S.eps = 0) {N : ℕ → MinNum K} (hN : ∀ k, Decides (N k) tol)
    (hb : ∀ k, Balances (N k)) {A : Matrix (Fin n) (Fin n) K} {B : Matrix (Fin n) (Fin m) K} {C : Matrix (Fin p) (Fin n) K} {D : Matrix (Fin p) (Fin m) K}
    (dt : Option K) (hn : 0 < n) (hB : B ≠ 0) (hC : C.rank < n) (ho : Observable A C) {M : Matrix (Fin p) (Fin m) K} (hM : IsTF A B C D (zeroFreq dt) M)
    (hbig : ∀ i j, M i j - D i j ≤ big) :
    StateM.dcgain S N tol big ⟨Arr.of A, Arr.of B, Arr.of C, Arr.of D, dt, false⟩ = .ok (Arr.of (M.map DcVal.fin)) := by
  obtain ⟨k, A', B', C', h1, -, -, h4, -⟩ := minrealMatrices_exact hS he (hN 0) (hb 0) A (B := B) (C := C) hn hB hC
  have e : ∀ {a b : ℕ} (F : Matrix (Fin a) (Fin b) K), F.map (algebraMap K K) = F := fun F => by ext; simp
  have h5 := (h4 ho).2 K D (zeroFreq dt) M (by unfold TripleTF; rw [e, e, e]; exact hM)
  unfold TripleTF at h5
  rw [e, e, e] at h5
  obtain ⟨h6, h7⟩ := h5
  rw [det_scalar] at h6
  rw [dcgain_dynamic, dcFirst_of D dt h1, if_neg h6]
  refine congrArg Except.ok (Arr.of_inj.mpr ?_)
  ext i j
  have h8 : M i j - D i j = (numPoly A' (fun l => B' l j) (C' i)).eval (zeroFreq dt) / A'.charpoly.eval (zeroFreq dt) := by
    rw [h7, Matrix.add_apply, Matrix.mul_assoc, resolvent_num A' B' C' _ h6, add_sub_cancel_right]
  rw [of_apply, map_apply, ← h8, capAbove, if_neg (not_lt.mpr (hbig i j)), DcVal.addNum, sub_add_cancel]

/-- **C72** in exact arithmetic, first order models: one state, one input, one output, both connected to the state. Missing: unconnected inputs or outputs (`C72_zero_input_violated`). -/
theorem C72_first_order_partial (hS : ∀ {a b : ℕ} (M : Matrix (Fin a) (Fin b) K), SvdExact S M) (he : S.eps = 0) {N : ℕ → MinNum K} (hN : ∀ k, Decides (N k) tol)
    (hb : ∀ k, Balances (N k)) (a : K) {b c : K} (d : K) (dt : Option K) (hB : b ≠ 0) (hC : c ≠ 0) (hbig : a ≠ zeroFreq dt → c * b / (zeroFreq dt - a) ≤ big) :
    StateM.dcgain S N tol big ⟨Arr.of !![a], Arr.of !![b], Arr.of !![c], Arr.of !![d], dt, false⟩ =
      .ok (Arr.of (Matrix.of fun (_ _ : Fin 1) => if a = zeroFreq dt then .inf else .fin (c * b / (zeroFreq dt - a) + d))) := by
  have hne : ∀ {x : K}, x ≠ 0 → (!![x] : Matrix (Fin 1) (Fin 1) K) ≠ 0 := fun hx h => hx (congrFun (congrFun h 0) 0)
  obtain ⟨T, hT, h1⟩ := minrealMatrices_first_order (S := S) hS he (hN 0) (hb 0) !![a] !![b] !![c] (hne hB) (hne hC)
  rw [dcgain_dynamic, dcFirst_of !![d] dt h1]
  obtain ⟨t, rfl⟩ : ∃ t : K, T = !![t] := ⟨T 0 0, by ext i j; rw [Subsingleton.elim i 0, Subsingleton.elim j 0]; rfl⟩
  have ht : t ≠ 0 := by simpa using hT
  have hinv : (!![t] : Matrix (Fin 1) (Fin 1) K)⁻¹ = !![t⁻¹] := by
    rw [Matrix.inv_def, adjugate_fin_one]
    ext i j
    rw [Subsingleton.elim i 0, Subsingleton.elim j 0]
    simp [Ring.inverse_eq_inv']
  have e1 : (!![t] : Matrix (Fin 1) (Fin 1) K)⁻¹ * !![a] * !![t] = !![a] := by
    rw [hinv]
    ext i j
    rw [Subsingleton.elim i 0, Subsingleton.elim j 0]
    simp [Matrix.mul_apply]
    field_simp
  have e2 : (!![a] : Matrix (Fin 1) (Fin 1) K).charpoly.eval (zeroFreq dt) = zeroFreq dt - a := by
    rw [← det_scalar, det_fin_one]
    simp
  rw [e1, e2]
  by_cases h0 : a = zeroFreq dt
  · rw [if_pos (by rw [h0, sub_self])]
    unfold dcSecond
    simp only
    rw [if_pos (by simp [StateM.isSISO])]
    simp only [if_pos h0]
  · have h2 : zeroFreq dt - a ≠ 0 := sub_ne_zero.mpr (Ne.symm h0)
    rw [if_neg h2]
    refine congrArg Except.ok (Arr.of_inj.mpr ?_)
    ext i j
    obtain rfl : i = 0 := Subsingleton.elim _ _
    obtain rfl : j = 0 := Subsingleton.elim _ _
    have e3 : (numPoly (!![a] : Matrix (Fin 1) (Fin 1) K) (fun l => ((!![t] : Matrix (Fin 1) (Fin 1) K)⁻¹ * !![b]) l 0) (((!![c] : Matrix (Fin 1) (Fin 1) K) * !![t]) 0)).eval
        (zeroFreq dt) = c * b := by
      rw [hinv]
      simp [numPoly, dotProduct, mulVec, Matrix.mul_apply, adjugate_fin_one]
      field_simp
    rw [of_apply, of_apply, e3, if_neg h0, capAbove, if_neg (not_lt.mpr (hbig h0))]
    rfl

/-- **C72** fails for every model with `B = 0`, whose gain is `D`: `IndexError`. -/
theorem C72_zero_input_violated (hS : ∀ (a b : ℕ) (M : Matrix (Fin a) (Fin b) K), SvdOk S M) (he : S.eps = 0) {N : ℕ → MinNum K} (hN : ∀ k, Decides (N k) tol)
    (hb : ∀ k, Balances (N k)) (A : Matrix (Fin n) (Fin n) K) {C : Matrix (Fin p) (Fin n) K} (D : Matrix (Fin p) (Fin m) K) (dt : Option K) (hn : 0 < n)
    (hC : C.rank < n) :
    StateM.dcgain S N tol big ⟨Arr.of A, Arr.of (0 : Matrix (Fin n) (Fin m) K), Arr.of C, Arr.of D, dt, false⟩ = .error .index := by
  rw [dcgain_dynamic]
  unfold dcFirst
  simp only [minrealMatrices_zero_input hS he (hN 0) (hb 0) A hn hC, bind, Except.bind]
  rfl

/-- **C72** fails for every model whose output matrix has full column rank if the numbers of inputs and states differ: `ValueError`. -/
theorem C72_rank_violated (hS : ∀ {a b : ℕ} (M : Matrix (Fin a) (Fin b) K), SvdExact S M) (he : 0 ≤ S.eps) {N : ℕ → MinNum K} (hb : ∀ k, Balances (N k))
    (A : Matrix (Fin n) (Fin n) K) (B : Matrix (Fin n) (Fin m) K) {C : Matrix (Fin p) (Fin n) K} (D : Matrix (Fin p) (Fin m) K) (dt : Option K) (hn : 0 < n)
    (hC : C.rank = n) (hm : m ≠ n) :
    StateM.dcgain S N tol big ⟨Arr.of A, Arr.of B, Arr.of C, Arr.of D, dt, false⟩ = .error .value := by
  rw [dcgain_dynamic]
  unfold dcFirst
  simp only [minrealMatrices_rank (S := S) (tol := tol) hS he (hb 0) A B hn hC hm, bind, Except.bind]
  rfl

omit [IsStrictOrderedRing K] in
/-- **C72**, static gains: the gain itself. -/
theorem C72_gain (S : SvdNum K) (N : ℕ → MinNum K) (tol big : K) {G : StateM K} (hg : G.isgain = true) (D : Matrix (Fin p) (Fin m) K) (hd : G.d = Arr.of D) :
    G.dcgain S N tol big = .ok (Arr.of (D.map DcVal.fin)) := by
  unfold StateM.dcgain
  rw [if_pos hg, hd]

/-- **C72** fails for this stable model (its poles are roots of `s² + 3 s + 4`) with transfer function zero: its gain is reported as infinite, since the model used
to compute it has an unobservable state at the origin. -/
theorem C72_unobservable_violated {S : SvdNum ℝ} {N : ℕ → MinNum ℝ} {tol big : ℝ} (hS : ∀ (a b : ℕ) (M : Matrix (Fin a) (Fin b) ℝ), SvdOk S M) (he : S.eps = 0)
    (hN : ∀ k, Decides (N k) tol) (hb : (N 0).bal (Arr.of !![-3, 2; -2, 0]) = (Arr.of !![-3, 2; -2, 0], Arr.of (1 : Matrix (Fin 2) (Fin 2) ℝ))) :
    StateM.dcgain S N tol big ⟨Arr.of !![-3, 2; -2, 0], Arr.of !![0; 1], Arr.of (0 : Matrix (Fin 1) (Fin 2) ℝ), Arr.of (0 : Matrix (Fin 1) (Fin 1) ℝ), none, false⟩
      = .ok (Arr.of (Matrix.of fun (_ _ : Fin 1) => .inf)) ∧
    IsTF !![-3, 2; -2, 0] !![0; 1] (0 : Matrix (Fin 1) (Fin 2) ℝ) (0 : Matrix (Fin 1) (Fin 1) ℝ) (zeroFreq none) 0 ∧
    ∀ s : ℂ, (s • (1 : Matrix (Fin 2) (Fin 2) ℂ) - (!![-3, 2; -2, 0] : Matrix (Fin 2) (Fin 2) ℝ).map Complex.ofReal).det = s ^ 2 + 3 * s + 4 := by
  refine ⟨?_, ⟨?_, by simp⟩, fun s => ?_⟩
  · rw [dcgain_dynamic, dcFirst_of _ none (minrealMatrices_unseen hS he (hN 0) (show (2 : ℝ) ≠ 0 by norm_num) hb), if_pos]
    · unfold dcSecond
      simp only
      rw [if_pos (by simp [StateM.isSISO])]
    · rw [← det_scalar, det_fin_one]
      simp [zeroFreq]
  · rw [det_fin_two]
    simp [zeroFreq]
  · rw [det_fin_two]
    simp
    ring

/-- The hypotheses of the theorems on routines are met. -/
theorem exists_routines (tol : ℝ) : ∃ (S : SvdNum ℝ) (N : ℕ → MinNum ℝ), (∀ {a b : ℕ} (M : Matrix (Fin a) (Fin b) ℝ), SvdExact S M) ∧ S.eps = 0 ∧
    (∀ k, Decides (N k) tol) ∧ (∀ k, Balances (N k)) ∧
    ∀ k {n : ℕ} (A : Matrix (Fin n) (Fin n) ℝ), (N k).bal (Arr.of A) = (Arr.of A, Arr.of (1 : Matrix (Fin n) (Fin n) ℝ)) := by
  obtain ⟨S, he, hS⟩ := exists_svdNum
  obtain ⟨N, h1, h2, h3⟩ := exists_minNum tol
  exact ⟨S, fun _ => N, fun M => hS M, he, fun _ => h1, fun _ => h2, fun _ => h3⟩

/-- `1 / (s² + 3 s + 4)`: the gain is `1/4`. -/
example : ∃ (S : SvdNum ℝ) (N : ℕ → MinNum ℝ), StateM.dcgain S N 0 100
    ⟨Arr.of !![0, 1; -4, -3], Arr.of !![0; 1], Arr.of !![1, 0], Arr.of (0 : Matrix (Fin 1) (Fin 1) ℝ), none, false⟩ = .ok (Arr.of (!![DcVal.fin (1 / 4)])) := by
  obtain ⟨S, N, hS, he, hN, hb, -⟩ := exists_routines 0
  refine ⟨S, N, (C72_regular_partial (M := !![1 / 4]) (fun a b M => let ⟨U, s, V, h1, h2, _⟩ := hS M; ⟨U, s, V, h1, h2⟩) he hN hb none two_pos (fun h => ?_) ?_ ?_ ?_ ?_).trans ?_⟩
  · have := congrFun (congrFun h 1) 0
    simp at this
  · exact lt_of_le_of_lt (rank_le_height _) (by simp)
  · intro x hx
    have h0 := congrFun (hx 0) 0
    have h1 := congrFun (hx 1) 0
    ext i
    fin_cases i
    · simpa [mulVec, dotProduct, Fin.sum_univ_two] using h0
    · simpa [mulVec, dotProduct, Fin.sum_univ_two] using h1
  · have hd : (zeroFreq (none : Option ℝ) • (1 : Matrix (Fin 2) (Fin 2) ℝ) - !![0, 1; -4, -3]).det = 4 := by
      rw [det_fin_two]
      simp [zeroFreq]
    refine ⟨by rw [hd]; norm_num, ?_⟩
    rw [Matrix.inv_def, hd, adjugate_fin_two]
    ext i j
    rw [Subsingleton.elim i 0, Subsingleton.elim j 0]
    simp [zeroFreq, Matrix.mul_apply, Fin.sum_univ_two, Ring.inverse_eq_inv']
  · intro i j
    rw [Subsingleton.elim i 0, Subsingleton.elim j 0]
    norm_num
  · refine congrArg Except.ok (Arr.of_inj.mpr ?_)
    ext i j
    rw [Subsingleton.elim i 0, Subsingleton.elim j 0]
    rfl

/-- The hypotheses of `C72_partial` are met by the double integrator; its gain is infinite. -/
example : ∃ (S : SvdNum ℝ) (N : ℕ → MinNum ℝ), ∃ R : Matrix (Fin 1) (Fin 1) (DcVal ℝ), StateM.dcgain S N 0 100
    ⟨Arr.of !![0, 1; 0, 0], Arr.of !![0; 1], Arr.of !![1, 0], Arr.of (0 : Matrix (Fin 1) (Fin 1) ℝ), none, false⟩ = .ok (Arr.of R) ∧ R 0 0 = .inf := by
  obtain ⟨S, N, hS, he, hN, hb, -⟩ := exists_routines 0
  have hnum : numPoly (!![0, 1; 0, 0] : Matrix (Fin 2) (Fin 2) ℝ) (fun l => (!![0; 1] : Matrix (Fin 2) (Fin 1) ℝ) l 0) ((!![1, 0] : Matrix (Fin 1) (Fin 2) ℝ) 0) = 1 := by
    simp [numPoly, dotProduct, mulVec, adjugate_fin_two, charmatrix_apply, Fin.sum_univ_two]
  have hchar : (!![0, 1; 0, 0] : Matrix (Fin 2) (Fin 2) ℝ).charpoly = X ^ 2 := by
    rw [Matrix.charpoly, det_fin_two]
    simp [charmatrix_apply]
    ring
  have hinf : LowFreqGain (zeroFreq (none : Option ℝ)) 1 (X ^ 2) DcVal.inf :=
    ⟨0, 1, X ^ 2, by simp, by simp, Or.inl (by simp), Or.inr ⟨by simp [zeroFreq], rfl⟩⟩
  obtain ⟨R, h1, h2⟩ := C72_partial (S := S) (tol := 0) (big := 100) (fun a b M => let ⟨U, s, V, h1, h2, _⟩ := hS M; ⟨U, s, V, h1, h2⟩) he hN hb
    (!![0, 1; 0, 0] : Matrix (Fin 2) (Fin 2) ℝ) (B := !![0; 1]) (C := !![1, 0]) (0 : Matrix (Fin 1) (Fin 1) ℝ) none two_pos (fun h => by
      have := congrFun (congrFun h 1) 0
      simp at this) (lt_of_le_of_lt (rank_le_height _) (by simp)) (Or.inl ⟨rfl, rfl⟩) (fun i x hx => by
      have h0 := congrFun (hx 0) 0
      have h1 := congrFun (hx 1) 0
      rw [Subsingleton.elim i 0] at h0 h1
      ext l
      fin_cases l
      · simpa [mulVec, dotProduct, Fin.sum_univ_two] using h0
      · simpa [mulVec, dotProduct, Fin.sum_univ_two] using h1) (fun i j x hx => by
      rw [Subsingleton.elim i 0, Subsingleton.elim j 0, hnum, hchar] at hx
      simpa using lowFreq_unique hx hinf)
  refine ⟨S, N, R, h1, ?_⟩
  have h3 := h2 0 0
  rw [entryNum, hnum, hchar, Matrix.zero_apply, map_zero, zero_mul, add_zero] at h3
  exact lowFreq_unique h3 hinf

end Harold
