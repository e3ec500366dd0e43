import Verif.Spec.Separation
import Verif.Props.SmallGain
import Verif.Props.PoleOps
import Verif.Props.Ackermann
import Verif.Props.LqrLoop
import Verif.Lemmas.Hautus
import Verif.Lemmas.Truncate

/-!
# C119: the separation principle

The loop that `feedback` closes between a model and an observer-based controller has the poles of the state feedback design together with
the poles of the observer design.
-/

namespace Harold

open Matrix Spec

variable {n m p : ℕ} {A : Matrix (Fin n) (Fin n) ℝ} {B : Matrix (Fin n) (Fin m) ℝ} {C : Matrix (Fin p) (Fin n) ℝ} {D : Matrix (Fin p) (Fin m) ℝ}
  {F : Matrix (Fin m) (Fin n) ℝ} {L : Matrix (Fin n) (Fin p) ℝ} {dt : Option ℝ}

theorem det_separation {k : ℕ} {P V U W : Matrix (Fin k) (Fin k) ℂ} (h : W = P + V + U) : (blk P V (-U) W).det = (P + V).det * (P + U).det := by
  have h1 : blk 1 0 (-1) 1 * blk P V (-U) W * blk 1 0 1 1 = blk (P + V) V 0 (P + U) := by
    rw [blk_mul, blk_mul, h]
    congr 1
    · simp
    · simp
    · simp only [Matrix.neg_mul, Matrix.one_mul, Matrix.mul_one]
      abel
    · simp only [Matrix.neg_mul, Matrix.one_mul, Matrix.mul_zero, Matrix.mul_one]
      abel
  have h2 := congrArg det h1
  rwa [det_mul, det_mul, det_blk_lower, det_blk_lower, det_blk_upper, det_one, one_mul, one_mul, mul_one] at h2

theorem neg_blk {a b c d : ℕ} (X : Matrix (Fin a) (Fin c) ℝ) (Y : Matrix (Fin a) (Fin d) ℝ) (Z : Matrix (Fin b) (Fin c) ℝ) (W : Matrix (Fin b) (Fin d) ℝ) :
    -blk X Y Z W = blk (-X) (-Y) (-Z) (-W) := by
  rw [blk, blk, ← fromBlocks_neg]
  rfl

/-- The loop `feedback` returns. -/
theorem separation_loop (A : Matrix (Fin n) (Fin n) ℝ) (B : Matrix (Fin n) (Fin m) ℝ) (C : Matrix (Fin p) (Fin n) ℝ) (D : Matrix (Fin p) (Fin m) ℝ)
    (F : Matrix (Fin m) (Fin n) ℝ) (L : Matrix (Fin n) (Fin p) ℝ) (hdt : DtOk dt) (hm : (m * spacing10 : ℝ) < 1) :
    ∃ R, feedback (.state ⟨Arr.of A, Arr.of B, Arr.of C, Arr.of D, dt, false⟩) (.state (observerController A B C D F L dt)) true = .ok R ∧ Consistent R p m ∧ R.dt = dt ∧
      ∀ s : ℂ, CharAt R s ((s • (1 : Matrix (Fin n) (Fin n) ℂ) - (A - B * F).map (algebraMap ℝ ℂ)).det * (s • (1 : Matrix (Fin n) (Fin n) ℂ) - (A - L * C).map (algebraMap ℝ ℂ)).det) := by
  have hG : Consistent (⟨Arr.of A, Arr.of B, Arr.of C, Arr.of D, dt, false⟩ : StateM ℝ) p m := ⟨⟨rfl, rfl⟩, fun _ => ⟨rfl, rfl, rfl, rfl, rfl⟩⟩
  have hH : Consistent (observerController A B C D F L dt) m p := ⟨⟨rfl, rfl⟩, fun _ => ⟨rfl, rfl, rfl, rfl, rfl⟩⟩
  obtain ⟨R, hR⟩ := feedback_exists hG hH hdt rfl rfl (D := D) (E := 0) rfl rfl (Matrix.zero_mul _) hm true
  obtain ⟨h1, h2, h3⟩ := feedback_result hG hH hdt hR
  refine ⟨R, hR, h1, h2, fun s => ?_⟩
  obtain ⟨h4, h5⟩ := h3 D 0 rfl rfl
  unfold observerController at h5
  rw [closeBody_dd hdt _ _ _ _ _ _ _ _ _ _ h4] at h5
  have h6 := (Except.ok.inj h5).symm
  refine Or.inr ⟨by rw [h6], n + n, _, by rw [h6], ?_⟩
  have e : blk A 0 (L * C) (A - B * F - L * (C - D * F)) + (fbSign true : ℝ) • vcat B (L * D) * ((1 - (0 : Matrix (Fin m) (Fin p) ℝ) * D)⁻¹ * hcat ((0 : Matrix (Fin m) (Fin p) ℝ) * C) F) =
      blk A (-(B * F)) (L * C) (A - B * F - L * C) := by
    rw [Matrix.zero_mul, Matrix.zero_mul, sub_zero, inv_one, Matrix.one_mul, Matrix.smul_mul, vcat_mul_hcat, Matrix.mul_zero, Matrix.mul_zero, show (fbSign true : ℝ) = -1 from rfl, neg_one_smul, neg_blk, blk_add]
    congr 1
    · simp
    · simp
    · simp
    · rw [Matrix.mul_sub, ← Matrix.mul_assoc]
      abel
  rw [e, blk_map, smul_one_sub_blk]
  rw [show -((-(B * F)).map (algebraMap ℝ ℂ)) = (B * F).map (algebraMap ℝ ℂ) by ext; simp, det_separation (V := (B * F).map (algebraMap ℝ ℂ)) (U := (L * C).map (algebraMap ℝ ℂ))]
  · rw [map_sub', map_sub', sub_sub_eq_add_sub, sub_sub_eq_add_sub, sub_add_eq_add_sub, sub_add_eq_add_sub]
  · rw [map_sub', map_sub']
    abel

theorem eig_prod {N : Numerics ℝ ℂ} (hN : EigExact N) (M : Matrix (Fin n) (Fin n) ℝ) (s : ℂ) :
    (s • (1 : Matrix (Fin n) (Fin n) ℂ) - M.map (algebraMap ℝ ℂ)).det = ((N.eig (Arr.of M)).map fun z => s - z).prod := by
  rw [← map_charpoly_eval, hN M, Polynomial.eval_list_prod, List.map_map]
  congr 1
  refine List.map_congr_left fun z _ => ?_
  simp

/-- **C119**: closing the loop succeeds, the sampling period is kept, and the poles reported for it are the eigenvalues of `A - B F` together with those of `A - L C`, with multiplicities. -/
theorem C119_poles {N : Numerics ℝ ℂ} (hN : EigExact N) (A : Matrix (Fin n) (Fin n) ℝ) (B : Matrix (Fin n) (Fin m) ℝ) (C : Matrix (Fin p) (Fin n) ℝ) (D : Matrix (Fin p) (Fin m) ℝ)
    (F : Matrix (Fin m) (Fin n) ℝ) (L : Matrix (Fin n) (Fin p) ℝ) (hdt : DtOk dt) (hm : (m * spacing10 : ℝ) < 1) :
    ∃ R, feedback (.state ⟨Arr.of A, Arr.of B, Arr.of C, Arr.of D, dt, false⟩) (.state (observerController A B C D F L dt)) true = .ok R ∧ R.dt = dt ∧
      ∀ T : StateObj ℝ ℂ, T.g = R → PolesCurrent N T → T.poles.Perm (N.eig (Arr.of (A - B * F)) ++ N.eig (Arr.of (A - L * C))) := by
  obtain ⟨R, h1, h2, h3, h4⟩ := separation_loop A B C D F L hdt hm
  refine ⟨R, h1, h3, fun T hT hP => perm_of_prod fun s => ?_⟩
  subst hT
  rw [CharAt_unique (char_poles hN hP h2 s) (h4 s), List.map_append, List.prod_append, eig_prod hN, eig_prod hN]

/-- **C119**, stability: the motions of the loop die out exactly if those of both designs do. -/
theorem C119_stable (A : Matrix (Fin n) (Fin n) ℝ) (B : Matrix (Fin n) (Fin m) ℝ) (C : Matrix (Fin p) (Fin n) ℝ) (D : Matrix (Fin p) (Fin m) ℝ)
    (F : Matrix (Fin m) (Fin n) ℝ) (L : Matrix (Fin n) (Fin p) ℝ) (hdt : DtOk dt) (hm : (m * spacing10 : ℝ) < 1) :
    ∃ R, feedback (.state ⟨Arr.of A, Arr.of B, Arr.of C, Arr.of D, dt, false⟩) (.state (observerController A B C D F L dt)) true = .ok R ∧
      (StableModel R ↔ MotionsVanish dt (A - B * F) ∧ MotionsVanish dt (A - L * C)) := by
  obtain ⟨R, h1, h2, h3, h4⟩ := separation_loop A B C D F L hdt hm
  refine ⟨R, h1, ?_⟩
  rw [stable_iff_char h2, motions_iff, motions_iff, ← forall_and]
  refine forall_congr' fun z => ?_
  have : CharAt R z 0 ↔ IsEig (A - B * F) z ∨ IsEig (A - L * C) z := by
    unfold IsEig
    rw [← mul_eq_zero]
    exact ⟨fun h => CharAt_unique (h4 z) h, fun h => h ▸ h4 z⟩
  rw [this, or_imp, h3]

/-- **C119** with `ackermann`: gains placed at real locations `l₁` for the state feedback and (through the transposed model) at `l₂` for the observer give a loop whose poles are exactly the
given locations. -/
theorem C119_placed {N : Numerics ℝ ℂ} (hN : EigExact N) {S : SvdNum ℝ} (he : 0 ≤ S.eps) (hS : ∀ (k l : ℕ) (M : Matrix (Fin k) (Fin l) ℝ), SvdExact S M) (hn : 0 < n)
    {b : Matrix (Fin n) (Fin 1) ℝ} {c : Matrix (Fin 1) (Fin n) ℝ} (hr : Reachable A b) (ho : Observable A c) (d : Matrix (Fin 1) (Fin 1) ℝ) {l₁ l₂ : List ℝ} (h₁ : l₁.length = n)
    (h₂ : l₂.length = n) (hdt : DtOk dt) :
    ∃ (F : Matrix (Fin 1) (Fin n) ℝ) (Lt : Matrix (Fin 1) (Fin n) ℝ), ackermann S (Arr.of A) (Arr.of b) (.real l₁) = .ok (Arr.of F) ∧
      ackermann S (Arr.of Aᵀ) (Arr.of cᵀ) (.real l₂) = .ok (Arr.of Lt) ∧
      ∃ R, feedback (.state ⟨Arr.of A, Arr.of b, Arr.of c, Arr.of d, dt, false⟩) (.state (observerController A b c d F Ltᵀ dt)) true = .ok R ∧
        ∀ T : StateObj ℝ ℂ, T.g = R → PolesCurrent N T → T.poles.Perm ((l₁ ++ l₂).map fun r : ℝ => (r : ℂ)) := by
  obtain ⟨F, e1, e2⟩ := C56_places_partial he (hS _ _ (ctrbM A b (n - 1))) hn hr h₁
  obtain ⟨Lt, e3, e4⟩ := C56_places_partial he (hS _ _ (ctrbM Aᵀ cᵀ (n - 1))) hn ((observable_iff_dual A c).mp ho) h₂
  refine ⟨F, Lt, e1, e3, ?_⟩
  obtain ⟨R, h1, h2, h3, h4⟩ := separation_loop A b c d F Ltᵀ hdt (by norm_num [spacing10])
  refine ⟨R, h1, fun T hT hP => perm_of_prod fun s => ?_⟩
  subst hT
  have key : ∀ (M : Matrix (Fin n) (Fin n) ℝ) (l : List ℝ), M.charpoly = (l.map fun r => Polynomial.X - Polynomial.C r).prod →
      (s • (1 : Matrix (Fin n) (Fin n) ℂ) - M.map (algebraMap ℝ ℂ)).det = ((l.map fun r : ℝ => (r : ℂ)).map fun z => s - z).prod := by
    intro M l h
    rw [← map_charpoly_eval, h, Polynomial.map_list_prod, Polynomial.eval_list_prod, List.map_map, List.map_map, List.map_map]
    congr 1
    refine List.map_congr_left fun z _ => ?_
    simp
  rw [CharAt_unique (char_poles hN hP h2 s) (h4 s), List.map_append, List.map_append, List.prod_append, key _ _ e2, key _ l₂]
  rw [← charpoly_transpose, transpose_sub, transpose_mul, transpose_transpose]
  exact e4

/-- **C119** with `lqr`, continuous time: a regulator and an observer, each from a call of `lqr` (the second for the transposed model) whose returned `X` is nonnegative, with weights that see every motion that does
not decay, give a loop all of whose motions die out. -/
theorem C119_lqg_continuous (N : AreNum ℝ) (A : Matrix (Fin n) (Fin n) ℝ) (B : Matrix (Fin n) (Fin m) ℝ) (C : Matrix (Fin p) (Fin n) ℝ) (D : Matrix (Fin p) (Fin m) ℝ)
    {Q Q' : Matrix (Fin n) (Fin n) ℝ} {R : Option (Matrix (Fin m) (Fin m) ℝ)} {R' : Option (Matrix (Fin p) (Fin p) ℝ)} {S : Option (Matrix (Fin n) (Fin m) ℝ)} {S' : Option (Matrix (Fin n) (Fin p) ℝ)}
    {w w' : List Char} (hw : w ≠ "output".toList) (hw' : w' ≠ "output".toList) (hN : CareOk N A B Q (R.getD 1) S) (hN' : CareOk N Aᵀ Cᵀ Q' (R'.getD 1) S') {k k' acl acl' : Arr ℝ} {X X' : Matrix (Fin n) (Fin n) ℝ}
    (h : lqr N (stateOf A B C D none) (Arr.of Q) (R.map Arr.of) (S.map Arr.of) w = .ok (k, Arr.of X, acl))
    (h' : lqr N (stateOf Aᵀ Cᵀ Bᵀ Dᵀ none) (Arr.of Q') (R'.map Arr.of) (S'.map Arr.of) w' = .ok (k', Arr.of X', acl'))
    (hX : ∀ v, 0 ≤ v ⬝ᵥ X *ᵥ v) (hX' : ∀ v, 0 ≤ v ⬝ᵥ X' *ᵥ v)
    (hc : CostNonneg Q (S.getD 0) (R.getD 1)) (hs : CostSees (fun z => 0 ≤ z.re) A B Q (S.getD 0) (R.getD 1))
    (hc' : CostNonneg Q' (S'.getD 0) (R'.getD 1)) (hs' : CostSees (fun z => 0 ≤ z.re) Aᵀ Cᵀ Q' (S'.getD 0) (R'.getD 1)) (hm : (m * spacing10 : ℝ) < 1) :
    ∃ (F : Matrix (Fin m) (Fin n) ℝ) (Lt : Matrix (Fin p) (Fin n) ℝ), k = Arr.of F ∧ k' = Arr.of Lt ∧
      ∃ T, feedback (.state (stateOf A B C D none)) (.state (observerController A B C D F Ltᵀ none)) true = .ok T ∧ StableModel T := by
  obtain ⟨F, X₁, e1, e2, -, e3⟩ := C85_stable_continuous N A B C D Q R S w hw hN h hc hs
  obtain ⟨Lt, X₂, e4, e5, -, e6⟩ := C85_stable_continuous N Aᵀ Cᵀ Bᵀ Dᵀ Q' R' S' w' hw' hN' h' hc' hs'
  obtain rfl := Arr.of_inj.mp e2
  obtain rfl := Arr.of_inj.mp e5
  obtain ⟨T, h1, h2⟩ := C119_stable A B C D F Ltᵀ dtOk_none hm
  refine ⟨F, Lt, e1, e4, T, h1, h2.mpr ⟨hurwitz_iff_motions.mp (e3.mp hX), hurwitz_iff_motions.mp fun z hz => e6.mp hX' z (isEig_transpose.mp ?_)⟩⟩
  rwa [transpose_sub, transpose_mul, transpose_transpose, transpose_transpose]

/-- **C119** with `lqr`, discrete time. -/
theorem C119_lqg_discrete (N : AreNum ℝ) (A : Matrix (Fin n) (Fin n) ℝ) (B : Matrix (Fin n) (Fin m) ℝ) (C : Matrix (Fin p) (Fin n) ℝ) (D : Matrix (Fin p) (Fin m) ℝ) {dt : ℝ} (hdt : 0 < dt)
    {Q Q' : Matrix (Fin n) (Fin n) ℝ} {R : Option (Matrix (Fin m) (Fin m) ℝ)} {R' : Option (Matrix (Fin p) (Fin p) ℝ)} {S : Option (Matrix (Fin n) (Fin m) ℝ)} {S' : Option (Matrix (Fin n) (Fin p) ℝ)}
    {w w' : List Char} (hw : w ≠ "output".toList) (hw' : w' ≠ "output".toList) (hN : DareOk N A B Q (R.getD 1) S) (hN' : DareOk N Aᵀ Cᵀ Q' (R'.getD 1) S') {k k' acl acl' : Arr ℝ} {X X' : Matrix (Fin n) (Fin n) ℝ}
    (h : lqr N (stateOf A B C D (some dt)) (Arr.of Q) (R.map Arr.of) (S.map Arr.of) w = .ok (k, Arr.of X, acl))
    (h' : lqr N (stateOf Aᵀ Cᵀ Bᵀ Dᵀ (some dt)) (Arr.of Q') (R'.map Arr.of) (S'.map Arr.of) w' = .ok (k', Arr.of X', acl'))
    (hX : ∀ v, 0 ≤ v ⬝ᵥ X *ᵥ v) (hX' : ∀ v, 0 ≤ v ⬝ᵥ X' *ᵥ v)
    (hc : CostNonneg Q (S.getD 0) (R.getD 1)) (hs : CostSees (fun z => 1 ≤ ‖z‖) A B Q (S.getD 0) (R.getD 1))
    (hc' : CostNonneg Q' (S'.getD 0) (R'.getD 1)) (hs' : CostSees (fun z => 1 ≤ ‖z‖) Aᵀ Cᵀ Q' (S'.getD 0) (R'.getD 1)) (hm : (m * spacing10 : ℝ) < 1) :
    ∃ (F : Matrix (Fin m) (Fin n) ℝ) (Lt : Matrix (Fin p) (Fin n) ℝ), k = Arr.of F ∧ k' = Arr.of Lt ∧
      ∃ T, feedback (.state (stateOf A B C D (some dt))) (.state (observerController A B C D F Ltᵀ (some dt))) true = .ok T ∧ StableModel T := by
  obtain ⟨F, X₁, e1, e2, -, e3⟩ := C85_stable_discrete N A B C D dt Q R S w hw hN h hc hs
  obtain ⟨Lt, X₂, e4, e5, -, e6⟩ := C85_stable_discrete N Aᵀ Cᵀ Bᵀ Dᵀ dt Q' R' S' w' hw' hN' h' hc' hs'
  obtain rfl := Arr.of_inj.mp e2
  obtain rfl := Arr.of_inj.mp e5
  obtain ⟨T, h1, h2⟩ := C119_stable A B C D F Ltᵀ (dt := some dt) (fun t ht => by obtain rfl := Option.some.inj ht; exact hdt) hm
  refine ⟨F, Lt, e1, e4, T, h1, h2.mpr ⟨schur_iff_motions.mp (e3.mp hX), schur_iff_motions.mp fun z hz => e6.mp hX' z (isEig_transpose.mp ?_)⟩⟩
  rwa [transpose_sub, transpose_mul, transpose_transpose, transpose_transpose]

/-- The double integrator with its position measured: state feedback placed at `-1, -2`, observer at `-3, -4`. -/
example : ∃ (N : Numerics ℝ ℂ) (F Lt : Matrix (Fin 1) (Fin 2) ℝ) (R : StateM ℝ),
    feedback (.state ⟨Arr.of dblA, Arr.of dblB, Arr.of !![(1 : ℝ), 0], Arr.of !![(5 : ℝ)], none, false⟩) (.state (observerController dblA dblB !![1, 0] !![5] F Ltᵀ none)) true = .ok R ∧
      ∀ T : StateObj ℝ ℂ, T.g = R → PolesCurrent N T → T.poles.Perm [-1, -2, -3, -4] := by
  obtain ⟨N, hN, -⟩ := exists_exact_numerics
  obtain ⟨S, he, hS⟩ := exists_svdNum
  have ho : Observable dblA (!![1, 0] : Matrix (Fin 1) (Fin 2) ℝ) := fun x hx => by
    have h0 := congrFun (hx 0) 0
    have h1 := congrFun (hx 1) 0
    simp [dblA, mulVec, dotProduct, Fin.sum_univ_two, Matrix.vecHead, Matrix.vecTail] at h0 h1
    funext i
    fin_cases i
    · exact h0
    · exact h1
  obtain ⟨F, Lt, -, -, R, h1, h2⟩ := C119_placed hN he.ge (fun k l M => hS M) (by norm_num) reachable_dbl ho !![5] (l₁ := [-1, -2]) (l₂ := [-3, -4]) rfl rfl dtOk_none
  refine ⟨N, F, Lt, R, h1, fun T hT hP => ?_⟩
  simpa using h2 T hT hP

theorem one_transpose (a : ℝ) : (!![a] : Matrix (Fin 1) (Fin 1) ℝ)ᵀ = !![a] := by
  ext i j; fin_cases i; fin_cases j; rfl

/-- `lqr` for the model and its transpose: the unstable `1 / (s - 1)`. -/
example : ∃ (F Lt : Matrix (Fin 1) (Fin 1) ℝ) (T : StateM ℝ), feedback (.state (stateOf !![1] !![1] !![1] !![0] none)) (.state (observerController !![1] !![1] !![1] !![0] F Ltᵀ none)) true = .ok T ∧
    StableModel T := by
  have hl : ∃ k acl, lqr exAre (stateOf (!![1] : Matrix (Fin 1) (Fin 1) ℝ) (!![1] : Matrix (Fin 1) (Fin 1) ℝ) (!![1] : Matrix (Fin 1) (Fin 1) ℝ) !![0] none) (Arr.of !![3])
      (Option.map Arr.of (none : Option (Matrix (Fin 1) (Fin 1) ℝ))) (Option.map Arr.of (none : Option (Matrix (Fin 1) (Fin 1) ℝ))) "state".toList = .ok (k, Arr.of !![3], acl) := by
    have h1 : ∀ C : Matrix (Fin 1) (Fin 1) ℝ, lqr exAre (stateOf (!![1] : Matrix (Fin 1) (Fin 1) ℝ) (!![1] : Matrix (Fin 1) (Fin 1) ℝ) C !![0] none) (Arr.of !![3]) none none "state".toList =
        lqrSolve exAre (stateOf (!![1] : Matrix (Fin 1) (Fin 1) ℝ) (!![1] : Matrix (Fin 1) (Fin 1) ℝ) (!![4] : Matrix (Fin 1) (Fin 1) ℝ) !![0] none) (Arr.of !![3]) (Arr.eye 1) none := fun C => by
      unfold lqr
      rw [if_neg (by simp [stateOf]), if_neg (by decide), if_neg (by decide)]
      rfl
    obtain ⟨k, acl, h⟩ := exAre_lqr_cont (R := none) (S := none) (w := "state".toList) (by decide) (by decide) (by simp)
    exact ⟨k, acl, (h1 _).trans ((h1 _).symm.trans h)⟩
  obtain ⟨k, acl, h⟩ := hl
  have hX : ∀ v : Fin 1 → ℝ, 0 ≤ v ⬝ᵥ (!![3] : Matrix (Fin 1) (Fin 1) ℝ) *ᵥ v := fun v => by
    simp [mulVec, dotProduct]
    nlinarith [mul_self_nonneg (v 0)]
  have hs := costSees_of_pos (keep := fun z : ℂ => 0 ≤ z.re) (!![1] : Matrix (Fin 1) (Fin 1) ℝ) (!![1] : Matrix (Fin 1) (Fin 1) ℝ) exCost_nonneg exCost_pos
  obtain ⟨F, Lt, -, -, T, h1, h2⟩ := C119_lqg_continuous exAre !![1] !![1] !![1] !![0] (R := none) (S := none) (R' := none) (S' := none) (w := "state".toList) (w' := "state".toList) (by decide) (by decide) exAre_care3
    (by rw [one_transpose]; exact exAre_care3) h (by rw [one_transpose, one_transpose]; exact h) hX hX exCost_nonneg hs exCost_nonneg (by rw [one_transpose]; exact hs) (by norm_num [spacing10])
  exact ⟨F, Lt, T, h1, h2⟩

end Harold
