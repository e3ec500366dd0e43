import Verif.Props.BlockLaws
import Verif.Props.PoleOps
import Verif.Props.Integral

/-!
# C128: internal model control, all stabilizing controllers of a stable plant
-/

namespace Harold

open Matrix Filter Topology Harold.Spec

variable {p m : ℕ} {G Q C R : StateM ℝ}

/-- The characteristic polynomial of a model. -/
theorem char_polynomial (hc : Consistent G p m) : ∃ P : Polynomial ℂ, P ≠ 0 ∧ ∀ s, CharAt G s (P.eval s) := by
  obtain ⟨a, b, c, D, dt, rfl⟩ | ⟨n, A, B, C, D, dt, rfl⟩ := consistent_cases hc
  · exact ⟨1, one_ne_zero, fun s => Or.inl ⟨rfl, by simp⟩⟩
  · refine ⟨A.charpoly.map (algebraMap ℝ ℂ), ((charpoly_monic A).map _).ne_zero, fun s => Or.inr ⟨rfl, n, A, rfl, map_charpoly_eval A s⟩⟩

theorem feedback_value {n : Bool} {H : StateM ℝ} (hG : Consistent G p m) (hH : Consistent H m p) (hdt : DtOk G.dt) (hdt' : DtOk H.dt) {D : Matrix (Fin p) (Fin m) ℝ} {E : Matrix (Fin m) (Fin p) ℝ}
    (hGd : G.d = Arr.of D) (hHd : H.d = Arr.of E) (h0 : E * D = 0) (h : feedback (.state G) (.state H) n = .ok R) {s : ℂ} {Gs : Matrix (Fin p) (Fin m) ℂ} {Hs : Matrix (Fin m) (Fin p) ℂ}
    (hGs : HasTF G p m s Gs) (hHs : HasTF H m p s Hs) (hd : (1 - (if n then -1 else 1 : ℂ) • (Hs * Gs)).det ≠ 0) : HasTF R p m s (Gs * (1 - (if n then -1 else 1 : ℂ) • (Hs * Gs))⁻¹) := by
  let e : SExpr ℝ p m := .loop n (.model G) (.model H)
  have h1 : AllModels (fun _ _ G => DtOk G.dt) e := ⟨hdt, hdt'⟩
  have h2 : NoDirectLoop 0 e := by
    refine ⟨trivial, trivial, fun _ G' H' D' E' hG' hH' hD' hE' => ?_⟩
    cases hG'
    cases hH'
    rw [← Arr.of_inj.mp (hGd.symm.trans hD'), ← Arr.of_inj.mp (hHd.symm.trans hE'), h0]
  have h3 : Value s e (Gs * (1 - (if n then -1 else 1 : ℂ) • (Hs * Gs))⁻¹) := ⟨Gs, Hs, hGs, hHs, hd, rfl⟩
  exact C88_value_partial 0 e h1 h2 h3 h

/-- Without feedthrough of the plant `G`, both loops of internal model control have the expected characteristic polynomial. -/
theorem imc_char (hG : Consistent G p m) (hQ : Consistent Q m p) (hdt : DtOk G.dt) (hd : Q.dt = G.dt) (h0 : G.d = Arr.of (0 : Matrix (Fin p) (Fin m) ℝ))
    (hC : feedback (.state Q) (.state G) false = .ok C) (hR : feedback (.state G) (.state C) true = .ok R) {s g q : ℂ} (hg : CharAt G s g) (hq : CharAt Q s q) : CharAt R s (g * g * q) := by
  obtain ⟨E, hE⟩ := Arr.exists_of hQ.1.1 hQ.1.2
  obtain ⟨cC, dC, -⟩ := feedback_result hQ hG (hd ▸ hdt) hC
  obtain ⟨F, hF⟩ := Arr.exists_of cC.1.1 cC.1.2
  obtain ⟨cR, -, -⟩ := feedback_result hG cC hdt hR
  obtain ⟨Pg, ng, cg⟩ := char_polynomial hG
  obtain ⟨Pq, nq, cq⟩ := char_polynomial hQ
  obtain ⟨Pc, nc, cc⟩ := char_polynomial cC
  obtain ⟨Pr, nr, cr⟩ := char_polynomial cR
  have key : Pg * Pq * Pc * (Pr - Pg * Pg * Pq) = 0 := by
    refine Polynomial.funext fun s => ?_
    simp only [Polynomial.eval_mul, Polynomial.eval_sub, Polynomial.eval_zero]
    by_cases h1 : Pg.eval s = 0
    · simp [h1]
    by_cases h2 : Pq.eval s = 0
    · simp [h2]
    by_cases h3 : Pc.eval s = 0
    · simp [h3]
    obtain ⟨Gs, hGs⟩ := (hasTF_iff_char hG (cg s)).mpr h1
    obtain ⟨Qs, hQs⟩ := (hasTF_iff_char hQ (cq s)).mpr h2
    obtain ⟨-, -, -, e1⟩ := C99_characteristic_partial (hd ▸ hdt) hC E 0 hE h0 (Or.inl rfl) hQs hGs (cq s) (cg s) (cc s)
    simp only [Matrix.zero_mul, sub_zero, det_one, map_one, mul_one, Bool.false_eq_true, if_false, one_smul] at e1
    have h4 : (1 - Gs * Qs).det ≠ 0 := by
      intro h5
      rw [h5, mul_zero] at e1
      exact h3 e1
    have hCs := feedback_value hQ hG (hd ▸ hdt) hdt hE h0 (Matrix.zero_mul _) hC hQs hGs (by simpa using h4)
    simp only [Bool.false_eq_true, if_false, one_smul] at hCs
    obtain ⟨-, -, -, e2⟩ := C99_characteristic_partial hdt hR 0 F h0 hF (Or.inr (Matrix.mul_zero _)) hGs hCs (cg s) (cc s) (cr s)
    simp only [Matrix.mul_zero, sub_zero, det_one, map_one, mul_one, if_true, neg_smul, one_smul, sub_neg_eq_add] at e2
    have hu : IsUnit (1 - Gs * Qs).det := isUnit_iff_ne_zero.mpr h4
    have e3 : (1 + Qs * (1 - Gs * Qs)⁻¹ * Gs).det * (1 - Gs * Qs).det = 1 := by
      rw [Matrix.det_one_add_mul_comm, ← Matrix.det_mul, Matrix.add_mul, Matrix.one_mul, Matrix.mul_assoc, Matrix.mul_assoc, Matrix.nonsing_inv_mul _ hu, Matrix.mul_one]
      simp
    have e4 : Pr.eval s - Pg.eval s * Pg.eval s * Pq.eval s = 0 := by
      rw [e2, e1]
      linear_combination Pg.eval s * Pq.eval s * Pg.eval s * e3
    rw [e4, mul_zero]
  have e5 : Pr = Pg * Pg * Pq := by
    have := (mul_eq_zero.mp key).resolve_left (mul_ne_zero (mul_ne_zero ng nq) nc)
    exact sub_eq_zero.mp this
  have := cr s
  rw [e5, Polynomial.eval_mul, Polynomial.eval_mul, CharAt_unique (cg s) hg, CharAt_unique (cq s) hq] at this
  exact this

/-! ## C128 -/

/-- **C128**, poles: for a plant `G` without feedthrough and any `Q`, the loop of `G` and the controller `feedback(Q, G, negative=False)`, which has the model of the plant inside, exists; the poles reported for it are those of `G` twice and those of `Q`. -/
theorem C128_poles {N : Numerics ℝ ℂ} (hN : EigExact N) {S T U : StateObj ℝ ℂ} (hG : Consistent S.g p m) (hQ : Consistent T.g m p) (hdt : DtOk S.g.dt) (hd : T.g.dt = S.g.dt)
    (h0 : S.g.d = Arr.of (0 : Matrix (Fin p) (Fin m) ℝ)) (hC : feedback (.state T.g) (.state S.g) false = .ok C) (hR : feedback (.state S.g) (.state C) true = .ok U.g)
    (hS : PolesCurrent N S) (hT : PolesCurrent N T) (hU : PolesCurrent N U) : U.poles.Perm (S.poles ++ S.poles ++ T.poles) := by
  obtain ⟨cC, -, -⟩ := feedback_result hQ hG (hd ▸ hdt) hC
  obtain ⟨cR, -, -⟩ := feedback_result hG cC hdt hR
  refine perm_of_prod fun s => ?_
  rw [CharAt_unique (char_poles hN hU cR s) (imc_char hG hQ hdt hd h0 hC hR (char_poles hN hS hG s) (char_poles hN hT hQ s))]
  simp [mul_assoc]

/-- **C128**, the controller and the loop exist, unless plant or controller have more than 2⁴⁸ channels (the limit of `matrix_rank`), and the loop is stable exactly if `G` and `Q` are. -/
theorem C128_stable (hG : Consistent G p m) (hQ : Consistent Q m p) (hdt : DtOk G.dt) (hd : Q.dt = G.dt) (hg : G.isgain = false) (h0 : G.d = Arr.of (0 : Matrix (Fin p) (Fin m) ℝ))
    (hm : (m * spacing10 : ℝ) < 1) (hp : (p * spacing10 : ℝ) < 1) :
    ∃ C R, feedback (.state Q) (.state G) false = .ok C ∧ feedback (.state G) (.state C) true = .ok R ∧ R.dt = G.dt ∧ (StableModel R ↔ StableModel G ∧ StableModel Q) := by
  obtain ⟨E, hE⟩ := Arr.exists_of hQ.1.1 hQ.1.2
  have hC : ∃ C, feedback (.state Q) (.state G) false = .ok C := by
    have hsv : ¬ HasSVAtMost (p * spacing10 : ℝ) (1 - (0 : Matrix (Fin p) (Fin m) ℝ) * E) := by
      rw [Matrix.zero_mul, sub_zero]
      exact not_sv_one (by unfold spacing10; positivity) hp
    have e1 : feedback (.state Q) (.state G) false = closeLoop Q G false := by
      simp [feedback, checkFeedbackIc, StateM.p, StateM.m, hE, h0, hd, Bind.bind, Except.bind]
    rcases closeBody_total (P := (0 : Matrix (Fin p) (Fin m) ℝ) * E) hQ hG (hd ▸ hdt) (det_ne_zero_of_not_sv hsv) (σ := fbSign false) with ⟨R, e3, -, -⟩ | ⟨-, h1, -⟩
    · exact ⟨R, e1.trans ((closeLoop_of Q G E 0 hE h0 hsv false).trans e3)⟩
    · rw [hg] at h1; cases h1
  obtain ⟨C, hC⟩ := hC
  obtain ⟨cC, dC, -⟩ := feedback_result hQ hG (hd ▸ hdt) hC
  obtain ⟨F, hF⟩ := Arr.exists_of cC.1.1 cC.1.2
  obtain ⟨R, hR⟩ := feedback_exists hG cC hdt (dC.trans hd).symm hg h0 hF (Matrix.mul_zero _) hm true
  obtain ⟨cR, dR, -⟩ := feedback_result hG cC hdt hR
  refine ⟨C, R, hC, hR, dR, ?_⟩
  have key : ∀ s g q : ℂ, CharAt G s g → CharAt Q s q → CharAt R s (g * g * q) := fun s g q hg' hq => imc_char hG hQ hdt hd h0 hC hR hg' hq
  rw [stable_iff_char cR, stable_iff_char hG, stable_iff_char hQ, dR, hd]
  constructor
  · intro h
    refine ⟨fun z hz => ?_, fun z hz => ?_⟩
    · obtain ⟨q, hq⟩ := exists_char hQ z
      have := key z 0 q hz hq
      rw [zero_mul, zero_mul] at this
      exact h z this
    · obtain ⟨g, hg'⟩ := exists_char hG z
      have := key z g 0 hg' hz
      rw [mul_zero] at this
      exact h z this
  · rintro ⟨h1, h2⟩ z hz
    obtain ⟨g, hg'⟩ := exists_char hG z
    obtain ⟨q, hq⟩ := exists_char hQ z
    have := CharAt_unique hz (key z g q hg' hq)
    rcases mul_eq_zero.mp this.symm with h | h
    · rcases mul_eq_zero.mp h with h | h <;> exact h1 z (h ▸ hg')
    · exact h2 z (h ▸ hq)

/-- The loops of `G` and `C` seen from the plant and from the controller have the same characteristic polynomial. -/
theorem loop_char {R' : StateM ℝ} (hG : Consistent G p m) (hC : Consistent C m p) (hdt : DtOk G.dt) (hd : C.dt = G.dt) (h0 : G.d = Arr.of (0 : Matrix (Fin p) (Fin m) ℝ))
    (hR : feedback (.state G) (.state C) true = .ok R) (hR' : feedback (.state C) (.state G) true = .ok R') (s v : ℂ) : CharAt R s v ↔ CharAt R' s v := by
  obtain ⟨F, hF⟩ := Arr.exists_of hC.1.1 hC.1.2
  obtain ⟨cR, -, -⟩ := feedback_result hG hC hdt hR
  obtain ⟨cR', -, -⟩ := feedback_result hC hG (hd ▸ hdt) hR'
  obtain ⟨Pg, ng, cg⟩ := char_polynomial hG
  obtain ⟨Pc, nc, cc⟩ := char_polynomial hC
  obtain ⟨Pr, nr, cr⟩ := char_polynomial cR
  obtain ⟨Pr', nr', cr'⟩ := char_polynomial cR'
  have key : Pg * Pc * (Pr - Pr') = 0 := by
    refine Polynomial.funext fun s => ?_
    simp only [Polynomial.eval_mul, Polynomial.eval_sub, Polynomial.eval_zero]
    by_cases h1 : Pg.eval s = 0
    · simp [h1]
    by_cases h3 : Pc.eval s = 0
    · simp [h3]
    obtain ⟨Gs, hGs⟩ := (hasTF_iff_char hG (cg s)).mpr h1
    obtain ⟨Cs, hCs⟩ := (hasTF_iff_char hC (cc s)).mpr h3
    obtain ⟨-, -, -, e1⟩ := C99_characteristic_partial hdt hR 0 F h0 hF (Or.inr (Matrix.mul_zero _)) hGs hCs (cg s) (cc s) (cr s)
    obtain ⟨-, -, -, e2⟩ := C99_characteristic_partial (hd ▸ hdt) hR' F 0 hF h0 (Or.inr (Matrix.zero_mul _)) hCs hGs (cc s) (cg s) (cr' s)
    simp only [Matrix.mul_zero, Matrix.zero_mul, sub_zero, det_one, map_one, mul_one, if_true, neg_smul, one_smul, sub_neg_eq_add] at e1 e2
    rw [Matrix.det_one_add_mul_comm] at e2
    rw [e1, e2]
    ring
  have e5 : Pr = Pr' := sub_eq_zero.mp ((mul_eq_zero.mp key).resolve_left (mul_ne_zero ng nc))
  subst e5
  exact ⟨fun h => CharAt_unique (cr s) h ▸ cr' s, fun h => CharAt_unique (cr' s) h ▸ cr s⟩

/-- **C128**, every controller is of this form: `Q = feedback(C, G)` is stable exactly if the loop `feedback(G, C)` is, and the controller that belongs to this `Q` has the transfer matrix of `C`. -/
theorem C128_all {C' : StateM ℝ} (h1 : 1 ≤ p) (h2 : 1 ≤ m) (hG : Consistent G p m) (hC : Consistent C m p) (hdt : DtOk G.dt) (hd : C.dt = G.dt) (h0 : G.d = Arr.of (0 : Matrix (Fin p) (Fin m) ℝ))
    (hR : feedback (.state G) (.state C) true = .ok R) (hQ : feedback (.state C) (.state G) true = .ok Q) (hC' : feedback (.state Q) (.state G) false = .ok C') :
    (StableModel Q ↔ StableModel R) ∧ SameTF C' C m p := by
  have key := loop_char hG hC hdt hd h0 hR hQ
  obtain ⟨cR, dR, -⟩ := feedback_result hG hC hdt hR
  obtain ⟨cQ, dQ, -⟩ := feedback_result hC hG (hd ▸ hdt) hQ
  constructor
  · rw [stable_iff_char cQ, stable_iff_char cR, dQ, dR, hd]
    exact forall_congr' fun z => by rw [key z 0]
  · let e : SExpr ℝ m p := .loop false (.loop true (.model C) (.model G)) (.model G)
    have hm : AllModels (fun p m G => 1 ≤ p ∧ 1 ≤ m ∧ Consistent G p m ∧ DtOk G.dt) (.model C : SExpr ℝ m p) := ⟨h2, h1, hC, hd ▸ hdt⟩
    have hm' : AllModels (fun p m G => 1 ≤ p ∧ 1 ≤ m ∧ Consistent G p m ∧ DtOk G.dt) (.model G : SExpr ℝ p m) := ⟨h1, h2, hG, hdt⟩
    have hn : NoDirectLoop 0 e := by
      refine ⟨⟨trivial, trivial, fun _ A B D E _ hB _ hE => ?_⟩, trivial, fun h => by cases h⟩
      cases hB
      rw [← Arr.of_inj.mp (h0.symm.trans hE), Matrix.zero_mul]
    have he : e.eval 0 = .ok C' := by
      simp only [e, SExpr.eval, Bind.bind, Except.bind, hQ]
      exact hC'
    have hE : Evaluates 0 e C' := ⟨⟨⟨hm, hm'⟩, hm'⟩, hn, he⟩
    have hE' : Evaluates 0 (.model C : SExpr ℝ m p) C := ⟨hm, trivial, rfl⟩
    exact (C127_laws_partial 0 0 (Law.loop_undo true (.model C) (.model G)) hE hE').2.2.1

/-- **C128**, references: with internal model control `feedback(G @ C, I)` from the reference to the output is `G @ Q`, which is linear in `Q`. -/
theorem C128_reference (fuel fuel' : ℕ) {g : SExpr ℝ p m} {q : SExpr ℝ m p} {dt : Option ℝ} {T T' : StateM ℝ}
    (h : Evaluates fuel (.loop true (.mul g (.loop false q g)) (.model (unity p dt))) T) (h' : Evaluates fuel' (.mul g q) T') : SameTF T T' p p := by
  filter_upwards [(evaluates_value h).2.2.2, (evaluates_value h').2.2.2] with s ⟨M, hM, hT⟩ ⟨M', hM', hT'⟩ X X' hX hX'
  rw [HasTF_unique hX hT, HasTF_unique hX' hT']
  obtain ⟨_, U, ⟨E, _, hE, ⟨F, E', hF, hE', d1, rfl⟩, rfl⟩, hU, d2, rfl⟩ := hM
  obtain ⟨E'', F', hE'', hF', rfl⟩ := hM'
  obtain rfl := value_unique _ hE hE'
  obtain rfl := value_unique _ hE hE''
  obtain rfl := value_unique _ hF hF'
  obtain rfl : U = 1 := HasTF_unique hU (Or.inl ⟨rfl, 1, rfl, by simp⟩)
  refine closed_cancel d2 (closed_eq d2) ?_
  simp only [Bool.false_eq_true, if_false, one_smul, if_true, neg_smul, Matrix.one_mul] at d1 ⊢
  have hu : IsUnit (1 - E * F).det := isUnit_iff_ne_zero.mpr d1
  have e1 : E * (F * (1 - E * F)⁻¹) * (1 - E * F) = E * F := by
    rw [Matrix.mul_assoc, Matrix.mul_assoc, Matrix.nonsing_inv_mul _ hu, Matrix.mul_one]
  rw [Matrix.mul_sub, Matrix.mul_one, sub_eq_iff_eq_add] at e1
  rw [← sub_eq_add_neg, eq_sub_iff_add_eq]
  exact e1.symm

/-- **C128**, disturbances: with internal model control `feedback(G, C)` from a disturbance at the input of the plant to the output is `G - G @ Q @ G`, which is affine in `Q`. -/
theorem C128_disturbance (fuel fuel' : ℕ) {g : SExpr ℝ p m} {q : SExpr ℝ m p} {T T' : StateM ℝ}
    (h : Evaluates fuel (.loop true g (.loop false q g)) T) (h' : Evaluates fuel' (.sub g (.mul g (.mul q g))) T') : SameTF T T' p m := by
  filter_upwards [(evaluates_value h).2.2.2, (evaluates_value h').2.2.2] with s ⟨M, hM, hT⟩ ⟨M', hM', hT'⟩ X X' hX hX'
  rw [HasTF_unique hX hT, HasTF_unique hX' hT']
  obtain ⟨E, _, hE, ⟨F, E', hF, hE', d1, rfl⟩, d2, rfl⟩ := hM
  obtain ⟨E₁, _, hE₁, ⟨E₂, _, hE₂, ⟨F', E₃, hF', hE₃, rfl⟩, rfl⟩, rfl⟩ := hM'
  obtain rfl := value_unique _ hE hE'
  obtain rfl := value_unique _ hE hE₁
  obtain rfl := value_unique _ hE hE₂
  obtain rfl := value_unique _ hE hE₃
  obtain rfl := value_unique _ hF hF'
  refine closed_cancel d2 (closed_eq d2) ?_
  simp only [Bool.false_eq_true, if_false, one_smul, if_true, neg_smul] at d1 ⊢
  have hu : IsUnit (1 - E * F).det := isUnit_iff_ne_zero.mpr d1
  have e1 : F * (1 - E * F)⁻¹ * (E - E * (F * E)) = F * E := by
    rw [show E - E * (F * E) = (1 - E * F) * E by rw [Matrix.sub_mul, Matrix.one_mul, Matrix.mul_assoc], Matrix.mul_assoc, ← Matrix.mul_assoc _ (1 - E * F), Matrix.nonsing_inv_mul _ hu, Matrix.one_mul]
  rw [e1, sub_eq_add_neg]

/-- The plant `1 / (s + 1)` with `Q = 1 / (s + 1)`: controller and loop exist, and the loop is stable. -/
example : ∃ C R, feedback (.state lagR) (.state lagR) false = .ok C ∧ feedback (.state lagR) (.state C) true = .ok R ∧ (StableModel R ↔ StableModel lagR) := by
  obtain ⟨C, R, h1, h2, -, h3⟩ := C128_stable (G := lagR) (Q := lagR) (p := 1) (m := 1) lagR_consistent.1 lagR_consistent.1 dtOk_none rfl rfl (congrArg Arr.of (by ext i j; fin_cases i; fin_cases j; rfl))
    (by norm_num [spacing10]) (by norm_num [spacing10])
  exact ⟨C, R, h1, h2, by rw [h3, and_self]⟩

/-- The formulas of the disturbance response for plant and `Q` both `1 / (s + 1)` can be evaluated. -/
example (fuel : ℕ) : ∃ (g q : SExpr ℝ 1 1) (T T' : StateM ℝ), Evaluates fuel (.loop true g (.loop false q g)) T ∧ Evaluates fuel (.sub g (.mul g (.mul q g))) T' := by
  have m0 : AllModels (fun p m G => p = 1 ∧ m = 1 ∧ G = lagR) (.model lagR : SExpr ℝ 1 1) := ⟨rfl, rfl, rfl⟩
  have r0 : NoDirectLoop fuel (.model lagR : SExpr ℝ 1 1) ∧ Regular (.model lagR : SExpr ℝ 1 1) := ⟨trivial, trivial⟩
  have v0 : ∀ D : Matrix (Fin 1) (Fin 1) ℝ, lagR.d = Arr.of D → D = 0 := by
    intro D hD
    obtain rfl : D = !![0] := (Arr.of_inj.mp (show Arr.of !![0] = Arr.of D from hD)).symm
    ext i j; fin_cases i; fin_cases j; rfl
  have r1 := lagR_loop fuel r0 r0 v0 (fun G D hG hD => by cases hG; exact v0 D hD) false
  have r2 := lagR_loop fuel r0 r1 v0 (fun G D hG hD => by cases hG; exact v0 D hD) true
  obtain ⟨T, hT, -⟩ := lagR_evaluates (fuel := fuel) (e := .loop true (.model lagR) (.loop false (.model lagR) (.model lagR))) ⟨m0, m0, m0⟩ ⟨trivial, trivial, trivial⟩ r2.1 r2.2
  let g : SExpr ℝ 1 1 := .model lagR
  let f : SExpr ℝ 1 1 := .mul g g
  obtain ⟨T', hT', -⟩ := lagR_evaluates (fuel := fuel) (e := .sub g (.mul g f)) ⟨m0, m0, (⟨m0, m0⟩ : AllModels _ f)⟩ ⟨trivial, trivial, (⟨trivial, trivial⟩ : NonzeroFactors f)⟩
    ⟨trivial, trivial, (⟨trivial, trivial⟩ : NoDirectLoop fuel f)⟩ ⟨trivial, trivial, (⟨trivial, trivial⟩ : Regular f)⟩
  exact ⟨g, g, T, T', hT, hT'⟩

end Harold
