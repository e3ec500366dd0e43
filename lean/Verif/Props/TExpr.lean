import Verif.Lemmas.TExpr
import Verif.Props.Transfer
import Mathlib.FieldTheory.RatFunc.AsPolynomial

/-!
# C89: formulas over `Transfer` models
-/

namespace Harold

open Matrix Spec Polynomial TransferM

variable {K L : Type} [Field K] [LinearOrder K] [IsStrictOrderedRing K] [Field L] [Algebra K L]
variable {p m : ℕ} {s : L} {S : Set K[X]} {E : TNum K}

/-- Models of the class have values over the field of rational functions. -/
theorem TCls.hasVal {τ : K} (hS : CoarseClass τ S) {G : TransferM K} (h : TCls S G p m) :
    ∃ M : Matrix (Fin p) (Fin m) (RatFunc K), HasVal G p m (RatFunc.X : RatFunc K) M := by
  obtain ⟨D, hD, hl⟩ := h.den
  obtain ⟨N, hN⟩ := Arr.exists_of h.num.1 h.num.2
  refine ⟨Matrix.of fun i j => polyAt RatFunc.X (N i j) / polyAt RatFunc.X (D i j), N, D, hN, hD, fun i j => ⟨?_, rfl⟩⟩
  unfold polyAt
  rw [RatFunc.aeval_X_left_eq_algebraMap]
  exact RatFunc.algebraMap_ne_zero (hS.monic _ (hl i j).2).ne_zero

theorem matmul_class {q : ℕ} (hbal : ∀ polys i, E.bal polys i ≠ 0) (hS : CoarseClass E.lcmTol S) {G H F : TransferM K} (h : TCls S G p q)
    (h' : TCls S H q m) (e : G.matmul E H = .ok F) : TCls S F p m := by
  obtain ⟨A, hA⟩ := h.hasVal hS
  obtain ⟨B, hB⟩ := h'.hasVal hS
  exact (matmul_tcls hbal hS h h' hA hB e).1

/-- The induction over formulas. -/
theorem texpr_aux (hbal : ∀ polys i, E.bal polys i ≠ 0) (hS : CoarseClass E.lcmTol S) (e : TExpr K p m) (ha : TAllModels (NormalIn S) e)
    {R : TransferM K} (h : e.eval E = .ok R) : TCls S R p m ∧ ∀ M : Matrix (Fin p) (Fin m) L, TValue s e M →
      HasVal R p m s M ∧ TAllModels (fun _ _ G => G.dt = R.dt) e := by
  induction e generalizing R with
  | model G =>
    simp only [TExpr.eval, Except.ok.injEq] at h
    subst h
    exact ⟨NormalIn.tcls ha, fun M hM => ⟨hM, rfl⟩⟩
  | neg e ih =>
    obtain ⟨G, h1, h⟩ := bind_ok' h
    obtain ⟨c1, v1⟩ := ih ha h1
    refine ⟨c1.neg h, ?_⟩
    rintro M ⟨A, hA, rfl⟩
    obtain ⟨a1, a2⟩ := v1 A hA
    obtain ⟨k1, k2⟩ := neg_valued (c1.valued a1) h
    exact ⟨k1.1, by rw [k2]; exact a2⟩
  | add e f ih ih' =>
    obtain ⟨G, h1, h⟩ := bind_ok' h
    obtain ⟨H, h2, h⟩ := bind_ok' h
    obtain ⟨c1, v1⟩ := ih ha.1 h1
    obtain ⟨c2, v2⟩ := ih' ha.2 h2
    refine ⟨c1.add hbal hS c2 h, ?_⟩
    rintro M ⟨A, B, hA, hB, rfl⟩
    obtain ⟨a1, a2⟩ := v1 A hA
    obtain ⟨b1, b2⟩ := v2 B hB
    obtain ⟨k1, k2, k3⟩ := add_valued hbal (c1.sumClear hS c2 (c1.valued a1)) (c1.valued a1) (c2.valued b1) h
    exact ⟨k1.1, by rw [k2]; exact a2, by rw [k2, k3]; exact b2⟩
  | sub e f ih ih' =>
    obtain ⟨G, h1, h⟩ := bind_ok' h
    obtain ⟨H, h2, h⟩ := bind_ok' h
    obtain ⟨c1, v1⟩ := ih ha.1 h1
    obtain ⟨c2, v2⟩ := ih' ha.2 h2
    refine ⟨c1.sub hbal hS c2 h, ?_⟩
    rintro M ⟨A, B, hA, hB, rfl⟩
    obtain ⟨a1, a2⟩ := v1 A hA
    obtain ⟨b1, b2⟩ := v2 B hB
    obtain ⟨k1, k2, k3⟩ := C22_sub_partial hbal (c1.sumClear hS c2 (c1.valued a1)) (c1.valued a1) (c2.valued b1) h
    exact ⟨k1.1, by rw [k2]; exact a2, by rw [k2, k3]; exact b2⟩
  | times e f ih ih' =>
    obtain ⟨G, h1, h⟩ := bind_ok' h
    obtain ⟨H, h2, h⟩ := bind_ok' h
    obtain ⟨c1, v1⟩ := ih ha.1 h1
    obtain ⟨c2, v2⟩ := ih' ha.2 h2
    refine ⟨c1.mul hS c2 (Or.inl ⟨rfl, rfl, rfl, rfl⟩) h, ?_⟩
    rintro M ⟨A, B, hA, hB, rfl⟩
    obtain ⟨a1, a2⟩ := v1 A hA
    obtain ⟨b1, b2⟩ := v2 B hB
    obtain ⟨k1, k2, k3⟩ := mul_valued (c1.valued a1) (c1.unitDen hS) c1.flagOk (c2.valued b1) h
    exact ⟨k1.1, by rw [k2]; exact a2, by rw [k2, k3]; exact b2⟩
  | left e f ih ih' =>
    obtain ⟨G, h1, h⟩ := bind_ok' h
    obtain ⟨H, h2, h⟩ := bind_ok' h
    obtain ⟨c1, v1⟩ := ih ha.1 h1
    obtain ⟨c2, v2⟩ := ih' ha.2 h2
    refine ⟨c1.mul hS c2 (Or.inr (Or.inl ⟨rfl, rfl, rfl, rfl⟩)) h, ?_⟩
    rintro M ⟨A, B, hA, hB, rfl⟩
    obtain ⟨a1, a2⟩ := v1 A hA
    obtain ⟨b1, b2⟩ := v2 B hB
    have hA' : A = Matrix.of fun _ _ => A 0 0 := by
      ext i j
      rw [Subsingleton.elim i 0, Subsingleton.elim j 0]; rfl
    have hv := c1.valued a1
    rw [hA'] at hv
    obtain ⟨k1, k2, k3⟩ := mul_siso_left_valued hv (c1.unitDen hS) c1.flagOk (c2.valued b1) h
    exact ⟨k1.1, by rw [k2]; exact a2, by rw [k2, k3]; exact b2⟩
  | right e f ih ih' =>
    obtain ⟨G, h1, h⟩ := bind_ok' h
    obtain ⟨H, h2, h⟩ := bind_ok' h
    obtain ⟨c1, v1⟩ := ih ha.1 h1
    obtain ⟨c2, v2⟩ := ih' ha.2 h2
    refine ⟨c1.mul hS c2 (Or.inr (Or.inr ⟨rfl, rfl, rfl, rfl⟩)) h, ?_⟩
    rintro M ⟨A, B, hA, hB, rfl⟩
    obtain ⟨a1, a2⟩ := v1 A hA
    obtain ⟨b1, b2⟩ := v2 B hB
    have hB' : B = Matrix.of fun _ _ => B 0 0 := by
      ext i j
      rw [Subsingleton.elim i 0, Subsingleton.elim j 0]; rfl
    have hv := c2.valued b1
    rw [hB'] at hv
    obtain ⟨k1, k2, k3⟩ := mul_siso_right_valued (c1.valued a1) (c1.unitDen hS) c1.flagOk hv h
    refine ⟨?_, by rw [k2]; exact a2, by rw [k2, k3]; exact b2⟩
    convert k1.1 using 4
    exact mul_comm _ _
  | mul e f ih ih' =>
    obtain ⟨G, h1, h⟩ := bind_ok' h
    obtain ⟨H, h2, h⟩ := bind_ok' h
    obtain ⟨c1, v1⟩ := ih ha.1 h1
    obtain ⟨c2, v2⟩ := ih' ha.2 h2
    refine ⟨?_, ?_⟩
    · exact matmul_class hbal hS c1 c2 h
    · rintro M ⟨A, B, hA, hB, rfl⟩
      obtain ⟨a1, a2⟩ := v1 A hA
      obtain ⟨b1, b2⟩ := v2 B hB
      obtain ⟨-, k1, k2, k3⟩ := matmul_tcls hbal hS c1 c2 a1 b1 h
      exact ⟨k1, by rw [k2]; exact a2, by rw [k2, k3]; exact b2⟩
  | scale k e ih =>
    obtain ⟨G, h1, h⟩ := bind_ok' h
    obtain ⟨c1, v1⟩ := ih ha h1
    refine ⟨c1.mulScalar hS h, ?_⟩
    rintro M ⟨A, hA, rfl⟩
    obtain ⟨a1, a2⟩ := v1 A hA
    obtain ⟨k1, k2⟩ := mulScalar_valued (c1.valued a1) h
    exact ⟨k1.1, by rw [k2]; exact a2⟩
  | shift e k ih =>
    obtain ⟨G, h1, h⟩ := bind_ok' h
    obtain ⟨c1, v1⟩ := ih ha h1
    refine ⟨c1.shift hbal hS h, ?_⟩
    rintro M ⟨A, hA, rfl⟩
    obtain ⟨a1, a2⟩ := v1 A hA
    obtain ⟨k1, k2⟩ := C22_add_scalar_partial hbal (CoarseClass.le_one hS) c1.pos.1 c1.pos.2 (c1.denClear hS) (c1.valued a1) h
    exact ⟨k1.1, by rw [k2]; exact a2⟩

/-- Over the field of rational functions every formula has a value. -/
theorem tvalue_ratFunc (hS : ∀ P ∈ S, P.Monic) (e : TExpr K p m) (ha : TAllModels (NormalIn S) e) :
    ∃ M : Matrix (Fin p) (Fin m) (RatFunc K), TValue (RatFunc.X : RatFunc K) e M := by
  induction e with
  | model G =>
    obtain ⟨N, D, hn, hl⟩ := ha
    refine ⟨Matrix.of fun i j => polyAt RatFunc.X (N i j) / polyAt RatFunc.X (D i j), N, D, hn.num, hn.den, fun i j => ⟨?_, rfl⟩⟩
    unfold polyAt
    rw [RatFunc.aeval_X_left_eq_algebraMap]
    exact RatFunc.algebraMap_ne_zero (hS _ (hl i j)).ne_zero
  | neg e ih => obtain ⟨A, hA⟩ := ih ha; exact ⟨_, A, hA, rfl⟩
  | add e f ih ih' => obtain ⟨A, hA⟩ := ih ha.1; obtain ⟨B, hB⟩ := ih' ha.2; exact ⟨_, A, B, hA, hB, rfl⟩
  | sub e f ih ih' => obtain ⟨A, hA⟩ := ih ha.1; obtain ⟨B, hB⟩ := ih' ha.2; exact ⟨_, A, B, hA, hB, rfl⟩
  | times e f ih ih' => obtain ⟨A, hA⟩ := ih ha.1; obtain ⟨B, hB⟩ := ih' ha.2; exact ⟨_, A, B, hA, hB, rfl⟩
  | left e f ih ih' => obtain ⟨A, hA⟩ := ih ha.1; obtain ⟨B, hB⟩ := ih' ha.2; exact ⟨_, A, B, hA, hB, rfl⟩
  | right e f ih ih' => obtain ⟨A, hA⟩ := ih ha.1; obtain ⟨B, hB⟩ := ih' ha.2; exact ⟨_, A, B, hA, hB, rfl⟩
  | mul e f ih ih' => obtain ⟨A, hA⟩ := ih ha.1; obtain ⟨B, hB⟩ := ih' ha.2; exact ⟨_, A, B, hA, hB, rfl⟩
  | scale k e ih => obtain ⟨A, hA⟩ := ih ha; exact ⟨_, A, hA, rfl⟩
  | shift e k ih => obtain ⟨A, hA⟩ := ih ha; exact ⟨_, A, hA, rfl⟩

/-- **C89**: a formula of any depth over models whose denominators belong to a class that the rounding of small coefficients does not touch: if it returns, the
result has the value of the formula wherever the denominators of the models do not vanish. Missing: formulas need not return (sums whose leading terms cancel
are rejected, `C22_cancel_violated`), and denominators that are not monic or lose small coefficients (`C23_gain_den_violated`). -/
theorem C89_value_partial (hbal : ∀ polys i, E.bal polys i ≠ 0) (hS : CoarseClass E.lcmTol S) (e : TExpr K p m) (ha : TAllModels (NormalIn S) e)
    {R : TransferM K} (h : e.eval E = .ok R) {M : Matrix (Fin p) (Fin m) L} (hM : TValue s e M) : HasVal R p m s M :=
  ((texpr_aux hbal hS e ha h).2 M hM).1

/-- **C89** with the threshold of the code (or any up to one): models with monic integer denominators, any numerators and any factors. Missing: as in
`C89_value_partial`. -/
theorem C89_integer_partial (hbal : ∀ polys i, E.bal polys i ≠ 0) (hthr : E.lcmTol ≤ 1) (e : TExpr K p m) (ha : TAllModels (NormalIn (monicInt K)) e)
    {R : TransferM K} (h : e.eval E = .ok R) {M : Matrix (Fin p) (Fin m) L} (hM : TValue s e M) : HasVal R p m s M :=
  C89_value_partial hbal (coarseClass_int hthr) e ha h hM

/-- **C89** in exact arithmetic: models with monic denominators. Missing: as in `C89_value_partial`. -/
theorem C89_monic_partial (hbal : ∀ polys i, E.bal polys i ≠ 0) (hthr : E.lcmTol ≤ 0) (e : TExpr K p m)
    (ha : TAllModels (NormalIn {P : K[X] | P.Monic}) e)
    {R : TransferM K} (h : e.eval E = .ok R) {M : Matrix (Fin p) (Fin m) L} (hM : TValue s e M) : HasVal R p m s M :=
  C89_value_partial hbal (coarseClass_monic hthr) e ha h hM

/-- **C89**: a formula that returns mixes no sampling periods: every model in it has the period of the result. Missing: as in `C89_value_partial`. -/
theorem C89_dt_partial (hbal : ∀ polys i, E.bal polys i ≠ 0) (hS : CoarseClass E.lcmTol S) (e : TExpr K p m) (ha : TAllModels (NormalIn S) e)
    {R : TransferM K} (h : e.eval E = .ok R) : TAllModels (fun _ _ G => G.dt = R.dt) e := by
  obtain ⟨M, hM⟩ := tvalue_ratFunc hS.monic e ha
  exact ((texpr_aux hbal hS e ha h).2 M hM).2

/-! ### Formulas that return -/

theorem neg_normal (hbal : ∀ polys i, E.bal polys i ≠ 0) (hthr : E.lcmTol ≤ 1) {G : TransferM K} {N D : Matrix (Fin p) (Fin m) (List K)}
    (hG : Normal G p m N D) : ∃ F N₂ D₂, neg E G = .ok F ∧ Normal F p m N₂ D₂ ∧ F.dt = G.dt := by
  obtain ⟨F, h1, h2, h3⟩ := mkTransfer_normal hbal hthr hG.pos.1 hG.pos.2 (N := Matrix.of fun i j => (N i j).map fun x => -x) (D := D) hG.dt hG.lead
    (fun i j => by
      rcases hG.trimmed i j with h | ⟨a, t, h, ha⟩
      · left; simp [h]
      · right; exact ⟨-a, t.map fun x => -x, by simp [h], neg_ne_zero.mpr ha⟩) (fun i j => by simpa using hG.causal i j)
  refine ⟨F, _, _, ?_, h2, h3⟩
  unfold TransferM.neg
  rw [hG.den, hG.num]
  exact h1

/-- **C89**: a formula of products with `*`, multiples and negatives over models in normal form with the same sampling period returns (and gives a model in
normal form). -/
theorem C89_products_return (hbal : ∀ polys i, E.bal polys i ≠ 0) (hthr : E.lcmTol ≤ 1) {dt : Option K} (e : TExpr K p m) (hp : TProducts e)
    (ha : TAllModels (fun p m G => G.dt = dt ∧ ∃ N D, Normal G p m N D) e) : ∃ R N D, e.eval E = .ok R ∧ Normal R p m N D ∧ R.dt = dt := by
  induction e with
  | model G =>
    obtain ⟨h1, N, D, h2⟩ := ha
    exact ⟨G, N, D, rfl, h2, h1⟩
  | neg e ih =>
    obtain ⟨G, N, D, h1, h2, h3⟩ := ih hp ha
    obtain ⟨F, N', D', k1, k2, k3⟩ := neg_normal hbal hthr h2
    exact ⟨F, N', D', by simp only [TExpr.eval, h1, Bind.bind, Except.bind, k1], k2, k3.trans h3⟩
  | times e f ih ih' =>
    obtain ⟨G, N, D, h1, h2, h3⟩ := ih hp.1 ha.1
    obtain ⟨H, N', D', h4, h5, h6⟩ := ih' hp.2 ha.2
    obtain ⟨F, N₂, D₂, k1, k2, k3⟩ := C23_mul_success hbal hthr h2 h5 (h3.trans h6.symm)
    exact ⟨F, N₂, D₂, by simp only [TExpr.eval, h1, h4, Bind.bind, Except.bind, k1], k2, k3.trans h3⟩
  | left e f ih ih' =>
    obtain ⟨G, N, D, h1, h2, h3⟩ := ih hp.1 ha.1
    obtain ⟨H, N', D', h4, h5, h6⟩ := ih' hp.2 ha.2
    obtain ⟨F, N₂, D₂, k1, k2, k3⟩ := C23_mul_siso_left_success hbal hthr h2 h5 (h3.trans h6.symm)
    exact ⟨F, N₂, D₂, by simp only [TExpr.eval, h1, h4, Bind.bind, Except.bind, k1], k2, k3.trans h3⟩
  | right e f ih ih' =>
    obtain ⟨G, N, D, h1, h2, h3⟩ := ih hp.1 ha.1
    obtain ⟨H, N', D', h4, h5, h6⟩ := ih' hp.2 ha.2
    obtain ⟨F, N₂, D₂, k1, k2, k3⟩ := C23_mul_siso_right_success hbal hthr h2 h5 (h3.trans h6.symm)
    exact ⟨F, N₂, D₂, by simp only [TExpr.eval, h1, h4, Bind.bind, Except.bind, k1], k2, k3.trans h3⟩
  | scale k e ih =>
    obtain ⟨G, N, D, h1, h2, h3⟩ := ih hp ha
    obtain ⟨F, N', D', k1, k2, k3⟩ := mulScalar_normal hbal hthr h2 k
    exact ⟨F, N', D', by simp only [TExpr.eval, h1, Bind.bind, Except.bind, mulGain, k1], k2, k3.trans h3⟩
  | add e f => exact hp.elim
  | sub e f => exact hp.elim
  | mul e f => exact hp.elim
  | shift e k => exact hp.elim

/-- Quotients of polynomials with positive leading coefficients. -/
def RPos (f : RatFunc K) : Prop :=
  ∃ a b : K[X], 0 < a.leadingCoeff ∧ 0 < b.leadingCoeff ∧ f = algebraMap K[X] (RatFunc K) a / algebraMap K[X] (RatFunc K) b

theorem lead_add_pos {a b : K[X]} (ha : 0 < a.leadingCoeff) (hb : 0 < b.leadingCoeff) : 0 < (a + b).leadingCoeff := by
  rcases lt_trichotomy a.degree b.degree with h | h | h
  · rwa [leadingCoeff_add_of_degree_lt h]
  · rw [leadingCoeff_add_of_degree_eq h (by positivity)]; positivity
  · rwa [leadingCoeff_add_of_degree_lt' h]

theorem ratFunc_ne {b : K[X]} (hb : 0 < b.leadingCoeff) : algebraMap K[X] (RatFunc K) b ≠ 0 :=
  RatFunc.algebraMap_ne_zero fun e => by simp [e] at hb

theorem RPos.mul {f g : RatFunc K} (hf : RPos f) (hg : RPos g) : RPos (f * g) := by
  obtain ⟨a, b, ha, hb, rfl⟩ := hf
  obtain ⟨c, d, hc, hd, rfl⟩ := hg
  refine ⟨a * c, b * d, by rw [leadingCoeff_mul]; positivity, by rw [leadingCoeff_mul]; positivity, ?_⟩
  rw [map_mul, map_mul, div_mul_div_comm]

theorem RPos.add {f g : RatFunc K} (hf : RPos f) (hg : RPos g) : RPos (f + g) := by
  obtain ⟨a, b, ha, hb, rfl⟩ := hf
  obtain ⟨c, d, hc, hd, rfl⟩ := hg
  refine ⟨a * d + b * c, b * d, lead_add_pos (by rw [leadingCoeff_mul]; positivity) (by rw [leadingCoeff_mul]; positivity),
    by rw [leadingCoeff_mul]; positivity, ?_⟩
  rw [map_add, map_mul, map_mul, map_mul, div_add_div _ _ (ratFunc_ne hb) (ratFunc_ne hd)]

theorem RPos.sum {f : ℕ → RatFunc K} {k : ℕ} (h : ∀ i < k, RPos (f i)) : k = 0 ∨ RPos (∑ i ∈ Finset.range k, f i) := by
  induction k with
  | zero => exact Or.inl rfl
  | succ k ih =>
    right
    rw [Finset.sum_range_succ]
    rcases ih fun i hi => h i (by omega) with rfl | h1
    · simpa using h 0 (by omega)
    · exact h1.add (h k (by omega))

/-- The leading coefficient of a numerator whose quotient is positive. -/
theorem RPos.lead {a b : K[X]} (hb : b.Monic) (h : RPos (algebraMap K[X] (RatFunc K) a / algebraMap K[X] (RatFunc K) b)) : 0 < a.leadingCoeff := by
  obtain ⟨c, d, hc, hd, e⟩ := h
  rw [div_eq_div_iff (RatFunc.algebraMap_ne_zero hb.ne_zero) (ratFunc_ne hd), ← map_mul, ← map_mul] at e
  have e := congrArg leadingCoeff (RatFunc.algebraMap_injective K e)
  rw [leadingCoeff_mul, leadingCoeff_mul, hb.leadingCoeff, mul_one] at e
  by_contra hn
  have := mul_nonpos_of_nonpos_of_nonneg (not_lt.mp hn) hd.le
  rw [e] at this
  exact absurd hc (not_lt.mpr this)

/-- What is known of the values met while a positive formula is evaluated. -/
structure TGood (S : Set K[X]) (dt : Option K) (G : TransferM K) (p m : ℕ) (M : Matrix (Fin p) (Fin m) (RatFunc K)) : Prop where
  cls : TCls S G p m
  val : HasVal G p m (RatFunc.X : RatFunc K) M
  normal : ∃ N D, Normal G p m N D
  dt : G.dt = dt

theorem TGood.entry {dt : Option K} {G : TransferM K} {M : Matrix (Fin p) (Fin m) (RatFunc K)} (h : TGood S dt G p m M) {N D : Matrix (Fin p) (Fin m) (List K)}
    (hn : Normal G p m N D) (i : Fin p) (j : Fin m) : toPoly (D i j) ∈ S ∧
      M i j = algebraMap K[X] (RatFunc K) (toPoly (N i j)) / algebraMap K[X] (RatFunc K) (toPoly (D i j)) := by
  obtain ⟨N', D', e1, e2, hv⟩ := h.val
  obtain rfl := Arr.of_inj.mp (hn.num.symm.trans e1)
  obtain rfl := Arr.of_inj.mp (hn.den.symm.trans e2)
  have := (h.cls.entry i j).2
  rw [e2, entry_of] at this
  refine ⟨this, ?_⟩
  rw [(hv i j).2]
  unfold polyAt
  rw [RatFunc.aeval_X_left_eq_algebraMap, RatFunc.aeval_X_left_eq_algebraMap]

/-- A sum whose entries on the left are zero or positive and on the right positive. -/
theorem TGood.add (hbal : ∀ polys i, E.bal polys i ≠ 0) (hS : CoarseClass E.lcmTol S) {dt : Option K} {G H : TransferM K}
    {A B : Matrix (Fin p) (Fin m) (RatFunc K)} (h : TGood S dt G p m A) (h' : TGood S dt H p m B) (hA : ∀ i j, A i j = 0 ∨ RPos (A i j))
    (hB : ∀ i j, RPos (B i j)) : ∃ F, TransferM.add E G H = .ok F ∧ TGood S dt F p m (A + B) := by
  obtain ⟨N, D, hn⟩ := h.normal
  obtain ⟨N', D', hn'⟩ := h'.normal
  have key : ∀ i j, (toPoly (N i j) = 0 ∨ 0 < (toPoly (N i j) * toPoly (D' i j)).leadingCoeff) ∧ 0 < (toPoly (N' i j) * toPoly (D i j)).leadingCoeff := by
    intro i j
    obtain ⟨d1, e1⟩ := h.entry hn i j
    obtain ⟨d2, e2⟩ := h'.entry hn' i j
    have m1 := hS.monic _ d1
    have m2 := hS.monic _ d2
    constructor
    · rcases hA i j with h0 | h0
      · left
        rw [e1, div_eq_zero_iff] at h0
        rcases h0 with h0 | h0
        · exact (map_eq_zero_iff _ (RatFunc.algebraMap_injective K)).mp h0
        · exact absurd h0 (RatFunc.algebraMap_ne_zero m1.ne_zero)
      · right
        rw [e1] at h0
        rw [leadingCoeff_mul, m2.leadingCoeff, mul_one]
        exact h0.lead m1
    · have h0 := hB i j
      rw [e2] at h0
      rw [leadingCoeff_mul, m1.leadingCoeff, mul_one]
      exact h0.lead m2
  have hc := h.cls.sumClear hS h'.cls (h.cls.valued h.val)
  obtain ⟨F, N₂, D₂, k1, k2, k3⟩ := C22_add_success_partial hbal (CoarseClass.le_one hS) hn hn' hc (h.dt.trans h'.dt.symm)
    (fun i j => by
      rcases (key i j).1 with h0 | h0
      · rw [h0]; simp
      · exact degree_add_eq_of_leadingCoeff_add_ne_zero (add_pos h0 (key i j).2).ne')
    (fun i j e => by
      have h2 := (key i j).2
      rcases (key i j).1 with h0 | h0
      · rw [h0, zero_mul, zero_add] at e
        rw [e] at h2; simp at h2
      · have := lead_add_pos h0 h2
        rw [e] at this; simp at this)
  exact ⟨F, k1, h.cls.add hbal hS h'.cls k1, (add_valued hbal hc (h.cls.valued h.val) (h'.cls.valued h'.val) k1).1.1, ⟨_, _, k2⟩, k3.trans h.dt⟩

/-- `self[r, c]` returns. -/
theorem TGood.item (hbal : ∀ polys i, E.bal polys i ≠ 0) (hthr : E.lcmTol ≤ 1) {dt : Option K} {G : TransferM K} {A : Matrix (Fin p) (Fin m) (RatFunc K)}
    (h : TGood S dt G p m A) (hs : ¬ (p = 1 ∧ m = 1)) (r : Fin p) (c : Fin m) :
    ∃ F, TransferM.item E G r c = .ok F ∧ TGood S dt F 1 1 (Matrix.of fun _ _ => A r c) := by
  obtain ⟨N, D, hn⟩ := h.normal
  obtain ⟨F, h1, h2, h3⟩ := mkTransfer_normal (E := E) hbal hthr (p := 1) (m := 1) one_pos one_pos (N := Matrix.of fun _ _ => N r c)
    (D := Matrix.of fun _ _ => D r c) hn.dt (fun _ _ => hn.lead r c) (fun _ _ => hn.trimmed r c) fun _ _ => hn.causal r c
  have e : TransferM.item E G r c = .ok F := by
    rw [← h1]
    unfold TransferM.item getitem
    have hr : arangeIdx G.p (.int (r : ℕ)) = .ok [(r : ℕ)] := arangeIdx_nat (by simp [TransferM.p, hn.num])
    have hc : arangeIdx G.m (.int (c : ℕ)) = .ok [(c : ℕ)] := arangeIdx_nat (by simp [TransferM.m, hn.num])
    simp only [hr, hc, Bind.bind, Except.bind]
    rw [if_neg (by simpa [TransferM.isSISO, hn.num] using hs), hn.num, hn.den]
    have e1 : ∀ X : Matrix (Fin p) (Fin m) (List K),
        (Matrix.of fun (i : Fin [(r : ℕ)].length) (j : Fin [(c : ℕ)].length) =>
          (Arr.of X).entry ([(r : ℕ)].get i) ([(c : ℕ)].get j)) = Matrix.of fun (_ _ : Fin 1) => X r c := by
      intro X
      refine Matrix.ext fun i j => ?_
      have hi : i = 0 := Subsingleton.elim (α := Fin 1) _ _
      have hj : j = 0 := Subsingleton.elim (α := Fin 1) _ _
      subst hi; subst hj
      exact entry_of X r c
    rw [e1 N, e1 D]
    rfl
  exact ⟨F, e, h.cls.item hs r c e, (item_valued (h.cls.valued h.val) hs r c e).1.1, ⟨_, _, h2⟩, h3.trans h.dt⟩

theorem TGood.times (hbal : ∀ polys i, E.bal polys i ≠ 0) (hS : CoarseClass E.lcmTol S) {dt : Option K} {G H : TransferM K}
    {A B : Matrix (Fin p) (Fin m) (RatFunc K)} (h : TGood S dt G p m A) (h' : TGood S dt H p m B) :
    ∃ F, TransferM.mul E G H = .ok F ∧ TGood S dt F p m (Matrix.of fun i j => A i j * B i j) := by
  obtain ⟨N, D, hn⟩ := h.normal
  obtain ⟨N', D', hn'⟩ := h'.normal
  obtain ⟨F, N₂, D₂, k1, k2, k3⟩ := C23_mul_success hbal (CoarseClass.le_one hS) hn hn' (h.dt.trans h'.dt.symm)
  exact ⟨F, k1, h.cls.mul hS h'.cls (Or.inl ⟨rfl, rfl, rfl, rfl⟩) k1,
    (mul_valued (h.cls.valued h.val) (h.cls.unitDen hS) h.cls.flagOk (h'.cls.valued h'.val) k1).1.1, ⟨_, _, k2⟩, k3.trans h.dt⟩

theorem TGood.left (hbal : ∀ polys i, E.bal polys i ≠ 0) (hS : CoarseClass E.lcmTol S) {dt : Option K} {G H : TransferM K} {a : RatFunc K}
    {B : Matrix (Fin p) (Fin m) (RatFunc K)} (h : TGood S dt G 1 1 (Matrix.of fun _ _ => a)) (h' : TGood S dt H p m B) :
    ∃ F, TransferM.mul E G H = .ok F ∧ TGood S dt F p m (Matrix.of fun i j => a * B i j) := by
  obtain ⟨N, D, hn⟩ := h.normal
  obtain ⟨N', D', hn'⟩ := h'.normal
  obtain ⟨F, N₂, D₂, k1, k2, k3⟩ := C23_mul_siso_left_success hbal (CoarseClass.le_one hS) hn hn' (h.dt.trans h'.dt.symm)
  exact ⟨F, k1, h.cls.mul hS h'.cls (Or.inr (Or.inl ⟨rfl, rfl, rfl, rfl⟩)) k1,
    (mul_siso_left_valued (h.cls.valued h.val) (h.cls.unitDen hS) h.cls.flagOk (h'.cls.valued h'.val) k1).1.1, ⟨_, _, k2⟩, k3.trans h.dt⟩

theorem TGood.right (hbal : ∀ polys i, E.bal polys i ≠ 0) (hS : CoarseClass E.lcmTol S) {dt : Option K} {G H : TransferM K} {b : RatFunc K}
    {A : Matrix (Fin p) (Fin m) (RatFunc K)} (h : TGood S dt G p m A) (h' : TGood S dt H 1 1 (Matrix.of fun _ _ => b)) :
    ∃ F, TransferM.mul E G H = .ok F ∧ TGood S dt F p m (Matrix.of fun i j => b * A i j) := by
  obtain ⟨N, D, hn⟩ := h.normal
  obtain ⟨N', D', hn'⟩ := h'.normal
  obtain ⟨F, N₂, D₂, k1, k2, k3⟩ := C23_mul_siso_right_success hbal (CoarseClass.le_one hS) hn hn' (h.dt.trans h'.dt.symm)
  exact ⟨F, k1, h.cls.mul hS h'.cls (Or.inr (Or.inr ⟨rfl, rfl, rfl, rfl⟩)) k1,
    (mul_siso_right_valued (h.cls.valued h.val) (h.cls.unitDen hS) h.cls.flagOk (h'.cls.valued h'.val) k1).1.1, ⟨_, _, k2⟩, k3.trans h.dt⟩

theorem good_zero (hbal : ∀ polys i, E.bal polys i ≠ 0) (hS : CoarseClass E.lcmTol S) {dt : Option K} (hdt : DtOk dt) :
    ∃ F, mkTransfer E (.scalar 0) (.scalar 1) dt = .ok F ∧ TGood S dt F 1 1 (Matrix.of fun _ _ => 0) := by
  obtain ⟨F, h1, h2, h3⟩ := mkTransfer_normal (E := E) hbal (CoarseClass.le_one hS) (p := 1) (m := 1) one_pos one_pos (N := Matrix.of fun _ _ => [0])
    (D := Matrix.of fun _ _ => [1]) hdt (by simp) (fun _ _ => Or.inl rfl) (by simp)
  have e : mkTransfer E (.scalar 0) (.scalar 1) dt = .ok F := by
    rw [← mkTransfer_vec_eq] at h1
    exact h1
  refine ⟨F, e, tcls_zero hS e, ?_, ⟨_, _, h2⟩, h3⟩
  have := (mkScalars_valued one_ne_zero e (RatFunc.X : RatFunc K)).1.1
  simpa using this

theorem sumLoop_good (hbal : ∀ polys i, E.bal polys i ≠ 0) (hS : CoarseClass E.lcmTol S) {dt : Option K} (hdt : DtOk dt) {f : ℕ → Res (TransferM K)}
    {v : ℕ → RatFunc K} (k : ℕ) (hf : ∀ i < k, ∃ g, f i = .ok g ∧ TGood S dt g 1 1 (Matrix.of fun _ _ => v i) ∧ RPos (v i)) :
    ∃ F, sumLoop E dt f k = .ok F ∧ TGood S dt F 1 1 (Matrix.of fun _ _ => ∑ i ∈ Finset.range k, v i) := by
  induction k with
  | zero => simpa [sumLoop] using good_zero hbal hS hdt
  | succ k ih =>
    obtain ⟨t, h1, h2⟩ := ih fun i hi => hf i (by omega)
    obtain ⟨g, h3, h4, h5⟩ := hf k (by omega)
    obtain ⟨F, h6, h7⟩ := h2.add hbal hS h4 (fun _ _ => by
      rcases RPos.sum (k := k) (f := v) fun i hi => (hf i (by omega)).choose_spec.2.2 with rfl | h
      · left; simp
      · exact Or.inr h) fun _ _ => h5
    refine ⟨F, by simp only [sumLoop, h1, h3, Bind.bind, Except.bind, h6], ?_⟩
    convert h7 using 1
    ext i j
    simp [Finset.sum_range_succ]

theorem TGood.matmul {q : ℕ} (hbal : ∀ polys i, E.bal polys i ≠ 0) (hS : CoarseClass E.lcmTol S) {dt : Option K} {G H : TransferM K}
    {A : Matrix (Fin p) (Fin q) (RatFunc K)} {B : Matrix (Fin q) (Fin m) (RatFunc K)} (h : TGood S dt G p q A) (h' : TGood S dt H q m B)
    (hA : ∀ i j, RPos (A i j)) (hB : ∀ i j, RPos (B i j)) : ∃ F, TransferM.matmul E G H = .ok F ∧ TGood S dt F p m (A * B) := by
  suffices hh : ∃ F N D, TransferM.matmul E G H = .ok F ∧ Normal F p m N D by
    obtain ⟨F, N, D, e, hn⟩ := hh
    obtain ⟨k1, k2, k3, -⟩ := matmul_tcls hbal hS h.cls h'.cls h.val h'.val e
    exact ⟨F, e, k1, k2, ⟨N, D, hn⟩, k3.trans h.dt⟩
  have hthr := CoarseClass.le_one hS
  obtain ⟨N, D, hn⟩ := h.normal
  obtain ⟨N', D', hn'⟩ := h'.normal
  have hsis : G.isSISO = true ↔ p = 1 ∧ q = 1 := by simp [TransferM.isSISO, h.cls.num]
  have hsis' : H.isSISO = true ↔ q = 1 ∧ m = 1 := by simp [TransferM.isSISO, h'.cls.num]
  have hdt := h.dt.trans h'.dt.symm
  unfold TransferM.matmul
  by_cases h1 : G.isSISO = true
  · rw [if_pos h1]
    obtain ⟨rfl, rfl⟩ := hsis.mp h1
    obtain ⟨F, N₂, D₂, k1, k2, -⟩ := C23_mul_siso_left_success hbal hthr hn hn' hdt
    exact ⟨F, _, _, k1, k2⟩
  rw [if_neg h1, if_neg (not_not.mpr hdt)]
  by_cases h2 : H.isSISO = true
  · rw [if_pos h2]
    obtain ⟨rfl, rfl⟩ := hsis'.mp h2
    obtain ⟨F, N₂, D₂, k1, k2, -⟩ := C23_mul_siso_right_success hbal hthr hn hn' hdt
    exact ⟨F, _, _, k1, k2⟩
  rw [if_neg h2, if_neg (by simp [h.cls.num, h'.cls.num])]
  have hsum : ∀ (r : Fin p) (c : Fin m), ∃ F v, sumLoop E G.dt (fun ind => do
      let g ← TransferM.item E G r ind
      let h ← TransferM.item E H ind c
      TransferM.mul E g h) q = .ok F ∧ TGood S dt F 1 1 v := by
    intro r c
    rw [h.dt]
    obtain ⟨F, k1, k2⟩ := sumLoop_good hbal hS (dt := dt) (h.dt ▸ hn.dt) (f := fun ind => do
        let g ← TransferM.item E G r ind
        let h ← TransferM.item E H ind c
        TransferM.mul E g h)
      (v := fun i => if h : i < q then A r ⟨i, h⟩ * B ⟨i, h⟩ c else 0) q (fun i hi => by
        obtain ⟨a, e1, a1⟩ := h.item (E := E) hbal hthr (fun hh => h1 (hsis.mpr hh)) r ⟨i, hi⟩
        obtain ⟨b, e2, b1⟩ := h'.item (E := E) hbal hthr (fun hh => h2 (hsis'.mpr hh)) ⟨i, hi⟩ c
        obtain ⟨g, e3, g1⟩ := a1.times hbal hS b1
        simp only at e1 e2
        refine ⟨g, by simp only [e1, e2, Bind.bind, Except.bind, e3], ?_, ?_⟩
        · simp only [dif_pos hi]
          exact g1
        · simp only [dif_pos hi]
          exact (hA _ _).mul (hB _ _))
    exact ⟨F, _, k1, k2⟩
  rw [h.cls.num.1, h.cls.num.2, h'.cls.num.2]
  by_cases h3 : p = 1 ∧ m = 1
  · rw [if_pos h3]
    obtain ⟨rfl, rfl⟩ := h3
    obtain ⟨F, v, k1, k2⟩ := hsum 0 0
    obtain ⟨N₂, D₂, k3⟩ := k2.normal
    exact ⟨F, _, _, k1, k3⟩
  · rw [if_neg h3]
    unfold prodLoop
    have hent : ∀ (r : Fin p) (c : Fin m), ∃ x, ((sumLoop E G.dt (fun ind => do
          let g ← TransferM.item E G r ind
          let h ← TransferM.item E H ind c
          TransferM.mul E g h) q).bind fun t => .ok (t.num.entry 0 0, t.den.entry 0 0) : Res (List K × List K)) = .ok x ∧ EntryNormal x := by
      intro r c
      obtain ⟨F, v, k1, k2⟩ := hsum r c
      obtain ⟨N₂, D₂, k3⟩ := k2.normal
      refine ⟨(F.num.entry 0 0, F.den.entry 0 0), by simp only [k1, Except.bind], ?_⟩
      rw [k3.num, k3.den, show (Arr.of N₂).entry 0 0 = N₂ 0 0 from entry_of N₂ 0 0, show (Arr.of D₂).entry 0 0 = D₂ 0 0 from entry_of D₂ 0 0]
      exact k3.entry 0 0
    obtain ⟨F, N₂, D₂, k1, k2, -⟩ := mkEntries_normal (E := E) hbal hthr hn.pos.1 hn'.pos.2 (dt := G.dt) hn.dt hent
    exact ⟨F, _, _, k1, k2⟩

theorem positive_aux (hbal : ∀ polys i, E.bal polys i ≠ 0) (hS : CoarseClass E.lcmTol S) {dt : Option K} (e : TExpr K p m) (hp : TPositive e)
    (ha : TAllModels (PositiveIn S dt) e) : ∃ R M, e.eval E = .ok R ∧ TGood S dt R p m M ∧ ∀ i j, RPos (M i j) := by
  induction e with
  | model G =>
    obtain ⟨h1, N, D, h2, h3, h4⟩ := ha
    have hc : TCls S G _ _ := NormalIn.tcls ⟨N, D, h2, h3⟩
    obtain ⟨M, hM⟩ := hc.hasVal hS
    have hg : TGood S dt G _ _ M := ⟨hc, hM, ⟨N, D, h2⟩, h1⟩
    refine ⟨G, M, rfl, hg, fun i j => ?_⟩
    obtain ⟨k1, k2⟩ := hg.entry h2 i j
    refine ⟨_, _, ?_, ?_, k2⟩
    · have h5 := h4 i j
      cases hN : N i j with
      | nil => rw [hN] at h5; simp at h5
      | cons a t =>
        rw [hN] at h5
        simp only [List.getD_cons_zero] at h5
        rw [leadingCoeff_toPoly_cons h5.ne']
        exact h5
    · rw [(hS.monic _ k1).leadingCoeff]; exact one_pos
  | add e f ih ih' =>
    obtain ⟨G, A, h1, h2, h3⟩ := ih hp.1 ha.1
    obtain ⟨H, B, h4, h5, h6⟩ := ih' hp.2 ha.2
    obtain ⟨F, k1, k2⟩ := h2.add hbal hS h5 (fun i j => Or.inr (h3 i j)) h6
    exact ⟨F, _, by simp only [TExpr.eval, h1, h4, Bind.bind, Except.bind, k1], k2, fun i j => (h3 i j).add (h6 i j)⟩
  | times e f ih ih' =>
    obtain ⟨G, A, h1, h2, h3⟩ := ih hp.1 ha.1
    obtain ⟨H, B, h4, h5, h6⟩ := ih' hp.2 ha.2
    obtain ⟨F, k1, k2⟩ := h2.times hbal hS h5
    exact ⟨F, _, by simp only [TExpr.eval, h1, h4, Bind.bind, Except.bind, k1], k2, fun i j => (h3 i j).mul (h6 i j)⟩
  | left e f ih ih' =>
    obtain ⟨G, A, h1, h2, h3⟩ := ih hp.1 ha.1
    obtain ⟨H, B, h4, h5, h6⟩ := ih' hp.2 ha.2
    have hA' : A = Matrix.of fun _ _ => A 0 0 := by
      ext i j
      rw [Subsingleton.elim i 0, Subsingleton.elim j 0]; rfl
    rw [hA'] at h2
    obtain ⟨F, k1, k2⟩ := h2.left hbal hS h5
    exact ⟨F, _, by simp only [TExpr.eval, h1, h4, Bind.bind, Except.bind, k1], k2, fun i j => (h3 0 0).mul (h6 i j)⟩
  | right e f ih ih' =>
    obtain ⟨G, A, h1, h2, h3⟩ := ih hp.1 ha.1
    obtain ⟨H, B, h4, h5, h6⟩ := ih' hp.2 ha.2
    have hB' : B = Matrix.of fun _ _ => B 0 0 := by
      ext i j
      rw [Subsingleton.elim i 0, Subsingleton.elim j 0]; rfl
    rw [hB'] at h5
    obtain ⟨F, k1, k2⟩ := h2.right hbal hS h5
    exact ⟨F, _, by simp only [TExpr.eval, h1, h4, Bind.bind, Except.bind, k1], k2, fun i j => (h6 0 0).mul (h3 i j)⟩
  | mul e f ih ih' =>
    obtain ⟨G, A, h1, h2, h3⟩ := ih hp.1 ha.1
    obtain ⟨H, B, h4, h5, h6⟩ := ih' hp.2 ha.2
    obtain ⟨F, k1, k2⟩ := h2.matmul hbal hS h5 h3 h6
    refine ⟨F, _, by simp only [TExpr.eval, h1, h4, Bind.bind, Except.bind, k1], k2, fun i j => ?_⟩
    rw [mul_apply]
    have hq := h2.cls.pos.2
    obtain ⟨q, rfl⟩ : ∃ q, _ = q + 1 := ⟨_, (Nat.sub_add_cancel hq).symm⟩
    refine Finset.sum_induction_nonempty _ RPos (fun _ _ => RPos.add) ⟨0, Finset.mem_univ _⟩ fun k _ => (h3 i k).mul (h6 k j)
  | scale k e ih =>
    obtain ⟨G, A, h1, h2, h3⟩ := ih hp.2 ha
    obtain ⟨N, D, hn⟩ := h2.normal
    obtain ⟨F, N', D', k1, k2, k3⟩ := mulScalar_normal hbal (CoarseClass.le_one hS) hn k
    refine ⟨F, algebraMap K (RatFunc K) k • A, by simp only [TExpr.eval, h1, Bind.bind, Except.bind, mulGain, k1], ⟨h2.cls.mulScalar hS k1,
      (mulScalar_valued (h2.cls.valued h2.val) k1).1.1, ⟨_, _, k2⟩, k3.trans h2.dt⟩, fun i j => ?_⟩
    rw [Matrix.smul_apply, smul_eq_mul]
    refine RPos.mul ⟨C k, 1, by simpa using hp.1, by simp, ?_⟩ (h3 i j)
    rw [map_one, div_one]
    rfl
  | neg e => exact hp.elim
  | sub e f => exact hp.elim
  | shift e k => exact hp.elim

theorem positive_normalIn {dt : Option K} (e : TExpr K p m) (ha : TAllModels (PositiveIn S dt) e) : TAllModels (NormalIn S) e := by
  induction e with
  | model G => obtain ⟨-, N, D, h2, h3, -⟩ := ha; exact ⟨N, D, h2, h3⟩
  | neg e ih => exact ih ha
  | scale k e ih => exact ih ha
  | shift e k ih => exact ih ha
  | sub e f ih ih' => exact ⟨ih ha.1, ih' ha.2⟩
  | add e f ih ih' => exact ⟨ih ha.1, ih' ha.2⟩
  | times e f ih ih' => exact ⟨ih ha.1, ih' ha.2⟩
  | left e f ih ih' => exact ⟨ih ha.1, ih' ha.2⟩
  | right e f ih ih' => exact ⟨ih ha.1, ih' ha.2⟩
  | mul e f ih ih' => exact ⟨ih ha.1, ih' ha.2⟩

/-- **C89**: a formula of any depth made of sums, products of both kinds and positive multiples over models whose numerators start with positive coefficients
returns, and the result has the value of the formula. Missing: as in `C89_value_partial` (without the signs leading terms may cancel). -/
theorem C89_positive_partial (hbal : ∀ polys i, E.bal polys i ≠ 0) (hS : CoarseClass E.lcmTol S) {dt : Option K} (e : TExpr K p m) (hp : TPositive e)
    (ha : TAllModels (PositiveIn S dt) e) : ∃ R, e.eval E = .ok R ∧ R.dt = dt ∧
      ∀ (L : Type) [Field L] [Algebra K L] (s : L) (M : Matrix (Fin p) (Fin m) L), TValue s e M → HasVal R p m s M := by
  obtain ⟨R, _, h1, h2, -⟩ := positive_aux hbal hS e hp ha
  exact ⟨R, h1, h2.dt, fun L _ _ s M hM => C89_value_partial hbal hS e (positive_normalIn e ha) h1 hM⟩

/-- **C89** fails: the formula `G + H` over `(s + 1)/(s + 2)` and `-s/(s + 2)` has the value `1/(s + 2)`, the code raises `ValueError`. -/
theorem C89_cancel_violated (E : TNum ℚ) (hbal : ∀ polys i, E.bal polys i ≠ 0) (hthr : E.lcmTol ≤ 1) :
    TAllModels (NormalIn (monicInt ℚ)) (.add (.model cancelG) (.model cancelH) : TExpr ℚ 1 1) ∧
    TValue (1 : ℚ) (.add (.model cancelG) (.model cancelH) : TExpr ℚ 1 1) !![1 / 3] ∧
    TExpr.eval E (.add (.model cancelG) (.model cancelH) : TExpr ℚ 1 1) = .error .value := by
  have hm : toPoly [(1 : ℚ), 2] ∈ monicInt ℚ := ⟨X + C 2, monic_X_add_C 2, by simp [toPoly]; rfl⟩
  refine ⟨⟨⟨_, _, normal_siso E (a := [1, 1]) (b := [1, 2]) (dt := none) (by simp) (Or.inr ⟨1, [1], rfl, by simp⟩) (by simp) dtOk_none, fun _ _ => hm⟩,
    ⟨_, _, normal_siso E (a := [-1, 0]) (b := [1, 2]) (dt := none) (by simp) (Or.inr ⟨-1, [0], rfl, by simp⟩) (by simp) dtOk_none, fun _ _ => hm⟩⟩, ?_, ?_⟩
  · refine ⟨!![2 / 3], !![-1 / 3], ⟨Matrix.of fun _ _ => [1, 1], Matrix.of fun _ _ => [1, 2], rfl, rfl, fun i j => ?_⟩,
      ⟨Matrix.of fun _ _ => [-1, 0], Matrix.of fun _ _ => [1, 2], rfl, rfl, fun i j => ?_⟩, ?_⟩
    · rw [Subsingleton.elim i 0, Subsingleton.elim j 0]
      refine ⟨?_, ?_⟩ <;> simp [polyAt, toPoly] <;> norm_num
    · rw [Subsingleton.elim i 0, Subsingleton.elim j 0]
      refine ⟨?_, ?_⟩ <;> simp [polyAt, toPoly] <;> norm_num
    · ext i j
      rw [Subsingleton.elim i 0, Subsingleton.elim j 0]
      simp; norm_num
  · simp only [TExpr.eval, Bind.bind, Except.bind]
    exact (C22_cancel_violated E hbal hthr).2.2

/-- The models and the formula `(2 * G + G * G) @ G` with `G = 1/(s + 1)` meet the hypotheses, with the threshold of the code. -/
example (E : TNum ℚ) (hbal : ∀ polys i, E.bal polys i ≠ 0) (hthr : E.lcmTol = 1 / 10 ^ 9) :
    let g : TExpr ℚ 1 1 := .model lagTf
    ∃ R, TExpr.eval E (.mul (.add (.scale 2 g) (.times g g)) g) = .ok R ∧ R.dt = none ∧ HasVal R 1 1 (1 : ℚ) !![5 / 8] := by
  intro g
  have hm : toPoly [(1 : ℚ), 1] ∈ monicInt ℚ := ⟨X + C 1, monic_X_add_C 1, by simp [toPoly]⟩
  have hg : PositiveIn (monicInt ℚ) none 1 1 lagTf := ⟨rfl, _, _, lagTf_normal E, fun _ _ => hm, fun _ _ => by simp⟩
  obtain ⟨R, h1, h2, h3⟩ := C89_positive_partial hbal (coarseClass_int (by rw [hthr]; norm_num)) (.mul (.add (.scale 2 g) (.times g g)) g)
    (by simp [TPositive, g]) ⟨⟨hg, hg, hg⟩, hg⟩
  have hv : HasVal lagTf 1 1 (1 : ℚ) !![1 / 2] := by
    refine ⟨Matrix.of fun _ _ => [1], Matrix.of fun _ _ => [1, 1], rfl, rfl, fun i j => ?_⟩
    rw [Subsingleton.elim i 0, Subsingleton.elim j 0]
    refine ⟨?_, ?_⟩ <;> simp [polyAt, toPoly] <;> norm_num
  refine ⟨R, h1, h2, h3 ℚ 1 _ ⟨!![5 / 4], !![1 / 2], ⟨!![1], !![1 / 4], ⟨!![1 / 2], hv, ?_⟩, ⟨_, _, hv, hv, ?_⟩, ?_⟩, hv, ?_⟩⟩ <;>
  · ext i j
    rw [Subsingleton.elim i 0, Subsingleton.elim j 0]
    simp [mul_apply]
    try norm_num

end Harold
