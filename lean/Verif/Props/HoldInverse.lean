import Verif.Lemmas.HoldInverse
import Verif.Props.Hold

/-!
# C83: `undiscretize` inverts the hold methods

`discretize` and then `undiscretize` with `'zoh'` or `'foh'` is the identity for models whose poles are below the Nyquist frequency, and
`undiscretize` and then `discretize` is the identity whenever the first returns.
-/

namespace Harold

open Matrix Harold.Spec NormedSpace

variable {P : Type} {N : Numerics ℝ P} {E : DNum} {G S R : StateObj ℝ P} {dt pw : ℝ}
  {q : Option (Arr ℝ)} {n m p : ℕ}
  {A : Matrix (Fin n) (Fin n) ℝ} {B : Matrix (Fin n) (Fin m) ℝ} {C : Matrix (Fin p) (Fin n) ℝ}
  {D : Matrix (Fin p) (Fin m) ℝ}

/-! ### What the four calls compute, in terms of `gam` -/

theorem smul_zohM : dt • zohM A B = blk (dt • A) (dt • B) 0 0 := by
  ext i j
  obtain ⟨i, rfl⟩ := finSumFinEquiv.surjective i
  obtain ⟨j, rfl⟩ := finSumFinEquiv.surjective j
  rcases i with i | i <;> rcases j with j | j <;> simp [zohM, blk, vcat, hcat]

theorem blk_left {r₁ r₂ c₁ c₂ : ℕ} (X : Matrix (Fin r₁) (Fin c₁) ℝ) (Y : Matrix (Fin r₁) (Fin c₂) ℝ) (Z : Matrix (Fin r₂) (Fin c₁) ℝ)
    (W : Matrix (Fin r₂) (Fin c₂) ℝ) : (blk X Y Z W).submatrix (Fin.castAdd r₂) (Fin.castAdd c₂) = X := by
  ext i j
  simp [blk]

theorem blk_right {r₁ r₂ c₁ c₂ : ℕ} (X : Matrix (Fin r₁) (Fin c₁) ℝ) (Y : Matrix (Fin r₁) (Fin c₂) ℝ) (Z : Matrix (Fin r₂) (Fin c₁) ℝ)
    (W : Matrix (Fin r₂) (Fin c₂) ℝ) : (blk X Y Z W).submatrix (Fin.castAdd r₂) (Fin.natAdd c₁) = Y := by
  ext i j
  simp [blk]

theorem hcat_left {r₁ c₁ c₂ : ℕ} (X : Matrix (Fin r₁) (Fin c₁) ℝ) (Y : Matrix (Fin r₁) (Fin c₂) ℝ) : (hcat X Y).submatrix id (Fin.castAdd c₂) = X := by
  ext i j
  simp [hcat]

theorem hcat_right {r₁ c₁ c₂ : ℕ} (X : Matrix (Fin r₁) (Fin c₁) ℝ) (Y : Matrix (Fin r₁) (Fin c₂) ℝ) : (hcat X Y).submatrix id (Fin.natAdd c₁) = Y := by
  ext i j
  simp [hcat]

theorem smul_blk {r₁ r₂ c₁ c₂ : ℕ} (t : ℝ) (X : Matrix (Fin r₁) (Fin c₁) ℝ) (Y : Matrix (Fin r₁) (Fin c₂) ℝ) (Z : Matrix (Fin r₂) (Fin c₁) ℝ)
    (W : Matrix (Fin r₂) (Fin c₂) ℝ) : t • blk X Y Z W = blk (t • X) (t • Y) (t • Z) (t • W) := by
  ext i j
  obtain ⟨i, rfl⟩ := finSumFinEquiv.surjective i
  obtain ⟨j, rfl⟩ := finSumFinEquiv.surjective j
  rcases i with i | i <;> rcases j with j | j <;> simp [blk]

theorem exp_cast {a b : ℕ} (h : b = a) (X : Matrix (Fin a) (Fin a) ℝ) :
    (exp X).submatrix (Fin.cast h) (Fin.cast h) = exp (X.submatrix (Fin.cast h) (Fin.cast h)) := by
  subst h
  rfl

/-- An index of three groups. -/
theorem three (i : Fin (n + (m + m))) : (∃ k, i = Fin.castAdd (m + m) k) ∨ (∃ k, i = Fin.natAdd n (Fin.castAdd m k)) ∨ ∃ k, i = Fin.natAdd n (Fin.natAdd m k) := by
  induction i using Fin.addCases with
  | left k => exact .inl ⟨k, rfl⟩
  | right k =>
    induction k using Fin.addCases with
    | left k => exact .inr (.inl ⟨k, rfl⟩)
    | right k => exact .inr (.inr ⟨k, rfl⟩)

theorem cast_1 (h : n + (m + m) = n + m + m) (k : Fin n) : Fin.cast h (Fin.castAdd (m + m) k) = Fin.castAdd m (Fin.castAdd m k) := rfl
theorem cast_2 (h : n + (m + m) = n + m + m) (k : Fin m) : Fin.cast h (Fin.natAdd n (Fin.castAdd m k)) = Fin.castAdd m (Fin.natAdd n k) := rfl
theorem cast_3 (h : n + (m + m) = n + m + m) (k : Fin m) : Fin.cast h (Fin.natAdd n (Fin.natAdd m k)) = Fin.natAdd (n + m) k :=
  Fin.ext (Nat.add_assoc n m k).symm

theorem fohX_eq : fohX A B dt = exp (blk (dt • A) (hcat (dt • B) 0) 0 (shiftN m)) := by
  rw [fohX, exp_cast]
  congr 1
  ext i j
  rw [submatrix_apply]
  rcases three i with ⟨i, rfl⟩ | ⟨i, rfl⟩ | ⟨i, rfl⟩ <;> rcases three j with ⟨j, rfl⟩ | ⟨j, rfl⟩ | ⟨j, rfl⟩ <;>
    rw [show (Fin.cast (Nat.add_assoc n m m).symm _) = _ from by first | exact cast_1 _ _ | exact cast_2 _ _ | exact cast_3 _ _,
      show (Fin.cast (Nat.add_assoc n m m).symm _) = _ from by first | exact cast_1 _ _ | exact cast_2 _ _ | exact cast_3 _ _] <;>
    simp [fohM, blk, vcat, hcat, shiftN, -Fin.natAdd_eq_addNat]

theorem discretize_zoh_gam (hE : BalanceOk E) (hdt : 0 < dt) (hG : G.g = ⟨Arr.of A, Arr.of B, Arr.of C, Arr.of D, none, false⟩) :
    ∃ S, discretize N E G dt "zoh" pw q = .ok S ∧
      S.g = ⟨Arr.of (exp (dt • A)), Arr.of (gam (dt • A) (dt • B) 0), Arr.of C, Arr.of D, some dt, false⟩ ∧ S.discWith = some "zoh" := by
  obtain ⟨S, h1, h2, h3⟩ := discretize_zoh_of (N := N) (pw := pw) (q := q) hE hdt hG
  rw [smul_zohM, exp_blk, blk_left, blk_right] at h2
  exact ⟨S, h1, h2, h3⟩

theorem discretize_foh_gam (hE : BalanceOk E) (hdt : 0 < dt) (hG : G.g = ⟨Arr.of A, Arr.of B, Arr.of C, Arr.of D, none, false⟩)
    {g : Matrix (Fin n) (Fin m) ℝ} (hg : gam (dt • A) (hcat (dt • B) 0) (shiftN m) = hcat (gam (dt • A) (dt • B) 0) g) :
    ∃ S, discretize N E G dt "foh" pw q = .ok S ∧
      S.g = ⟨Arr.of (exp (dt • A)), Arr.of (gam (dt • A) (dt • B) 0 + exp (dt • A) * g - g), Arr.of C, Arr.of (D + C * g), some dt, false⟩ ∧
      S.discWith = some "foh" := by
  obtain ⟨S, h1, h2, h3⟩ := discretize_foh_of (N := N) (pw := pw) (q := q) hE hdt hG
  have e1 : fohPhi A B dt = exp (dt • A) := by rw [fohPhi, fohX_eq, exp_blk, blk_left]
  have e2 : fohG1 A B dt = gam (dt • A) (dt • B) 0 := by rw [fohG1, fohX_eq, exp_blk, blk_right, hg, hcat_left]
  have e3 : fohG2 A B dt = g := by rw [fohG2, fohX_eq, exp_blk, blk_right, hg, hcat_right]
  rw [e1, e2, e3] at h2
  exact ⟨S, h1, h2, h3⟩

theorem eye_of : (Arr.eye m : Arr ℝ) = Arr.of (1 : Matrix (Fin m) (Fin m) ℝ) := rfl
theorem zeros_of {k : ℕ} : (Arr.zeros k m : Arr ℝ) = Arr.of (0 : Matrix (Fin k) (Fin m) ℝ) := rfl

theorem vcat_hcat_blk {r₁ r₂ c₁ c₂ : ℕ} (X : Matrix (Fin r₁) (Fin c₁) ℝ) (Y : Matrix (Fin r₁) (Fin c₂) ℝ) (Z : Matrix (Fin r₂) (Fin c₁) ℝ)
    (W : Matrix (Fin r₂) (Fin c₂) ℝ) : vcat (hcat X Y) (hcat Z W) = blk X Y Z W := by
  ext i j
  obtain ⟨i, rfl⟩ := finSumFinEquiv.surjective i
  obtain ⟨j, rfl⟩ := finSumFinEquiv.surjective j
  rcases i with i | i <;> rcases j with j | j <;> simp [vcat, hcat, blk]

/-- `[[A, B], [0, I]]`. -/
def zohL (A : Matrix (Fin n) (Fin n) ℝ) (B : Matrix (Fin n) (Fin m) ℝ) : Matrix (Fin (n + m)) (Fin (n + m)) ℝ := blk A B 0 1

/-- `[[A, B dt, 0], [0, I, I], [0, 0, I]]`. -/
def fohL (A : Matrix (Fin n) (Fin n) ℝ) (B : Matrix (Fin n) (Fin m) ℝ) (dt : ℝ) : Matrix (Fin (n + (m + m))) (Fin (n + (m + m))) ℝ :=
  blk A (hcat (dt • B) 0) 0 (blk 1 1 0 1)

theorem undiscZoh_eq : undiscZoh E ⟨Arr.of A, Arr.of B, Arr.of C, Arr.of D, some dt, false⟩ dt
    = if E.nearZero (Arr.of A) then .error .value
      else (balLog E (Arr.of (zohL A B)) dt).bind fun Z => .ok ((topBlocks Z n).1, (topBlocks Z n).2, Arr.of C, Arr.of D) := by
  unfold undiscZoh
  simp only [StateM.n, StateM.m, eye_of, zeros_of, Arr.hstack_of, Bind.bind, Except.bind]
  have e : Arr.vstack (Arr.of (hcat A B)) (Arr.of (hcat (0 : Matrix (Fin m) (Fin n) ℝ) (1 : Matrix (Fin m) (Fin m) ℝ))) = .ok (Arr.of (zohL A B)) := by
    rw [Arr.vstack_of, vcat_hcat_blk, zohL]
  simp only [Arr.of] at e ⊢
  rw [e]

theorem fohL_vstack : (do
    let t12 ← Arr.vstack (Arr.of (hcat (hcat A (dt • B)) (0 : Matrix (Fin n) (Fin m) ℝ)))
      (Arr.of (hcat (hcat (0 : Matrix (Fin m) (Fin n) ℝ) (1 : Matrix (Fin m) (Fin m) ℝ)) (1 : Matrix (Fin m) (Fin m) ℝ)))
    Arr.vstack t12 (Arr.of (hcat (0 : Matrix (Fin m) (Fin (n + m)) ℝ) (1 : Matrix (Fin m) (Fin m) ℝ)))) = .ok (Arr.of (fohL A B dt)) := by
  rw [Arr.vstack_of]
  simp only [Bind.bind, Except.bind]
  rw [Arr.vstack_of]
  congr 1
  symm
  refine Arr.ext_cast (Nat.add_assoc n m m).symm (Nat.add_assoc n m m).symm fun i j => ?_
  change fohL A B dt i j = _
  rcases three i with ⟨i, rfl⟩ | ⟨i, rfl⟩ | ⟨i, rfl⟩ <;> rcases three j with ⟨j, rfl⟩ | ⟨j, rfl⟩ | ⟨j, rfl⟩ <;>
    rw [show (Fin.cast (Nat.add_assoc n m m).symm _) = _ from by first | exact cast_1 _ _ | exact cast_2 _ _ | exact cast_3 _ _,
      show (Fin.cast (Nat.add_assoc n m m).symm _) = _ from by first | exact cast_1 _ _ | exact cast_2 _ _ | exact cast_3 _ _] <;>
    simp [fohL, blk, vcat, hcat, -Fin.natAdd_eq_addNat]

/-- The steps of `undiscFoh` after its first logarithm. -/
noncomputable def fohTail (E : DNum) (A : Matrix (Fin n) (Fin n) ℝ) (C : Matrix (Fin p) (Fin n) ℝ) (D : Matrix (Fin p) (Fin m) ℝ) (dt : ℝ) (eM : Arr ℝ) :
    Res (Arr ℝ × Arr ℝ × Arr ℝ × Arr ℝ) := do
  let ac := (topBlocks eM n).1
  let right := (topBlocks eM n).2
  let bc0 := (right.cut4 n m).1
  let bc1 := ((right.cut4 n m).2.1).neg
  let top ← Arr.hstack (Arr.of A) bc0
  let bot ← Arr.hstack (Arr.zeros m n) (Arr.eye m)
  let M' ← Arr.vstack top bot
  let eM' ← balLog E M' dt
  let x ← (Arr.of C).matmul bc1
  let dc ← (Arr.of D).sub x
  .ok (ac, (topBlocks eM' n).2, Arr.of C, dc)

theorem undiscFoh_eq : undiscFoh E ⟨Arr.of A, Arr.of B, Arr.of C, Arr.of D, some dt, false⟩ dt
    = if E.nearZero (Arr.of A) then .error .value
      else (balLog E (Arr.of (fohL A B dt)) dt).bind fun Z => fohTail E A C D dt Z := by
  unfold undiscFoh
  have e := fohL_vstack (A := A) (B := B) (dt := dt)
  obtain ⟨T, h1, h2⟩ := bind_ok e
  simp only [fohTail, StateM.n, StateM.m, eye_of, zeros_of, Arr.smul_of, Arr.hstack_of, Bind.bind, Except.bind]
  simp only [Arr.of] at h1 h2 ⊢
  simp only [h1, h2]

theorem fohTail_of (Z11 : Matrix (Fin n) (Fin n) ℝ) (x y : Matrix (Fin n) (Fin m) ℝ) (U : Matrix (Fin (m + m)) (Fin n) ℝ)
    (V : Matrix (Fin (m + m)) (Fin (m + m)) ℝ) :
    fohTail E A C D dt (Arr.of (blk Z11 (hcat x y) U V))
      = (balLog E (Arr.of (zohL A x)) dt).bind fun W => .ok (Arr.of Z11, (topBlocks W n).2, Arr.of C, Arr.of (D + C * y)) := by
  unfold fohTail
  rw [topBlocks_of, blk_left, blk_right]
  simp only [(cut4_full (hcat x y)).1, (cut4_full (hcat x y)).2, hcat_left, hcat_right, eye_of, zeros_of, Arr.hstack_of, Bind.bind, Except.bind, Arr.neg_of,
    Arr.matmul_of, Arr.sub_of]
  rw [Arr.vstack_of, vcat_hcat_blk]
  simp only [zohL, Matrix.mul_neg, sub_neg_eq_add]

/-! ### The principal logarithms -/

theorem imBelow_smul (hdt : 0 < dt) : ImBelow Real.pi (dt • A) ↔ ImBelow (Real.pi / dt) A := by
  have hd : (dt : ℂ) ≠ 0 := by exact_mod_cast hdt.ne'
  have key : ∀ z : ℂ, IsEig (dt • A) z ↔ IsEig A (z / dt) := fun z => by
    rw [← isEig_scale hd, IsEig, map_smul']
    rfl
  have him : ∀ z : ℂ, (z / dt).im = z.im / dt := fun z => by simp [Complex.div_im, Complex.normSq_ofReal]; field_simp
  constructor
  · intro h z hz
    have h1 := h (z * dt) ((key _).mpr (by rwa [mul_div_cancel_right₀ _ hd]))
    rw [Complex.im_mul_ofReal, abs_mul, abs_of_pos hdt] at h1
    rwa [lt_div_iff₀ hdt]
  · intro h z hz
    have h1 := h _ ((key z).mp hz)
    rw [him, abs_div, abs_of_pos hdt] at h1
    exact (div_lt_div_iff_of_pos_right hdt).mp h1

/-- The logarithm of a block triangular matrix is block triangular. -/
theorem log_blk {k : ℕ} {X : Matrix (Fin (n + k)) (Fin (n + k)) ℝ} {R : Matrix (Fin n) (Fin k) ℝ} {J Nl : Matrix (Fin k) (Fin k) ℝ}
    (hJ : IsPrincipalLog Nl J) (hX : IsPrincipalLog X (blk A R 0 J)) :
    ∃ X11 X12, X = blk X11 X12 0 Nl ∧ IsPrincipalLog X11 A ∧ gam X11 X12 Nl = R := by
  have h := strip_real hJ.2 hX.2 (Z := hcat (0 : Matrix (Fin k) (Fin n) ℝ) 1) (by
    rw [hJ.1, hX.1, hcat_mul_blk, mul_hcat]; simp)
  rw [blk_of_submatrix X, hcat_mul_blk, mul_hcat] at h
  simp only [Matrix.mul_one, Matrix.mul_zero, Matrix.one_mul, Matrix.zero_mul, add_zero, zero_add] at h
  obtain ⟨e1, e2⟩ := hcat_inj h
  have e := blk_of_submatrix X
  rw [← e1, ← e2] at e
  obtain ⟨hX1, hX2⟩ := hX
  rw [e, exp_blk] at hX1
  rw [e] at hX2
  exact ⟨_, _, e, ⟨(blk_inj hX1).1, (imBelow_blk.mp hX2).1⟩, (blk_inj hX1).2.1⟩

theorem log_one : IsPrincipalLog (0 : Matrix (Fin m) (Fin m) ℝ) 1 := ⟨exp_zero, imBelow_zero⟩

theorem log_shift : IsPrincipalLog (shiftN m) (blk 1 1 0 1) := ⟨exp_shiftN, imBelow_shiftN⟩

theorem log_of_blk {k : ℕ} {R : Matrix (Fin n) (Fin k) ℝ} {J Nl : Matrix (Fin k) (Fin k) ℝ} (hA : ImBelow Real.pi A) (hJ : IsPrincipalLog Nl J) :
    IsPrincipalLog (blk A R 0 Nl) (blk (exp A) (gam A R Nl) 0 J) :=
  ⟨by rw [exp_blk, hJ.1], imBelow_blk.mpr ⟨hA, hJ.2⟩⟩

/-! ### The theorems -/

/-- All poles of the model are below the Nyquist frequency `π / dt` (rad/s). -/
def BelowNyquist (g : StateM ℝ) (dt : ℝ) : Prop :=
  ∃ (n : ℕ) (A : Matrix (Fin n) (Fin n) ℝ), g.a = Arr.of A ∧ ∀ z : ℂ, IsEig A z → |z.im| < Real.pi / dt

theorem BelowNyquist.of {g : StateM ℝ} (h : BelowNyquist g dt) (hA : g.a = Arr.of A) : ImBelow (Real.pi / dt) A := by
  obtain ⟨k, A', h1, h2⟩ := h
  rw [hA] at h1
  obtain rfl : n = k := congrArg Arr.r h1
  rw [Arr.of_inj] at h1
  subst h1
  exact h2

theorem undisc_pre {mth : Option String} (h : undiscretize N E S mth pw q = .ok R) : ∃ dt, S.g.dt = some dt ∧ S.g.isgain = false := by
  unfold undiscretize at h
  cases hd : S.g.dt with
  | none => rw [hd] at h; cases h
  | some t =>
    refine ⟨t, rfl, ?_⟩
    rw [hd] at h
    obtain ⟨q', -, h⟩ := bind_ok h
    cases hg : S.g.isgain with
    | true => rw [hg] at h; cases h
    | false => rfl

theorem undisc_hold {mth : Option String} {name : String} (hn : name = "zoh" ∨ name = "foh") (hm : undiscMethod S mth = name) (hd : S.g.dt = some dt)
    (hg : S.g.isgain = false) :
    undiscretize N E S mth pw q = (undiscretizeArgs E S.g dt name pw q).bind fun r =>
      StateObj.init N (some r.1) (some r.2.1) (some r.2.2.1) (some r.2.2.2) none := by
  unfold undiscretize
  rw [hd]
  have hq : undiscQ S name q = .ok q := by
    rcases hn with rfl | rfl <;> simp [undiscQ]
  simp only [hm, hq, hg, Bind.bind, Except.bind, Bool.false_eq_true, if_false]

/-- **C83**, zero-order hold: if the poles of `G` are below the Nyquist frequency, `undiscretize(discretize(G, dt, 'zoh'))` returns the matrices
of `G`, unless the test for poles near the origin refuses the discretized model. -/
theorem C83_zoh (hE : BalanceOk E) (hL : LogmOk E) (hG : Consistent G.g p m) (hg : G.g.isgain = false) (hny : BelowNyquist G.g dt)
    (h : discretize N E G dt "zoh" pw q = .ok S) {mth : Option String} (hm : mth = none ∨ mth = some "zoh") (pw' : ℝ) (q' : Option (Arr ℝ)) :
    (E.nearZero S.g.a = false → ∃ R, undiscretize N E S mth pw' q' = .ok R ∧ R.g = G.g) ∧
    (E.nearZero S.g.a = true → undiscretize N E S mth pw' q' = .error .value) := by
  obtain ⟨hk, hdt0, hdt⟩ := discretize_pre h
  obtain ⟨a, b, c, D, dt', hG'⟩ | ⟨n, A, B, C, D, dt', hG'⟩ := consistent_cases hG
  · rw [hG'] at hg; cases hg
  rw [hG'] at hdt0
  simp only at hdt0
  subst hdt0
  obtain ⟨S', h1, h2, h3⟩ := discretize_zoh_gam (N := N) (pw := pw) (q := q) hE hdt hG'
  rw [h] at h1
  cases h1
  have hA := (imBelow_smul hdt).mpr (hny.of (by rw [hG']))
  have hm' : undiscMethod S mth = "zoh" := by rcases hm with rfl | rfl <;> simp [undiscMethod, h3]
  have hl : balLog E (Arr.of (zohL (exp (dt • A)) (gam (dt • A) (dt • B) 0))) dt = .ok (Arr.of (blk A B (0 : Matrix (Fin m) (Fin n) ℝ) 0)) := by
    rw [zohL, balLog_of hE hL (log_of_blk hA log_one), smul_blk]
    simp [smul_smul, hdt.ne']
  rw [undisc_hold (.inl rfl) hm' (by rw [h2]) (by rw [h2])]
  have hu : undiscretizeArgs E S.g dt "zoh" pw' q' = undiscZoh E S.g dt := by simp [undiscretizeArgs]
  rw [hu, h2, undiscZoh_eq]
  constructor
  · intro hn
    rw [hn, hl]
    obtain ⟨R, e1, e2⟩ := init_of (N := N) (dt' := none) dtOk_none A B C D
    refine ⟨R, ?_, by rw [e2, hG']⟩
    simp only [Bool.false_eq_true, if_false, Except.bind, topBlocks_of, blk_left, blk_right, e1]
  · intro hn
    rw [hn]
    rfl

/-- **C83**, zero-order hold, the other direction: whenever `undiscretize(S, 'zoh')` returns, the result has its poles below the Nyquist frequency and
`discretize` with the sampling period of `S` returns the matrices of `S`. -/
theorem C83_zoh_converse (hE : BalanceOk E) (hL : LogmOk E) (hS : Consistent S.g p m) (hdt : DtOk S.g.dt) {pw' : ℝ} {q' : Option (Arr ℝ)}
    (h : undiscretize N E S (some "zoh") pw' q' = .ok R) :
    ∃ t S', S.g.dt = some t ∧ BelowNyquist R.g t ∧ discretize N E R t "zoh" pw q = .ok S' ∧ S'.g = S.g := by
  obtain ⟨t, hd, hg⟩ := undisc_pre h
  have ht : 0 < t := hdt t hd
  obtain ⟨a, b, c, D, dt', hS'⟩ | ⟨n, A, B, C, D, dt', hS'⟩ := consistent_cases hS
  · rw [hS'] at hg; cases hg
  rw [hS'] at hd
  simp only at hd
  subst hd
  rw [undisc_hold (dt := t) (.inl rfl) rfl (by rw [hS']) hg] at h
  have hu : undiscretizeArgs E S.g t "zoh" pw' q' = undiscZoh E S.g t := by simp [undiscretizeArgs]
  rw [hu, hS', undiscZoh_eq] at h
  obtain ⟨r, h1, h2⟩ := bind_ok h
  cases hn : E.nearZero (Arr.of A) with
  | true => rw [hn] at h1; cases h1
  | false =>
    rw [hn] at h1
    simp only [Bool.false_eq_true, if_false] at h1
    obtain ⟨Z, h3, h4⟩ := bind_ok h1
    obtain ⟨X, hX, rfl⟩ := balLog_inv hE hL h3
    obtain ⟨X11, X12, rfl, hX1, hX2⟩ := log_blk log_one hX
    rw [smul_blk, topBlocks_of, blk_left, blk_right] at h4
    obtain rfl := Except.ok.inj h4
    obtain ⟨R', e1, e2⟩ := init_of (N := N) (dt' := none) dtOk_none ((1 / t) • X11) ((1 / t) • X12) C D
    simp only at h2
    rw [e1] at h2
    obtain rfl := Except.ok.inj h2
    obtain ⟨S', e3, e4, -⟩ := discretize_zoh_gam (N := N) (pw := pw) (q := q) hE ht e2
    have hs : ∀ {k : ℕ} (Y : Matrix (Fin n) (Fin k) ℝ), t • (1 / t) • Y = Y := fun Y => by rw [smul_smul, mul_one_div_cancel ht.ne', one_smul]
    refine ⟨t, S', by rw [hS'], ⟨n, _, by rw [e2], ?_⟩, e3, ?_⟩
    · have := hX1.2
      rw [← hs X11] at this
      exact (imBelow_smul ht).mp this
    · rw [e4, hs, hs, hX1.1, hX2, hS']

/-- **C83**, first-order hold: if the poles of `G` are below the Nyquist frequency, `undiscretize(discretize(G, dt, 'foh'))` returns the matrices
of `G`, unless the test for poles near the origin refuses the discretized model. -/
theorem C83_foh (hE : BalanceOk E) (hL : LogmOk E) (hG : Consistent G.g p m) (hg : G.g.isgain = false) (hny : BelowNyquist G.g dt)
    (h : discretize N E G dt "foh" pw q = .ok S) {mth : Option String} (hm : mth = none ∨ mth = some "foh") (pw' : ℝ) (q' : Option (Arr ℝ)) :
    (E.nearZero S.g.a = false → ∃ R, undiscretize N E S mth pw' q' = .ok R ∧ R.g = G.g) ∧
    (E.nearZero S.g.a = true → undiscretize N E S mth pw' q' = .error .value) := by
  obtain ⟨hk, hdt0, hdt⟩ := discretize_pre h
  obtain ⟨a, b, c, D, dt', hG'⟩ | ⟨n, A, B, C, D, dt', hG'⟩ := consistent_cases hG
  · rw [hG'] at hg; cases hg
  rw [hG'] at hdt0
  simp only at hdt0
  subst hdt0
  obtain ⟨g, hg1, hg2⟩ := gam_foh (dt • A) (dt • B)
  obtain ⟨S', h1, h2, h3⟩ := discretize_foh_gam (N := N) (pw := pw) (q := q) hE hdt hG' hg1
  rw [h] at h1
  cases h1
  have hA := (imBelow_smul hdt).mpr (hny.of (by rw [hG']))
  have hm' : undiscMethod S mth = "foh" := by rcases hm with rfl | rfl <;> simp [undiscMethod, h3]
  have hs : ∀ {k : ℕ} (Y : Matrix (Fin n) (Fin k) ℝ), (1 / dt) • dt • Y = Y := fun Y => by rw [smul_smul, one_div_mul_cancel hdt.ne', one_smul]
  have hl : balLog E (Arr.of (fohL (exp (dt • A)) (gam (dt • A) (dt • B) 0 + exp (dt • A) * g - g) dt)) dt
      = .ok (Arr.of (blk A (hcat (gam (dt • A) (dt • B) 0) (-g)) 0 ((1 / dt) • shiftN m))) := by
    rw [fohL, ← gam_unfoh (dt • A) (dt • B) g dt hg1 hg2, balLog_of hE hL (log_of_blk hA log_shift), smul_blk, smul_hcat', smul_neg, hs, hs, hs, smul_zero]
  have hl2 : balLog E (Arr.of (zohL (exp (dt • A)) (gam (dt • A) (dt • B) 0))) dt = .ok (Arr.of (blk A B (0 : Matrix (Fin m) (Fin n) ℝ) 0)) := by
    rw [zohL, balLog_of hE hL (log_of_blk hA log_one), smul_blk, hs, hs]
    simp
  rw [undisc_hold (.inr rfl) hm' (by rw [h2]) (by rw [h2])]
  have hu : undiscretizeArgs E S.g dt "foh" pw' q' = undiscFoh E S.g dt := by simp [undiscretizeArgs]
  rw [hu, h2, undiscFoh_eq]
  constructor
  · intro hn
    rw [hn, hl]
    obtain ⟨R, e1, e2⟩ := init_of (N := N) (dt' := none) dtOk_none A B C D
    refine ⟨R, ?_, by rw [e2, hG']⟩
    simp only [Bool.false_eq_true, if_false, Except.bind, fohTail_of, hl2, topBlocks_of, blk_right, Matrix.mul_neg, add_neg_cancel_right, e1]
  · intro hn
    rw [hn]
    rfl

/-- **C83**, first-order hold, the other direction: whenever `undiscretize(S, 'foh')` returns, the result has its poles below the Nyquist frequency and
`discretize` with the sampling period of `S` returns the matrices of `S`. -/
theorem C83_foh_converse (hE : BalanceOk E) (hL : LogmOk E) (hS : Consistent S.g p m) (hdt : DtOk S.g.dt) {pw' : ℝ} {q' : Option (Arr ℝ)}
    (h : undiscretize N E S (some "foh") pw' q' = .ok R) :
    ∃ t S', S.g.dt = some t ∧ BelowNyquist R.g t ∧ discretize N E R t "foh" pw q = .ok S' ∧ S'.g = S.g := by
  obtain ⟨t, hd, hg⟩ := undisc_pre h
  have ht : 0 < t := hdt t hd
  obtain ⟨a, b, c, D, dt', hS'⟩ | ⟨n, A, B, C, D, dt', hS'⟩ := consistent_cases hS
  · rw [hS'] at hg; cases hg
  rw [hS'] at hd
  simp only at hd
  subst hd
  rw [undisc_hold (dt := t) (.inr rfl) rfl (by rw [hS']) hg] at h
  have hu : undiscretizeArgs E S.g t "foh" pw' q' = undiscFoh E S.g t := by simp [undiscretizeArgs]
  rw [hu, hS', undiscFoh_eq] at h
  obtain ⟨r, h1, h2⟩ := bind_ok h
  cases hn : E.nearZero (Arr.of A) with
  | true => rw [hn] at h1; cases h1
  | false =>
    rw [hn] at h1
    simp only [Bool.false_eq_true, if_false] at h1
    obtain ⟨Z, h3, h4⟩ := bind_ok h1
    obtain ⟨X, hX, rfl⟩ := balLog_inv hE hL h3
    have hX0 := hX
    obtain ⟨X11, X12, rfl, hX1, hX2⟩ := log_blk log_shift hX
    obtain ⟨x, y, rfl⟩ := exists_hcat' X12
    rw [smul_blk, smul_hcat', fohTail_of] at h4
    obtain ⟨W, h5, h6⟩ := bind_ok h4
    obtain ⟨Y, hY, rfl⟩ := balLog_inv hE hL h5
    obtain ⟨Y11, Y12, rfl, hY1, hY2⟩ := log_blk log_one hY
    obtain rfl : X11 = Y11 := principal_unique hX1 hY1
    rw [smul_blk, topBlocks_of, blk_right] at h6
    obtain rfl := Except.ok.inj h6
    obtain ⟨R', e1, e2⟩ := init_of (N := N) (dt' := none) dtOk_none ((1 / t) • X11) ((1 / t) • Y12) C (D + C * (1 / t) • y)
    simp only at h2
    rw [e1] at h2
    obtain rfl := Except.ok.inj h2
    have hs : ∀ {k : ℕ} (Y : Matrix (Fin n) (Fin k) ℝ), t • (1 / t) • Y = Y := fun Y => by rw [smul_smul, mul_one_div_cancel ht.ne', one_smul]
    obtain ⟨g, hg1, hg2⟩ := gam_foh X11 Y12
    obtain ⟨S', e3, e4, -⟩ := discretize_foh_gam (N := N) (pw := pw) (q := q) hE ht e2 (g := g) (by rw [hs, hs, hg1])
    rw [hs, hs] at e4
    have hun := gam_unfoh X11 Y12 g t hg1 hg2
    obtain ⟨g1, hf1⟩ := gam_first X11 x y
    obtain ⟨g2, hf2⟩ := gam_first X11 (t • gam X11 Y12 0) (-(t • g))
    have hx : t • gam X11 Y12 0 = x := by rw [hY2, hs]
    rw [hX2] at hf1
    rw [hun, hx] at hf2
    have hB : t • B = t • (gam X11 Y12 0 + exp X11 * g - g) := (hcat_inj hf1).1.trans (hcat_inj hf2).1.symm
    have hB' : gam X11 Y12 0 + exp X11 * g - g = B := by
      have := congrArg (fun Y => (1 / t) • Y) hB
      simpa [smul_smul, ht.ne'] using this.symm
    have hlog := log_of_blk (R := hcat (t • gam X11 Y12 0) (-(t • g))) hX1.2 log_shift
    rw [hun, hB', hX1.1] at hlog
    have hu := principal_unique hX0 hlog
    have hy : y = -(t • g) := (hcat_inj (blk_inj hu).2.1).2
    refine ⟨t, S', by rw [hS'], ⟨n, _, by rw [e2], ?_⟩, e3, ?_⟩
    · have := hX1.2
      rw [← hs X11] at this
      exact (imBelow_smul ht).mp this
    · rw [e4, hB', hX1.1, hS', hy]
      congr 2
      rw [smul_neg, smul_smul, one_div_mul_cancel ht.ne', one_smul, Matrix.mul_neg, add_assoc, neg_add_cancel, add_zero]

/-- The restriction to poles below the Nyquist frequency is necessary: the result of `undiscretize` with a hold method is never a model with a pole
beyond it. -/
theorem C83_alias (hE : BalanceOk E) (hL : LogmOk E) (hG : Consistent G.g p m) (hg : G.g.isgain = false) {name : String}
    (hn : name = "zoh" ∨ name = "foh") (hny : ¬ BelowNyquist G.g dt)
    (h : discretize N E G dt name pw q = .ok S) {pw' : ℝ} {q' : Option (Arr ℝ)} (hu : undiscretize N E S (some name) pw' q' = .ok R) : R.g ≠ G.g := by
  obtain ⟨hk, hdt0, hdt⟩ := discretize_pre h
  obtain ⟨a, b, c, D, dt', hG'⟩ | ⟨n, A, B, C, D, dt', hG'⟩ := consistent_cases hG
  · rw [hG'] at hg; cases hg
  rw [hG'] at hdt0
  simp only at hdt0
  subst hdt0
  have key : Consistent S.g p m ∧ S.g.dt = some dt := by
    rcases hn with rfl | rfl
    · obtain ⟨S', h1, h2, h3⟩ := discretize_zoh_gam (N := N) (pw := pw) (q := q) hE hdt hG'
      rw [h] at h1
      cases h1
      rw [h2]
      exact ⟨⟨⟨rfl, rfl⟩, fun _ => ⟨rfl, rfl, rfl, rfl, rfl⟩⟩, rfl⟩
    · obtain ⟨g, hg1, hg2⟩ := gam_foh (dt • A) (dt • B)
      obtain ⟨S', h1, h2, h3⟩ := discretize_foh_gam (N := N) (pw := pw) (q := q) hE hdt hG' hg1
      rw [h] at h1
      cases h1
      rw [h2]
      exact ⟨⟨⟨rfl, rfl⟩, fun _ => ⟨rfl, rfl, rfl, rfl, rfl⟩⟩, rfl⟩
  have hd : DtOk S.g.dt := fun t e => by
    rw [key.2] at e
    cases e
    exact hdt
  have hR : BelowNyquist R.g dt := by
    rcases hn with rfl | rfl
    · obtain ⟨t, -, e, hb, -⟩ := C83_zoh_converse (pw := pw) (q := q) hE hL key.1 hd hu
      rw [key.2] at e
      cases e
      exact hb
    · obtain ⟨t, -, e, hb, -⟩ := C83_foh_converse (pw := pw) (q := q) hE hL key.1 hd hu
      rw [key.2] at e
      cases e
      exact hb
  intro e
  rw [e] at hR
  exact hny hR

/-! ### Non-vacuity -/

open Classical in
/-- Routines that meet the contracts. -/
noncomputable def exactDNum : DNum where
  balance M := (M, fun _ => 1)
  logm M := if h : ∃ X, IsPrincipalLog X M then some h.choose else none
  nearZero _ := false

theorem exactDNum_ok : BalanceOk exactDNum ∧ LogmOk exactDNum := by
  refine ⟨fun M => ⟨fun _ => one_ne_zero, fun i j => by simp [exactDNum]⟩, fun {n} M => ⟨fun X h => ?_, fun X h => ?_⟩⟩
  · simp only [exactDNum] at h
    split_ifs at h with h1
    cases h
    exact h1.choose_spec
  · exact ⟨_, by simp only [exactDNum]; rw [dif_pos ⟨X, h⟩]⟩

/-- The undamped oscillator with frequency 1 rad/s. -/
def oscObj (P : Type) : StateObj ℝ P :=
  { lagObj P with g := ⟨Arr.of !![0, 1; -1, 0], Arr.of !![0; 1], Arr.of !![1, 0], Arr.of !![0], none, false⟩ }

/-- Sampled with period 1 the oscillator is below the Nyquist frequency, and both round trips hold for it. -/
example : BelowNyquist (oscObj P).g 1 ∧ ∀ name, name = "zoh" ∨ name = "foh" → ∃ S R : StateObj ℝ P,
    discretize N exactDNum (oscObj P) 1 name 0 none = .ok S ∧ undiscretize N exactDNum S none 0 none = .ok R ∧ R.g = (oscObj P).g := by
  have hny : BelowNyquist (oscObj P).g 1 := by
    refine ⟨2, _, rfl, fun z hz => ?_⟩
    have h1 : z ^ 2 + 1 = 0 := by
      have := hz
      rw [IsEig, det_fin_two] at this
      simp at this
      linear_combination this
    have h2 : (z - Complex.I) * (z + Complex.I) = 0 := by linear_combination h1 - Complex.I_sq
    have hpi := Real.two_le_pi
    rcases mul_eq_zero.mp h2 with h | h
    · rw [sub_eq_zero.mp h]
      simp
      linarith
    · rw [eq_neg_of_add_eq_zero_left h]
      simp
      linarith
  refine ⟨hny, ?_⟩
  have hc : Consistent (oscObj P).g 1 1 := ⟨⟨rfl, rfl⟩, fun _ => ⟨rfl, rfl, rfl, rfl, rfl⟩⟩
  rintro name (rfl | rfl)
  · obtain ⟨S, h1, h2, -⟩ := discretize_zoh_gam (N := N) (G := oscObj P) (pw := 0) (q := none) exactDNum_ok.1 one_pos rfl
    obtain ⟨R, h3, h4⟩ := (C83_zoh exactDNum_ok.1 exactDNum_ok.2 hc rfl hny h1 (.inl rfl) 0 none).1 rfl
    exact ⟨S, R, h1, h3, h4⟩
  · obtain ⟨g, hg1, -⟩ := gam_foh ((1 : ℝ) • !![(0 : ℝ), 1; -1, 0]) ((1 : ℝ) • !![(0 : ℝ); 1])
    obtain ⟨S, h1, h2, -⟩ := discretize_foh_gam (N := N) (G := oscObj P) (pw := 0) (q := none) exactDNum_ok.1 one_pos rfl hg1
    obtain ⟨R, h3, h4⟩ := (C83_foh exactDNum_ok.1 exactDNum_ok.2 hc rfl hny h1 (.inl rfl) 0 none).1 rfl
    exact ⟨S, R, h1, h3, h4⟩

/-- Sampled with period 4 it is beyond the Nyquist frequency, so `C83_alias` applies. -/
example : ¬ BelowNyquist (oscObj P).g 4 := by
  intro h
  have h1 := h.of (A := !![0, 1; -1, 0]) rfl Complex.I (by
    rw [IsEig, det_fin_two]
    simp)
  have := Real.pi_le_four
  simp at h1
  linarith

end Harold
