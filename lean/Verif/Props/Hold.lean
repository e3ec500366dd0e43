import Verif.Lemmas.Expm
import Verif.Props.Discrete
import Mathlib.Analysis.SpecialFunctions.ExpDeriv

/-!
# C34, C35: hold equivalents are exact
-/

namespace Harold

open Matrix Harold.Spec NormedSpace Set

variable {P : Type} {N : Numerics ℝ P} {E : DNum} {G S : StateObj ℝ P} {dt pw : ℝ}
  {q : Option (Arr ℝ)} {n m p : ℕ}
  {A : Matrix (Fin n) (Fin n) ℝ} {B : Matrix (Fin n) (Fin m) ℝ} {C : Matrix (Fin p) (Fin n) ℝ}
  {D : Matrix (Fin p) (Fin m) ℝ}

/-- `[[A, B], [0, 0]]`. -/
def zohM (A : Matrix (Fin n) (Fin n) ℝ) (B : Matrix (Fin n) (Fin m) ℝ) :
    Matrix (Fin (n + m)) (Fin (n + m)) ℝ := vcat (hcat A B) 0

theorem zohM_mulVec (x : Fin n → ℝ) (u : Fin m → ℝ) :
    zohM A B *ᵥ Fin.append x u = Fin.append (A *ᵥ x + B *ᵥ u) 0 := by
  ext i
  obtain ⟨i, rfl⟩ := finSumFinEquiv.surjective i
  simp only [Matrix.mulVec, dotProduct]
  rw [← finSumFinEquiv.sum_comp, Fintype.sum_sum_type]
  rcases i with i | i <;> simp [zohM, vcat, hcat, Matrix.mulVec, dotProduct]

theorem append_hasDeriv {x : ℝ → Fin n → ℝ} {x' : Fin n → ℝ} {u : ℝ → Fin m → ℝ} {u' : Fin m → ℝ}
    {s : Set ℝ} {t : ℝ} (hx : HasDerivWithinAt x x' s t) (hu : HasDerivWithinAt u u' s t) :
    HasDerivWithinAt (fun τ => Fin.append (x τ) (u τ)) (Fin.append x' u') s t := by
  refine hasDerivWithinAt_pi.mpr fun i => ?_
  obtain ⟨i, rfl⟩ := finSumFinEquiv.surjective i
  rcases i with i | i
  · simpa using hasDerivWithinAt_pi.mp hx i
  · simpa using hasDerivWithinAt_pi.mp hu i

theorem append_continuousOn {x : ℝ → Fin n → ℝ} {u : ℝ → Fin m → ℝ}
    {s : Set ℝ} (hx : ContinuousOn x s) (hu : ContinuousOn u s) :
    ContinuousOn (fun τ => Fin.append (x τ) (u τ)) s := by
  refine continuousOn_pi.mpr fun i => ?_
  obtain ⟨i, rfl⟩ := finSumFinEquiv.surjective i
  rcases i with i | i
  · simpa using continuousOn_pi.mp hx i
  · simpa using continuousOn_pi.mp hu i

/-- The first rows of a product with a stacked vector. -/
theorem mulVec_append_castAdd {r k : ℕ} (X : Matrix (Fin (r + k)) (Fin (n + m)) ℝ) (x : Fin n → ℝ)
    (u : Fin m → ℝ) (i : Fin r) :
    (X *ᵥ Fin.append x u) (Fin.castAdd k i)
      = (X.submatrix (Fin.castAdd k) (Fin.castAdd m) *ᵥ x
        + X.submatrix (Fin.castAdd k) (Fin.natAdd n) *ᵥ u) i := by
  simp only [Matrix.mulVec, dotProduct, Pi.add_apply]
  rw [← finSumFinEquiv.sum_comp, Fintype.sum_sum_type]
  simp

theorem discretize_zoh_of (hE : BalanceOk E) (hdt : 0 < dt)
    (hG : G.g = ⟨Arr.of A, Arr.of B, Arr.of C, Arr.of D, none, false⟩) :
    ∃ S, discretize N E G dt "zoh" pw q = .ok S ∧
      S.g = ⟨Arr.of ((exp (dt • zohM A B)).submatrix (Fin.castAdd m) (Fin.castAdd m)),
        Arr.of ((exp (dt • zohM A B)).submatrix (Fin.castAdd m) (Fin.natAdd n)),
        Arr.of C, Arr.of D, some dt, false⟩ ∧ S.discWith = some "zoh" := by
  have hm : "zoh" ∈ knownMethods := by simp [knownMethods]
  have e : discretize N E G dt "zoh" pw q = discretizeDyn N E G dt "zoh" pw q := by
    simp [discretize, hm, hG]
  have hv : Arr.vstack (Arr.of (hcat A B)) (Arr.zeros m (m + n)) = .ok (Arr.of (zohM A B)) := by
    unfold Arr.vstack
    rw [dif_pos (show (Arr.of (hcat A B)).c = (Arr.zeros m (m + n) : Arr ℝ).c from Nat.add_comm n m)]
    rfl
  have hargs : discretizeArgs E G.g dt "zoh" pw q
      = .ok (Arr.of ((exp (dt • zohM A B)).submatrix (Fin.castAdd m) (Fin.castAdd m)),
        Arr.of ((exp (dt • zohM A B)).submatrix (Fin.castAdd m) (Fin.natAdd n)), Arr.of C, Arr.of D) := by
    simp only [discretizeArgs, if_true, hG, discZoh, StateM.n, StateM.m, Arr.hstack_of, bind,
      Except.bind, hv, balExp_of hE, topBlocks_of]
  rw [e]
  obtain ⟨S, h1, h2, h3, -⟩ := discretizeDyn_of (N := N) hargs hdt hm (by simp [tustinNames])
  exact ⟨S, h1, h2, h3⟩

theorem zoh_step {x : ℝ → Fin n → ℝ} {u : ℝ → Fin m → ℝ} {a b : ℝ} {u₀ : Fin m → ℝ} (hab : a ≤ b)
    (hx : IsSolution A B u x a b) (hu : ∀ t ∈ Ico a b, u t = u₀) :
    x b = (exp ((b - a) • zohM A B)).submatrix (Fin.castAdd m) (Fin.castAdd m) *ᵥ x a
      + (exp ((b - a) • zohM A B)).submatrix (Fin.castAdd m) (Fin.natAdd n) *ᵥ u₀ := by
  have h := exp_mulVec_of_deriv (M := zohM A B) (z := fun t => Fin.append (x t) u₀) hab
    (append_continuousOn hx.1 continuousOn_const) (by
      intro t ht
      rw [zohM_mulVec, ← hu t ht]
      exact append_hasDeriv (hx.2 t ht) (hasDerivWithinAt_const _ _ _))
  ext i
  have h1 := congrFun h (Fin.castAdd m i)
  rw [mulVec_append_castAdd] at h1
  simpa using h1

/-- **C34**: the zoh equivalent exists for every model and `dt > 0`, keeps `C` and `D`, and maps the
state at the start of any sampling interval to the state at its end, for every solution of
`x' = A x + B u` with `u` constant over the interval. -/
theorem C34_zoh (hE : BalanceOk E) (hdt : 0 < dt)
    (hG : G.g = ⟨Arr.of A, Arr.of B, Arr.of C, Arr.of D, none, false⟩) :
    ∃ (S : StateObj ℝ P) (Ad : Matrix (Fin n) (Fin n) ℝ) (Bd : Matrix (Fin n) (Fin m) ℝ),
      discretize N E G dt "zoh" pw q = .ok S ∧
      S.g = ⟨Arr.of Ad, Arr.of Bd, Arr.of C, Arr.of D, some dt, false⟩ ∧
      ∀ (x : ℝ → Fin n → ℝ) (u : ℝ → Fin m → ℝ) (t : ℝ), IsSolution A B u x t (t + dt) →
        (∀ τ ∈ Ico t (t + dt), u τ = u t) → x (t + dt) = Ad *ᵥ x t + Bd *ᵥ u t := by
  obtain ⟨S, h1, h2, -⟩ := discretize_zoh_of (N := N) (pw := pw) (q := q) hE hdt hG
  refine ⟨S, _, _, h1, h2, fun x u t hx hu => ?_⟩
  have := zoh_step (by linarith) hx hu
  rwa [add_sub_cancel_left] at this

/-- The balancing that does nothing meets the contract. -/
noncomputable def plainDNum : DNum where
  balance M := (M, fun _ => 1)
  logm _ := none
  nearZero _ := false

theorem plainDNum_ok : BalanceOk plainDNum := fun M => ⟨fun _ => one_ne_zero, fun i j => by
  simp [plainDNum]⟩

/-- Non-vacuity: the step response of the lag is a solution. -/
example : IsSolution (!![-1] : Matrix (Fin 1) (Fin 1) ℝ) (!![1] : Matrix (Fin 1) (Fin 1) ℝ) (fun _ _ => 1)
    (fun t _ => 1 - Real.exp (-t)) 0 1 := by
  constructor
  · exact continuousOn_pi.mpr fun i => by fun_prop
  · intro t _
    refine hasDerivWithinAt_pi.mpr fun i => ?_
    have h1 : HasDerivAt (fun t : ℝ => 1 - Real.exp (-t)) (-(Real.exp (-t) * -1)) t :=
      ((Real.hasDerivAt_exp (-t)).comp t (hasDerivAt_neg t)).const_sub 1
    convert h1.hasDerivWithinAt using 1
    fin_cases i
    simp [Matrix.mulVec, dotProduct]

/-! ## C35 -/

/-- `[[A dt, B dt, 0], [0, 0, I], [0, 0, 0]]`. -/
def fohM (A : Matrix (Fin n) (Fin n) ℝ) (B : Matrix (Fin n) (Fin m) ℝ) (dt : ℝ) :
    Matrix (Fin (n + m + m)) (Fin (n + m + m)) ℝ :=
  vcat (blk (dt • hcat A B) 0 0 1) 0

theorem vcat_mulVec {r₁ r₂ c : ℕ} (X : Matrix (Fin r₁) (Fin c) ℝ) (Y : Matrix (Fin r₂) (Fin c) ℝ)
    (v : Fin c → ℝ) : vcat X Y *ᵥ v = Fin.append (X *ᵥ v) (Y *ᵥ v) := by
  ext i
  obtain ⟨i, rfl⟩ := finSumFinEquiv.surjective i
  rcases i with i | i <;> simp [vcat, Matrix.mulVec, dotProduct]

theorem hcat_mulVec {r c₁ c₂ : ℕ} (X : Matrix (Fin r) (Fin c₁) ℝ) (Y : Matrix (Fin r) (Fin c₂) ℝ)
    (v : Fin c₁ → ℝ) (w : Fin c₂ → ℝ) : hcat X Y *ᵥ Fin.append v w = X *ᵥ v + Y *ᵥ w := by
  ext i
  simp only [Matrix.mulVec, dotProduct, Pi.add_apply]
  rw [← finSumFinEquiv.sum_comp, Fintype.sum_sum_type]
  simp [hcat]

theorem blk_mulVec {r₁ r₂ c₁ c₂ : ℕ} (X : Matrix (Fin r₁) (Fin c₁) ℝ) (Y : Matrix (Fin r₁) (Fin c₂) ℝ)
    (Z : Matrix (Fin r₂) (Fin c₁) ℝ) (W : Matrix (Fin r₂) (Fin c₂) ℝ)
    (v : Fin c₁ → ℝ) (w : Fin c₂ → ℝ) :
    blk X Y Z W *ᵥ Fin.append v w = Fin.append (X *ᵥ v + Y *ᵥ w) (Z *ᵥ v + W *ᵥ w) := by
  ext i
  obtain ⟨i, rfl⟩ := finSumFinEquiv.surjective i
  simp only [Matrix.mulVec, dotProduct]
  rw [← finSumFinEquiv.sum_comp, Fintype.sum_sum_type]
  rcases i with i | i <;> simp [blk, Matrix.mulVec, dotProduct]

/-- `fohM`, with rows and columns grouped as `n + (m + m)`. -/
noncomputable def fohX (A : Matrix (Fin n) (Fin n) ℝ) (B : Matrix (Fin n) (Fin m) ℝ) (dt : ℝ) :
    Matrix (Fin (n + (m + m))) (Fin (n + (m + m))) ℝ :=
  (exp (fohM A B dt)).submatrix (Fin.cast (Nat.add_assoc n m m).symm)
    (Fin.cast (Nat.add_assoc n m m).symm)

/-- The blocks `Φ`, `Γ₁` and `Γ₂` of the exponential. -/
noncomputable def fohPhi (A : Matrix (Fin n) (Fin n) ℝ) (B : Matrix (Fin n) (Fin m) ℝ) (dt : ℝ) :
    Matrix (Fin n) (Fin n) ℝ :=
  (fohX A B dt).submatrix (Fin.castAdd (m + m)) (Fin.castAdd (m + m))

noncomputable def fohG1 (A : Matrix (Fin n) (Fin n) ℝ) (B : Matrix (Fin n) (Fin m) ℝ) (dt : ℝ) :
    Matrix (Fin n) (Fin m) ℝ :=
  ((fohX A B dt).submatrix (Fin.castAdd (m + m)) (Fin.natAdd n)).submatrix id (Fin.castAdd m)

noncomputable def fohG2 (A : Matrix (Fin n) (Fin n) ℝ) (B : Matrix (Fin n) (Fin m) ℝ) (dt : ℝ) :
    Matrix (Fin n) (Fin m) ℝ :=
  ((fohX A B dt).submatrix (Fin.castAdd (m + m)) (Fin.natAdd n)).submatrix id (Fin.natAdd m)

theorem discretize_foh_of (hE : BalanceOk E) (hdt : 0 < dt)
    (hG : G.g = ⟨Arr.of A, Arr.of B, Arr.of C, Arr.of D, none, false⟩) :
    ∃ S, discretize N E G dt "foh" pw q = .ok S ∧
      S.g = ⟨Arr.of (fohPhi A B dt),
        Arr.of (fohG1 A B dt + fohPhi A B dt * fohG2 A B dt - fohG2 A B dt),
        Arr.of C, Arr.of (D + C * fohG2 A B dt), some dt, false⟩ ∧ S.discWith = some "foh" := by
  have hm : "foh" ∈ knownMethods := by simp [knownMethods]
  have e : discretize N E G dt "foh" pw q = discretizeDyn N E G dt "foh" pw q := by
    simp [discretize, hm, hG]
  have e1 : (Arr.eye m : Arr ℝ) = Arr.of 1 := rfl
  have hv : Arr.vstack (Arr.blockDiag (Arr.of (dt • hcat A B))
      (Arr.of (1 : Matrix (Fin m) (Fin m) ℝ))) (Arr.zeros m (n + 2 * m))
      = .ok (Arr.of (fohM A B dt)) := by
    unfold Arr.vstack
    rw [dif_pos (show (Arr.blockDiag (Arr.of (dt • hcat A B)) (Arr.of (1 : Matrix (Fin m) (Fin m) ℝ))).c
      = (Arr.zeros m (n + 2 * m) : Arr ℝ).c from by simp [Arr.blockDiag, Arr.zeros]; omega)]
    rfl
  have hX : Arr.of (exp ((1 : ℝ) • fohM A B dt)) = Arr.of (fohX A B dt) := by
    rw [one_smul]
    refine Arr.ext_cast (by simp [Nat.add_assoc]) (by simp [Nat.add_assoc]) fun i j => ?_
    simp [fohX]
  have hargs : discretizeArgs E G.g dt "foh" pw q
      = .ok (Arr.of (fohPhi A B dt),
        Arr.of (fohG1 A B dt + fohPhi A B dt * fohG2 A B dt - fohG2 A B dt),
        Arr.of C, Arr.of (D + C * fohG2 A B dt)) := by
    have h1 := (cut4_full ((fohX A B dt).submatrix (Fin.castAdd (m + m)) (Fin.natAdd n))).1
    have h2 := (cut4_full ((fohX A B dt).submatrix (Fin.castAdd (m + m)) (Fin.natAdd n))).2
    simp only [discretizeArgs, if_true, hG, discFoh, StateM.n, StateM.m, Arr.hstack_of, bind,
      Except.bind, Arr.smul_of, e1, hv, balExp_of hE, hX, topBlocks_of, h1, h2, Arr.matmul_of,
      Arr.add_of, Arr.sub_of, String.reduceEq, if_false]
    rfl
  rw [e]
  obtain ⟨S, h1, h2, h3, -⟩ := discretizeDyn_of (N := N) hargs hdt hm (by simp [tustinNames])
  exact ⟨S, h1, h2, h3⟩

theorem foh_step {x : ℝ → Fin n → ℝ} {u : ℝ → Fin m → ℝ} {a : ℝ} {u₀ v : Fin m → ℝ} (hdt : 0 < dt)
    (hx : IsSolution A B u x a (a + dt))
    (hu : ∀ t ∈ Ico a (a + dt), u t = u₀ + ((t - a) / dt) • v) :
    x (a + dt) = fohPhi A B dt *ᵥ x a + fohG1 A B dt *ᵥ u₀ + fohG2 A B dt *ᵥ v := by
  have hd0 := hdt.ne'
  have hlin : ∀ (s : Set ℝ) (t : ℝ), HasDerivWithinAt (fun t => u₀ + ((t - a) / dt) • v) (dt⁻¹ • v) s t := by
    intro s t
    refine hasDerivWithinAt_pi.mpr fun i => ?_
    have h1 : HasDerivAt (fun t : ℝ => u₀ i + ((t - a) / dt) * v i) (1 / dt * v i) t :=
      (((hasDerivAt_id t).sub_const a).div_const dt).mul_const (v i) |>.const_add (u₀ i)
    have h2 := h1.hasDerivWithinAt (s := s)
    rw [one_div] at h2
    simpa using h2
  have h := exp_mulVec_of_deriv (M := dt⁻¹ • fohM A B dt)
    (z := fun t => Fin.append (Fin.append (x t) (u₀ + ((t - a) / dt) • v)) v) (a := a) (b := a + dt)
    (by linarith)
    (append_continuousOn (append_continuousOn hx.1
      fun t _ => (hlin _ t).continuousWithinAt) continuousOn_const) (by
      intro t ht
      have e : (dt⁻¹ • fohM A B dt) *ᵥ Fin.append (Fin.append (x t) (u₀ + ((t - a) / dt) • v)) v
          = Fin.append (Fin.append (A *ᵥ x t + B *ᵥ u t) (dt⁻¹ • v)) 0 := by
        rw [Matrix.smul_mulVec, fohM, vcat_mulVec, blk_mulVec, Matrix.smul_mulVec, hcat_mulVec,
          ← hu t ht]
        ext i
        obtain ⟨i, rfl⟩ := finSumFinEquiv.surjective i
        rcases i with i | i
        · obtain ⟨i, rfl⟩ := finSumFinEquiv.surjective i
          rcases i with i | i
          · simp; field_simp
          · simp
        · simp
      rw [e]
      exact append_hasDeriv (append_hasDeriv (hx.2 t ht) (hlin _ _)) (hasDerivWithinAt_const _ _ _))
  rw [add_sub_cancel_left, smul_smul, mul_inv_cancel₀ hd0, one_smul, sub_self, zero_div, zero_smul,
    add_zero] at h
  ext i
  have h1 := congrFun h (Fin.castAdd m (Fin.castAdd m i))
  rw [Fin.append_left, Fin.append_left] at h1
  rw [h1]
  have h2 : exp (fohM A B dt) *ᵥ Fin.append (Fin.append (x a) u₀) v
      = fun k => (fohX A B dt *ᵥ Fin.append (x a) (Fin.append u₀ v))
          (Fin.cast (Nat.add_assoc n m m) k) := by
    funext k
    rw [Fin.append_assoc]
    simp only [Matrix.mulVec, dotProduct, fohX]
    rw [← (finCongr (Nat.add_assoc n m m)).sum_comp]
    rfl
  rw [h2]
  have h3 := mulVec_append_castAdd (k := m + m) (fohX A B dt) (x a) (Fin.append u₀ v) i
  have h4 : Fin.cast (Nat.add_assoc n m m) (Fin.castAdd m (Fin.castAdd m i)) = Fin.castAdd (m + m) i := rfl
  simp only [h4, h3, Pi.add_apply]
  have h5 := mulVec_append_castAdd (k := 0)
    ((fohX A B dt).submatrix (Fin.castAdd (m + m)) (Fin.natAdd n)) u₀ v i
  rw [add_assoc]
  congr 1

/-- The points of the line through `u₀` at time `k dt` and `u₁` one period later. -/
noncomputable def ramp (dt : ℝ) (k : ℕ) (u₀ u₁ : Fin m → ℝ) (t : ℝ) : Fin m → ℝ :=
  u₀ + ((t - k * dt) / dt) • (u₁ - u₀)

/-- **C35**: the foh equivalent exists for every model and `dt > 0`, and whenever the input is
piecewise linear with nodes at the sampling times, the sampled output of every solution is an output
of the foh model driven by the sampled input. -/
theorem C35_foh (hE : BalanceOk E) (hdt : 0 < dt)
    (hG : G.g = ⟨Arr.of A, Arr.of B, Arr.of C, Arr.of D, none, false⟩) :
    ∃ (S : StateObj ℝ P) (Ad : Matrix (Fin n) (Fin n) ℝ) (Bd : Matrix (Fin n) (Fin m) ℝ)
      (Cd : Matrix (Fin p) (Fin n) ℝ) (Dd : Matrix (Fin p) (Fin m) ℝ),
      discretize N E G dt "foh" pw q = .ok S ∧
      S.g = ⟨Arr.of Ad, Arr.of Bd, Arr.of Cd, Arr.of Dd, some dt, false⟩ ∧
      ∀ (x : ℝ → Fin n → ℝ) (u : ℝ → Fin m → ℝ),
        (∀ k : ℕ, IsSolution A B u x (k * dt) ((k + 1) * dt)) →
        (∀ k : ℕ, ∀ t ∈ Icc (k * dt) ((k + 1) * dt), u t = ramp dt k (u (k * dt)) (u ((k + 1) * dt)) t) →
        ∃ ξ : ℕ → Fin n → ℝ, ∀ k : ℕ,
          ξ (k + 1) = Ad *ᵥ ξ k + Bd *ᵥ u (k * dt) ∧
          C *ᵥ x (k * dt) + D *ᵥ u (k * dt) = Cd *ᵥ ξ k + Dd *ᵥ u (k * dt) := by
  obtain ⟨S, h1, h2, -⟩ := discretize_foh_of (N := N) (pw := pw) (q := q) hE hdt hG
  refine ⟨S, _, _, _, _, h1, h2, fun x u hx hu => ?_⟩
  refine ⟨fun k => x (k * dt) - fohG2 A B dt *ᵥ u (k * dt), fun k => ⟨?_, ?_⟩⟩
  · have e : ((k : ℝ) + 1) * dt = k * dt + dt := by ring
    have hs := foh_step (u₀ := u (k * dt)) (v := u ((k + 1) * dt) - u (k * dt)) hdt
      (a := k * dt) (x := x) (u := u) (A := A) (B := B) (by rw [← e]; exact hx k) (by
        intro t ht
        rw [hu k t (by rw [e]; exact ⟨ht.1, ht.2.le⟩)]
        rfl)
    push_cast
    rw [← e] at hs
    rw [hs]
    simp only [Matrix.mulVec_sub, Matrix.add_mulVec, Matrix.sub_mulVec, Matrix.mulVec_mulVec]
    abel
  · simp only [Matrix.mulVec_sub, Matrix.add_mulVec, Matrix.mulVec_mulVec]
    abel

/-- Non-vacuity: the ramp response of the integrator. -/
example : (∀ k : ℕ, IsSolution (!![0] : Matrix (Fin 1) (Fin 1) ℝ) (!![1] : Matrix (Fin 1) (Fin 1) ℝ)
      (fun t _ => t) (fun t _ => t ^ 2 / 2) (k * 1) ((k + 1) * 1)) ∧
    ∀ k : ℕ, ∀ t ∈ Icc ((k : ℝ) * 1) ((k + 1) * 1), (fun _ : Fin 1 => t)
      = ramp 1 k (fun _ => (k : ℝ) * 1) (fun _ => (k + 1 : ℝ) * 1) t := by
  constructor
  · intro k
    constructor
    · exact continuousOn_pi.mpr fun i => by fun_prop
    · intro t _
      refine hasDerivWithinAt_pi.mpr fun i => ?_
      have h1 : HasDerivAt (fun t : ℝ => t ^ 2 / 2) (2 * t ^ 1 / 2) t := by
        have h0 := ((hasDerivAt_id t).mul (hasDerivAt_id t)).div_const 2
        have e1 : (fun s : ℝ => s ^ 2 / 2) = fun s => ((id * id : ℝ → ℝ)) s / 2 := by
          funext s; simp [pow_two]
        have e2 : 2 * t ^ 1 / 2 = (1 * id t + id t * 1) / 2 := by simp
        rw [e1, e2]
        exact h0
      convert h1.hasDerivWithinAt using 1
      fin_cases i
      simp [Matrix.mulVec, dotProduct]
  · intro k t _
    ext i
    simp [ramp]

end Harold
