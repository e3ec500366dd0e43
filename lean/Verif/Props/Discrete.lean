import Verif.Lemmas.Lft
import Verif.Spec.Stable
import Verif.Props.StateAlgebra
import Verif.Props.Feedback
import Mathlib.Analysis.SpecialFunctions.Complex.Arg

/-!
# C32, C33, C36, C37, C38: discretization by substitution

`N` and `E` are the external numerical routines; nothing is assumed about them here.
-/

namespace Harold

open Matrix Harold.Spec

variable {P : Type} {N : Numerics ℝ P} {E : DNum} {G S : StateObj ℝ P} {dt pw : ℝ} {method : String}
  {q : Option (Arr ℝ)} {n m p : ℕ}

/-! ## What `discretize` returns -/

theorem init_of {dt' : Option ℝ} (hdt : DtOk dt') (A : Matrix (Fin n) (Fin n) ℝ)
    (B : Matrix (Fin n) (Fin m) ℝ) (C : Matrix (Fin p) (Fin n) ℝ) (D : Matrix (Fin p) (Fin m) ℝ) :
    ∃ S, StateObj.init N (some (Arr.of A)) (some (Arr.of B)) (some (Arr.of C)) (some (Arr.of D)) dt'
      = .ok S ∧ S.g = ⟨Arr.of A, Arr.of B, Arr.of C, Arr.of D, dt', false⟩ := by
  simp [StateObj.init, mkState_of hdt, bind, Except.bind, StateObj.recalc]

/-- Calls with a non-positive sampling period do not return. -/
theorem init_bad_dt {a b c d : Option (Arr ℝ)} (hdt : dt ≤ 0) :
    ∃ e, StateObj.init N a b c d (some dt) = .error e := by
  unfold StateObj.init
  cases h : mkState a b c d (some dt) with
  | error e => exact ⟨e, by simp [bind, Except.bind]⟩
  | ok g =>
    exfalso
    unfold mkState at h
    obtain ⟨r, h1, h2⟩ := bind_ok h
    obtain ⟨t, h3, h4⟩ := bind_ok h2
    simp [checkDt, hdt] at h3

theorem discretizeDyn_of {A' : Matrix (Fin n) (Fin n) ℝ} {B' : Matrix (Fin n) (Fin m) ℝ}
    {C' : Matrix (Fin p) (Fin n) ℝ} {D' : Matrix (Fin p) (Fin m) ℝ}
    (h : discretizeArgs E G.g dt method pw q = .ok (Arr.of A', Arr.of B', Arr.of C', Arr.of D'))
    (hdt : 0 < dt) (hm : method ∈ knownMethods)
    (hpw : method ∈ tustinNames → pw ≤ 1 / (2 * dt)) :
    ∃ S, discretizeDyn N E G dt method pw q = .ok S ∧
      S.g = ⟨Arr.of A', Arr.of B', Arr.of C', Arr.of D', some dt, false⟩ ∧
      S.discWith = some method ∧ (method = "lft" → S.discMat = some (q.getD Arr.empty)) ∧
      (method ∈ tustinNames → S.prewarp = pw) := by
  have hdt' : DtOk (some dt) := by intro t ht; cases ht; exact hdt
  unfold discretizeDyn
  simp only [h, bind, Except.bind, StateObj.init, mkState_of hdt', StateObj.set, StateObj.assign,
    if_pos hm, StateObj.recalc, Option.isNone_some, Bool.false_eq_true, if_false]
  by_cases h1 : method = "lft"
  · simp [recordArgs, h1, StateObj.set, StateObj.assign, not_le.mpr hdt, tustinNames]
  · by_cases h2 : method ∈ tustinNames
    · simp [recordArgs, h1, h2, StateObj.set, StateObj.assign, not_le.mpr hdt,
        if_neg (not_lt.mpr (hpw h2)), gt_iff_lt, -one_div]
    · simp [recordArgs, h1, h2, StateObj.set, StateObj.assign, not_le.mpr hdt]

theorem discretizeDyn_dt_pos (h : discretizeDyn N E G dt method pw q = .ok S) : 0 < dt := by
  by_contra hdt
  unfold discretizeDyn at h
  obtain ⟨r, h1, h2⟩ := bind_ok h
  obtain ⟨T, h3, h4⟩ := bind_ok h2
  obtain ⟨e, he⟩ := init_bad_dt (N := N) (a := some r.1) (b := some r.2.1) (c := some r.2.2.1)
    (d := some r.2.2.2) (not_lt.mp hdt)
  rw [he] at h3
  cases h3

theorem discretize_pre (h : discretize N E G dt method pw q = .ok S) :
    method ∈ knownMethods ∧ G.g.dt = none ∧ 0 < dt := by
  have hm : method ∈ knownMethods := by
    by_contra h0; simp [discretize, h0] at h
  have hdt0 : G.g.dt = none := by
    cases h0 : G.g.dt with
    | none => rfl
    | some t => simp [discretize, hm, h0] at h
  refine ⟨hm, hdt0, ?_⟩
  by_contra hd
  cases hg : G.g.isgain with
  | true =>
    simp only [discretize, hm, hdt0, hg, not_true_eq_false, if_false, if_true, Option.isSome_none,
      Bool.false_eq_true] at h
    obtain ⟨e, he⟩ := init_bad_dt (N := N) (a := some G.g.d) (b := none) (c := none) (d := none)
      (not_lt.mp hd)
    simp [he, bind, Except.bind] at h
  | false =>
    have e : discretize N E G dt method pw q = discretizeDyn N E G dt method pw q := by
      simp [discretize, hm, hg, hdt0]
    rw [e] at h
    exact hd (discretizeDyn_dt_pos h)

/-- The methods that are star products with the matrix `[[x, y], [z, w]]`. -/
theorem discretize_lft_ok {x y z w : ℝ}
    (hargs : discretizeArgs E G.g dt method pw q
      = simpleLft (q2 x y z w) G.g.a G.g.b G.g.c G.g.d)
    (hpw : method ∈ tustinNames → 0 < dt → pw ≤ 1 / (2 * dt))
    {A : Matrix (Fin n) (Fin n) ℝ} {B : Matrix (Fin n) (Fin m) ℝ}
    {C : Matrix (Fin p) (Fin n) ℝ} {D : Matrix (Fin p) (Fin m) ℝ}
    (hG : G.g = ⟨Arr.of A, Arr.of B, Arr.of C, Arr.of D, none, false⟩)
    (hm : method ∈ knownMethods) :
    ((1 - w • A).det = 0 → discretize N E G dt method pw q = .error .linAlg) ∧
    ((1 - w • A).det ≠ 0 → 0 < dt → ∃ S, discretize N E G dt method pw q = .ok S ∧
      S.g = ⟨Arr.of (x • 1 + (z * y) • (A * (1 - w • A)⁻¹)), Arr.of (y • ((1 - w • A)⁻¹ * B)),
          Arr.of (z • (C * (1 - w • A)⁻¹)), Arr.of (D + w • (C * (1 - w • A)⁻¹ * B)),
          some dt, false⟩ ∧ S.discWith = some method ∧
        (method = "lft" → S.discMat = some (q.getD Arr.empty)) ∧
        (method ∈ tustinNames → S.prewarp = pw)) := by
  have e : discretize N E G dt method pw q = discretizeDyn N E G dt method pw q := by
    simp [discretize, hm, hG]
  rw [e]
  rw [hG] at hargs
  simp only at hargs
  constructor
  · intro h0
    rw [simpleLft_sing _ _ _ _ _ _ _ _ h0, ← hG] at hargs
    simp [discretizeDyn, hargs, bind, Except.bind]
  · intro h0 hdt
    rw [simpleLft_of _ _ _ _ _ _ _ _ h0, ← hG] at hargs
    exact discretizeDyn_of hargs hdt hm (fun h => hpw h hdt)

section tf
variable {L : Type} [Field L] [Algebra ℝ L] {s ζ : L} {M : Matrix (Fin p) (Fin m) L}

local notation "φ" => algebraMap ℝ L

theorem discretize_lft_hasTF {x y z w : ℝ}
    (hargs : discretizeArgs E G.g dt method pw q
      = simpleLft (q2 x y z w) G.g.a G.g.b G.g.c G.g.d)
    (hpw : method ∈ tustinNames → 0 < dt → pw ≤ 1 / (2 * dt))
    (h : discretize N E G dt method pw q = .ok S) (hG : HasTF G.g p m s M)
    (hβ : φ w * (ζ - φ x) + φ z * φ y ≠ 0) (hs : s * (φ w * (ζ - φ x) + φ z * φ y) = ζ - φ x) :
    HasTF S.g p m ζ M ∧ S.g.dt = some dt := by
  obtain ⟨hm, hdt0, hdt⟩ := discretize_pre h
  rcases hG with ⟨hg, D, hD, rfl⟩ | ⟨hg, n, A, B, C, D, hA, hB, hC, hD, hT⟩
  · have hdt' : DtOk (some dt) := by intro t ht; cases ht; exact hdt
    have e := mkGain_of hdt' G.g.d
    unfold mkGain at e
    simp only [discretize, hm, hdt0, hg, not_true_eq_false, if_false, if_true, Option.isSome_none,
      Bool.false_eq_true, StateObj.init, e, bind, Except.bind, StateObj.set, StateObj.assign,
      not_le.mpr hdt, StateObj.recalc, Except.ok.injEq] at h
    subst h
    exact ⟨Or.inl ⟨rfl, D, hD, rfl⟩, rfl⟩
  · have hG : G.g = ⟨Arr.of A, Arr.of B, Arr.of C, Arr.of D, none, false⟩ := by
      rw [← hA, ← hB, ← hC, ← hD, ← hdt0, ← hg]
    obtain ⟨h1, h2⟩ := discretize_lft_ok (N := N) hargs hpw hG hm
    have h0 : (1 - w • A).det ≠ 0 := by
      intro h0
      rw [h1 h0] at h
      cases h
    obtain ⟨S', h3, h4, -⟩ := h2 h0 hdt
    rw [h] at h3
    cases h3
    rw [h4]
    refine ⟨HasTF.of_dyn ?_, rfl⟩
    have hN : ((1 - w • A)⁻¹).map φ * (1 - φ w • A.map φ) = 1 := by
      have e1 : (1 - w • A)⁻¹ * (1 - w • A) = 1 := nonsing_inv_mul _ (Ne.isUnit h0)
      have e2 := congrArg (fun X => X.map φ) e1
      simp only [map_mul', map_sub', map_smul'] at e2
      simpa using e2
    have := IsTF.lft hT hN hβ hs
    convert this using 1 <;> simp [map_add', map_smul', map_mul']

/-! ## C32 -/

/-- **C32**, tustin: `Gd(z) = G(s)` with `s = (2/dt) (z-1)/(z+1)`. -/
theorem C32_tustin (hm : method = "tustin" ∨ method = "bilinear")
    (h : discretize N E G dt method 0 q = .ok S) (hG : HasTF G.g p m s M) (hζ : ζ + 1 ≠ 0)
    (hs : s = 2 / φ dt * ((ζ - 1) / (ζ + 1))) : HasTF S.g p m ζ M ∧ S.g.dt = some dt := by
  obtain ⟨-, -, hdt⟩ := discretize_pre h
  have hd : φ dt ≠ 0 := by simpa using hdt.ne'
  have h2 : (2 : L) ≠ 0 := by
    have : φ (2 : ℝ) ≠ 0 := by simp
    rwa [map_ofNat] at this
  have hsq : φ (√dt) * φ (√dt) = φ dt := by rw [← map_mul, Real.mul_self_sqrt hdt.le]
  have hβ : φ (dt / 2) * (ζ - φ 1) + φ (√dt) * φ (√dt) = φ dt / 2 * (ζ + 1) := by
    rw [hsq, map_div₀, map_one, map_ofNat]; field_simp; ring
  refine discretize_lft_hasTF (x := 1) (y := √dt) (z := √dt) (w := dt / 2) ?_ ?_ h hG ?_ ?_
  · rcases hm with rfl | rfl <;>
      simp [discretizeArgs, discTustin, tustinQ, tustinNames, bind, Except.bind]
  · intro _ hdt; positivity
  · rw [hβ]; exact mul_ne_zero (div_ne_zero hd h2) hζ
  · rw [hβ, hs, map_one]; field_simp

/-- **C32**, forward differences: `s = (z-1)/dt`. -/
theorem C32_forward (hm : method ∈ forwardNames)
    (h : discretize N E G dt method pw q = .ok S) (hG : HasTF G.g p m s M)
    (hs : s = (ζ - 1) / φ dt) : HasTF S.g p m ζ M ∧ S.g.dt = some dt := by
  obtain ⟨-, -, hdt⟩ := discretize_pre h
  have hd : φ dt ≠ 0 := by simpa using hdt.ne'
  have hsq : φ (√dt) * φ (√dt) = φ dt := by rw [← map_mul, Real.mul_self_sqrt hdt.le]
  refine discretize_lft_hasTF (x := 1) (y := √dt) (z := √dt) (w := 0) ?_ ?_ h hG ?_ ?_
  · simp only [forwardNames, List.mem_cons, List.not_mem_nil, or_false] at hm
    rcases hm with rfl | rfl | rfl | rfl <;>
      simp [discretizeArgs, tustinNames, forwardNames]
  · intro h0
    simp only [forwardNames, List.mem_cons, List.not_mem_nil, or_false] at hm
    rcases hm with rfl | rfl | rfl | rfl <;> simp [tustinNames] at h0
  · rw [hsq]; simpa using hdt.ne'
  · rw [hsq, hs, map_one, map_zero]; field_simp; ring

/-- **C32**, backward differences: `s = (z-1)/(dt z)`. -/
theorem C32_backward (hm : method ∈ backwardNames)
    (h : discretize N E G dt method pw q = .ok S) (hG : HasTF G.g p m s M) (hζ : ζ ≠ 0)
    (hs : s = (ζ - 1) / (φ dt * ζ)) : HasTF S.g p m ζ M ∧ S.g.dt = some dt := by
  obtain ⟨-, -, hdt⟩ := discretize_pre h
  have hd : φ dt ≠ 0 := by simpa using hdt.ne'
  have hsq : φ (√dt) * φ (√dt) = φ dt := by rw [← map_mul, Real.mul_self_sqrt hdt.le]
  have hβ : φ dt * (ζ - φ 1) + φ (√dt) * φ (√dt) = φ dt * ζ := by rw [hsq, map_one]; ring
  refine discretize_lft_hasTF (x := 1) (y := √dt) (z := √dt) (w := dt) ?_ ?_ h hG ?_ ?_
  · simp only [backwardNames, List.mem_cons, List.not_mem_nil, or_false] at hm
    rcases hm with rfl | rfl | rfl | rfl <;>
      simp [discretizeArgs, tustinNames, forwardNames, backwardNames]
  · intro h0
    simp only [backwardNames, List.mem_cons, List.not_mem_nil, or_false] at hm
    rcases hm with rfl | rfl | rfl | rfl <;> simp [tustinNames] at h0
  · rw [hβ]; exact mul_ne_zero hd hζ
  · rw [hβ, hs, map_one]; field_simp

/-- **C32**, user supplied interconnection: `1/s = q22 + q21 q12/(z - q11)`. -/
theorem C32_lft {x y z w : ℝ}
    (h : discretize N E G dt "lft" pw (some (Arr.of !![x, y; z, w])) = .ok S)
    (hG : HasTF G.g p m s M) (hs0 : s ≠ 0) (hζ : ζ ≠ φ x)
    (hs : 1 / s = φ w + φ z * φ y / (ζ - φ x)) : HasTF S.g p m ζ M ∧ S.g.dt = some dt := by
  have hζ' : ζ - φ x ≠ 0 := sub_ne_zero.mpr hζ
  have hβ : φ w * (ζ - φ x) + φ z * φ y = (ζ - φ x) / s := by
    rw [div_eq_mul_one_div, hs]; field_simp
  refine discretize_lft_hasTF (x := x) (y := y) (z := z) (w := w) ?_ ?_ h hG ?_ ?_
  · simp [discretizeArgs, tustinNames, forwardNames, backwardNames, q2]
  · intro h0; simp [tustinNames] at h0
  · rw [hβ]; exact div_ne_zero hζ' hs0
  · rw [hβ]; field_simp

/-- **C32**, when tustin is defined: for a continuous dynamic model and `dt > 0` it returns exactly
when `2/dt` is not an eigenvalue of `A`; otherwise `LinAlgError` is raised. Likewise backward
differences with `1/dt`; forward differences always return. -/
theorem C32_defined {A : Matrix (Fin n) (Fin n) ℝ} {B : Matrix (Fin n) (Fin m) ℝ}
    {C : Matrix (Fin p) (Fin n) ℝ} {D : Matrix (Fin p) (Fin m) ℝ}
    (hG : G.g = ⟨Arr.of A, Arr.of B, Arr.of C, Arr.of D, none, false⟩) (hdt : 0 < dt) :
    ((∃ S, discretize N E G dt "tustin" 0 q = .ok S) ↔ (1 - (dt / 2) • A).det ≠ 0) ∧
    ((∃ S, discretize N E G dt "backward euler" pw q = .ok S) ↔ (1 - dt • A).det ≠ 0) ∧
    (∃ S, discretize N E G dt "forward euler" pw q = .ok S) := by
  have h1 := discretize_lft_ok (N := N) (E := E) (G := G) (dt := dt) (method := "tustin") (pw := 0)
    (q := q) (x := 1) (y := √dt) (z := √dt) (w := dt / 2)
    (by simp [discretizeArgs, discTustin, tustinQ, tustinNames, bind, Except.bind])
    (fun _ hdt => by positivity) hG (by simp [knownMethods])
  have h2 := discretize_lft_ok (N := N) (E := E) (G := G) (dt := dt) (method := "backward euler")
    (pw := pw) (q := q) (x := 1) (y := √dt) (z := √dt) (w := dt)
    (by simp [discretizeArgs, tustinNames, forwardNames, backwardNames])
    (fun h0 _ => by simp [tustinNames] at h0) hG (by simp [knownMethods])
  have h3 := discretize_lft_ok (N := N) (E := E) (G := G) (dt := dt) (method := "forward euler")
    (pw := pw) (q := q) (x := 1) (y := √dt) (z := √dt) (w := 0)
    (by simp [discretizeArgs, tustinNames, forwardNames])
    (fun h0 _ => by simp [tustinNames] at h0) hG (by simp [knownMethods])
  refine ⟨⟨?_, ?_⟩, ⟨?_, ?_⟩, ?_⟩
  · rintro ⟨S, hS⟩ h0
    rw [h1.1 h0] at hS; cases hS
  · intro h0
    obtain ⟨S, hS, -⟩ := h1.2 h0 hdt
    exact ⟨S, hS⟩
  · rintro ⟨S, hS⟩ h0
    rw [h2.1 h0] at hS; cases hS
  · intro h0
    obtain ⟨S, hS, -⟩ := h2.2 h0 hdt
    exact ⟨S, hS⟩
  · obtain ⟨S, hS, -⟩ := h3.2 (by simp) hdt
    exact ⟨S, hS⟩

end tf

/-- `1/(s+1)` as an object with arbitrary cached data. -/
def lagObj (P : Type) : StateObj ℝ P :=
  ⟨⟨Arr.of !![-1], Arr.of !![1], Arr.of !![1], Arr.of !![0], none, false⟩, (1, 1), none, none, 0,
    [], [], true⟩

theorem lagObj_hasTF (s : ℝ) (hs : s ≠ -1) : HasTF (lagObj P).g 1 1 s !![1 / (s + 1)] := by
  have h : s + 1 ≠ 0 := fun h => hs (by linarith)
  refine HasTF.of_dyn (isTF_iff_sol.mpr ⟨?_, !![1 / (s + 1)], ?_, ?_⟩)
  · simpa using h
  · ext i j; fin_cases i; fin_cases j; simp [Matrix.mul_apply]; field_simp
  · ext i j; fin_cases i; fin_cases j; simp

/-- The hypotheses of the C32 theorems are met: `1/(s+1)` can be discretised with every `dt > 0`,
and for `dt = 1`, `z = 3` the tustin value is `G(1) = 1/2`. -/
example : ∃ S, discretize N E (lagObj P) 1 "tustin" 0 none = .ok S ∧
    HasTF S.g 1 1 (3 : ℝ) !![1 / (1 + 1)] := by
  obtain ⟨S, hS⟩ := (C32_defined (N := N) (E := E) (q := none) (pw := 0) (G := lagObj P) rfl
    one_pos).1.mpr (by simp; norm_num)
  refine ⟨S, hS, (C32_tustin (Or.inl rfl) hS (lagObj_hasTF 1 (by norm_num)) (by norm_num) ?_).1⟩
  norm_num

/-! ## C33 -/

theorem undiscretize_of {A : Matrix (Fin n) (Fin n) ℝ} {B : Matrix (Fin n) (Fin m) ℝ}
    {C : Matrix (Fin p) (Fin n) ℝ} {D : Matrix (Fin p) (Fin m) ℝ} {mth : Option String}
    {q' : Option (Arr ℝ)} (hdt : S.g.dt = some dt) (hg : S.g.isgain = false)
    (hq : undiscQ S (undiscMethod S mth) q = .ok q')
    (h : undiscretizeArgs E S.g dt (undiscMethod S mth) pw q'
      = .ok (Arr.of A, Arr.of B, Arr.of C, Arr.of D)) :
    ∃ R, undiscretize N E S mth pw q = .ok R ∧
      R.g = ⟨Arr.of A, Arr.of B, Arr.of C, Arr.of D, none, false⟩ := by
  obtain ⟨R, h1, h2⟩ := init_of (N := N) (dt' := none) dtOk_none A B C D
  refine ⟨R, ?_, h2⟩
  unfold undiscretize
  rw [hdt]
  simp only [hq, bind, Except.bind, hg, Bool.false_eq_true, if_false, h, h1]

/-- **C33**, tustin: `undiscretize(discretize(G, dt, 'tustin'))` returns the matrices of `G`. -/
theorem C33_tustin (hm : method = "tustin" ∨ method = "bilinear") (hG : Consistent G.g p m)
    (hg : G.g.isgain = false) (h : discretize N E G dt method 0 q = .ok S) :
    ∃ R, undiscretize N E S none 0 none = .ok R ∧ R.g = G.g := by
  obtain ⟨hk, hdt0, hdt⟩ := discretize_pre h
  obtain ⟨a, b, c, D, dt', hG'⟩ | ⟨n, A, B, C, D, dt', hG'⟩ := consistent_cases hG
  · rw [hG'] at hg; cases hg
  rw [hG'] at hdt0
  simp only at hdt0
  subst hdt0
  have hl := discretize_lft_ok (N := N) (E := E) (G := G) (dt := dt) (method := method) (pw := 0)
    (q := q) (x := 1) (y := √dt) (z := √dt) (w := dt / 2)
    (by rcases hm with rfl | rfl <;>
          simp [discretizeArgs, discTustin, tustinQ, tustinNames, bind, Except.bind])
    (fun _ hdt => by positivity) hG' hk
  have h0 : (1 - (dt / 2) • A).det ≠ 0 := by
    intro h0; rw [hl.1 h0] at h; cases h
  obtain ⟨S', h1, h2, h3, -⟩ := hl.2 h0 hdt
  rw [h] at h1; cases h1
  rw [hG']
  have hsq : √dt * √dt = dt := Real.mul_self_sqrt hdt.le
  have hsq0 : √dt ≠ 0 := (Real.sqrt_pos.mpr hdt).ne'
  have hi := simpleLft_inverse (x := (1 : ℝ)) (y := √dt) (z := √dt) (w := dt / 2) (Δ := dt / 2)
    (by rw [hsq]; ring) (by positivity) (by rw [hsq]; exact hdt.ne') A B C D h0
  have e1 : -(1 : ℝ) / (dt / 2) = -2 / dt := by field_simp
  have e2 : √dt / (dt / 2) = 2 / √dt := by
    rw [div_eq_div_iff (by positivity) hsq0, hsq]; ring
  have e3 : -(dt / 2) / (dt / 2) = -1 := by field_simp
  rw [e1, e2, e3] at hi
  refine undiscretize_of (by rw [h2]) (by rw [h2]) (q' := none) ?_ ?_
  · rcases hm with rfl | rfl <;> simp [undiscMethod, h3, undiscQ]
  · rcases hm with rfl | rfl <;>
      simp only [undiscMethod, h3, undiscretizeArgs, tustinNames, undiscTustin, untustinQ, bind,
        Except.bind, h2, Option.getD_none, Option.getD_some, if_true, hi] <;> simp

/-- **C33**, forward differences. -/
theorem C33_forward (hm : method ∈ forwardNames) (hG : Consistent G.g p m)
    (hg : G.g.isgain = false) (h : discretize N E G dt method pw q = .ok S) (pw' : ℝ) :
    ∃ R, undiscretize N E S none pw' none = .ok R ∧ R.g = G.g := by
  obtain ⟨hk, hdt0, hdt⟩ := discretize_pre h
  obtain ⟨a, b, c, D, dt', hG'⟩ | ⟨n, A, B, C, D, dt', hG'⟩ := consistent_cases hG
  · rw [hG'] at hg; cases hg
  rw [hG'] at hdt0
  simp only at hdt0
  subst hdt0
  simp only [forwardNames, List.mem_cons, List.not_mem_nil, or_false] at hm
  have hl := discretize_lft_ok (N := N) (E := E) (G := G) (dt := dt) (method := method) (pw := pw)
    (q := q) (x := 1) (y := √dt) (z := √dt) (w := 0)
    (by rcases hm with rfl | rfl | rfl | rfl <;>
          simp [discretizeArgs, forwardNames, tustinNames])
    (by rcases hm with rfl | rfl | rfl | rfl <;> simp [tustinNames]) hG' hk
  obtain ⟨S', h1, h2, h3, -⟩ := hl.2 (by simp) hdt
  rw [h] at h1; cases h1
  rw [hG']
  have hsq : √dt * √dt = dt := Real.mul_self_sqrt hdt.le
  have hsq0 : √dt ≠ 0 := (Real.sqrt_pos.mpr hdt).ne'
  have hi := simpleLft_inverse (x := (1 : ℝ)) (y := √dt) (z := √dt) (w := 0) (Δ := dt)
    (by rw [hsq]; ring) (by positivity) (by rw [hsq]; exact hdt.ne') A B C D (by simp)
  have e2 : √dt / dt = 1 / √dt := by rw [div_eq_div_iff hdt.ne' hsq0, hsq]; ring
  have e3 : -(0 : ℝ) / dt = 0 := by simp
  rw [e2, e3] at hi
  refine undiscretize_of (by rw [h2]) (by rw [h2]) (q' := none) ?_ ?_
  · rcases hm with rfl | rfl | rfl | rfl <;> simp [undiscMethod, h3, undiscQ]
  · rcases hm with rfl | rfl | rfl | rfl <;>
      simp only [undiscMethod, h3, undiscretizeArgs, tustinNames, forwardNames, h2, Option.getD_none,
        Option.getD_some, hi] <;> simp

/-- **C33**, backward differences. -/
theorem C33_backward (hm : method ∈ backwardNames) (hG : Consistent G.g p m)
    (hg : G.g.isgain = false) (h : discretize N E G dt method pw q = .ok S) (pw' : ℝ) :
    ∃ R, undiscretize N E S none pw' none = .ok R ∧ R.g = G.g := by
  obtain ⟨hk, hdt0, hdt⟩ := discretize_pre h
  obtain ⟨a, b, c, D, dt', hG'⟩ | ⟨n, A, B, C, D, dt', hG'⟩ := consistent_cases hG
  · rw [hG'] at hg; cases hg
  rw [hG'] at hdt0
  simp only at hdt0
  subst hdt0
  simp only [backwardNames, List.mem_cons, List.not_mem_nil, or_false] at hm
  have hl := discretize_lft_ok (N := N) (E := E) (G := G) (dt := dt) (method := method) (pw := pw)
    (q := q) (x := 1) (y := √dt) (z := √dt) (w := dt)
    (by rcases hm with rfl | rfl | rfl | rfl <;>
          simp [discretizeArgs, forwardNames, tustinNames, backwardNames])
    (by rcases hm with rfl | rfl | rfl | rfl <;> simp [tustinNames]) hG' hk
  have h0 : (1 - dt • A).det ≠ 0 := by
    intro h0; rw [hl.1 h0] at h; cases h
  obtain ⟨S', h1, h2, h3, -⟩ := hl.2 h0 hdt
  rw [h] at h1; cases h1
  rw [hG']
  have hsq : √dt * √dt = dt := Real.mul_self_sqrt hdt.le
  have hsq0 : √dt ≠ 0 := (Real.sqrt_pos.mpr hdt).ne'
  obtain ⟨Y, hYdef⟩ : ∃ Y, Y = (1 - dt • A)⁻¹ := ⟨_, rfl⟩
  have hY : Y * (1 - dt • A) = 1 := by rw [hYdef]; exact nonsing_inv_mul _ (Ne.isUnit h0)
  have hY' : (1 - dt • A) * Y = 1 := mul_eq_one_comm.mp hY
  have hA1 : (1 : ℝ) • 1 + (√dt * √dt) • (A * (1 - dt • A)⁻¹) = Y := by
    rw [hsq, one_smul, add_comm, naInv_fix h0, hYdef]
  rw [hA1, ← hYdef] at h2
  have hYdet : Y.det ≠ 0 := by
    intro hz
    have := congrArg det hY
    rw [det_mul, hz, zero_mul, det_one] at this
    exact zero_ne_one this
  have hYinv : Y⁻¹ = 1 - dt • A := Matrix.inv_eq_left_inv hY'
  have e1 : ∀ k, (Arr.eye k : Arr ℝ) = Arr.of 1 := fun _ => rfl
  have hinv : undiscInv (Arr.of Y) = .ok (Arr.of (1 - dt • A)) := by
    unfold undiscInv
    simp only [Arr.of_r, e1]
    rw [Arr.solve_of, if_neg hYdet, hYinv, Matrix.mul_one]
  have hb : undiscBackward S.g dt = .ok (Arr.of A, Arr.of B, Arr.of C, Arr.of D) := by
    unfold undiscBackward
    simp only [h2, hinv, bind, Except.bind, StateM.n, Arr.of_r, e1, Arr.sub_of, Arr.matmul_of,
      Arr.smul_of]
    congr 1
    refine Prod.ext ?_ (Prod.ext ?_ (Prod.ext ?_ ?_))
    · simp only
      congr 1
      rw [sub_sub_cancel, smul_smul, one_div, inv_mul_cancel₀ hdt.ne', one_smul]
    · simp only
      congr 1
      rw [Matrix.mul_smul, ← Matrix.mul_assoc, hY', Matrix.one_mul, smul_smul, one_div,
        inv_mul_cancel₀ hsq0, one_smul]
    · simp only
      congr 1
      rw [smul_mul, Matrix.mul_assoc, hY, Matrix.mul_one, smul_smul, one_div,
        inv_mul_cancel₀ hsq0, one_smul]
    · simp only
      congr 1
      simp only [Matrix.mul_smul, smul_mul, smul_smul, hsq]
      rw [Matrix.mul_assoc C Y (1 - dt • A), hY, Matrix.mul_one, Matrix.mul_assoc, add_sub_cancel_right]
  refine undiscretize_of (dt := dt) (by rw [h2]) (by rw [h2]) (q' := none) ?_ ?_
  · rcases hm with rfl | rfl | rfl | rfl <;> simp [undiscMethod, h3, undiscQ]
  · rcases hm with rfl | rfl | rfl | rfl <;>
      simp only [undiscMethod, h3, undiscretizeArgs, tustinNames, forwardNames, backwardNames,
        Option.getD_none, Option.getD_some, hb] <;> simp

/-- **C33**, user supplied interconnection: undiscretising with
`Δ⁻¹ [[-q11, q21], [q12, -q22]]`, `Δ = q12 q21 - q11 q22`, returns the matrices of `G`. Missing from
the full claim: using the recorded matrix, which the code re-applies (`C33_lft_violated`). -/
theorem C33_lft_partial {x y z w : ℝ} (hG : Consistent G.g p m) (hg : G.g.isgain = false)
    (h : discretize N E G dt "lft" pw (some (Arr.of !![x, y; z, w])) = .ok S) (pw' : ℝ)
    (hyz : z * y ≠ 0) (hΔ : z * y - x * w ≠ 0) :
    ∃ R, undiscretize N E S none pw' (some ((Arr.of !![-x, z; y, -w]).smul (z * y - x * w)⁻¹)) = .ok R
      ∧ R.g = G.g := by
  obtain ⟨hk, hdt0, hdt⟩ := discretize_pre h
  obtain ⟨a, b, c, D, dt', hG'⟩ | ⟨n, A, B, C, D, dt', hG'⟩ := consistent_cases hG
  · rw [hG'] at hg; cases hg
  rw [hG'] at hdt0
  simp only at hdt0
  subst hdt0
  have hl := discretize_lft_ok (N := N) (E := E) (G := G) (dt := dt) (method := "lft") (pw := pw)
    (q := some (Arr.of !![x, y; z, w])) (x := x) (y := y) (z := z) (w := w)
    (by simp [discretizeArgs, forwardNames, tustinNames, backwardNames, q2])
    (by simp [tustinNames]) hG' hk
  have h0 : (1 - w • A).det ≠ 0 := by
    intro h0; rw [hl.1 h0] at h; cases h
  obtain ⟨S', h1, h2, h3, -⟩ := hl.2 h0 hdt
  rw [h] at h1; cases h1
  rw [hG']
  have hi := simpleLft_inverse rfl hΔ hyz A B C D h0
  have hq : ((Arr.of !![-x, z; y, -w]).smul (z * y - x * w)⁻¹)
      = q2 (-x / (z * y - x * w)) (z / (z * y - x * w)) (y / (z * y - x * w))
        (-w / (z * y - x * w)) := by
    simp only [q2, Arr.smul_of]
    congr 1
    ext i j
    fin_cases i <;> fin_cases j <;> simp [div_eq_inv_mul]
  rw [hq]
  refine undiscretize_of (by rw [h2]) (by rw [h2])
    (q' := some (q2 (-x / (z * y - x * w)) (z / (z * y - x * w)) (y / (z * y - x * w))
        (-w / (z * y - x * w)))) ?_ ?_
  · simp [undiscMethod, h3, undiscQ]
  · simp only [undiscMethod, h3, undiscretizeArgs, tustinNames, forwardNames, backwardNames,
        Option.getD_none, Option.getD_some, h2, hi]
    simp

theorem C33_lft_violated :
    ∃ S R : StateObj ℝ P, discretize N E (lagObj P) 1 "lft" 0 (some (Arr.of !![1, 1; 1, 0])) = .ok S ∧
      undiscretize N E S none 0 none = .ok R ∧ R.g ≠ (lagObj P).g := by
  have hl := discretize_lft_ok (N := N) (E := E) (G := lagObj P) (dt := 1) (method := "lft") (pw := 0)
    (q := some (Arr.of !![1, 1; 1, 0])) (x := 1) (y := 1) (z := 1) (w := 0)
    (by simp [discretizeArgs, forwardNames, tustinNames, backwardNames, q2])
    (by simp [tustinNames]) rfl (by simp [knownMethods])
  obtain ⟨S, h1, h2, h3, h4, -⟩ := hl.2 (by simp) one_pos
  have h4 := h4 rfl
  have hr := simpleLft_of (1 : ℝ) 1 1 0
    ((1 : ℝ) • 1 + ((1 : ℝ) * 1) • (!![(-1 : ℝ)] * (1 - (0 : ℝ) • !![(-1 : ℝ)])⁻¹))
    ((1 : ℝ) • ((1 - (0 : ℝ) • !![(-1 : ℝ)])⁻¹ * !![(1 : ℝ)]))
    ((1 : ℝ) • (!![(1 : ℝ)] * (1 - (0 : ℝ) • !![(-1 : ℝ)])⁻¹))
    (!![(0 : ℝ)] + (0 : ℝ) • (!![(1 : ℝ)] * (1 - (0 : ℝ) • !![(-1 : ℝ)])⁻¹ * !![(1 : ℝ)])) (by simp)
  obtain ⟨R, h5, h6⟩ := undiscretize_of (N := N) (E := E) (S := S) (mth := none) (pw := 0) (dt := 1)
    (q := none) (q' := some (q2 1 1 1 0)) (by rw [h2]) (by rw [h2])
    (by simp [undiscMethod, h3, undiscQ, h4, q2])
    (by
      simp only [undiscMethod, h3, undiscretizeArgs, tustinNames, forwardNames, backwardNames,
        Option.getD_none, Option.getD_some, h2]
      simp only [reduceCtorEq, String.reduceEq, if_false, List.mem_cons, List.not_mem_nil, or_self,
        if_true]
      exact hr)
  refine ⟨S, R, h1, h5, ?_⟩
  rw [h6]
  intro h
  have h7 := congrArg StateM.a h
  have h8 := Arr.of_inj.mp h7
  have h9 := congrFun (congrFun h8 0) 0
  simp at h9
  norm_num at h9

example : Consistent (lagObj P).g 1 1 ∧ (lagObj P).g.isgain = false ∧
    (∃ S, discretize N E (lagObj P) 1 "tustin" 0 none = .ok S) ∧
    (∃ S, discretize N E (lagObj P) 1 "backward euler" 0 none = .ok S) ∧
    (∃ S, discretize N E (lagObj P) 1 "forward euler" 0 none = .ok S) := by
  obtain ⟨h1, h2, h3⟩ := C32_defined (N := N) (E := E) (q := none) (pw := 0) (G := lagObj P) rfl
    one_pos
  exact ⟨by simp [Consistent, lagObj], rfl, h1.mpr (by simp; norm_num), h2.mpr (by simp), h3⟩

/-! ## C37 -/

/-- **C37**, discretising: a continuous static gain becomes the same gain with period `dt`, whatever
the method. -/
theorem C37_discretize (hg : G.g.isgain = true) (hc : G.g.dt = none) (hm : method ∈ knownMethods)
    (hdt : 0 < dt) :
    ∃ S, discretize N E G dt method pw q = .ok S ∧ S.g.isgain = true ∧ S.g.d = G.g.d ∧
      S.g.dt = some dt := by
  have hdt' : DtOk (some dt) := by intro t ht; cases ht; exact hdt
  have e := mkGain_of hdt' G.g.d
  unfold mkGain at e
  simp [discretize, hm, hc, hg, StateObj.init, e, bind, Except.bind, StateObj.set, StateObj.assign,
    not_le.mpr hdt, StateObj.recalc]

example : (⟨Arr.empty, Arr.empty, Arr.empty, Arr.of !![1, 2], none, true⟩ : StateM ℝ).isgain = true ∧
    "zoh" ∈ knownMethods := ⟨rfl, by simp [knownMethods]⟩

/-- **C37** fails for undiscretising: no static gain can be undiscretised, `ValueError` is raised. -/
theorem C37_undiscretize_violated (hg : G.g.isgain = true) (mth : Option String) :
    undiscretize N E G mth pw q = .error .value := by
  unfold undiscretize
  cases G.g.dt with
  | none => rfl
  | some t =>
    simp only [undiscQ]
    split_ifs <;> simp [bind, Except.bind, hg]

/-! ## C38 -/

section c38
variable {A : Matrix (Fin n) (Fin n) ℝ} {h w : ℝ}

theorem isEig_lft (hd : (1 - w • A).det ≠ 0) (μ : ℂ) :
    IsEig ((1 : ℝ) • 1 + h • (A * (1 - w • A)⁻¹)) μ ↔
      ((μ - 1) • (1 : Matrix (Fin n) (Fin n) ℂ)
        - ((w : ℂ) * (μ - 1) + h) • A.map (algebraMap ℝ ℂ)).det = 0 := by
  obtain ⟨Y, hYdef⟩ : ∃ Y, Y = (1 - w • A)⁻¹ := ⟨_, rfl⟩
  have hY : (1 - w • A) * Y = 1 := by rw [hYdef]; exact mul_nonsing_inv _ (Ne.isUnit hd)
  have hYm : (1 - (w : ℂ) • A.map (algebraMap ℝ ℂ)) * Y.map (algebraMap ℝ ℂ) = 1 := by
    have e2 := congrArg (fun X => X.map (algebraMap ℝ ℂ)) hY
    simp only [map_mul', map_sub', map_smul'] at e2
    simpa using e2
  have hYdet : (Y.map (algebraMap ℝ ℂ)).det ≠ 0 := by
    intro hz
    have := congrArg det hYm
    rw [det_mul, hz, mul_zero, det_one] at this
    exact zero_ne_one this
  rw [← hYdef]
  have key : μ • (1 : Matrix (Fin n) (Fin n) ℂ)
      - ((1 : ℝ) • 1 + h • (A * Y)).map (algebraMap ℝ ℂ)
      = ((μ - 1) • (1 : Matrix (Fin n) (Fin n) ℂ)
        - ((w : ℂ) * (μ - 1) + h) • A.map (algebraMap ℝ ℂ)) * Y.map (algebraMap ℝ ℂ) := by
    have e : (μ - 1) • (1 : Matrix (Fin n) (Fin n) ℂ)
        - ((w : ℂ) * (μ - 1) + h) • A.map (algebraMap ℝ ℂ)
        = (μ - 1) • (1 - (w : ℂ) • A.map (algebraMap ℝ ℂ)) - (h : ℂ) • A.map (algebraMap ℝ ℂ) := by
      rw [smul_sub, smul_smul, add_smul, mul_comm (w : ℂ)]
      abel
    rw [e, sub_mul, smul_mul, hYm, map_add', map_smul', map_smul', map_mul', smul_mul, sub_smul]
    simp
    abel
  unfold IsEig
  rw [key, det_mul, mul_eq_zero, or_iff_left hYdet]

theorem isEig_scale {c β : ℂ} (hβ : β ≠ 0) :
    (c • (1 : Matrix (Fin n) (Fin n) ℂ) - β • A.map (algebraMap ℝ ℂ)).det = 0 ↔ IsEig A (c / β) := by
  have : c • (1 : Matrix (Fin n) (Fin n) ℂ) - β • A.map (algebraMap ℝ ℂ)
      = β • ((c / β) • 1 - A.map (algebraMap ℝ ℂ)) := by
    rw [smul_sub, smul_smul, mul_div_cancel₀ _ hβ]
  rw [this, det_smul, mul_eq_zero, or_iff_right (pow_ne_zero _ hβ), IsEig]

/-- A Hurwitz matrix has no positive real eigenvalue. -/
theorem Hurwitz.det_ne_zero (hA : Hurwitz A) (hw : 0 < w) : (1 - w • A).det ≠ 0 := by
  intro h0
  have h1 : (1 - (w : ℂ) • A.map (algebraMap ℝ ℂ)).det = 0 := by
    have e : (1 - (w : ℂ) • A.map (algebraMap ℝ ℂ)) = (1 - w • A).map (algebraMap ℝ ℂ) := by
      rw [map_sub', map_smul']; simp
    rw [e]
    have := RingHom.map_det (algebraMap ℝ ℂ) (1 - w • A)
    rw [h0, map_zero] at this
    exact this.symm
  have h2 := (isEig_scale (A := A) (c := 1) (β := (w : ℂ)) (by exact_mod_cast hw.ne')).mp (by
    simpa using h1)
  have h3 := hA _ h2
  rw [one_div, ← Complex.ofReal_inv, Complex.ofReal_re] at h3
  have : 0 < w⁻¹ := inv_pos.mpr hw
  linarith

theorem norm_lt_one_iff (μ : ℂ) : ‖μ‖ < 1 ↔ Complex.normSq μ < 1 := by
  rw [Complex.normSq_eq_norm_sq]
  constructor
  · intro h; nlinarith [norm_nonneg μ]
  · intro h; nlinarith [norm_nonneg μ]

theorem re_bilinear {μ : ℂ} (hμ : μ + 1 ≠ 0) (hh : 0 < h) :
    ((μ - 1) / ((h / 2 : ℂ) * (μ + 1))).re < 0 ↔ ‖μ‖ < 1 := by
  have hn : 0 < Complex.normSq (μ + 1) := Complex.normSq_pos.mpr hμ
  have e : (μ - 1) / ((h / 2 : ℂ) * (μ + 1))
      = ((2 / h / Complex.normSq (μ + 1) : ℝ) : ℂ) * ((μ - 1) * (starRingEnd ℂ) (μ + 1)) := by
    have h1 : (μ + 1) * (starRingEnd ℂ) (μ + 1) = (Complex.normSq (μ + 1) : ℂ) :=
      Complex.mul_conj _
    have h2 : (h : ℂ) ≠ 0 := by exact_mod_cast hh.ne'
    have h3 : (Complex.normSq (μ + 1) : ℂ) ≠ 0 := by exact_mod_cast hn.ne'
    push_cast
    rw [← h1] at h3 ⊢
    have h4 := right_ne_zero_of_mul h3
    field_simp
  rw [e, Complex.re_ofReal_mul, norm_lt_one_iff]
  have hpos : 0 < 2 / h / Complex.normSq (μ + 1) := by positivity
  have e2 : ((μ - 1) * (starRingEnd ℂ) (μ + 1)).re = Complex.normSq μ - 1 := by
    simp [Complex.mul_re, Complex.normSq_apply]; ring
  rw [e2, mul_neg_iff]
  constructor
  · rintro (⟨-, h⟩ | ⟨h, -⟩)
    · linarith
    · linarith
  · intro h; left; exact ⟨hpos, by linarith⟩

/-- The bilinear map: `A` is Hurwitz exactly when `I + h A (I - h/2 A)⁻¹` is Schur. -/
theorem hurwitz_iff_schur (hh : 0 < h) (hd : (1 - (h / 2) • A).det ≠ 0) :
    Hurwitz A ↔ Schur ((1 : ℝ) • 1 + h • (A * (1 - (h / 2) • A)⁻¹)) := by
  have hh' : (h : ℂ) / 2 ≠ 0 := by
    have : (h : ℂ) ≠ 0 := by exact_mod_cast hh.ne'
    simpa using this
  have hβ : ∀ μ : ℂ, ((h / 2 : ℝ) : ℂ) * (μ - 1) + h = (h / 2 : ℂ) * (μ + 1) := by
    intro μ; push_cast; ring
  constructor
  · intro hA μ hμ
    rw [isEig_lft hd, hβ] at hμ
    by_cases h1 : μ + 1 = 0
    · exfalso
      rw [h1, mul_zero, zero_smul, sub_zero, det_smul, det_one, mul_one] at hμ
      refine pow_ne_zero _ ?_ hμ
      rw [eq_neg_of_add_eq_zero_left h1]; norm_num
    · rw [isEig_scale (mul_ne_zero hh' h1)] at hμ
      exact (re_bilinear h1 hh).mp (hA _ hμ)
  · intro hS z hz
    have h1 : 1 - (h / 2 : ℂ) * z ≠ 0 := by
      intro h0
      have hz1 : z = 1 / ((h / 2 : ℝ) : ℂ) := by
        rw [eq_div_iff (by simpa using hh'), mul_comm]
        push_cast
        linear_combination -h0
      rw [hz1, ← isEig_scale (by simpa using hh')] at hz
      have e : ((1 : ℂ) • (1 : Matrix (Fin n) (Fin n) ℂ) - ((h / 2 : ℝ) : ℂ) • A.map (algebraMap ℝ ℂ))
          = (1 - (h / 2) • A).map (algebraMap ℝ ℂ) := by
        rw [map_sub', map_smul']; simp
      rw [e] at hz
      have := RingHom.map_det (algebraMap ℝ ℂ) (1 - (h / 2) • A)
      rw [RingHom.mapMatrix_apply, hz] at this
      exact hd (by simpa using this)
    have h2 : (1 + (h / 2 : ℂ) * z) / (1 - (h / 2 : ℂ) * z) + 1 ≠ 0 := by
      rw [div_add_one h1]
      refine div_ne_zero ?_ h1
      ring_nf; norm_num
    have h3 : ((1 + (h / 2 : ℂ) * z) / (1 - (h / 2 : ℂ) * z) - 1)
        / ((h / 2 : ℂ) * ((1 + (h / 2 : ℂ) * z) / (1 - (h / 2 : ℂ) * z) + 1)) = z := by
      rw [div_sub_one h1, div_add_one h1]
      clear h2 hβ
      generalize (h / 2 : ℂ) = k at *
      field_simp
      ring
    rw [← h3, re_bilinear h2 hh]
    apply hS
    rw [isEig_lft hd, hβ, isEig_scale (mul_ne_zero hh' h2), h3]
    exact hz

end c38

/-- The tustin branch is a star product with `[[1, y], [y, y²/2]]`. -/
theorem tustin_args (hm : method = "tustin" ∨ method = "bilinear") (hdt : 0 < dt) (hpw : 0 ≤ pw)
    (hny : pw < 1 / (2 * dt)) :
    ∃ y : ℝ, 0 < y ∧ discretizeArgs E G.g dt method pw q
        = simpleLft (q2 1 y y (y ^ 2 / 2)) G.g.a G.g.b G.g.c G.g.d ∧
      (pw ≠ 0 → y ^ 2 = 2 * Real.tan (2 * Real.pi * pw * dt / 2) / (2 * Real.pi * pw)) := by
  by_cases h0 : pw = 0
  · refine ⟨√dt, Real.sqrt_pos.mpr hdt, ?_, fun h => absurd h0 h⟩
    rw [Real.sq_sqrt hdt.le]
    rcases hm with rfl | rfl <;>
      simp [discretizeArgs, discTustin, tustinQ, tustinNames, bind, Except.bind, h0]
  · have hpos : 0 < pw := lt_of_le_of_ne hpw (Ne.symm h0)
    have hpi := Real.pi_pos
    have harg : 2 * Real.pi * pw * dt / 2 < Real.pi / 2 := by
      rw [lt_div_iff₀ (by positivity)] at hny
      have : Real.pi * (pw * (2 * dt)) < Real.pi * 1 := mul_lt_mul_of_pos_left hny hpi
      linarith
    have htan : 0 < Real.tan (2 * Real.pi * pw * dt / 2) :=
      Real.tan_pos_of_pos_of_lt_pi_div_two (by positivity) harg
    have hq : 0 < 2 * Real.tan (2 * Real.pi * pw * dt / 2) / (2 * Real.pi * pw) := by positivity
    refine ⟨sq2tan dt pw, Real.sqrt_pos.mpr hq, ?_, fun _ => ?_⟩
    · have hn : ¬ (1 / (2 * dt) < pw) := not_lt.mpr hny.le
      rcases hm with rfl | rfl <;>
        simp only [discretizeArgs, discTustin, tustinQ, tustinNames, bind, Except.bind, h0, hn] <;>
        simp
    · unfold sq2tan
      rw [Real.sq_sqrt hq.le]

/-- **C38**, tustin: the discretised model is stable exactly when the continuous model is, and stable
models can always be discretised. `pw` is the prewarping frequency in Hz (`0`: none). -/
theorem C38_tustin {A : Matrix (Fin n) (Fin n) ℝ} (hm : method = "tustin" ∨ method = "bilinear")
    (hG : Consistent G.g p m) (hg : G.g.isgain = false) (hA : G.g.a = Arr.of A) (hc : G.g.dt = none)
    (hdt : 0 < dt) (hpw : 0 ≤ pw) (hny : pw < 1 / (2 * dt)) :
    (Hurwitz A → ∃ S, discretize N E G dt method pw q = .ok S) ∧
    ∀ S, discretize N E G dt method pw q = .ok S →
      ∃ A' : Matrix (Fin n) (Fin n) ℝ, S.g.a = Arr.of A' ∧ (Hurwitz A ↔ Schur A') := by
  obtain ⟨a, b, c, D, dt', hG'⟩ | ⟨n', A₁, B, C, D, dt', hG'⟩ := consistent_cases hG
  · rw [hG'] at hg; cases hg
  obtain rfl : n' = n := by
    have := congrArg Arr.r hA
    rw [hG'] at this; exact this
  obtain rfl : A₁ = A := by rw [hG'] at hA; exact Arr.of_inj.mp hA
  obtain rfl : dt' = none := by rw [hG'] at hc; exact hc
  obtain ⟨y, hy, hargs, -⟩ := tustin_args (G := G) (E := E) (q := q) hm hdt hpw hny
  have hk : method ∈ knownMethods := by rcases hm with rfl | rfl <;> simp [knownMethods]
  have hl := discretize_lft_ok (N := N) hargs (fun _ _ => hny.le) hG' hk
  have hy2 : 0 < y ^ 2 := by positivity
  constructor
  · intro hst
    obtain ⟨S, hS, -⟩ := hl.2 (Hurwitz.det_ne_zero hst (by positivity)) hdt
    exact ⟨S, hS⟩
  · intro S hS
    have h0 : (1 - (y ^ 2 / 2) • A₁).det ≠ 0 := by
      intro h0; rw [hl.1 h0] at hS; cases hS
    obtain ⟨S', h1, h2, -⟩ := hl.2 h0 hdt
    rw [hS] at h1; cases h1
    refine ⟨_, by rw [h2], ?_⟩
    rw [← pow_two]
    exact hurwitz_iff_schur hy2 h0

/-- **C38**, backward differences: stable models can be discretised and stay stable. -/
theorem C38_backward {A : Matrix (Fin n) (Fin n) ℝ} (hm : method ∈ backwardNames)
    (hG : Consistent G.g p m) (hg : G.g.isgain = false) (hA : G.g.a = Arr.of A) (hc : G.g.dt = none)
    (hdt : 0 < dt) (hst : Hurwitz A) :
    ∃ S, discretize N E G dt method pw q = .ok S ∧
      ∃ A' : Matrix (Fin n) (Fin n) ℝ, S.g.a = Arr.of A' ∧ Schur A' := by
  obtain ⟨a, b, c, D, dt', hG'⟩ | ⟨n', A₁, B, C, D, dt', hG'⟩ := consistent_cases hG
  · rw [hG'] at hg; cases hg
  obtain rfl : n' = n := by
    have := congrArg Arr.r hA
    rw [hG'] at this; exact this
  obtain rfl : A₁ = A := by rw [hG'] at hA; exact Arr.of_inj.mp hA
  obtain rfl : dt' = none := by rw [hG'] at hc; exact hc
  simp only [backwardNames, List.mem_cons, List.not_mem_nil, or_false] at hm
  have hk : method ∈ knownMethods := by rcases hm with rfl | rfl | rfl | rfl <;> simp [knownMethods]
  have hl := discretize_lft_ok (N := N) (E := E) (G := G) (dt := dt) (method := method) (pw := pw)
    (q := q) (x := 1) (y := √dt) (z := √dt) (w := dt)
    (by rcases hm with rfl | rfl | rfl | rfl <;>
          simp [discretizeArgs, forwardNames, tustinNames, backwardNames])
    (by rcases hm with rfl | rfl | rfl | rfl <;> simp [tustinNames]) hG' hk
  have h0 := Hurwitz.det_ne_zero hst hdt
  obtain ⟨S, h1, h2, -⟩ := hl.2 h0 hdt
  refine ⟨S, h1, _, by rw [h2], ?_⟩
  rw [Real.mul_self_sqrt hdt.le]
  intro μ hμ
  rw [isEig_lft h0] at hμ
  have hβ : (dt : ℂ) * (μ - 1) + dt = dt * μ := by ring
  have hd' : (dt : ℂ) ≠ 0 := by exact_mod_cast hdt.ne'
  rw [hβ] at hμ
  by_cases hz : μ = 0
  · simp [hz]
  rw [isEig_scale (mul_ne_zero hd' hz)] at hμ
  have h3 := hst _ hμ
  have hn : 0 < Complex.normSq μ := Complex.normSq_pos.mpr hz
  have e : (μ - 1) / ((dt : ℂ) * μ)
      = ((1 / dt / Complex.normSq μ : ℝ) : ℂ) * ((μ - 1) * (starRingEnd ℂ) μ) := by
    have h1 : μ * (starRingEnd ℂ) μ = (Complex.normSq μ : ℂ) := Complex.mul_conj _
    have h3 : (Complex.normSq μ : ℂ) ≠ 0 := by exact_mod_cast hn.ne'
    push_cast
    rw [← h1] at h3 ⊢
    have h4 := right_ne_zero_of_mul h3
    field_simp
  rw [e, Complex.re_ofReal_mul] at h3
  have hpos : 0 < 1 / dt / Complex.normSq μ := by positivity
  have h4 : ((μ - 1) * (starRingEnd ℂ) μ).re < 0 := by
    by_contra h5
    have := mul_nonneg hpos.le (not_lt.mp h5)
    linarith
  have e2 : ((μ - 1) * (starRingEnd ℂ) μ).re = Complex.normSq μ - μ.re := by
    simp [Complex.mul_re, Complex.normSq_apply]; ring
  rw [e2] at h4
  have h5 : μ.re ≤ ‖μ‖ := Complex.re_le_norm μ
  rw [Complex.normSq_eq_norm_sq] at h4
  by_contra h6
  nlinarith [not_lt.mp h6]

theorem lagObj_hurwitz : Hurwitz (!![-1] : Matrix (Fin 1) (Fin 1) ℝ) := by
  intro z hz
  simp [IsEig] at hz
  rw [eq_neg_of_add_eq_zero_left hz]; simp

example : Consistent (lagObj P).g 1 1 ∧ (lagObj P).g.isgain = false ∧
    (lagObj P).g.a = Arr.of !![-1] ∧ (lagObj P).g.dt = none ∧
    Hurwitz (!![-1] : Matrix (Fin 1) (Fin 1) ℝ) ∧ (0 : ℝ) ≤ 1 / 4 ∧ (1 / 4 : ℝ) < 1 / (2 * 1) :=
  ⟨by simp [Consistent, lagObj], rfl, rfl, rfl, lagObj_hurwitz, by norm_num, by norm_num⟩

/-! ## C36 -/

/-- **C36**: with prewarping at `f` Hz, `Gd(exp(i ω dt)) = G(i ω)` for `ω = 2 π f`. Missing from the
full claim: `undiscretize` with the same frequency does not return `G` (`C36_undiscretize_violated`). -/
theorem C36_match_partial {f : ℝ} {M : Matrix (Fin p) (Fin m) ℂ}
    (hm : method = "tustin" ∨ method = "bilinear")
    (hf : 0 < f) (hny : f < 1 / (2 * dt)) (h : discretize N E G dt method f q = .ok S)
    (hG : HasTF G.g p m (Complex.I * (2 * Real.pi * f : ℝ)) M) :
    HasTF S.g p m (Complex.exp (Complex.I * (2 * Real.pi * f * dt : ℝ))) M := by
  obtain ⟨-, -, hdt⟩ := discretize_pre h
  obtain ⟨y, hy, hargs, hy2⟩ := tustin_args (G := G) (E := E) (q := q) hm hdt hf.le hny
  have hy2 := hy2 hf.ne'
  set θ : ℝ := 2 * Real.pi * f * dt / 2 with hθ
  have hpi := Real.pi_pos
  have harg : θ < Real.pi / 2 := by
    rw [lt_div_iff₀ (by positivity)] at hny
    have : Real.pi * (f * (2 * dt)) < Real.pi * 1 := mul_lt_mul_of_pos_left hny hpi
    rw [hθ]; linarith
  have hθ0 : 0 < θ := by positivity
  have hcos : Real.cos θ ≠ 0 := (Real.cos_pos_of_mem_Ioo ⟨by linarith, harg⟩).ne'
  have hsin : Real.sin θ ≠ 0 :=
    (Real.sin_pos_of_pos_of_lt_pi hθ0 (by linarith)).ne'
  have hexp : Complex.exp (Complex.I * (2 * Real.pi * f * dt : ℝ))
      = ((Real.cos θ : ℂ) + Real.sin θ * Complex.I) ^ 2 := by
    have e : Complex.I * ((2 * Real.pi * f * dt : ℝ) : ℂ) = (2 : ℕ) * ((θ : ℂ) * Complex.I) := by
      rw [hθ]; push_cast; ring
    rw [e, Complex.exp_nat_mul, Complex.exp_mul_I, Complex.ofReal_cos, Complex.ofReal_sin]
  have hcs : (Real.cos θ : ℂ) ^ 2 + (Real.sin θ : ℂ) ^ 2 = 1 := by
    have := Real.cos_sq_add_sin_sq θ
    exact_mod_cast this
  have hI : Complex.I ^ 2 = -1 := Complex.I_sq
  have hw0 : ((2 * Real.pi * f : ℝ) : ℂ) ≠ 0 := by exact_mod_cast (by positivity)
  have hcos' : (Real.cos θ : ℂ) ≠ 0 := by exact_mod_cast hcos
  have hsin' : (Real.sin θ : ℂ) ≠ 0 := by exact_mod_cast hsin
  have hyC : (y : ℂ) ^ 2 = 2 * (Real.sin θ / Real.cos θ) / (2 * Real.pi * f : ℝ) := by
    have : (y ^ 2 : ℝ) = 2 * (Real.sin θ / Real.cos θ) / (2 * Real.pi * f) := by
      rw [hy2, Real.tan_eq_sin_div_cos]
    exact_mod_cast congrArg (fun t : ℝ => (t : ℂ)) this
  have hu : (Real.cos θ : ℂ) + Real.sin θ * Complex.I ≠ 0 := by
    intro h0
    have := congrArg Complex.re h0
    rw [Complex.add_re, Complex.ofReal_re, Complex.re_ofReal_mul, Complex.I_re, mul_zero,
      add_zero, Complex.zero_re] at this
    exact hcos this
  have hβ : algebraMap ℝ ℂ (y ^ 2 / 2) * (Complex.exp (Complex.I * (2 * Real.pi * f * dt : ℝ))
        - algebraMap ℝ ℂ 1) + algebraMap ℝ ℂ y * algebraMap ℝ ℂ y
      = (y : ℂ) ^ 2 * (Real.cos θ * ((Real.cos θ : ℂ) + Real.sin θ * Complex.I)) := by
    rw [hexp]
    simp only [map_one, Complex.coe_algebraMap, Complex.ofReal_div, Complex.ofReal_pow,
      Complex.ofReal_ofNat]
    linear_combination (y : ℂ) ^ 2 / 2 * (Real.sin θ : ℂ) ^ 2 * hI - (y : ℂ) ^ 2 / 2 * hcs
  refine (discretize_lft_hasTF hargs (fun _ _ => hny.le) h hG ?_ ?_).1
  · rw [hβ]
    have hy0 : (y : ℂ) ≠ 0 := by exact_mod_cast hy.ne'
    exact mul_ne_zero (pow_ne_zero _ hy0) (mul_ne_zero hcos' hu)
  · rw [hβ, hyC, hexp, map_one]
    field_simp
    linear_combination (Real.sin θ : ℂ) ^ 2 * hI - hcs

/-- The integrator `1/s`. -/
def integObj (P : Type) : StateObj ℝ P :=
  { lagObj P with g := ⟨Arr.of !![0], Arr.of !![1], Arr.of !![1], Arr.of !![0], none, false⟩ }

/-- **C36** fails for the way back: the integrator `1/s` discretised with `dt = 1` and prewarped at
`1/4` Hz is not returned by `undiscretize` with the same frequency. -/
theorem C36_undiscretize_violated :
    ∃ S R : StateObj ℝ P, discretize N E (integObj P) 1 "tustin" (1 / 4) none = .ok S ∧
      undiscretize N E S none (1 / 4) none = .ok R ∧ R.g ≠ (integObj P).g := by
  have hq : 0 < 2 * Real.tan (2 * Real.pi * (1 / 4) * 1 / 2) / (2 * Real.pi * (1 / 4)) := by
    have hpi := Real.pi_pos
    have : 0 < Real.tan (2 * Real.pi * (1 / 4) * 1 / 2) :=
      Real.tan_pos_of_pos_of_lt_pi_div_two (by positivity) (by linarith)
    positivity
  have hy : 0 < sq2tan 1 (1 / 4) := Real.sqrt_pos.mpr hq
  obtain ⟨y, hye⟩ : ∃ y, y = sq2tan 1 (1 / 4) := ⟨_, rfl⟩
  have hl := discretize_lft_ok (N := N) (E := E) (G := integObj P) (dt := 1) (method := "tustin")
    (pw := 1 / 4) (q := none) (x := 1) (y := y) (z := y) (w := y ^ 2 / 2)
    (by rw [hye]
        simp only [discretizeArgs, discTustin, tustinQ, tustinNames, bind, Except.bind]
        norm_num
        simp)
    (by norm_num) rfl (by simp [knownMethods])
  rw [← hye] at hy
  obtain ⟨S, h1, h2, h3, -⟩ := hl.2 (by simp) one_pos
  have e0 : (1 - (y ^ 2 / 2) • !![(0 : ℝ)])⁻¹ = 1 := by
    have : (1 - (y ^ 2 / 2) • !![(0 : ℝ)]) = 1 := by ext i j; simp
    rw [this]; simp
  rw [e0] at h2
  have e1 : (1 : ℝ) • (1 : Matrix (Fin 1) (Fin 1) ℝ) + (y * y) • (!![(0 : ℝ)] * 1) = 1 := by
    ext i j; simp
  rw [e1] at h2
  have e2 : (1 - (-1 : ℝ) • (1 : Matrix (Fin 1) (Fin 1) ℝ)) = (2 : ℝ) • 1 := by
    rw [neg_smul, one_smul, sub_neg_eq_add, two_smul]
  have n1 : ¬ ((1 / 4 : ℝ) = 0) := by norm_num
  have n2 : ¬ ((1 / (2 * 1) : ℝ) ≤ 1 / 4) := by norm_num
  have hr := simpleLft_of (-2 / y ^ 2) (1 / y) (1 / y) (-1) (1 : Matrix (Fin 1) (Fin 1) ℝ)
    (y • ((1 : Matrix (Fin 1) (Fin 1) ℝ) * !![(1 : ℝ)]))
    (y • (!![(1 : ℝ)] * (1 : Matrix (Fin 1) (Fin 1) ℝ)))
    (!![(0 : ℝ)] + (y ^ 2 / 2) • (!![(1 : ℝ)] * (1 : Matrix (Fin 1) (Fin 1) ℝ) * !![(1 : ℝ)]))
    (by rw [e2]; simp)
  obtain ⟨R, h5, h6⟩ := undiscretize_of (N := N) (E := E) (S := S) (mth := none) (pw := 1 / 4)
    (dt := 1) (q := none) (q' := none) (by rw [h2]) (by rw [h2])
    (by simp [undiscMethod, h3, undiscQ])
    (by
      simp only [undiscMethod, h3, undiscretizeArgs, tustinNames, undiscTustin, untustinQ, bind,
        Except.bind, h2, Option.getD_none, Option.getD_some, ← hye, n1, n2, if_false]
      simp only [List.mem_cons, List.not_mem_nil, true_or, if_true, String.reduceEq, if_false]
      exact hr)
  refine ⟨S, R, h1, h5, ?_⟩
  rw [h6]
  intro h
  have h7 := congrArg StateM.a h
  have h8 := Arr.of_inj.mp h7
  have h9 := congrFun (congrFun h8 0) 0
  rw [e2] at h9
  have e3 : ((2 : ℝ) • (1 : Matrix (Fin 1) (Fin 1) ℝ))⁻¹ = (2⁻¹ : ℝ) • 1 := by
    refine Matrix.inv_eq_right_inv ?_
    simp [smul_smul]
  rw [e3] at h9
  simp [integObj] at h9
  field_simp at h9
  norm_num at h9

example : Consistent (integObj P).g 1 1 := by simp [Consistent, integObj]

/-- Non-vacuity of `C36_match_partial`: the lag at `1/4` Hz. -/
example : (∃ S, discretize N E (lagObj P) 1 "tustin" (1 / 4) none = .ok S) ∧
    HasTF (lagObj P).g 1 1 (Complex.I * (2 * Real.pi * (1 / 4) : ℝ))
      !![1 / (Complex.I * (2 * Real.pi * (1 / 4) : ℝ) + 1)] := by
  have hs : Complex.I * (2 * Real.pi * (1 / 4) : ℝ) + 1 ≠ 0 := by
    intro h
    have := congrArg Complex.re h
    simp at this
  refine ⟨(C38_tustin (Or.inl rfl) (p := 1) (m := 1) (A := !![-1]) (by simp [Consistent, lagObj]) rfl
    rfl rfl one_pos (by norm_num) (by norm_num)).1 lagObj_hurwitz, ?_⟩
  generalize Complex.I * (2 * Real.pi * (1 / 4) : ℝ) = s at hs
  refine HasTF.of_dyn (isTF_iff_sol.mpr ⟨?_, !![1 / (s + 1)], ?_, ?_⟩)
  · simpa using hs
  · ext i j; fin_cases i; fin_cases j; simp [Matrix.mul_apply]; field_simp
  · ext i j; fin_cases i; fin_cases j; simp [Matrix.mul_apply]

end Harold
