import Verif.Lemmas.Freq
import Verif.Lemmas.TransferVal
import Verif.Props.Transfer
import Verif.Lemmas.Convert

/-!
# C44, C45, C46: frequency responses
-/

namespace Harold

open Matrix Spec

variable {n m p : ℕ}

theorem freqPoint_eq (dt : Option ℝ) (ω : ℝ) : freqPoint dt ω = evalPoint dt ω := by
  cases dt with
  | none => simp [freqPoint, evalPoint, mul_comm]
  | some dt =>
    simp only [freqPoint, evalPoint, Option.elim_some]
    congr 1
    ring

theorem not_isHz_rad {u : String} (h : IsRad u) : ¬ IsHz u := by
  intro h'
  unfold IsHz at h'
  rw [h] at h'
  revert h'
  decide

theorem toRad_rad {u : String} (h : IsRad u) (x : ℝ) : toRad u x = x := by
  unfold toRad
  rw [if_neg (not_isHz_rad h)]

theorem toRad_hz {u : String} (h : IsHz u) (x : ℝ) : toRad u x = 2 * Real.pi * x := by
  unfold toRad
  rw [if_pos h]

theorem isRad_rad : IsRad "rad/s" := by
  unfold IsRad
  decide

theorem isHz_Hz : IsHz "Hz" := by
  unfold IsHz
  decide

theorem unitOk_iff {u : String} : unitOk u = true ↔ IsHz u ∨ IsRad u := by
  unfold unitOk lower IsHz IsRad
  rw [Bool.or_eq_true, decide_eq_true_iff, decide_eq_true_iff]

/-- The returned grid, back in rad/s. -/
theorem outGrid_toRad {ou : String} (hou : ou = "rad/s" ∨ IsHz ou) (w : List ℝ) (k : ℕ) (ω : ℝ) :
    (outGrid ou w)[k]? = some ω → ∃ x, w[k]? = some x ∧ toRad ou ω = x := by
  intro h
  unfold outGrid at h
  rcases hou with rfl | h1
  · rw [if_pos rfl] at h
    exact ⟨ω, h, toRad_rad isRad_rad ω⟩
  · have h2 : ou ≠ "rad/s" := fun h2 => not_isHz_rad isRad_rad (h2 ▸ h1)
    rw [if_neg h2, List.getElem?_map, Option.map_eq_some_iff] at h
    obtain ⟨x, h2, rfl⟩ := h
    refine ⟨x, h2, ?_⟩
    rw [toRad_hz h1]
    field_simp

theorem outGrid_length (ou : String) (w : List ℝ) : (outGrid ou w).length = w.length := by
  unfold outGrid
  split_ifs <;> simp

/-! ## C44: `Transfer` models -/

theorem freqTransfer_ok {auto : List ℝ} {G : TransferM ℝ} {w : Option GridArg} {samples : Option ℕ} {iu ou : String}
    {R : FreqOut} (h : freqTransfer auto G w samples iu ou = .ok R) :
    ∃ ws, unitOk iu = true ∧ unitOk ou = true ∧ freqGrid auto G.isgain G.dt w samples iu = .ok ws ∧ R.w = outGrid ou ws ∧
      (G.isgain = true → gainResp G = .ok R.resp) ∧
      (G.isgain = false → R.resp = ws.map fun x => Arr.of (Matrix.of fun (i : Fin G.num.r) (j : Fin G.num.c) =>
        polyQuot (G.num.entry i j) (G.den.entry i j) (freqPoint G.dt x))) := by
  unfold freqTransfer at h
  by_cases h0 : unitOk iu = false ∨ unitOk ou = false
  · rw [if_pos h0] at h; cases h
  · rw [if_neg h0] at h
    rw [not_or, Bool.not_eq_false, Bool.not_eq_false] at h0
    obtain ⟨ws, h1, h2⟩ := bind_ok' h
    refine ⟨ws, h0.1, h0.2, h1, ?_⟩
    cases hg : G.isgain with
    | true =>
      rw [hg, if_pos rfl] at h2
      obtain ⟨r, h4, h5⟩ := bind_ok' h2
      cases h5
      exact ⟨rfl, fun _ => h4, fun h => by cases h⟩
    | false =>
      rw [hg, if_neg (by simp)] at h2
      cases h2
      exact ⟨rfl, fun h => (by cases h), fun _ => rfl⟩

/-- **C44** for models with dynamics: every sample is the quotient of the polynomials at `jω` (`exp(jω dt)` for discrete models), and there is one for
each returned frequency; for every user grid and every automatic one. What the returned grid is says C46; its unit is `'rad/s'` or a spelling of
`'Hz'` (for other spellings of `'rad/s'` see `C46_output_violated`).
`_partial`: static gains, see `C44_gain_values_partial`, `C44_gain_length_violated` and `C44_gain_den_violated`. -/
theorem C44_values_partial {auto : List ℝ} {G : TransferM ℝ} (hG : G.isgain = false) {w : Option GridArg} {samples : Option ℕ} {iu ou : String}
    (hou : ou = "rad/s" ∨ IsHz ou) {R : FreqOut} (h : freqTransfer auto G w samples iu ou = .ok R) :
    Samples R G.dt ou p m (HasVal G p m) := by
  obtain ⟨ws, -, -, -, hw, -, hr⟩ := freqTransfer_ok h
  have hr := hr hG
  refine ⟨by simp [hw, hr, outGrid_length], fun k ω hk M hM => ?_⟩
  rw [hw] at hk
  rw [hr]
  clear hr hw h
  obtain ⟨x, h3, h4⟩ := outGrid_toRad hou ws k ω hk
  rw [h4, ← freqPoint_eq] at hM
  obtain ⟨N, D, hN, hD, hv⟩ := hM
  simp only [List.getElem?_map, h3, Option.map_some, Option.some.injEq]
  obtain ⟨num, den, g, dt⟩ := G
  simp only at hN hD hv ⊢
  subst hN hD
  rw [Arr.of_inj]
  ext i j : 2
  simp only [Matrix.of_apply, entry_of, polyQuot, polyval_eq, Matrix.map_apply]
  rw [if_neg (hv i j).1, (hv i j).2]

/-- **C44** for static gains: the samples have the right value when the model has more than one channel or the denominator is one. Missing: one channel with another denominator, see `C44_gain_den_violated`. -/
theorem C44_gain_values_partial {auto : List ℝ} {G : TransferM ℝ} {N D : Matrix (Fin p) (Fin m) (List ℝ)} (hG : Normal G p m N D) (hg : G.isgain = true)
    (h1 : p = 1 → m = 1 → UnitDen G) {w : Option GridArg} {samples : Option ℕ} {iu ou : String} {R : FreqOut}
    (h : freqTransfer auto G w samples iu ou = .ok R) {s : ℂ} {M : Matrix (Fin p) (Fin m) ℂ} (hM : HasVal G p m s M) :
    ∀ x ∈ R.resp, x = Arr.of (M.map some) := by
  obtain ⟨ws, -, -, h2, hw, h4, -⟩ := freqTransfer_ok h
  have h4 := h4 hg
  obtain ⟨N', D', hN, hD, hv⟩ := hM
  rw [hG.num, Arr.of_inj] at hN
  rw [hG.den, Arr.of_inj] at hD
  subst hN hD
  unfold gainResp at h4
  split_ifs at h4 with h6
  · simp only [TransferM.isSISO, hG.num, Arr.of_r, Arr.of_c, decide_eq_true_eq] at h6
    obtain ⟨rfl, rfl⟩ := h6
    have hu := h1 rfl rfl 
    have hl := hG.flag.mp hg 0 0
    have hc := hG.causal 0 0
    have hd : D 0 0 = [1] := by
      have := hu
      unfold UnitDen at this
      rw [hG.den] at this
      exact this 0 0 hl
    have e0 : G.num.entry 0 0 = N 0 0 := by rw [hG.num]; exact entry_of N 0 0
    rw [e0] at h4
    match hn : N 0 0, h4 with
    | a :: t, h4 =>
      simp only [Except.ok.injEq] at h4
      have ht : t = [] := by
        rw [hn, hl] at hc
        simpa using hc
      subst ht
      intro x hx
      rw [← h4] at hx
      rw [List.eq_of_mem_replicate hx, Arr.of_inj]
      ext i j : 2
      obtain rfl := Subsingleton.elim i 0
      obtain rfl := Subsingleton.elim j 0
      rw [Matrix.map_apply, (hv 0 0).2, hn, hd, polyAt_const, polyAt_const]
      simp
  · obtain ⟨x, h7, h8⟩ := bind_ok' h4
    simp only [Except.ok.injEq] at h8
    unfold TransferM.toArray at h7
    rw [if_pos hg, hG.num, hG.den] at h7
    obtain ⟨X, rfl, h9, -⟩ := gainArr_valued (s := s) (M := M) h7 (fun i j => ⟨(hv i j).1, (hv i j).2, hG.lead i j⟩)
    intro y hy
    rw [← h8] at hy
    rw [List.eq_of_mem_replicate hy, Arr.of_inj, ← h9]
    rfl

/-- **C44** fails for static gains on any grid that does not have exactly two points: there are two samples whatever the grid. -/
theorem C44_gain_length_violated {auto : List ℝ} {G : TransferM ℝ} (hg : G.isgain = true) (hdt : G.dt = none) {g : GridArg} (hs : g.shape = [g.data.length])
    (hl : g.data.length ≠ 2) {samples : Option ℕ} {iu ou : String} {R : FreqOut} (h : freqTransfer auto G (some g) samples iu ou = .ok R) :
    R.w.length = g.data.length ∧ R.resp.length = 2 := by
  obtain ⟨ws, -, -, h2, hw, h4, -⟩ := freqTransfer_ok h
  have h4 := h4 hg
  refine ⟨?_, ?_⟩
  · rw [hw, outGrid_length]
    unfold freqGrid userGrid at h2
    rw [hdt] at h2
    simp only at h2
    split_ifs at h2 <;> cases h2 <;> simp
  · unfold gainResp at h4
    split_ifs at h4 with h6
    · split at h4
      · cases h4
      · simp only [Except.ok.injEq] at h4
        simp [← h4]
    · obtain ⟨x, h7, h8⟩ := bind_ok' h4
      simp only [Except.ok.injEq] at h8
      simp [← h8]

/-- The hypotheses are met, e.g. by `frequency_response(Transfer(5), [1, 2, 3])`. -/
theorem C44_gain_length_witness (auto : List ℝ) : ∃ R, freqTransfer auto ⟨constArr 1 1 [5], constArr 1 1 [1], true, none⟩ (some ⟨[3], [1, 2, 3]⟩) none "Hz" "Hz"
    = .ok R ∧ R.w.length = 3 ∧ R.resp.length = 2 := by
  have : ∃ R, freqTransfer auto ⟨constArr 1 1 [5], constArr 1 1 [1], true, none⟩ (some ⟨[3], [1, 2, 3]⟩) none "Hz" "Hz" = .ok R := by
    refine ⟨⟨List.replicate 2 (Arr.of (Matrix.of fun (_ _ : Fin 1) => some ((5 : ℝ) : ℂ))), outGrid "Hz" ([1, 2, 3].map fun x => x * (2 * Real.pi))⟩, ?_⟩
    have hu : unitOk "Hz" = true := unitOk_iff.mpr (.inl isHz_Hz)
    simp [freqTransfer, hu, freqGrid, userGrid, gainResp, TransferM.isSISO, constArr, Arr.entry, bind, Except.bind]
  obtain ⟨R, hR⟩ := this
  obtain ⟨h1, h2⟩ := C44_gain_length_violated rfl rfl rfl (by simp) hR
  exact ⟨R, hR, h1, h2⟩

/-- **C44** fails for `Transfer([2], [4])`: the samples are `2`, not `1/2`. -/
theorem C44_gain_den_violated (E : TNum ℝ) (auto : List ℝ) : ∃ G R, mkTransfer E (.vec [2]) (.vec [4]) none = .ok G ∧
    freqTransfer auto G (some ⟨[2], [1, 2]⟩) none "Hz" "Hz" = .ok R ∧ (∀ s : ℂ, HasVal G 1 1 s (Matrix.of fun _ _ => 1 / 2)) ∧
    R.resp = List.replicate 2 (Arr.of (Matrix.of fun (_ _ : Fin 1) => some (2 : ℂ))) := by
  refine ⟨⟨constArr 1 1 [2], constArr 1 1 [4], true, none⟩, ⟨List.replicate 2 (Arr.of (Matrix.of fun (_ _ : Fin 1) => some ((2 : ℝ) : ℂ))), outGrid "Hz" ([1, 2].map fun x => x * (2 * Real.pi))⟩,
    ?_, ?_, fun s => ⟨_, _, rfl, rfl, fun i j => ?_⟩, ?_⟩
  rotate_left
  · have hu : unitOk "Hz" = true := unitOk_iff.mpr (.inl isHz_Hz)
    simp [freqTransfer, hu, freqGrid, userGrid, gainResp, TransferM.isSISO, constArr, Arr.entry, bind, Except.bind]
  · simp only [Matrix.of_apply, polyAt_const]
    simp
    norm_num
  · simp
  · rw [mkTransfer_vec E (by simp) (by simp) dtOk_none]
    simp [TransferM.poleMatrix, Except.map]

/-- Non-vacuity of `C44_values_partial`: `1/(s+1)` at one frequency in Hz. -/
example : ∃ R, freqTransfer [] ⟨constArr 1 1 [1], constArr 1 1 [1, 1], false, none⟩ (some ⟨[1], [1]⟩) none "Hz" "Hz" = .ok R := by
  have hu : unitOk "Hz" = true := unitOk_iff.mpr (.inl isHz_Hz)
  simp [freqTransfer, hu, freqGrid, userGrid, bind, Except.bind]

/-! ## C45: `State` models -/

theorem freqState_ok {N : HessNum ℝ} {red : Option (Reduce ℝ)} {auto : List ℝ} {G : StateM ℝ}
    {w : Option GridArg} {samples : Option ℕ} {iu ou : String} {R : FreqOut} (h : freqState N red auto G w samples iu ou = .ok R) :
    ∃ ws, unitOk iu = true ∧ unitOk ou = true ∧ freqGrid auto G.isgain G.dt w samples iu = .ok ws ∧ R.w = outGrid ou ws ∧
      (G.isgain = true → R.resp = List.replicate 2 (Arr.of (Matrix.of fun i j => some ((G.d.m i j : ℝ) : ℂ)))) ∧
      (G.isgain = false → ∃ rows : Fin G.c.r → Arr ℝ × Arr ℝ × Arr ℝ, (∀ i, freqRow N red G i = .ok (rows i)) ∧
        R.resp = ws.map fun x => Arr.of (Matrix.of fun (i : Fin G.c.r) (j : Fin G.b.c) =>
          addD G.d i j (rowResp (rows i) (freqPoint G.dt x) j))) := by
  unfold freqState at h
  by_cases h0 : unitOk iu = false ∨ unitOk ou = false
  · rw [if_pos h0] at h; cases h
  · rw [if_neg h0] at h
    rw [not_or, Bool.not_eq_false, Bool.not_eq_false] at h0
    obtain ⟨ws, h1, h2⟩ := bind_ok' h
    refine ⟨ws, h0.1, h0.2, h1, ?_⟩
    cases hg : G.isgain with
    | true =>
      rw [hg, if_pos rfl] at h2
      cases h2
      exact ⟨rfl, fun _ => rfl, fun h => by cases h⟩
    | false =>
      rw [hg, if_neg (by simp)] at h2
      obtain ⟨rows, h4, h5⟩ := bind_ok' h2
      cases h5
      exact ⟨rfl, fun h => (by cases h), fun _ => ⟨rows, finM_ok.mp h4, rfl⟩⟩

theorem addD_of {D : Matrix (Fin p) (Fin m) ℝ} (i : Fin p) (j : Fin m) (x : Option ℂ) :
    addD (Arr.of D) i j x = x.map fun v => v + ((D i j : ℝ) : ℂ) := by
  unfold addD
  split_ifs with h
  · rw [get_of]
  · rw [Arr.any_iff] at h
    push Not at h
    have : D i j = 0 := h i j
    rw [this]
    cases x <;> simp

section
variable {N : HessNum ℝ} {auto : List ℝ} {A : Matrix (Fin n) (Fin n) ℝ} {B : Matrix (Fin n) (Fin m) ℝ} {C : Matrix (Fin p) (Fin n) ℝ}
  {D : Matrix (Fin p) (Fin m) ℝ} {dt : Option ℝ} {w : Option GridArg} {samples : Option ℕ} {iu ou : String} {R : FreqOut}

/-- The sample of row `i`, column `j` at the point `s` when the model has the value `M` there. -/
theorem row_sample (hn : 0 < n) {T : Matrix (Fin n) (Fin n) ℝ} (hT : Tᵀ * T = 1) (hH : IsHess (Tᵀ * A * T)) {i : Fin p}
    (hc : ∀ j : Fin n, (j : ℕ) + 1 ≠ n → (C * T) i j = 0) {s v : ℂ} {M : Matrix (Fin p) (Fin m) ℂ}
    (hM : IsTF (A.map (algebraMap ℝ ℂ)) (B.map (algebraMap ℝ ℂ)) (C.map (algebraMap ℝ ℂ)) (D.map (algebraMap ℝ ℂ)) s M) {j : Fin m}
    (hv : rowResp (Arr.of (Tᵀ * A * T), Arr.of (Tᵀ * B), Arr.of (Matrix.of fun (_ : Fin 1) j => (C * T) i j)) s j = some v) :
    v + ((D i j : ℝ) : ℂ) = M i j := by
  have h1 := IsTF.similar hM (T.map (algebraMap ℝ ℂ)) (Tᵀ.map (algebraMap ℝ ℂ)) (by
    rw [← Matrix.map_mul, hT, Matrix.map_one _ (map_zero _) (map_one _)])
  simp only [← Matrix.map_mul] at h1
  obtain ⟨-, X, hX, rfl⟩ := isTF_iff_sol.mp h1
  rw [rowResp_sound hn hH _ (by exact hc) hv hX]
  rfl

/-- **C45**, soundness: every finite sample of a `State` model with dynamics is the entry of `C (sI - A)⁻¹ B + D` at its frequency, for every grid and
every outcome of the factorisations of scipy that meets their contract; there is one sample for each returned frequency. -/
theorem C45_sound (hn : 0 < n) (hq : ∀ b : Matrix (Fin n) (Fin 1) ℝ, QrOk N b) (hh : ∀ M : Matrix (Fin n) (Fin n) ℝ, HessOk N M)
    (hou : ou = "rad/s" ∨ IsHz ou)
    (h : freqState N none auto ⟨Arr.of A, Arr.of B, Arr.of C, Arr.of D, dt, false⟩ w samples iu ou = .ok R) :
    R.resp.length = R.w.length ∧ ∀ (k : ℕ) (ω : ℝ), R.w[k]? = some ω → ∀ M : Matrix (Fin p) (Fin m) ℂ,
      HasTF (⟨Arr.of A, Arr.of B, Arr.of C, Arr.of D, dt, false⟩ : StateM ℝ) p m (evalPoint dt (toRad ou ω)) M →
      ∃ X : Matrix (Fin p) (Fin m) (Option ℂ), R.resp[k]? = some (Arr.of X) ∧ ∀ i j v, X i j = some v → v = M i j := by
  obtain ⟨ws, -, -, -, hw, -, hr⟩ := freqState_ok h
  obtain ⟨rows, h1, h2⟩ := hr rfl
  refine ⟨by simp [h2, hw, outGrid_length], fun k ω hk M hM => ?_⟩
  rw [hw] at hk
  obtain ⟨x, h3, h4⟩ := outGrid_toRad hou ws k ω hk
  rw [h4, ← freqPoint_eq] at hM
  rcases hM with ⟨hg, -⟩ | ⟨-, n', A', B', C', D', hA, hB, hC, hD, hM⟩
  · cases hg
  obtain rfl : n = n' := congrArg Arr.r hA
  rw [Arr.of_inj] at hA hB hC hD
  subst hA hB hC hD
  refine ⟨Matrix.of fun (i : Fin p) (j : Fin m) => addD (Arr.of D) i j (rowResp (rows i) (freqPoint dt x) j), ?_, fun i j v hv => ?_⟩
  · rw [h2, List.getElem?_map, h3]
    rfl
  · obtain ⟨T, t1, t2, t3, t4⟩ := freqRow_of hn A B C (Arr.of D) dt false hq hh i
    have h5 : rows i = _ := Except.ok.inj ((h1 i).symm.trans t4)
    rw [Matrix.of_apply, addD_of, Option.map_eq_some_iff] at hv
    obtain ⟨u, hu, rfl⟩ := hv
    rw [h5] at hu
    exact row_sample hn t1 t2 t3 hM hu

/-- **C45**: when no pivot vanishes, the samples are the values of `C (sI - A)⁻¹ B + D` at the returned frequencies. -/
theorem C45_values (hn : 0 < n) (hq : ∀ b : Matrix (Fin n) (Fin 1) ℝ, QrOk N b) (hh : ∀ M : Matrix (Fin n) (Fin n) ℝ, HessOk N M)
    (hou : ou = "rad/s" ∨ IsHz ou)
    (h : freqState N none auto ⟨Arr.of A, Arr.of B, Arr.of C, Arr.of D, dt, false⟩ w samples iu ou = .ok R) :
    Samples R dt ou p m fun s M =>
      HasTF (⟨Arr.of A, Arr.of B, Arr.of C, Arr.of D, dt, false⟩ : StateM ℝ) p m s M ∧ PivotsOk A C s := by
  obtain ⟨h1, h2⟩ := C45_sound hn hq hh hou h
  refine ⟨h1, fun k ω hk M hM => ?_⟩
  obtain ⟨X, h3, h4⟩ := h2 k ω hk M hM.1
  have h5 : X = M.map some := by
    ext i j : 2
    suffices h6 : ∃ v, X i j = some v by
      obtain ⟨v, hv⟩ := h6
      rw [hv, h4 i j v hv, Matrix.map_apply]
    obtain ⟨ws, -, -, -, hw, -, hr⟩ := freqState_ok h
    obtain ⟨rows, r1, r2⟩ := hr rfl
    rw [hw] at hk
    obtain ⟨x, h6, h7⟩ := outGrid_toRad hou ws k ω hk
    rw [r2, List.getElem?_map, h6, Option.map_some, Option.some.injEq] at h3
    have h8 := Arr.of_inj.mp h3
    rw [← h8, Matrix.of_apply, addD_of]
    obtain ⟨T, t1, t2, t3, t4⟩ := freqRow_of hn A B C (Arr.of D) dt false hq hh i
    have h9 : rows i = _ := Except.ok.inj ((r1 i).symm.trans t4)
    have hp := hM.2
    rw [h7, ← freqPoint_eq] at hp
    obtain ⟨v, hv⟩ := rowResp_defined hn t2 (Tᵀ * B) (Matrix.of fun (_ : Fin 1) j => (C * T) i j) (s := freqPoint dt x) j
      (hp T t1 t2 ⟨i, t3⟩)
    rw [h9]
    exact ⟨_, by rw [hv]; rfl⟩
  rw [h3, h5]

/-- The call succeeds for every model with dynamics when the grid does (see C46). -/
theorem freqState_succeeds (hn : 0 < n) (hq : ∀ b : Matrix (Fin n) (Fin 1) ℝ, QrOk N b) (hh : ∀ M : Matrix (Fin n) (Fin n) ℝ, HessOk N M)
    (hiu : unitOk iu = true) (hou : unitOk ou = true) {ws : List ℝ} (hw : freqGrid auto false dt w samples iu = .ok ws) :
    ∃ R, freqState N none auto ⟨Arr.of A, Arr.of B, Arr.of C, Arr.of D, dt, false⟩ w samples iu ou = .ok R := by
  obtain ⟨rows, hr⟩ := finM_exists (f := fun i : Fin p => freqRow N none ⟨Arr.of A, Arr.of B, Arr.of C, Arr.of D, dt, false⟩ i) fun i => by
    obtain ⟨T, -, -, -, t4⟩ := freqRow_of hn A B C (Arr.of D) dt false hq hh i
    exact ⟨_, t4⟩
  unfold freqState
  rw [if_neg (by simp [hiu, hou])]
  simp only
  rw [hw]
  simp only [bind, Except.bind, Bool.false_eq_true, if_false, Arr.of_r]
  rw [hr]
  exact ⟨_, rfl⟩

end

/-! ### Non-vacuity of C45 -/

/-- A rotation that maps the vector to a multiple of the first unit vector. -/
noncomputable def rot2 (a b : ℝ) : Matrix (Fin 2) (Fin 2) ℝ :=
  if Real.sqrt (a ^ 2 + b ^ 2) = 0 then 1 else (1 / Real.sqrt (a ^ 2 + b ^ 2)) • !![a, -b; b, a]

/-- Factorisations of matrices with two rows. -/
noncomputable def hess2 : HessNum ℝ where
  qr x := (Arr.of (rot2 (x.get 0 0) (x.get 1 0)), Arr.of (!![Real.sqrt (x.get 0 0 ^ 2 + x.get 1 0 ^ 2); 0] : Matrix (Fin 2) (Fin 1) ℝ))
  hess x := (x, Arr.eye x.r)

theorem hess2_qr (b : Matrix (Fin 2) (Fin 1) ℝ) : QrOk hess2 b := by
  have e0 : (Arr.of b).get 0 0 = b 0 0 := get_of b 0 0
  have e1 : (Arr.of b).get 1 0 = b 1 0 := get_of b 1 0
  refine ⟨rot2 (b 0 0) (b 1 0), !![Real.sqrt (b 0 0 ^ 2 + b 1 0 ^ 2); 0], ?_, ?_, ?_, ?_⟩
  · simp only [hess2, e0, e1]
  · unfold rot2
    split_ifs with h
    · simp
    · have h1 : Real.sqrt (b 0 0 ^ 2 + b 1 0 ^ 2) ^ 2 = b 0 0 ^ 2 + b 1 0 ^ 2 := Real.sq_sqrt (by positivity)
      ext i j
      fin_cases i <;> fin_cases j <;> simp [Matrix.mul_apply, Fin.sum_univ_two] <;> field_simp <;> first | linear_combination -h1 | ring
  · unfold rot2
    split_ifs with h
    · rw [h]
      rw [Real.sqrt_eq_zero (by positivity)] at h
      have h0 : b 0 0 = 0 := by nlinarith [sq_nonneg (b 0 0), sq_nonneg (b 1 0)]
      have h1 : b 1 0 = 0 := by nlinarith [sq_nonneg (b 0 0), sq_nonneg (b 1 0)]
      ext i j
      obtain rfl := Subsingleton.elim j 0
      fin_cases i <;> simp [h0, h1]
    · ext i j
      obtain rfl := Subsingleton.elim j 0
      fin_cases i <;> simp [Matrix.mul_apply, Fin.sum_univ_two] <;> field_simp
  · intro i j h
    fin_cases i <;> fin_cases j <;> simp at h ⊢

theorem hess2_hess (M : Matrix (Fin 2) (Fin 2) ℝ) : HessOk hess2 M := ⟨M, 1, rfl, by simp, by simp, by
  intro i j h
  fin_cases i <;> fin_cases j <;> simp at h, by
  intro i j h
  fin_cases i <;> fin_cases j <;> simp at h ⊢⟩

/-- For two states no pivot vanishes off the real axis, except at eigenvalues. -/
theorem pivotsOk_two (A : Matrix (Fin 2) (Fin 2) ℝ) (C : Matrix (Fin p) (Fin 2) ℝ) {s : ℂ} (hs : s.im ≠ 0)
    (hd : (s • (1 : Matrix (Fin 2) (Fin 2) ℂ) - A.map (algebraMap ℝ ℂ)).det ≠ 0) : PivotsOk A C s := by
  intro T hT _ _ k hk
  have : k = 0 ∨ k = 1 ∨ k = 2 := by omega
  rcases this with rfl | rfl | rfl
  · simp
  · rw [Matrix.det_fin_one]
    intro h
    have := congrArg Complex.im h
    simp [Matrix.submatrix_apply, hs] at this
  · have e : (s • (1 : Matrix (Fin 2) (Fin 2) ℂ) - (Tᵀ * A * T).map (algebraMap ℝ ℂ)) =
        Tᵀ.map (algebraMap ℝ ℂ) * (s • (1 : Matrix (Fin 2) (Fin 2) ℂ) - A.map (algebraMap ℝ ℂ)) * T.map (algebraMap ℝ ℂ) := by
      rw [Matrix.mul_sub, Matrix.sub_mul, ← Matrix.map_mul, ← Matrix.map_mul, Matrix.mul_smul, Matrix.smul_mul, Matrix.mul_one, ← Matrix.map_mul, hT,
        Matrix.map_one _ (map_zero _) (map_one _)]
    have e2 : (T.map (algebraMap ℝ ℂ)).det ≠ 0 := by
      have h1 : (Tᵀ.map (algebraMap ℝ ℂ)) * (T.map (algebraMap ℝ ℂ)) = 1 := by
        rw [← Matrix.map_mul, hT, Matrix.map_one _ (map_zero _) (map_one _)]
      have h2 := congrArg Matrix.det h1
      rw [Matrix.det_mul, Matrix.det_one] at h2
      exact right_ne_zero_of_mul_eq_one h2
    have e3 : (Tᵀ.map (algebraMap ℝ ℂ)).det ≠ 0 := by
      rw [Matrix.transpose_map, Matrix.det_transpose]
      exact e2
    show ((s • (1 : Matrix (Fin 2) (Fin 2) ℂ) - (Tᵀ * A * T).map (algebraMap ℝ ℂ)).submatrix id id).det ≠ 0
    rw [Matrix.submatrix_id_id, e, Matrix.det_mul, Matrix.det_mul]
    exact mul_ne_zero (mul_ne_zero e3 hd) e2

/-- The hypotheses of `C45_values` are met by a model with two states at `s = j`. -/
example : (∀ b : Matrix (Fin 2) (Fin 1) ℝ, QrOk hess2 b) ∧ (∀ M : Matrix (Fin 2) (Fin 2) ℝ, HessOk hess2 M) ∧
    PivotsOk !![0, 1; -2, -3] (!![1, 0] : Matrix (Fin 1) (Fin 2) ℝ) (evalPoint none (toRad "rad/s" 1)) := by
  refine ⟨hess2_qr, hess2_hess, ?_⟩
  rw [toRad_rad isRad_rad]
  refine pivotsOk_two _ _ (by simp [evalPoint]) ?_
  rw [Matrix.det_fin_two]
  intro h
  have := congrArg Complex.im h
  simp [evalPoint] at this

/-! ## C46: units and the Nyquist limit -/

theorem userGrid_eq {dt : Option ℝ} {iu : String} (hiu : iu = "Hz" ∨ IsRad iu) {data ws : List ℝ} (h : userGrid dt data iu = .ok ws) :
    ws = askedGrid dt iu data := by
  have e : (if iu = "Hz" then data.map fun x => x * (2 * Real.pi) else data) = data.map (toRad iu) := by
    rcases hiu with rfl | h1
    · rw [if_pos rfl]
      exact List.map_congr_left fun x _ => by rw [toRad_hz isHz_Hz, mul_comm]
    · have h2 : iu ≠ "Hz" := fun h2 => not_isHz_rad (h2 ▸ h1) isHz_Hz
      rw [if_neg h2]
      conv_lhs => rw [← List.map_id data]
      exact List.map_congr_left fun x _ => by rw [toRad_rad h1, id]
  unfold userGrid at h
  rw [e] at h
  unfold askedGrid
  generalize data.map (toRad iu) = l at h
  cases dt with
  | none =>
    simp only [Except.ok.injEq] at h
    simp [← h]
  | some d =>
    dsimp only at h
    split at h
    · cases h
    · rename_i mx hmx
      split_ifs at h with h1 h2 h3
      · cases h
        simp
      · cases h
        refine (List.filter_eq_self.mpr fun x hx => ?_).symm
        have := (List.max?_eq_some_iff.mp hmx).2 x hx
        simp only [Option.some.injEq, forall_eq', decide_eq_true_eq]
        exact this.trans (not_lt.mp h1)

theorem outGrid_map {ou : String} (hou : ou = "rad/s" ∨ IsHz ou) (w : List ℝ) : (outGrid ou w).map (toRad ou) = w := by
  refine List.ext_getElem? fun k => ?_
  rw [List.getElem?_map]
  cases h : (outGrid ou w)[k]? with
  | none =>
    rw [List.getElem?_eq_none_iff, outGrid_length] at h
    rw [List.getElem?_eq_none_iff.mpr h]
    rfl
  | some ω =>
    obtain ⟨x, h1, h2⟩ := outGrid_toRad hou w k ω h
    rw [h1, Option.map_some, h2]

theorem freqGrid_user {auto : List ℝ} {isgain : Bool} {dt : Option ℝ} {g : GridArg} {samples : Option ℕ} {iu : String} {ws : List ℝ}
    (h : freqGrid auto isgain dt (some g) samples iu = .ok ws) : userGrid dt g.data iu = .ok ws := by
  unfold freqGrid at h
  simp only at h
  split_ifs at h
  exact h

section
variable {N : HessNum ℝ} {red : Option (Reduce ℝ)} {auto : List ℝ} {G : TransferM ℝ} {S : StateM ℝ} {g : GridArg}
  {samples : Option ℕ} {iu ou : String} {R : FreqOut}

/-- **C46**: the returned grid, read in the output unit, is the user's grid, read in the input unit, without the frequencies above Nyquist.
`_partial`: for the input spellings `'Hz'` and any of `'rad/s'`, for the output spellings `'rad/s'` and any of `'Hz'`; the other accepted spellings
go wrong, see `C46_input_violated` and `C46_output_violated`. -/
theorem C46_transfer_grid_partial (hiu : iu = "Hz" ∨ IsRad iu) (hou : ou = "rad/s" ∨ IsHz ou)
    (h : freqTransfer auto G (some g) samples iu ou = .ok R) : R.w.map (toRad ou) = askedGrid G.dt iu g.data := by
  obtain ⟨ws, -, -, h1, h2, -⟩ := freqTransfer_ok h
  rw [h2, outGrid_map hou, userGrid_eq hiu (freqGrid_user h1)]

theorem C46_state_grid_partial (hiu : iu = "Hz" ∨ IsRad iu) (hou : ou = "rad/s" ∨ IsHz ou)
    (h : freqState N red auto S (some g) samples iu ou = .ok R) : R.w.map (toRad ou) = askedGrid S.dt iu g.data := by
  obtain ⟨ws, -, -, h1, h2, -⟩ := freqState_ok h
  rw [h2, outGrid_map hou, userGrid_eq hiu (freqGrid_user h1)]

/-- **C46**: exactly the spellings of the two units are accepted; everything else is a `ValueError`. -/
theorem C46_rejects_unit (h : ¬ (IsHz iu ∨ IsRad iu) ∨ ¬ (IsHz ou ∨ IsRad ou)) (w : Option GridArg) :
    freqTransfer auto G w samples iu ou = .error .value ∧ freqState N red auto S w samples iu ou = .error .value := by
  rw [← unitOk_iff, ← unitOk_iff, Bool.not_eq_true, Bool.not_eq_true] at h
  exact ⟨by unfold freqTransfer; rw [if_pos h], by unfold freqState; rw [if_pos h]⟩

/-- The grid is refused exactly when it has two dimensions of length other than one or, for discrete models, no frequency at or below Nyquist. -/
theorem userGrid_ok {dt : Option ℝ} {data : List ℝ} (hiu : iu = "Hz" ∨ IsRad iu) (hne : dt = none ∨ askedGrid dt iu data ≠ []) :
    ∃ ws, userGrid dt data iu = .ok ws := by
  cases hr : userGrid dt data iu with
  | ok ws => exact ⟨ws, rfl⟩
  | error e =>
    exfalso
    have e : (if iu = "Hz" then data.map fun x => x * (2 * Real.pi) else data) = data.map (toRad iu) := by
      have := userGrid_eq (dt := none) hiu (data := data) rfl
      rw [this]
      simp [askedGrid]
    unfold userGrid at hr
    rw [e] at hr
    unfold askedGrid at hne
    generalize data.map (toRad iu) = l at hr hne
    cases dt with
    | none => cases hr
    | some d =>
      have hne := hne.resolve_left (by simp)
      dsimp only at hr
      split at hr
      · rename_i hmx
        rw [List.max?_eq_none_iff] at hmx
        subst hmx
        simp at hne
      · rename_i mx hmx
        split_ifs at hr with h1 h2 h3
        · refine hne ?_
          simpa using h2
        · have : l = [] := by simpa using h3
          subst this
          simp at hmx

/-- **C46**: with an accepted spelling and a one-dimensional grid (dimensions of length one do not count) with a frequency at or below Nyquist the call
succeeds for every model with dynamics. Missing: other spellings of `'Hz'` on input, whose values are taken as rad/s (`C46_input_violated`). -/
theorem C46_transfer_succeeds_partial (hiu : iu = "Hz" ∨ IsRad iu) (hou : IsHz ou ∨ IsRad ou) (hG : G.isgain = false)
    (hs : (g.shape.filter fun n => decide (n ≠ 1)).length ≤ 1) (hne : G.dt = none ∨ askedGrid G.dt iu g.data ≠ []) :
    ∃ R, freqTransfer auto G (some g) samples iu ou = .ok R := by
  obtain ⟨ws, hw⟩ := userGrid_ok hiu hne
  have h1 : unitOk iu = true := unitOk_iff.mpr (hiu.imp (fun h => by rw [h]; exact isHz_Hz) id)
  unfold freqTransfer freqGrid
  rw [if_neg (by simp [h1, unitOk_iff.mpr hou])]
  simp only
  rw [if_neg (not_lt.mpr hs), hw]
  simp only [bind, Except.bind, hG]
  exact ⟨_, rfl⟩

/-- **C46**: the same for `State` models. Missing: as in `C46_transfer_succeeds_partial`. -/
theorem C46_state_succeeds_partial {A : Matrix (Fin n) (Fin n) ℝ} {B : Matrix (Fin n) (Fin m) ℝ} {C : Matrix (Fin p) (Fin n) ℝ}
    {D : Matrix (Fin p) (Fin m) ℝ} {dt : Option ℝ} (hn : 0 < n) (hq : ∀ b : Matrix (Fin n) (Fin 1) ℝ, QrOk N b)
    (hh : ∀ M : Matrix (Fin n) (Fin n) ℝ, HessOk N M) (hiu : iu = "Hz" ∨ IsRad iu) (hou : IsHz ou ∨ IsRad ou)
    (hs : (g.shape.filter fun n => decide (n ≠ 1)).length ≤ 1) (hne : dt = none ∨ askedGrid dt iu g.data ≠ []) :
    ∃ R, freqState N none auto ⟨Arr.of A, Arr.of B, Arr.of C, Arr.of D, dt, false⟩ (some g) samples iu ou = .ok R := by
  obtain ⟨ws, hw⟩ := userGrid_ok hiu hne
  have h1 : unitOk iu = true := unitOk_iff.mpr (hiu.imp (fun h => by rw [h]; exact isHz_Hz) id)
  refine freqState_succeeds hn hq hh h1 (unitOk_iff.mpr hou) (ws := ws) ?_
  unfold freqGrid
  simp only
  rw [if_neg (not_lt.mpr hs), hw]

/-- **C46**: a grid with two or more dimensions of length other than one is refused. -/
theorem C46_rejects_shape (h : 1 < (g.shape.filter fun n => decide (n ≠ 1)).length) :
    freqTransfer auto G (some g) samples iu ou = .error .value ∧ freqState N red auto S (some g) samples iu ou = .error .value := by
  have h2 : ∀ gain dt, freqGrid auto gain dt (some g) samples iu = .error .value := fun gain dt => by
    unfold freqGrid
    simp only
    rw [if_pos h]
  constructor
  · unfold freqTransfer
    simp only [bind, Except.bind, h2, ite_self]
  · unfold freqState
    simp only [bind, Except.bind, h2, ite_self]

/-- **C46**: a grid of a discrete model without a frequency at or below Nyquist is refused. Missing: grids in the spellings of `'Hz'` that the code does not know (`C46_input_violated`). -/
theorem C46_rejects_nyquist_partial (hiu : iu = "Hz" ∨ IsRad iu) {d : ℝ} (hd : G.dt = some d) (hd' : S.dt = some d) (h : askedGrid (some d) iu g.data = []) :
    freqTransfer auto G (some g) samples iu ou = .error .value ∧ freqState N red auto S (some g) samples iu ou = .error .value := by
  have h1 : userGrid (some d) g.data iu = .error .value := by
    have h0 : ∀ ws, userGrid (some d) g.data iu = .ok ws → ws = [] := fun ws hw => (userGrid_eq hiu hw).trans h
    unfold userGrid at h0 ⊢
    dsimp only at h0 ⊢
    split
    · rfl
    · rename_i mx hmx
      rw [hmx] at h0
      dsimp only at h0
      split_ifs at h0 ⊢ with h1 h2 h3 h4 h5
      all_goals first
        | rfl
        | (have := h0 _ rfl
           rw [this] at *
           simp_all)
  have h2 : ∀ gain, freqGrid auto gain (some d) (some g) samples iu = .error .value := fun gain => by
    unfold freqGrid
    simp only
    split_ifs
    · rfl
    · exact h1
  constructor
  · unfold freqTransfer
    rw [hd]
    simp only [bind, Except.bind, h2, ite_self]
  · unfold freqState
    rw [hd']
    simp only [bind, Except.bind, h2, ite_self]

/-- **C46** fails for the accepted spellings `'hz'`, `'HZ'`, `'hZ'` of the input unit: the grid is taken as rad/s, so the model is evaluated at other
frequencies than asked for. -/
theorem C46_input_violated (hiu : IsHz iu) (hne : iu ≠ "Hz") (hou : ou = "rad/s" ∨ IsHz ou) (hdt : G.dt = none)
    (h : freqTransfer auto G (some g) samples iu ou = .ok R) : R.w.map (toRad ou) = g.data ∧
      ((∃ x ∈ g.data, x ≠ 0) → R.w.map (toRad ou) ≠ askedGrid none iu g.data) := by
  obtain ⟨ws, -, -, h1, h2, -⟩ := freqTransfer_ok h
  have h3 := freqGrid_user h1
  unfold userGrid at h3
  rw [hdt, if_neg hne] at h3
  simp only [Except.ok.injEq] at h3
  have h4 : R.w.map (toRad ou) = g.data := by rw [h2, outGrid_map hou, h3]
  refine ⟨h4, fun ⟨x, hx, hx0⟩ h5 => ?_⟩
  rw [h4] at h5
  unfold askedGrid at h5
  simp only [reduceCtorEq, false_implies, implies_true, decide_true, List.filter_true] at h5
  have h6 : ∀ y ∈ g.data, y = toRad iu y := by
    intro y hy
    obtain ⟨k, hk, rfl⟩ := List.getElem_of_mem hy
    have := congrArg (fun l => l[k]?) h5
    simpa [List.getElem?_map, hk] using this
  have h7 := h6 x hx
  rw [toRad_hz hiu] at h7
  have : (2 * Real.pi - 1) * x = 0 := by linear_combination -h7
  rcases mul_eq_zero.mp this with h8 | h8
  · have := Real.two_le_pi
    linarith
  · exact hx0 h8

/-- **C46** fails for the accepted spellings of `'rad/s'` other than this one as the output unit: the returned grid is in Hz. -/
theorem C46_output_violated (hou : IsRad ou) (hne : ou ≠ "rad/s") (hdt : G.dt = none) (hiu : iu = "Hz" ∨ IsRad iu)
    (h : freqTransfer auto G (some g) samples iu ou = .ok R) :
    R.w = (askedGrid none iu g.data).map fun x => x / (2 * Real.pi) := by
  obtain ⟨ws, -, -, h1, h2, -⟩ := freqTransfer_ok h
  have h3 := userGrid_eq hiu (freqGrid_user h1)
  rw [h2, h3, hdt]
  unfold outGrid
  rw [if_neg hne]
  exact List.map_congr_left fun x _ => by rw [div_div]

end

/-- The spellings of the two violations are accepted: the calls succeed. -/
example : IsHz "hz" ∧ "hz" ≠ "Hz" ∧ IsRad "Rad/s" ∧ "Rad/s" ≠ "rad/s" := by
  unfold IsHz IsRad
  decide

example : ∃ R, freqTransfer [] ⟨constArr 1 1 [1], constArr 1 1 [1, 1], false, none⟩ (some ⟨[1], [1]⟩) none "hz" "Rad/s" = .ok R := by
  have hu : unitOk "hz" = true := unitOk_iff.mpr (.inl (by unfold IsHz; decide))
  have hu' : unitOk "Rad/s" = true := unitOk_iff.mpr (.inr (by unfold IsRad; decide))
  simp [freqTransfer, hu, hu', freqGrid, userGrid, bind, Except.bind]

end Harold
