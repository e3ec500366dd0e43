import Verif.Lemmas.TransferInv

/-!
# C76: `1/G` and `G/H` of `Transfer` models with several inputs and outputs
-/

namespace Harold

open Matrix Spec Polynomial Filter TransferM

variable {E : TNum ℝ} {N : Numerics ℝ ℂ} {p m n : ℕ}

theorem mkTransfer_arrs (hp : 2 ≤ p) (X Y : Matrix (Fin p) (Fin p) ℝ) (dt : Option ℝ) :
    mkTransfer E (.arr (Arr.of X)) (.arr (Arr.of Y)) dt =
      mkTransfer E (.lists (Arr.of (Matrix.of fun i j => [X i j]))) (.lists (Arr.of (Matrix.of fun i j => [Y i j]))) dt := by
  have h1 : ∀ Z : Matrix (Fin p) (Fin p) ℝ, regArg (.arr (Arr.of Z)) = regArg (.lists (Arr.of (Matrix.of fun i j => [Z i j]))) := by
    intro Z
    simp only [regArg, Arr.of_r, Arr.of_c, min_self, if_pos (show 1 < p by omega), if_neg (show ¬ (p = 1 ∧ p = 1) by omega),
      if_neg (show ¬ p = 0 by omega)]
  unfold mkTransfer validateTransfer
  rw [h1 X, h1 Y]

/-- The transfer matrix of the quotient of a gain by ones. -/
theorem mkTransfer_ones (hbal : ∀ polys i, E.bal polys i ≠ 0) (hthr : E.lcmTol ≤ 1) (hp : 2 ≤ p)
    (X : Matrix (Fin p) (Fin p) ℝ) {dt : Option ℝ} (hdt : DtOk dt) :
    ∃ F N' D', mkTransfer E (.arr (Arr.of X)) (.arr (Arr.of (Matrix.of fun (_ : Fin p) (_ : Fin p) => 1))) dt = .ok F ∧
      Normal F p p N' D' ∧ F.dt = dt ∧ ∀ {L : Type} [Field L] [Algebra ℝ L] (s : L), Valued F p p s (X.map (algebraMap ℝ L)) := by
  rw [mkTransfer_arrs hp]
  obtain ⟨F, hF, hFn, hdt'⟩ := mkTransfer_normal (E := E) hbal hthr (N := Matrix.of fun i j => [X i j])
    (D := Matrix.of fun (_ : Fin p) (_ : Fin p) => [(1 : ℝ)]) (by omega) (by omega) hdt (fun _ _ => by simp)
    (fun i j => by
      by_cases h : X i j = 0
      · exact Or.inl (by simp [h])
      · exact Or.inr ⟨X i j, [], rfl, h⟩) (fun _ _ => by simp)
  refine ⟨F, _, _, hF, hFn, hdt', ?_⟩
  intro L _ _ s
  refine (mkLists_valued hF fun i j => ?_).1
  simp [EntryVal, polyAt_const]

theorem invTransfer_gain (hbal : ∀ polys i, E.bal polys i ≠ 0) (hthr : E.lcmTol ≤ 1) (hp : 2 ≤ p)
    {H : Matrix (Fin p) (Fin p) ℝ} (hsv : ¬ HasSVBelow spacing1 H) {dt : Option ℝ} (hdt : DtOk dt) :
    ∃ F N' D', invTransfer E N none (Arr.of H) true dt = .ok F ∧ Normal F p p N' D' ∧ F.dt = dt ∧
      ∀ {L : Type} [Field L] [Algebra ℝ L] (s : L), Valued F p p s (H⁻¹.map (algebraMap ℝ L)) := by
  have hdet : H.det ≠ 0 := det_ne_zero_of_not_svBelow (by simp [spacing1]) hsv
  have hsv' : ¬ HasSVBelow spacing1 (H.submatrix id (Fin.cast (rfl : p = p))) := by simpa using hsv
  have heye : (Arr.eye p : Arr ℝ) = Arr.of 1 := rfl
  unfold invTransfer
  simp only [Arr.of_r, Arr.of_c, Arr.of_m, dif_pos, if_neg hsv', heye, Arr.solve_of, if_neg hdet, if_true, Bind.bind, Except.bind,
    Matrix.mul_one]
  exact mkTransfer_ones hbal hthr hp H⁻¹ hdt

theorem invTransfer_dyn (hbal : ∀ polys i, E.bal polys i ≠ 0) (hthr : E.lcmTol ≤ 1) (hN : EigExact N) (hZ : ZerosExact N)
    (hp : 2 ≤ p) (hn : 0 < n) {A : Matrix (Fin n) (Fin n) ℝ} {B : Matrix (Fin n) (Fin p) ℝ} {C : Matrix (Fin p) (Fin n) ℝ}
    {H : Matrix (Fin p) (Fin p) ℝ} (hsv : ¬ HasSVBelow spacing1 H) {dt : Option ℝ} (hdt : DtOk dt) :
    ∃ F N' D', invTransfer E N (some (Arr.of A, Arr.of B, Arr.of C)) (Arr.of H) false dt = .ok F ∧ Normal F p p N' D' ∧ F.dt = dt ∧
      ∀ {L : Type} [Field L] [Algebra ℝ L] (s : L) (M : Matrix (Fin p) (Fin p) L),
        IsTF (A.map (algebraMap ℝ L)) (B.map (algebraMap ℝ L)) (C.map (algebraMap ℝ L)) (H.map (algebraMap ℝ L)) s M → M.det ≠ 0 →
        Valued F p p s M⁻¹ := by
  have hdet : H.det ≠ 0 := det_ne_zero_of_not_svBelow (by simp [spacing1]) hsv
  have hdetT : (Hᵀ).det ≠ 0 := by rwa [det_transpose]
  have hT : ((Hᵀ)⁻¹) = (H⁻¹)ᵀ := (Matrix.transpose_nonsing_inv H).symm
  have hsv' : ¬ HasSVBelow spacing1 (H.submatrix id (Fin.cast (rfl : p = p))) := by simpa using hsv
  have heye : (Arr.eye p : Arr ℝ) = Arr.of 1 := rfl
  have hHH : H⁻¹ * H = 1 := Matrix.nonsing_inv_mul _ (isUnit_iff_ne_zero.mpr hdet)
  obtain ⟨F, N', D', h1, h2, h3, h4⟩ := stateToTransfer_dynamic (E := E) (N := N) (p := p) (m := p)
    (G := ⟨Arr.of (A - B * (H⁻¹ * C)), Arr.of (B * H⁻¹), Arr.of (-(H⁻¹ * C)), Arr.of H⁻¹, dt, false⟩) hbal hthr hN hZ
    ⟨⟨rfl, rfl⟩, fun _ => ⟨rfl, rfl, rfl, rfl, rfl⟩⟩ rfl hdt (by omega) (by omega)
  refine ⟨F, N', D', ?_, h2, h3, ?_⟩
  · unfold invTransfer
    simp only [Arr.of_r, Arr.of_c, Arr.of_m, dif_pos, if_neg hsv', heye, Arr.solve_of, if_neg hdet, Bool.false_eq_true, if_false,
      Option.getD_some, Bind.bind, Except.bind, Matrix.mul_one, Arr.matmul_of, Arr.sub_of, Arr.T_of, if_neg hdetT, hT, Arr.neg_of,
      Matrix.transpose_mul, Matrix.transpose_transpose, if_neg hn.ne']
    exact h1
  · intro L _ _ s M hM hMd
    have hHL : H⁻¹.map (algebraMap ℝ L) * H.map (algebraMap ℝ L) = 1 := by
      rw [← map_mul', hHH, Matrix.map_one _ (map_zero _) (map_one _)]
    obtain ⟨X, hX, h5, h6⟩ := hM.inv hHL (det_inverse_ne_zero hM hHL hMd)
    have hXM : X = M⁻¹ := (Matrix.inv_eq_left_inv h5).symm
    refine h4 s M⁻¹ (Or.inr ⟨rfl, n, _, _, _, _, rfl, rfl, rfl, rfl, ?_⟩)
    rw [← hXM, map_sub', map_mul', map_mul', map_mul', map_neg', map_mul']
    exact hX

/-- What `transfer_to_state` makes of a model in normal form. -/
theorem t2sTuple_normal (hbal : ∀ polys i, E.bal polys i ≠ 0) (hthr : E.lcmTol ≤ 1) {G : TransferM ℝ} (htol : ClearModel E.lcmTol E.remTol G) (hp : 2 ≤ p)
    {A B : Matrix (Fin p) (Fin p) (List ℝ)} (hG : Normal G p p A B) :
    ∃ (r : Option (Arr ℝ × Arr ℝ × Arr ℝ) × Arr ℝ) (H : Matrix (Fin p) (Fin p) ℝ), t2sTuple E (.lists G.num) (.lists G.den) = .ok r ∧
      r.2 = Arr.of H ∧ AtInfinity A B H ∧ (G.isgain = true → r.1 = none) ∧ ∀ (L : Type) [Field L] [Algebra ℝ L], Realizes L r A B := by
  have hne : ∀ i j, B i j ≠ [] := fun i j e => hG.lead i j (by simp [e])
  have hmax := maxSize_eq_one (D := B) hG.pos.1 hG.pos.2 hne
  unfold t2sTuple
  rw [hG.num, hG.den, validate_lists_ok hG.pos.1 hG.pos.2 hG.causal hG.lead]
  simp only [Bind.bind, Except.bind]
  cases hg : G.isgain with
  | true =>
    have hB := hG.flag.mp hg
    have hA : ∀ i j, (A i j).length = 1 := fun i j => by
      have h1 := hG.causal i j
      rw [hB i j] at h1
      have : A i j ≠ [] := fun e => by rcases hG.trimmed i j with h | ⟨a, t, h, -⟩ <;> rw [e] at h <;> simp at h
      have := List.length_pos_iff.mpr this
      omega
    have hv : ∀ {L : Type} [Field L] [Algebra ℝ L] (s : L) (i j : Fin p),
        algebraMap ℝ L ((A i j).getD 0 0 / (B i j).getD 0 0) = polyAt s (A i j) / polyAt s (B i j) := by
      intro L _ _ s i j
      rw [polyAt, polyAt, toPoly_const (hA i j), toPoly_const (hB i j)]
      simp only [map_div₀, aeval_C]
    refine ⟨(none, Arr.of (Matrix.of fun i j => (A i j).getD 0 0 / (B i j).getD 0 0)), _, ?_, rfl, ?_, fun _ => rfl, ?_⟩
    · unfold t2sData
      rw [if_pos (by simpa using hmax.mpr hB), gainArr_of hA hB]
      rfl
    · intro i j
      simp only [← hv, of_apply]
      exact tendsto_const_nhds
    · intro L _ _
      refine ⟨_, rfl, Or.inl ⟨rfl, fun s _ => ?_⟩⟩
      ext i j
      exact hv s i j
  | false =>
    have hB : ¬ maxSize (Arr.of B) = 1 := fun h => by
      have := hG.flag.mpr (hmax.mp h)
      rw [hg] at this
      cases this
    obtain ⟨r, H, h1, h2, h3, h4⟩ := t2sMimo_parts E hbal hG.pos.1 hG.pos.2 (((clearModel_iff hG.num hG.den).mp htol).2 (by omega)) hG.lead hG.trimmed hG.causal
    refine ⟨r, H, ?_, h2, h3, (fun h => by simp at h), h4⟩
    unfold t2sData
    rw [if_neg (by simpa using hB), if_neg (by simp only [Arr.of_r, Arr.of_c]; omega), ← h1]
    congr 1
    funext i j
    exact entry_of B i j

theorem atInfinity_unique {A B : Matrix (Fin p) (Fin m) (List ℝ)} {H H' : Matrix (Fin p) (Fin m) ℝ} (h : AtInfinity A B H)
    (h' : AtInfinity A B H') : H = H' := by
  ext i j
  exact tendsto_nhds_unique (h i j) (h' i j)

theorem notSiso (hp : 2 ≤ p) {G : TransferM ℝ} {A B : Matrix (Fin p) (Fin p) (List ℝ)} (hG : Normal G p p A B) : G.isSISO = false := by
  simp only [isSISO, hG.num, Arr.of_r, Arr.of_c, decide_eq_false_iff_not]
  omega

/-- `1/G` in normal form. -/
theorem rtruediv_normal (hbal : ∀ polys i, E.bal polys i ≠ 0) (hthr : E.lcmTol ≤ 1) {G : TransferM ℝ} (htol : ClearModel E.lcmTol E.remTol G) (hN : EigExact N) (hZ : ZerosExact N)
    (hp : 2 ≤ p) {A B : Matrix (Fin p) (Fin p) (List ℝ)} (hG : Normal G p p A B) {H : Matrix (Fin p) (Fin p) ℝ}
    (hH : AtInfinity A B H) (hsv : ¬ HasSVBelow spacing1 H) (hc : G.isgain = true ∨ ¬ AllConstant A B) (k : ℝ) :
    ∃ F N' D', rtruediv E N k G = .ok F ∧ Normal F p p N' D' ∧ F.dt = G.dt ∧
      ∀ {L : Type} [Field L] [Algebra ℝ L] (s : L) (M : Matrix (Fin p) (Fin p) L), HasVal G p p s M → M.det ≠ 0 →
        Valued F p p s (algebraMap ℝ L k • M⁻¹) := by
  obtain ⟨r, H', h1, h2, h3, h4, h5⟩ := t2sTuple_normal (E := E) hbal hthr htol hp hG
  obtain rfl := atInfinity_unique hH h3
  have hval : ∀ {L : Type} [Field L] [Algebra ℝ L] {s : L} {M : Matrix (Fin p) (Fin p) L}, HasVal G p p s M →
      (∀ i j, polyAt s (B i j) ≠ 0) ∧ M = Matrix.of fun i j => polyAt s (A i j) / polyAt s (B i j) := by
    rintro L _ _ s M ⟨num', den', e1, e2, e3⟩
    rw [hG.num] at e1; rw [hG.den] at e2
    have e1 := Arr.of_inj.mp e1
    have e2 := Arr.of_inj.mp e2
    subst e1; subst e2
    exact ⟨fun i j => (e3 i j).1, by ext i j; exact (e3 i j).2⟩
  have hinv : ∃ F N' D', invTransfer E N r.1 r.2 G.isgain G.dt = .ok F ∧ Normal F p p N' D' ∧ F.dt = G.dt ∧
      ∀ {L : Type} [Field L] [Algebra ℝ L] (s : L) (M : Matrix (Fin p) (Fin p) L), HasVal G p p s M → M.det ≠ 0 → Valued F p p s M⁻¹ := by
    rw [h2]
    cases hg : G.isgain with
    | true =>
      rw [h4 hg]
      obtain ⟨F, N', D', k1, k2, k3, k4⟩ := invTransfer_gain (E := E) (N := N) hbal hthr hp hsv hG.dt
      refine ⟨F, N', D', k1, k2, k3, ?_⟩
      intro L _ _ s M hM hMd
      have : M = H.map (algebraMap ℝ L) := by
        obtain ⟨D, hD, ⟨-, hs⟩ | ⟨n, _, _, _, hr, -⟩⟩ := h5 L
        · rw [h2, Arr.of_inj] at hD
          subst hD
          rw [(hval hM).2]
          exact (hs s (hval hM).1).symm
        · rw [h4 hg] at hr; cases hr
      rw [this]
      have hdet : H.det ≠ 0 := det_ne_zero_of_not_svBelow (by simp [spacing1]) hsv
      have hi : (H.map (algebraMap ℝ L))⁻¹ = H⁻¹.map (algebraMap ℝ L) := by
        refine Matrix.inv_eq_left_inv ?_
        rw [← map_mul', Matrix.nonsing_inv_mul _ (isUnit_iff_ne_zero.mpr hdet), Matrix.map_one _ (map_zero _) (map_one _)]
      rw [hi]
      exact k4 s
    | false =>
      have hnc : ¬ AllConstant A B := hc.resolve_left (by simp [hg])
      obtain ⟨D, hD, h⟩ := h5 ℝ
      rw [h2, Arr.of_inj] at hD
      subst hD
      rcases h with ⟨-, hs⟩ | ⟨n, A', B', C', hr, hs⟩
      · refine absurd (allConstant_of_values hG.lead (H := H) fun s hsd i j => ?_) hnc
        have := congrFun (congrFun (hs s hsd) i) j
        simpa using this
      · have hn : 0 < n := by
          rcases Nat.eq_zero_or_pos n with rfl | h
          · refine absurd (allConstant_of_values hG.lead (H := H) fun s hsd i j => ?_) hnc
            have := congrFun (congrFun (hs s hsd).2 i) j
            simp [Matrix.mul_apply] at this
            exact this.symm
          · exact h
        rw [hr]
        obtain ⟨F, N', D', k1, k2, k3, k4⟩ := invTransfer_dyn (E := E) (A := A') (B := B') (C := C') hbal hthr hN hZ hp hn hsv hG.dt
        refine ⟨F, N', D', k1, k2, k3, ?_⟩
        intro L _ _ s M hM hMd
        refine k4 s M ?_ hMd
        obtain ⟨D, hD, ⟨hr', -⟩ | ⟨n', A'', B'', C'', hr', hs'⟩⟩ := h5 L
        · rw [hr] at hr'; cases hr'
        · rw [h2, Arr.of_inj] at hD
          subst hD
          rw [hr] at hr'
          simp only [Option.some.injEq, Prod.mk.injEq] at hr'
          obtain ⟨e1, e2, e3⟩ := hr'
          have : n = n' := congrArg Arr.r e1
          subst this
          rw [Arr.of_inj] at e1 e2 e3
          subst e1 e2 e3
          rw [(hval hM).2]
          exact hs' s (hval hM).1
  obtain ⟨F, N', D', k1, k2, k3, k4⟩ := hinv
  obtain ⟨R, N₂, D₂, j1, j2, j3⟩ := mulScalar_normal (E := E) hbal hthr k2 k
  refine ⟨R, N₂, D₂, ?_, j2, j3.trans k3, ?_⟩
  · unfold rtruediv
    rw [if_neg (by simp [notSiso hp hG]), if_neg (by simp [hG.num])]
    simp only [h1, Bind.bind, Except.bind, k1]
    exact j1
  · intro L _ _ s M hM hMd
    exact (mulScalar_valued (k4 s M hM hMd) j1).1

/-- **C76**: `k / G` of a square model with `p ≥ 2` inputs and outputs whose value at infinity is
invertible (no singular value below `2⁻⁵²`) is a model with the sampling period of `G` and the value
`k G(s)⁻¹` wherever `G(s)` is defined and invertible. `_partial`: exact arithmetic, no rounded
coefficients (`ClearModel`); models with dynamics
whose entries are all constants are excluded, see `C76_cancelled_violated`; small feedthrough, see
`C76_small_violated`. -/
theorem C76_inverse_partial (hbal : ∀ polys i, E.bal polys i ≠ 0) (hthr : E.lcmTol ≤ 1) {G : TransferM ℝ} (htol : ClearModel E.lcmTol E.remTol G) (hN : EigExact N)
    (hZ : ZerosExact N) (hp : 2 ≤ p) {A B : Matrix (Fin p) (Fin p) (List ℝ)} (hG : Normal G p p A B)
    {H : Matrix (Fin p) (Fin p) ℝ} (hH : AtInfinity A B H) (hsv : ¬ HasSVBelow spacing1 H) (hc : G.isgain = true ∨ ¬ AllConstant A B)
    (k : ℝ) :
    ∃ F, rtruediv E N k G = .ok F ∧ F.dt = G.dt ∧
      ∀ {L : Type} [Field L] [Algebra ℝ L] (s : L) (M : Matrix (Fin p) (Fin p) L), HasVal G p p s M → M.det ≠ 0 →
        HasVal F p p s (algebraMap ℝ L k • M⁻¹) := by
  obtain ⟨F, _, _, h1, -, h2, h3⟩ := rtruediv_normal hbal hthr htol hN hZ hp hG hH hsv hc k
  exact ⟨F, h1, h2, fun s M hM hMd => (h3 s M hM hMd).1⟩

/-- **C76**: `G / H` has the value `G(s) H(s)⁻¹` and the common sampling period. `_partial`: like
`C76_inverse_partial`; the product must not round coefficients (`hclr`), and it may fail. -/
theorem C76_division_partial (hbal : ∀ polys i, E.bal polys i ≠ 0) (hthr : E.lcmTol ≤ 1) {G H F : TransferM ℝ}
    (htol : ClearModel E.lcmTol E.remTol H) (hclr : ∀ R, rtruediv E N 1 H = .ok R → MatmulClear E.lcmTol m p p G R) (hN : EigExact N)
    (hZ : ZerosExact N) (hp : 2 ≤ p) {A B : Matrix (Fin p) (Fin p) (List ℝ)} (hH : Normal H p p A B)
    {W : Matrix (Fin p) (Fin p) ℝ} (hW : AtInfinity A B W) (hsv : ¬ HasSVBelow spacing1 W) (hc : H.isgain = true ∨ ¬ AllConstant A B)
    (h : truediv E N G H = .ok F) {L : Type} [Field L] [Algebra ℝ L] (s : L) {X : Matrix (Fin m) (Fin p) L} {Y : Matrix (Fin p) (Fin p) L}
    (hX : Valued G m p s X) (hu : UnitDen G) (hf : FlagOk G) (hY : HasVal H p p s Y) (hYd : Y.det ≠ 0) :
    HasVal F m p s (X * Y⁻¹) ∧ F.dt = G.dt ∧ G.dt = H.dt := by
  obtain ⟨R, _, _, h1, -, h2, h3⟩ := rtruediv_normal hbal hthr htol hN hZ hp hH hW hsv hc 1
  unfold truediv at h
  simp only [h1, Bind.bind, Except.bind] at h
  have h4 := h3 s Y hY hYd
  rw [map_one, one_smul] at h4
  obtain ⟨h5, h6, h7⟩ := C23_matmul_partial hbal (hclr R h1) hX hu hf h4 h
  exact ⟨h5.1, h6, h7.trans h2⟩

/-- **C76**, one input and one output: `k / G` has the value `k / G(s)`, and it is defined for a biproper `G`. -/
theorem C76_siso (hbal : ∀ polys i, E.bal polys i ≠ 0) (hthr : E.lcmTol ≤ 1) {G : TransferM ℝ}
    {A B : Matrix (Fin 1) (Fin 1) (List ℝ)} (hG : Normal G 1 1 A B) (h0 : toPoly (A 0 0) ≠ 0)
    (hdeg : (toPoly (A 0 0)).degree = (toPoly (B 0 0)).degree) (k : ℝ) :
    ∃ F, rtruediv E N k G = .ok F ∧ F.dt = G.dt ∧
      ∀ {L : Type} [Field L] [Algebra ℝ L] (s v : L), HasVal G 1 1 s (Matrix.of fun _ _ => v) → v ≠ 0 →
        HasVal F 1 1 s (Matrix.of fun _ _ => algebraMap ℝ L k / v) := by
  obtain ⟨F, _, _, h1, -, h2⟩ := C24_biproper_success hbal hthr hG h0 hdeg k
  have hs : G.isSISO = true := by simp [isSISO, hG.num]
  refine ⟨F, by rw [rtruediv, if_pos hs]; exact h1, h2, fun s v hv hv0 => (C24_rdiv_partial hv hv0 h1).1⟩

/-- `(s + 1) / (s + 2)` meets the hypotheses of `C76_siso`. -/
example : ∃ G, Normal G 1 1 (Matrix.of fun _ _ => [1, 1]) (Matrix.of fun _ _ => [(1 : ℝ), 2]) ∧ toPoly [(1 : ℝ), 1] ≠ 0 ∧
    (toPoly [(1 : ℝ), 1]).degree = (toPoly [(1 : ℝ), 2]).degree := by
  have h : ∀ a : ℝ, toPoly [1, a] = X + C a := fun a => by simp [toPoly]
  refine ⟨_, normal_siso E (by simp) (Or.inr ⟨1, [1], rfl, one_ne_zero⟩) (by simp) dtOk_none, ?_, ?_⟩
  · rw [h]
    exact X_add_C_ne_zero 1
  · rw [h, h, degree_X_add_C, degree_X_add_C]

/-- **C76**: nonsquare models raise `ValueError`; a singular value at infinity raises `LinAlgError`. -/
theorem C76_rejects (hbal : ∀ polys i, E.bal polys i ≠ 0) (hthr : E.lcmTol ≤ 1) {G : TransferM ℝ} (htol : ClearModel E.lcmTol E.remTol G) (k : ℝ) :
    (G.num.r ≠ G.num.c → rtruediv E N k G = .error .value) ∧
    ∀ {p : ℕ} {A B : Matrix (Fin p) (Fin p) (List ℝ)} {H : Matrix (Fin p) (Fin p) ℝ}, 2 ≤ p → Normal G p p A B → AtInfinity A B H →
      H.det = 0 → rtruediv E N k G = .error .linAlg := by
  constructor
  · intro h
    have hs : G.isSISO = false := by
      simp only [isSISO, decide_eq_false_iff_not]
      omega
    unfold rtruediv
    rw [if_neg (by simp [hs]), if_pos h]
  · intro p A B H hp hG hH h0
    obtain ⟨r, H', h1, h2, h3, -, -⟩ := t2sTuple_normal (E := E) hbal hthr htol hp hG
    obtain rfl := atInfinity_unique hH h3
    have hsv : HasSVBelow spacing1 (H.submatrix id (Fin.cast (rfl : p = p))) := by
      by_contra hn
      exact det_ne_zero_of_not_svBelow (by simp [spacing1]) hn (by simpa using h0)
    unfold rtruediv
    rw [if_neg (by simp [notSiso hp hG]), if_neg (by simp [hG.num])]
    simp only [h1, Bind.bind, Except.bind, h2]
    unfold invTransfer
    simp only [Arr.of_r, Arr.of_c, Arr.of_m, dif_pos]
    rw [if_pos hsv]

/-- An entry that is a constant leaves nothing but its feedthrough. -/
theorem t2sEntry_constant {tol : ℝ} {num den : List ℝ} (h0 : den.getD 0 0 ≠ 0) (htr : Trimmed num) {c : ℝ}
    (hc : toPoly num = C c * toPoly den) : ∃ d e, t2sEntry tol num den = .ok (d, [0], e) := by
  obtain ⟨a, t, rfl, ha⟩ : ∃ a t, den = a :: t ∧ a ≠ 0 := by
    cases den with
    | nil => simp at h0
    | cons b t => exact ⟨b, t, rfl, by simpa using h0⟩
  have hdd := degree_toPoly_cons ha t
  unfold t2sEntry t2sSplit
  simp only [trimZeros_of_cons ha, Bind.bind, Except.bind, List.length_cons]
  by_cases hz : c = 0
  · have hn : trimZeros num = [] ∧ num = [0] := by
      rcases htr with rfl | ⟨b, u, rfl, hb⟩
      · exact ⟨by simp [trimZeros], rfl⟩
      · have := degree_toPoly_cons hb u
        rw [hc, hz] at this
        simp at this
    obtain ⟨hn1, rfl⟩ := hn
    rw [hn1]
    by_cases h1 : t.length + 1 = 1
    · rw [if_pos h1]
      simp
    · rw [if_neg h1]
      simp
  · obtain ⟨b, u, rfl, hb⟩ : ∃ b u, num = b :: u ∧ b ≠ 0 := by
      rcases htr with rfl | h
      · have : toPoly ([0] : List ℝ) = 0 := by simp [toPoly]
        rw [this] at hc
        exact absurd hc.symm (mul_ne_zero (C_ne_zero.mpr hz) (toPoly_ne_zero_of_head h0).1)
      · exact h
    have hlen : u.length = t.length := by
      have h1 := degree_toPoly_cons hb u
      rw [hc, degree_C_mul hz, hdd] at h1
      exact_mod_cast h1.symm
    rw [trimZeros_of_cons hb]
    by_cases h1 : t.length + 1 = 1
    · have hu : u = [] := List.length_eq_zero_iff.mp (by omega)
      rw [if_pos h1, if_neg (by simp [hu])]
      simp
    · obtain ⟨q, r, e1, e2, e3, e4⟩ := polydiv_proper (num := b :: u) (den := a :: t) (by simpa using ha) (trimZeros_of_cons hb u)
        (by simp [hlen]) (by simp [hlen])
      have hr : r = [] := by
        have h2 : toPoly r = C (c - q) * toPoly (a :: t) := by
          rw [C_sub, sub_mul, ← hc, e2]; ring
        have h3 : c - q = 0 := by
          by_contra h
          rw [h2, degree_C_mul h] at e3
          exact lt_irrefl _ e3
        rw [h3] at h2
        simp only [C_0, zero_mul] at h2
        rcases trimZeros_cases r with ⟨e, -⟩ | ⟨x, y, e, hx⟩
        · rw [← e4, e]
        · have := degree_toPoly_cons hx y
          rw [← e, e4, h2] at this
          simp at this
      subst hr
      rw [if_neg h1, if_neg (by simp [hlen])]
      simp [e1, cleanup]

/-- **C76 violated**: for a model with dynamics whose entries are all constants, e.g.
`Transfer([[[1, 1], [0]], [[0], [1]]], [[[1, 1], [1]], [[1], [1]]])`, the inverse exists wherever the
model is defined, but `1/G` raises `ValueError`: `transfer_to_state` returns empty `A`, `B`, `C`, and the
code solves `D x = C` with the empty `C`, because the model is not flagged as a gain. -/
theorem C76_cancelled_violated (hthr : E.lcmTol ≤ 1) (hbal : ∀ polys i, E.bal polys i ≠ 0) {G : TransferM ℝ}
    (htol : ClearModel E.lcmTol E.remTol G) (hp : 2 ≤ p) {A B : Matrix (Fin p) (Fin p) (List ℝ)} (hG : Normal G p p A B) (hg : G.isgain = false) (hc : AllConstant A B)
    {H : Matrix (Fin p) (Fin p) ℝ} (hH : AtInfinity A B H) (hsv : ¬ HasSVBelow spacing1 H) (k : ℝ) :
    rtruediv E N k G = .error .value := by
  obtain ⟨r, H', h1, h2, h3, -, -⟩ := t2sTuple_normal (E := E) hbal hthr htol hp hG
  obtain rfl := atInfinity_unique hH h3
  have hr : r.1 = none := by
    have hne : ∀ i j, B i j ≠ [] := fun i j e => hG.lead i j (by simp [e])
    have hmax := maxSize_eq_one (D := B) hG.pos.1 hG.pos.2 hne
    have hB : ¬ maxSize (Arr.of B) = 1 := fun h => by
      have := hG.flag.mpr (hmax.mp h)
      rw [hg] at this
      cases this
    have hE : ∀ i j, ∃ d e, t2sEntry E.remTol (A i j) (B i j) = .ok (d, [0], e) := fun i j => by
      obtain ⟨c, h⟩ := hc i j
      exact t2sEntry_constant (hG.lead i j) (hG.trimmed i j) h
    choose d e hde using hE
    have hmat : matM (fun x y => t2sEntry E.remTol (A x y) (B x y)) = .ok fun x y => (d x y, [0], e x y) := matM_ok.mpr hde
    unfold t2sTuple at h1
    rw [hG.num, hG.den, validate_lists_ok hG.pos.1 hG.pos.2 hG.causal hG.lead] at h1
    simp only [Bind.bind, Except.bind] at h1
    unfold t2sData at h1
    rw [if_neg (by simpa using hB), if_neg (by simp only [Arr.of_r, Arr.of_c]; omega)] at h1
    have h1' : t2sMimo E A B = .ok r := by
      rw [← h1]
      congr 1
      funext i j
      exact (entry_of B i j).symm
    unfold t2sMimo at h1'
    simp only [hmat, Bind.bind, Except.bind] at h1'
    rw [if_pos (fun _ _ => trivial)] at h1'
    obtain rfl := Except.ok.inj h1'
    rfl
  have hsv' : ¬ HasSVBelow spacing1 (H.submatrix id (Fin.cast (rfl : p = p))) := by simpa using hsv
  unfold rtruediv
  rw [if_neg (by simp [notSiso hp hG]), if_neg (by simp [hG.num])]
  simp only [h1, Bind.bind, Except.bind, h2, hr, hg]
  unfold invTransfer
  simp only [Arr.of_r, Arr.of_c, Arr.of_m, dif_pos, if_neg hsv', Bool.false_eq_true, if_false, Option.getD_none, Bind.bind, Except.bind]
  have : (Arr.of H).solve (Arr.empty : Arr ℝ) = .error .value := by
    unfold Arr.solve
    rw [dif_pos rfl, dif_neg (show ¬ (Arr.of H).r = (Arr.empty : Arr ℝ).r by simp [Arr.empty]; omega)]
  rw [this]

theorem normal_lists {A B : Matrix (Fin p) (Fin p) (List ℝ)} (hp : 0 < p) (hA : ∀ i j, Trimmed (A i j)) (hB : ∀ i j, (B i j).getD 0 0 ≠ 0)
    (hc : ∀ i j, (A i j).length ≤ (B i j).length) {g : Bool} (hg : g = true ↔ ∀ i j, (B i j).length = 1) :
    Normal (⟨Arr.of A, Arr.of B, g, none⟩ : TransferM ℝ) p p A B :=
  ⟨⟨hp, hp⟩, rfl, rfl, hA, hB, hc, hg, fun t ht => by cases ht⟩

theorem not_svBelow_diag {x y : ℝ} (hx : 1 ≤ x) (hy : 1 ≤ y) : ¬ HasSVBelow spacing1 (!![x, 0; 0, y] : Matrix (Fin 2) (Fin 2) ℝ) := by
  rintro ⟨v, -, h⟩
  have hs : (spacing1 : ℝ) ^ 2 ≤ 1 := by norm_num [spacing1]
  simp [Matrix.mulVec, dotProduct, Fin.sum_univ_two] at h
  have h1 : v 0 * v 0 ≤ x * v 0 * (x * v 0) := by nlinarith [mul_self_nonneg (v 0), mul_self_nonneg ((x - 1) * v 0)]
  have h2 : v 1 * v 1 ≤ y * v 1 * (y * v 1) := by nlinarith [mul_self_nonneg (v 1), mul_self_nonneg ((y - 1) * v 1)]
  nlinarith [mul_self_nonneg (v 0), mul_self_nonneg (v 1)]

/-- **C76 violated**: a feedthrough that is invertible but small is rejected. `Transfer(2⁻⁵³ I)` has the
inverse `2⁵³ I` with exact entries, `1/G` raises `LinAlgError`. -/
theorem C76_small_violated (hbal : ∀ polys i, E.bal polys i ≠ 0) (hthr : E.lcmTol ≤ 1) :
    ∃ G : TransferM ℝ, (∀ s : ℂ, HasVal G 2 2 s ((1 / 2 ^ 53 : ℂ) • 1)) ∧ rtruediv E N 1 G = .error .linAlg := by
  set A : Matrix (Fin 2) (Fin 2) (List ℝ) := !![[1 / 2 ^ 53], [0]; [0], [1 / 2 ^ 53]] with hA
  set B : Matrix (Fin 2) (Fin 2) (List ℝ) := !![[1], [1]; [1], [1]] with hB
  have hG : Normal (⟨Arr.of A, Arr.of B, true, none⟩ : TransferM ℝ) 2 2 A B := by
    refine normal_lists (by norm_num) ?_ ?_ ?_ ?_
    · intro i j
      fin_cases i <;> fin_cases j <;> first | exact Or.inl rfl | exact Or.inr ⟨_, _, rfl, by norm_num⟩
    · intro i j
      fin_cases i <;> fin_cases j <;> simp [hB]
    · intro i j
      fin_cases i <;> fin_cases j <;> simp [hA, hB]
    · simp only [true_iff]
      intro i j
      fin_cases i <;> fin_cases j <;> simp [hB]
  have hH : AtInfinity A B !![1 / 2 ^ 53, 0; 0, 1 / 2 ^ 53] := by
    intro i j
    fin_cases i <;> fin_cases j <;> simp [hA, hB, polyAt_const, -one_div]
  refine ⟨⟨Arr.of A, Arr.of B, true, none⟩, fun s => ⟨A, B, rfl, rfl, fun i j => ?_⟩, ?_⟩
  · fin_cases i <;> fin_cases j <;> simp [hA, hB, polyAt_const]
  · obtain ⟨r, H', h1, h2, h3, -, -⟩ := t2sTuple_normal (E := E) hbal hthr (clearModel_gain hthr hG rfl) le_rfl hG
    obtain rfl := atInfinity_unique hH h3
    have hsv : HasSVBelow spacing1 ((!![1 / 2 ^ 53, 0; 0, 1 / 2 ^ 53] : Matrix (Fin 2) (Fin 2) ℝ).submatrix id (Fin.cast (rfl : 2 = 2))) := by
      refine ⟨![1, 0], fun h => by simpa using congrFun h 0, ?_⟩
      simp [Matrix.mulVec, dotProduct, Fin.sum_univ_two, spacing1]
      norm_num
    unfold rtruediv
    rw [if_neg (by simp [notSiso le_rfl hG]), if_neg (by simp)]
    simp only [h1, Bind.bind, Except.bind, h2]
    unfold invTransfer
    simp only [Arr.of_r, Arr.of_c, Arr.of_m, dif_pos]
    rw [if_pos hsv]

/-- `diag((s + 2)/(s + 1), 2)` meets the hypotheses of `C76_inverse_partial` and of `C76_division_partial` (for
the latter see also `matmulClear_nonpos`). -/
example : ∃ (N : Numerics ℝ ℂ) (G : TransferM ℝ) (A B : Matrix (Fin 2) (Fin 2) (List ℝ)) (H : Matrix (Fin 2) (Fin 2) ℝ),
    EigExact N ∧ ZerosExact N ∧ ClearModel (1 / 10 ^ 9) (1 / 10 ^ 14) G ∧ Normal G 2 2 A B ∧ AtInfinity A B H ∧ ¬ HasSVBelow spacing1 H ∧ ¬ AllConstant A B ∧
    HasVal G 2 2 (0 : ℂ) !![2, 0; 0, 2] ∧ (!![2, 0; 0, 2] : Matrix (Fin 2) (Fin 2) ℂ).det ≠ 0 := by
  obtain ⟨N, h1, h2⟩ := exists_exact_numerics
  set A : Matrix (Fin 2) (Fin 2) (List ℝ) := !![[1, 2], [0]; [0], [2]] with hA
  set B : Matrix (Fin 2) (Fin 2) (List ℝ) := !![[1, 1], [1]; [1], [1]] with hB
  refine ⟨N, ⟨Arr.of A, Arr.of B, false, none⟩, A, B, !![1, 0; 0, 2], h1, h2,
    clearModel_int (by norm_num) (by norm_num) rfl rfl !![[1, 2], [0]; [0], [2]] !![[1, 1], [1]; [1], [1]]
      (fun i j => by fin_cases i <;> fin_cases j <;> simp [hA]) (fun i j => by fin_cases i <;> fin_cases j <;> simp [hB])
      (fun i j => by fin_cases i <;> fin_cases j <;> exact ⟨_, rfl⟩), normal_lists (by norm_num) ?_ ?_ ?_ ?_, ?_,
    not_svBelow_diag le_rfl one_le_two, ?_, ⟨A, B, rfl, rfl, ?_⟩, ?_⟩
  · intro i j
    fin_cases i <;> fin_cases j <;> first | exact Or.inl rfl | exact Or.inr ⟨_, _, rfl, by norm_num⟩
  · intro i j
    fin_cases i <;> fin_cases j <;> simp [hB]
  · intro i j
    fin_cases i <;> fin_cases j <;> simp [hA, hB]
  · simp only [Bool.false_eq_true, false_iff]
    intro h
    have := h 0 0
    simp [hB] at this
  · intro i j
    fin_cases i <;> fin_cases j
    · have h : Tendsto (fun s : ℝ => 1 + 1 / (s + 1)) atTop (nhds (1 + 0)) :=
        (Tendsto.const_div_atTop (tendsto_atTop_add_const_right _ _ tendsto_id) 1).const_add 1
      rw [add_zero] at h
      refine h.congr' ?_
      filter_upwards [eventually_gt_atTop 0] with s hs
      simp only [hA, hB, polyAt_real, toPoly, Matrix.of_apply, Matrix.cons_val', Matrix.cons_val_zero]
      simp
      field_simp
      ring
    all_goals simp [hA, hB, polyAt_const]
  · intro h
    obtain ⟨c, hc⟩ := h 0 0
    have h3 := congrArg (Polynomial.eval (-1)) hc
    simp [hA, hB, toPoly] at h3
    norm_num at h3
  · intro i j
    fin_cases i <;> fin_cases j <;> simp [hA, hB, polyAt, toPoly]
  · simp [det_fin_two]

/-- `diag((s + 1)/(s + 1), 1)` meets the hypotheses of `C76_cancelled_violated`. -/
example : ∃ (G : TransferM ℝ) (A B : Matrix (Fin 2) (Fin 2) (List ℝ)) (H : Matrix (Fin 2) (Fin 2) ℝ),
    ClearModel (1 / 10 ^ 9) (1 / 10 ^ 14) G ∧ Normal G 2 2 A B ∧ G.isgain = false ∧ AllConstant A B ∧ AtInfinity A B H ∧ ¬ HasSVBelow spacing1 H := by
  set A : Matrix (Fin 2) (Fin 2) (List ℝ) := !![[1, 1], [0]; [0], [1]] with hA
  set B : Matrix (Fin 2) (Fin 2) (List ℝ) := !![[1, 1], [1]; [1], [1]] with hB
  refine ⟨⟨Arr.of A, Arr.of B, false, none⟩, A, B, !![1, 0; 0, 1],
    clearModel_int (by norm_num) (by norm_num) rfl rfl !![[1, 1], [0]; [0], [1]] !![[1, 1], [1]; [1], [1]]
      (fun i j => by fin_cases i <;> fin_cases j <;> simp [hA]) (fun i j => by fin_cases i <;> fin_cases j <;> simp [hB])
      (fun i j => by fin_cases i <;> fin_cases j <;> exact ⟨_, rfl⟩), normal_lists (by norm_num) ?_ ?_ ?_ ?_, rfl, ?_, ?_,
    not_svBelow_diag le_rfl le_rfl⟩
  · intro i j
    fin_cases i <;> fin_cases j <;> first | exact Or.inl rfl | exact Or.inr ⟨_, _, rfl, by norm_num⟩
  · intro i j
    fin_cases i <;> fin_cases j <;> simp [hB]
  · intro i j
    fin_cases i <;> fin_cases j <;> simp [hA, hB]
  · simp only [Bool.false_eq_true, false_iff]
    intro h
    have := h 0 0
    simp [hB] at this
  · intro i j
    fin_cases i <;> fin_cases j
    · exact ⟨1, by simp [hA, hB]⟩
    · exact ⟨0, by simp [hA, hB, toPoly]⟩
    · exact ⟨0, by simp [hA, hB, toPoly]⟩
    · exact ⟨1, by simp [hA, hB]⟩
  · intro i j
    fin_cases i <;> fin_cases j
    · refine (tendsto_const_nhds (x := (1 : ℝ))).congr' ?_
      filter_upwards [eventually_gt_atTop 0] with s hs
      simp only [hA, hB, polyAt_real, toPoly, Matrix.of_apply, Matrix.cons_val', Matrix.cons_val_zero]
      simp
      field_simp
    all_goals simp [hA, hB, polyAt_const]

end Harold
