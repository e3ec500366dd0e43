import Verif.Lemmas.SisoOrder

/-!
# C109: conversions of models with one input and one output and the number of states
-/

namespace Harold

open Matrix Spec Filter Topology Polynomial

variable {n : ℕ}

section
variable {g : StateM ℝ} {A : Matrix (Fin n) (Fin n) ℝ} {B : Matrix (Fin n) (Fin 1) ℝ} {C : Matrix (Fin 1) (Fin n) ℝ} {D : Matrix (Fin 1) (Fin 1) ℝ} {P Q : ℝ[X]}

/-- A realization of a fraction is least exactly if nothing cancels and there are no more states than the degree of the denominator. -/
theorem rep_coprime (r : Rep g A B C D) (hQ : Q ≠ 0) (hdeg : P.degree ≤ Q.degree) (htf : ∀ᶠ s : ℝ in atTop, tfReal A B C D s 0 0 = eval s P / eval s Q)
    (hn : Q.natDegree ≤ n) : LeastOrder g 1 1 ↔ IsCoprime P Q ∧ Q.natDegree = n := by
  constructor
  · intro hl
    obtain ⟨P', hP'⟩ := EuclideanDomain.gcd_dvd_left P Q
    obtain ⟨Q', hQ'⟩ := EuclideanDomain.gcd_dvd_right P Q
    set d := EuclideanDomain.gcd P Q with hd
    have hd0 : d ≠ 0 := fun e => hQ (by rw [hQ', e, zero_mul])
    have hQ0 : Q' ≠ 0 := fun e => hQ (by rw [hQ', e, mul_zero])
    have hdeg' : P'.degree ≤ Q'.degree := by
      by_cases hP0 : P' = 0
      · simp [hP0]
      · rw [hP', hQ', degree_mul, degree_mul, degree_eq_natDegree hd0, degree_eq_natDegree hP0, degree_eq_natDegree hQ0] at hdeg
        rw [degree_eq_natDegree hP0, degree_eq_natDegree hQ0]
        norm_cast at hdeg ⊢
        omega
    obtain ⟨g', h1, h2, h3⟩ := exists_state_of_poly hQ0 hdeg'
    have hle : n ≤ Q'.natDegree := by
      rw [← r.ord]
      refine (hl g' h1 ?_).trans h2
      filter_upwards [htf, eventually_det A, eventually_atTop_not_isRoot d hd0, eventually_atTop_not_isRoot Q' hQ0] with s t1 t2 t3 t4 M M' hM hM'
      rw [HasTF_unique hM (r.tf s t2), HasTF_unique hM' (h3 s t4)]
      ext i j
      rw [Fin.eq_zero i, Fin.eq_zero j, t1, hP', hQ', eval_mul, eval_mul, mul_div_mul_left _ _ t3]
      rfl
    have hnat : Q.natDegree = d.natDegree + Q'.natDegree := by
      conv_lhs => rw [hQ']
      exact natDegree_mul hd0 hQ0
    refine ⟨EuclideanDomain.gcd_isUnit_iff.mp ?_, by omega⟩
    exact isUnit_iff_degree_eq_zero.mpr (by rw [← hd, degree_eq_natDegree hd0]; norm_cast; omega)
  · rintro ⟨hc, hn'⟩ g' hg' hs
    obtain ⟨n', A', B', C', D', r'⟩ := exists_rep hg'
    rw [r.ord, r'.ord]
    refine hn'.ge.trans (natDegree_le_of_cross (cross_of_agree (A := A') (B := B') (C := C') (D := D') hQ ?_) hc).2
    filter_upwards [htf, hs, eventually_det A, eventually_det A'] with s t1 t2 t3 t4
    rw [← t1, t2 _ _ (r.tf s t3) (r'.tf s t4)]
end

/-- The value of a `Transfer` with one input and one output. -/
theorem hasVal_siso {G : TransferM ℝ} {N D : Matrix (Fin 1) (Fin 1) (List ℝ)} (hG : Normal G 1 1 N D) {s : ℝ} (hs : eval s (toPoly (D 0 0)) ≠ 0) :
    HasVal G 1 1 s (Matrix.of fun _ _ => eval s (toPoly (N 0 0)) / eval s (toPoly (D 0 0))) := by
  refine hasVal_of hG.num hG.den fun i j => ?_
  rw [Fin.eq_zero i, Fin.eq_zero j, polyAt, polyAt, coe_aeval_eq_eval]
  exact ⟨hs, rfl⟩

theorem normal_proper {G : TransferM ℝ} {N D : Matrix (Fin 1) (Fin 1) (List ℝ)} (hG : Normal G 1 1 N D) : ProperPair (N 0 0) (D 0 0) :=
  properPair_of_length (hG.lead 0 0) (hG.causal 0 0)

/-- **C109**: a `State` with the values of a SISO `Transfer` whose numerator and denominator have no common factor has at least as many states as the degree of
the denominator, and its characteristic polynomial is a multiple of the denominator. -/
theorem C109_lower {G : TransferM ℝ} {N D : Matrix (Fin 1) (Fin 1) (List ℝ)} (hG : Normal G 1 1 N D) (hc : IsCoprime (toPoly (N 0 0)) (toPoly (D 0 0)))
    {g : StateM ℝ} (hg : Consistent g 1 1) (ha : Agree G g 1 1) :
    (toPoly (D 0 0)).natDegree ≤ order g ∧ ∀ s : ℂ, polyAt s (D 0 0) = 0 → CharAt g s 0 := by
  obtain ⟨n, A, B, C, D', r⟩ := exists_rep hg
  have hQ := (normal_proper hG).1
  obtain ⟨h1, h2⟩ := natDegree_le_of_cross (cross_of_agree (A := A) (B := B) (C := C) (D := D') (P := toPoly (N 0 0)) hQ (by
    filter_upwards [ha, eventually_det A, eventually_atTop_not_isRoot _ hQ] with s t1 t2 t3
    rw [← t1 _ _ (hasVal_siso hG t3) (r.tf s t2)]
    rfl)) hc
  refine ⟨by rw [r.ord]; exact h2, fun s hs => ?_⟩
  rw [r.char, ← aeval_charpoly]
  obtain ⟨R, hR⟩ := h1
  rw [hR, map_mul, show aeval s (toPoly (D 0 0)) = 0 from hs, zero_mul]

theorem consistent_of_tf {g : StateM ℝ} {p m : ℕ} {s : ℝ} {M : Matrix (Fin p) (Fin m) ℝ} (h : HasTF g p m s M) : Consistent g p m := by
  obtain ⟨h1, D, h2, -⟩ | ⟨h1, n, A, B, C, D, h2, h3, h4, h5, -⟩ := h
  · exact ⟨by rw [h2]; exact ⟨rfl, rfl⟩, fun h => by rw [h1] at h; cases h⟩
  · exact ⟨by rw [h5]; exact ⟨rfl, rfl⟩, fun _ => by rw [h2, h3, h4]; exact ⟨rfl, rfl, rfl, rfl, rfl⟩⟩

/-- The conversion with the matrices of the result. -/
theorem siso_conv {E : TNum ℝ} {G : TransferM ℝ} {N D : Matrix (Fin 1) (Fin 1) (List ℝ)} (hG : Normal G 1 1 N D)
    (htol : Coarse E.remTol (C (toPoly (D 0 0)).leadingCoeff⁻¹ * (toPoly (N 0 0) % toPoly (D 0 0)))) :
    ∃ S, transferToState E G = .ok S ∧ S.dt = G.dt ∧ (∀ (s : ℝ) (M : Matrix (Fin 1) (Fin 1) ℝ), HasVal G 1 1 s M → HasTF S 1 1 s M) ∧
      (S.isgain = true ∨ (0 < (toPoly (D 0 0)).natDegree ∧ ∃ (n : ℕ) (A : Matrix (Fin n) (Fin n) ℝ) (B : Matrix (Fin n) (Fin 1) ℝ)
        (C' : Matrix (Fin 1) (Fin n) ℝ) (D' : Matrix (Fin 1) (Fin 1) ℝ), n = (toPoly (D 0 0)).natDegree ∧ S = ⟨Arr.of A, Arr.of B, Arr.of C', Arr.of D', G.dt, false⟩ ∧
        Reachable A B ∧ A.charpoly = C (toPoly (D 0 0)).leadingCoeff⁻¹ * toPoly (D 0 0))) := by
  have hp := normal_proper hG
  have hN0 : G.num.entry 0 0 = N 0 0 := by rw [hG.num]; rfl
  have hD0 : G.den.entry 0 0 = D 0 0 := by rw [hG.den]; rfl
  cases hgain : G.isgain with
  | true =>
    have hD1 : ∀ i j, (D i j).length = 1 := hG.flag.mp hgain
    have hN1 : ∀ i j, (N i j).length = 1 := fun i j => by
      have h1 := hG.causal i j
      rw [hD1] at h1
      rcases hG.trimmed i j with h | ⟨a, t, h, -⟩ <;> rw [h] at h1 ⊢ <;> simp at h1 ⊢
      exact h1
    obtain ⟨S, h1, h2, h3, h4⟩ := toState_of_gain (L := ℝ) E hG.num hG.den hG.dt hgain hN1 hD1
    exact ⟨S, h1, h2, h3, Or.inl h4⟩
  | false =>
    have hdd : 0 < (toPoly (D 0 0)).degree := by
      have h1 : ¬ (D 0 0).length = 1 := fun e => by
        have := hG.flag.mpr fun i j => by rw [Fin.eq_zero i, Fin.eq_zero j]; exact e
        rw [hgain] at this
        cases this
      have h2 := hG.lead 0 0
      cases h : D 0 0 with
      | nil => rw [h] at h2; simp at h2
      | cons a t =>
        rw [h] at h1 h2
        rw [degree_toPoly_cons (by simpa using h2)]
        simp at h1
        exact_mod_cast List.length_pos_iff.mpr h1
    obtain ⟨r, h1, h2⟩ := t2sSiso_ok (L := ℝ) (le_refl (0 : ℝ)) (N 0 0) (D 0 0) hp hdd
    have h1' := (t2sSiso_exact (N 0 0) (D 0 0) hp hdd htol).trans h1
    have hdata : t2sData E G.num G.den G.isgain = .ok r := by
      unfold t2sData
      rw [if_neg (by simp [hgain]), if_pos (by rw [hG.num]; exact ⟨rfl, rfl⟩), hN0, hD0]
      exact h1'
    obtain ⟨S, h3, h4, h5, h6, -⟩ := toState_of_realizes (L := ℝ) (E := E) (r := r) hG.num hG.den hG.dt hdata (by
      have e1 : N = fun _ _ => N 0 0 := by ext i j : 2; rw [Fin.eq_zero i, Fin.eq_zero j]
      have e2 : D = fun _ _ => D 0 0 := by ext i j : 2; rw [Fin.eq_zero i, Fin.eq_zero j]
      rw [e1, e2]
      exact h2)
    refine ⟨S, h3, h4, h5, ?_⟩
    obtain ⟨r1, r2⟩ := r
    cases r1 with
    | none => exact Or.inl h6
    | some abc =>
      right
      refine ⟨natDegree_pos_iff_degree_pos.mpr hdd, ?_⟩
      obtain ⟨A, B, e1, e2, e3, e4⟩ := t2sSiso_shape hp hdd h1 rfl
      obtain ⟨D', hD', h7⟩ := h2
      simp only at hD' h7
      rcases h7 with ⟨h7, -⟩ | ⟨k, A', B', C', h7, -⟩
      · cases h7
      · simp only [Option.some.injEq] at h7
        subst h7 hD'
        simp only at e1 e2
        obtain rfl : k = (toPoly (D 0 0)).natDegree := congrArg Arr.r e1
        obtain rfl := Arr.of_inj.mp e1
        obtain rfl := Arr.of_inj.mp e2
        refine ⟨_, A', B', C', D', rfl, ?_, e3, e4⟩
        unfold transferToState at h3
        simp only [hdata, Bind.bind, Except.bind] at h3
        rw [mkState_of hG.dt] at h3
        exact (Except.ok.inj h3).symm

theorem conv_tf {G : TransferM ℝ} {N D : Matrix (Fin 1) (Fin 1) (List ℝ)} (hG : Normal G 1 1 N D) {S : StateM ℝ}
    (h : ∀ (s : ℝ) (M : Matrix (Fin 1) (Fin 1) ℝ), HasVal G 1 1 s M → HasTF S 1 1 s M) :
    Consistent S 1 1 ∧ Agree G S 1 1 := by
  have hQ := (normal_proper hG).1
  obtain ⟨s, hs⟩ := (eventually_atTop_not_isRoot _ hQ).exists
  exact ⟨consistent_of_tf (h s _ (hasVal_siso hG hs)), .of_forall fun s M M' hM hM' => HasTF_unique (h s M hM) hM'⟩

theorem agree_tf {G : TransferM ℝ} {N D : Matrix (Fin 1) (Fin 1) (List ℝ)} (hG : Normal G 1 1 N D) {g : StateM ℝ} {A : Matrix (Fin n) (Fin n) ℝ}
    {B : Matrix (Fin n) (Fin 1) ℝ} {C : Matrix (Fin 1) (Fin n) ℝ} {D' : Matrix (Fin 1) (Fin 1) ℝ} (r : Rep g A B C D') (h : Agree G g 1 1) :
    ∀ᶠ s : ℝ in atTop, tfReal A B C D' s 0 0 = eval s (toPoly (N 0 0)) / eval s (toPoly (D 0 0)) := by
  filter_upwards [h, eventually_det A, eventually_atTop_not_isRoot _ (normal_proper hG).1] with s t1 t2 t3
  rw [← t1 _ _ (hasVal_siso hG t3) (r.tf s t2)]
  rfl

/-- A static result belongs to a constant fraction. -/
theorem const_of_gain {G : TransferM ℝ} {N D : Matrix (Fin 1) (Fin 1) (List ℝ)} (hG : Normal G 1 1 N D) {S : StateM ℝ}
    (h : ∀ (s : ℝ) (M : Matrix (Fin 1) (Fin 1) ℝ), HasVal G 1 1 s M → HasTF S 1 1 s M) (hg : S.isgain = true) :
    ∃ c : ℝ, toPoly (N 0 0) = C c * toPoly (D 0 0) := by
  have hQ := (normal_proper hG).1
  refine ⟨S.d.bget 0 0, poly_eq_of_eventually ?_⟩
  filter_upwards [eventually_atTop_not_isRoot _ hQ] with s hs
  obtain ⟨-, D', h2, h3⟩ | ⟨h1, -⟩ := h s _ (hasVal_siso hG hs)
  · have := congrFun (congrFun h3 0) 0
    simp only [Matrix.of_apply, Matrix.map_apply, Algebra.algebraMap_self, RingHom.id_apply] at this
    have hb : S.d.bget 0 0 = D' 0 0 := by rw [h2]; exact Arr.bget_of D' 0 0
    rw [hb, eval_mul, eval_C, ← this]
    exact (div_mul_cancel₀ _ hs).symm
  · rw [hg] at h1; cases h1

/-- **C109**, `Transfer` to `State`: the converted model has the least number of states exactly if it is a static gain or numerator and denominator have no common
factor; then the number is the degree of the denominator. A static result occurs only if numerator and denominator are proportional. `_partial`: the remainder has no nonzero coefficients below the threshold (`C26_rounding_violated`). -/
theorem C109_conversion_partial {E : TNum ℝ} {G : TransferM ℝ} {N D : Matrix (Fin 1) (Fin 1) (List ℝ)} (hG : Normal G 1 1 N D)
    (htol : Coarse E.remTol (C (toPoly (D 0 0)).leadingCoeff⁻¹ * (toPoly (N 0 0) % toPoly (D 0 0)))) :
    ∃ S, transferToState E G = .ok S ∧ Agree G S 1 1 ∧ (LeastOrder S 1 1 ↔ S.isgain = true ∨ IsCoprime (toPoly (N 0 0)) (toPoly (D 0 0))) ∧
      (IsCoprime (toPoly (N 0 0)) (toPoly (D 0 0)) → order S = (toPoly (D 0 0)).natDegree) ∧ (S.isgain = true → ∃ c : ℝ, toPoly (N 0 0) = C c * toPoly (D 0 0)) := by
  obtain ⟨S, h1, -, h3, h4⟩ := siso_conv hG htol
  obtain ⟨hc, ha⟩ := conv_tf hG h3
  refine ⟨S, h1, ha, ?_, ?_, const_of_gain hG h3⟩
  rotate_left
  · refine fun hco => le_antisymm ?_ (C109_lower hG hco hc ha).1
    rcases h4 with h4 | ⟨hpos, k, A, B, C', D', hk, rfl, -, -⟩
    · simp [order, h4]
    · simp [order, hk]
  · rcases h4 with h4 | ⟨hpos, k, A, B, C', D', hk, rfl, -, -⟩
    · exact ⟨fun _ => Or.inl h4, fun _ g _ _ => by simp [order, h4]⟩
    · have r := rep_dyn A B C' D' G.dt
      rw [rep_coprime r (normal_proper hG).1 (normal_proper hG).2 (agree_tf hG r ha) hk.ge]
      exact ⟨fun h => Or.inr h.1, fun h => ⟨h.resolve_left (by simp), hk.symm⟩⟩

/-- **C109**, the Kalman tests: the model converted from a `Transfer` is always controllable; it is observable exactly if numerator and denominator have no common factor.
`_partial`: as in `C109_conversion_partial`. -/
theorem C109_tests_partial {V : SvdNum ℝ} (he : 0 ≤ V.eps) (hV : ∀ (k l : ℕ) (M : Matrix (Fin k) (Fin l) ℝ), SvdExact V M) {E : TNum ℝ} {G : TransferM ℝ}
    {N D : Matrix (Fin 1) (Fin 1) (List ℝ)} (hG : Normal G 1 1 N D)
    (htol : Coarse E.remTol (C (toPoly (D 0 0)).leadingCoeff⁻¹ * (toPoly (N 0 0) % toPoly (D 0 0)))) {S : StateM ℝ} (hS : transferToState E G = .ok S)
    (hg : S.isgain = false) :
    isKalmanControllableArg V (.state S) = .ok true ∧ ∃ t, isKalmanObservableArg V (.state S) = .ok t ∧ (t = true ↔ IsCoprime (toPoly (N 0 0)) (toPoly (D 0 0))) := by
  obtain ⟨S', h1, -, h3, h4⟩ := siso_conv hG htol
  obtain rfl : S = S' := Except.ok.inj (hS.symm.trans h1)
  obtain ⟨hc, ha⟩ := conv_tf hG h3
  rcases h4 with h4 | ⟨hpos, k, A, B, C', D', hk, rfl, hr, -⟩
  · rw [hg] at h4; cases h4
  · obtain ⟨⟨t, h1, h2⟩, t', h5, h6⟩ := C77_tests he (A := A) (B := B) (C := C') hV (by omega) one_pos one_pos (G := .state ⟨Arr.of A, Arr.of B, Arr.of C', Arr.of D', G.dt, false⟩)
      (H := .state ⟨Arr.of A, Arr.of B, Arr.of C', Arr.of D', G.dt, false⟩) (.state _ rfl rfl) (.state _ rfl rfl)
    rw [h1, h2.mpr hr]
    refine ⟨rfl, t', h5, h6.trans ?_⟩
    have r := rep_dyn A B C' D' G.dt
    have h7 := rep_least_iff r
    rw [rep_coprime r (normal_proper hG).1 (normal_proper hG).2 (agree_tf hG r ha) hk.ge] at h7
    exact ⟨fun ho => (h7.mpr ⟨hr, ho⟩).1, fun h => (h7.mp ⟨h, hk.symm⟩).2⟩

/-- The conversion to `Transfer` with its denominator. -/
theorem siso_back {E : TNum ℝ} {U : Numerics ℝ ℂ} (hbal : ∀ polys i, E.bal polys i ≠ 0) (hthr : E.lcmTol ≤ 1) (hU : EigExact U) (hZ : ZerosExact U)
    (A : Matrix (Fin n) (Fin n) ℝ) (B : Matrix (Fin n) (Fin 1) ℝ) (C : Matrix (Fin 1) (Fin n) ℝ) (D : Matrix (Fin 1) (Fin 1) ℝ) {dt : Option ℝ} (hdt : DtOk dt) :
    ∃ F N' D', stateToTransfer E U ⟨Arr.of A, Arr.of B, Arr.of C, Arr.of D, dt, false⟩ = .ok F ∧ Normal F 1 1 N' D' ∧ F.dt = dt ∧
      Agree F ⟨Arr.of A, Arr.of B, Arr.of C, Arr.of D, dt, false⟩ 1 1 ∧ ((N' 0 0 = [0] ∧ D' 0 0 = [1]) ∨ toPoly (D' 0 0) = A.charpoly) := by
  obtain ⟨F, N', D', h1, h2, h3, h4⟩ := stateToTransfer_dynamic (E := E) hbal hthr hU hZ (G := ⟨Arr.of A, Arr.of B, Arr.of C, Arr.of D, dt, false⟩) (p := 1) (m := 1)
    ⟨⟨rfl, rfl⟩, fun _ => ⟨rfl, rfl, rfl, rfl, rfl⟩⟩ rfl hdt one_pos one_pos
  refine ⟨F, N', D', h1, h2, h3, ?_, ?_⟩
  · filter_upwards [eventually_atTop_not_isRoot _ (normal_proper h2).1] with s hs M M' hM hM'
    have h5 := (h4 s M' hM').1
    obtain ⟨n1, d1, e1, e2, e3⟩ := hM
    obtain ⟨n2, d2, e4, e5, e6⟩ := h5
    obtain rfl := Arr.of_inj.mp (e1.symm.trans e4)
    obtain rfl := Arr.of_inj.mp (e2.symm.trans e5)
    ext i j
    rw [(e3 i j).2, (e6 i j).2]
  · have h5 := h1
    simp only [stateToTransfer, Bool.false_eq_true, if_false] at h5
    obtain ⟨e, h6, h7, h8, -⟩ := mkEntries_inv h5
    have h9 := h6 0 0
    rw [h2.num] at h7
    rw [h2.den] at h8
    have hN : N' 0 0 = (e 0 0).1 := by rw [Arr.of_inj.mp h7]; rfl
    have hD : D' 0 0 = (e 0 0).2 := by rw [Arr.of_inj.mp h8]; rfl
    rw [hN, hD]
    unfold s2tEntry at h9
    obtain ⟨k, -, h9⟩ := bind_ok' h9
    obtain ⟨l, -, h9⟩ := bind_ok' h9
    split_ifs at h9 with hl
    · left
      rw [← Except.ok.inj h9]
      exact ⟨rfl, rfl⟩
    · right
      rw [← Except.ok.inj h9]
      exact toPoly_map_re (by rw [(C04_poly _).1, hU A])

/-- **C109**, `State` to `Transfer`: a SISO model has the least number of states exactly if numerator and denominator of its `Transfer` have no common factor and the
degree of the denominator is the number of states. -/
theorem C109_back {E : TNum ℝ} {U : Numerics ℝ ℂ} (hbal : ∀ polys i, E.bal polys i ≠ 0) (hthr : E.lcmTol ≤ 1) (hU : EigExact U) (hZ : ZerosExact U)
    (A : Matrix (Fin n) (Fin n) ℝ) (B : Matrix (Fin n) (Fin 1) ℝ) (C : Matrix (Fin 1) (Fin n) ℝ) (D : Matrix (Fin 1) (Fin 1) ℝ) {dt : Option ℝ} (hdt : DtOk dt) :
    ∃ F N' D', stateToTransfer E U ⟨Arr.of A, Arr.of B, Arr.of C, Arr.of D, dt, false⟩ = .ok F ∧ Normal F 1 1 N' D' ∧ (toPoly (D' 0 0)).natDegree ≤ n ∧
      (LeastOrder ⟨Arr.of A, Arr.of B, Arr.of C, Arr.of D, dt, false⟩ 1 1 ↔ IsCoprime (toPoly (N' 0 0)) (toPoly (D' 0 0)) ∧ (toPoly (D' 0 0)).natDegree = n) := by
  obtain ⟨F, N', D', h1, h2, -, h4, h5⟩ := siso_back hbal hthr hU hZ A B C D hdt
  have hle : (toPoly (D' 0 0)).natDegree ≤ n := by
    rcases h5 with ⟨-, h5⟩ | h5
    · rw [h5]; simp [toPoly]
    · rw [h5, A.charpoly_natDegree_eq_dim, Fintype.card_fin]
  have r := rep_dyn A B C D dt
  exact ⟨F, N', D', h1, h2, hle, rep_coprime r (normal_proper h2).1 (normal_proper h2).2 (agree_tf h2 r h4) hle⟩

/-- **C109**, there and back: converting a SISO `Transfer` with a nonzero numerator to a dynamic `State` and back gives numerator and denominator divided by the leading
coefficient of the denominator; nothing is cancelled. `_partial`: as in `C109_conversion_partial`. -/
theorem C109_roundtrip_transfer_partial {E : TNum ℝ} {U : Numerics ℝ ℂ} (hbal : ∀ polys i, E.bal polys i ≠ 0) (hthr : E.lcmTol ≤ 1) (hU : EigExact U) (hZ : ZerosExact U)
    {G : TransferM ℝ} {N D : Matrix (Fin 1) (Fin 1) (List ℝ)} (hG : Normal G 1 1 N D)
    (htol : Coarse E.remTol (C (toPoly (D 0 0)).leadingCoeff⁻¹ * (toPoly (N 0 0) % toPoly (D 0 0)))) (hn : toPoly (N 0 0) ≠ 0) {S : StateM ℝ}
    (hS : transferToState E G = .ok S) (hg : S.isgain = false) :
    ∃ F N' D', stateToTransfer E U S = .ok F ∧ Normal F 1 1 N' D' ∧ F.dt = G.dt ∧ toPoly (N' 0 0) = C (toPoly (D 0 0)).leadingCoeff⁻¹ * toPoly (N 0 0) ∧
      toPoly (D' 0 0) = C (toPoly (D 0 0)).leadingCoeff⁻¹ * toPoly (D 0 0) := by
  obtain ⟨S', h1, -, h3, h4⟩ := siso_conv hG htol
  obtain rfl : S = S' := Except.ok.inj (hS.symm.trans h1)
  obtain ⟨hc, ha⟩ := conv_tf hG h3
  rcases h4 with h4 | ⟨hpos, k, A, B, C', D', hk, rfl, hr, hA⟩
  · rw [hg] at h4; cases h4
  · obtain ⟨F, N1, D1, t1, t2, t3, t4, t5⟩ := siso_back hbal hthr hU hZ A B C' D' hG.dt
    have r := rep_dyn A B C' D' G.dt
    have e1 := agree_tf hG r ha
    have e2 := agree_tf t2 r t4
    have hQ := (normal_proper hG).1
    have hQ1 := (normal_proper t2).1
    have e3 : toPoly (N 0 0) * toPoly (D1 0 0) = toPoly (N1 0 0) * toPoly (D 0 0) := by
      refine poly_eq_of_eventually ?_
      filter_upwards [e1, e2, eventually_atTop_not_isRoot _ hQ, eventually_atTop_not_isRoot _ hQ1] with s s1 s2 s3 s4
      rw [s1, div_eq_div_iff s3 s4] at s2
      rw [eval_mul, eval_mul]
      exact s2
    have e4 : toPoly (D1 0 0) = A.charpoly := by
      rcases t5 with ⟨e5, e6⟩ | e5
      · rw [e5, e6] at e3
        simp [toPoly] at e3
        exact absurd e3 hn
      · exact e5
    refine ⟨F, N1, D1, t1, t2, t3, ?_, e4.trans hA⟩
    rw [e4, hA] at e3
    have : toPoly (D 0 0) * toPoly (N1 0 0) = toPoly (D 0 0) * (C (toPoly (D 0 0)).leadingCoeff⁻¹ * toPoly (N 0 0)) := by
      rw [mul_comm, ← e3]; ring
    exact mul_left_cancel₀ hQ this

/-- **C109**, back and there: converting a SISO model with the least number of states to `Transfer` and back gives the same model up to a change of state coordinates.
`_partial`: as in `C109_conversion_partial`. -/
theorem C109_roundtrip_state_partial {E : TNum ℝ} {U : Numerics ℝ ℂ} (hbal : ∀ polys i, E.bal polys i ≠ 0) (hthr : E.lcmTol ≤ 1) (hU : EigExact U) (hZ : ZerosExact U)
    {A : Matrix (Fin n) (Fin n) ℝ} {B : Matrix (Fin n) (Fin 1) ℝ} {C : Matrix (Fin 1) (Fin n) ℝ} {D : Matrix (Fin 1) (Fin 1) ℝ} {dt : Option ℝ} (hdt : DtOk dt)
    (hpos : 0 < n) (hl : LeastOrder ⟨Arr.of A, Arr.of B, Arr.of C, Arr.of D, dt, false⟩ 1 1) {F : TransferM ℝ}
    (hF : stateToTransfer E U ⟨Arr.of A, Arr.of B, Arr.of C, Arr.of D, dt, false⟩ = .ok F)
    (htol : ∀ N' D', Normal F 1 1 N' D' → Coarse E.remTol (toPoly (N' 0 0) % toPoly (D' 0 0))) :
    ∃ T : Matrix (Fin n) (Fin n) ℝ, T.det ≠ 0 ∧
      transferToState E F = .ok ⟨Arr.of (T⁻¹ * A * T), Arr.of (T⁻¹ * B), Arr.of (C * T), Arr.of D, dt, false⟩ := by
  obtain ⟨F', N1, D1, t1, t2, t3, t4, t5⟩ := siso_back hbal hthr hU hZ A B C D hdt
  obtain rfl : F = F' := Except.ok.inj (hF.symm.trans t1)
  have r := rep_dyn A B C D dt
  have hle : (toPoly (D1 0 0)).natDegree ≤ n := by
    rcases t5 with ⟨-, h5⟩ | h5
    · rw [h5]; simp [toPoly]
    · rw [h5, A.charpoly_natDegree_eq_dim, Fintype.card_fin]
  obtain ⟨hco, hdeg⟩ := (rep_coprime r (normal_proper t2).1 (normal_proper t2).2 (agree_tf t2 r t4) hle).mp hl
  have hD : toPoly (D1 0 0) = A.charpoly := by
    rcases t5 with ⟨-, h5⟩ | h5
    · rw [h5] at hdeg; simp [toPoly] at hdeg; omega
    · exact h5
  obtain ⟨S, h1, h2, h3, h4⟩ := siso_conv (E := E) t2 (by
    rw [hD, A.charpoly_monic.leadingCoeff, inv_one, map_one, one_mul, ← hD]
    exact htol N1 D1 t2)
  obtain ⟨hc, ha⟩ := conv_tf t2 h3
  rcases h4 with h4 | ⟨-, k, A', B', C', D', hk, rfl, -, -⟩
  · have := (C109_lower t2 hco hc ha).1
    rw [order, if_pos h4] at this
    omega
  · have r' := rep_dyn A' B' C' D' F.dt
    have e1 := agree_tf t2 r t4
    have e2 := agree_tf t2 r' ha
    have hl' : LeastOrder ⟨Arr.of A', Arr.of B', Arr.of C', Arr.of D', F.dt, false⟩ 1 1 :=
      (rep_coprime r' (normal_proper t2).1 (normal_proper t2).2 e2 hk.ge).mpr ⟨hco, hk.symm⟩
    obtain ⟨rfl, rfl, T, hT, q1, q2, q3⟩ := C107_coordinates hl hl' (by
      filter_upwards [e1, e2, eventually_det A, eventually_det A'] with s s1 s2 s3 s4 M M' hM hM'
      rw [HasTF_unique hM (r.tf s s3), HasTF_unique hM' (r'.tf s s4)]
      ext i j
      rw [Fin.eq_zero i, Fin.eq_zero j, s1, s2])
    refine ⟨T, hT, ?_⟩
    rw [h1, q1, q2, q3, t3]

/-! ## The hypotheses are met -/

/-- `(s + 2) / (s² + 3 s + 2)`. -/
def commonTf : TransferM ℝ := ⟨constArr 1 1 [1, 2], constArr 1 1 [1, 3, 2], false, none⟩

theorem commonTf_normal : Normal commonTf 1 1 (Matrix.of fun _ _ => [1, 2]) (Matrix.of fun _ _ => [1, 3, 2]) :=
  ⟨⟨one_pos, one_pos⟩, rfl, rfl, fun _ _ => Or.inr ⟨1, [2], rfl, by simp⟩, fun _ _ => by simp, fun _ _ => by simp, by simp [commonTf], fun _ h => by cases h⟩

theorem commonTf_polys : toPoly [(1 : ℝ), 2] = X + C 2 ∧ toPoly [(1 : ℝ), 3, 2] = (X + C 2) * (X + C 1) := by
  constructor
  · simp [toPoly]
  · simp only [toPoly, List.length_cons, List.length_nil, C_1]
    rw [show (C 3 : ℝ[X]) = 3 by rfl, show (C 2 : ℝ[X]) = 2 by rfl]
    ring

theorem commonTf_not_coprime : ¬ IsCoprime (toPoly [(1 : ℝ), 2]) (toPoly [(1 : ℝ), 3, 2]) := fun h => by
  have h1 := h.isUnit_of_dvd' (dvd_of_eq commonTf_polys.1.symm) ⟨X + C 1, commonTf_polys.2⟩
  have h2 := degree_eq_zero_of_isUnit h1
  rw [degree_X_add_C] at h2
  cases h2

theorem commonTf_dynamic : ∃ S, transferToState ⟨fun _ _ => 1, 0, 0⟩ commonTf = .ok S ∧ S.isgain = false ∧ ¬ LeastOrder S 1 1 := by
  obtain ⟨S, h1, -, h3, -, h5⟩ := C109_conversion_partial (E := ⟨fun _ _ => 1, 0, 0⟩) commonTf_normal (fun k => Or.inr (abs_nonneg _))
  have hg : S.isgain = false := by
    cases hg : S.isgain with
    | false => rfl
    | true =>
      obtain ⟨c, hc⟩ := h5 hg
      have e := congrArg (eval (-1)) hc
      simp only [Matrix.of_apply] at e
      rw [commonTf_polys.1, commonTf_polys.2] at e
      norm_num at e
  refine ⟨S, h1, hg, fun h => ?_⟩
  rcases h3.mp h with h | h
  · rw [hg] at h; cases h
  · exact commonTf_not_coprime h

/-- The tests tell `(s + 2) / (s² + 3 s + 2)` controllable and not observable. -/
example : ∃ (V : SvdNum ℝ) (S : StateM ℝ), transferToState ⟨fun _ _ => 1, 0, 0⟩ commonTf = .ok S ∧ isKalmanControllableArg V (.state S) = .ok true ∧
    isKalmanObservableArg V (.state S) = .ok false := by
  obtain ⟨V, he, hV⟩ := exists_svdNum
  obtain ⟨S, h1, h2, -⟩ := commonTf_dynamic
  obtain ⟨h3, t, h4, h5⟩ := C109_tests_partial he.ge (fun k l M => hV M) (E := ⟨fun _ _ => 1, 0, 0⟩) commonTf_normal (fun k => Or.inr (abs_nonneg _)) h1 h2
  refine ⟨V, S, h1, h3, h4.trans ?_⟩
  cases t with
  | false => rfl
  | true => exact absurd (h5.mp rfl) commonTf_not_coprime

/-- Nothing is cancelled on the way back. -/
example : ∃ (U : Numerics ℝ ℂ) (S : StateM ℝ) (F : TransferM ℝ), transferToState ⟨fun _ _ => 1, 0, 0⟩ commonTf = .ok S ∧
    stateToTransfer ⟨fun _ _ => 1, 0, 0⟩ U S = .ok F ∧ toPoly (F.den.entry 0 0) = toPoly [1, 3, 2] := by
  obtain ⟨U, h1, h2⟩ := exists_exact_numerics
  obtain ⟨S, h3, h4, -⟩ := commonTf_dynamic
  obtain ⟨F, N', D', h5, h6, -, -, h7⟩ := C109_roundtrip_transfer_partial (E := ⟨fun _ _ => 1, 0, 0⟩) (fun _ _ => one_ne_zero) zero_le_one h1 h2 commonTf_normal
    (fun k => Or.inr (abs_nonneg _)) (by
      simp only [Matrix.of_apply, commonTf_polys.1]
      exact (monic_X_add_C 2).ne_zero) h3 h4
  refine ⟨U, S, F, h3, h5, ?_⟩
  have e : toPoly [(1 : ℝ), 3, 2] = (X + C 2) * (X + C 1) := commonTf_polys.2
  have hm : (toPoly [(1 : ℝ), 3, 2]).leadingCoeff = 1 := by
    rw [e]
    exact ((monic_X_add_C 2).mul (monic_X_add_C 1)).leadingCoeff
  rw [h6.den]
  show toPoly (D' 0 0) = _
  rw [h7]
  simp only [Matrix.of_apply, hm, inv_one, map_one, one_mul]

/-- `1 / (s + 1)`: one state, and none of its realizations has fewer. -/
example : ∃ S, transferToState ⟨fun _ _ => 1, 0, 0⟩ lagTfR = .ok S ∧ LeastOrder S 1 1 ∧ order S = 1 := by
  have hc : IsCoprime (toPoly [(1 : ℝ)]) (toPoly [(1 : ℝ), 1]) := by
    rw [show toPoly [(1 : ℝ)] = 1 by simp [toPoly]]
    exact isCoprime_one_left
  obtain ⟨S, h1, -, h3, h4, -⟩ := C109_conversion_partial (E := ⟨fun _ _ => 1, 0, 0⟩) lagTfR_normal (fun k => Or.inr (abs_nonneg _))
  refine ⟨S, h1, h3.mpr (Or.inr hc), (h4 hc).trans ?_⟩
  simp only [Matrix.of_apply]
  rw [show toPoly [(1 : ℝ), 1] = X + C 1 by simp [toPoly]]
  exact natDegree_X_add_C 1

/-- The state coordinates change, the model does not. -/
example : ∃ (U : Numerics ℝ ℂ) (F : TransferM ℝ) (T : Matrix (Fin 1) (Fin 1) ℝ), T.det ≠ 0 ∧
    stateToTransfer ⟨fun _ _ => 1, 0, 0⟩ U ⟨Arr.of !![-1], Arr.of !![1], Arr.of !![1], Arr.of !![0], none, false⟩ = .ok F ∧
    transferToState ⟨fun _ _ => 1, 0, 0⟩ F = .ok ⟨Arr.of (T⁻¹ * !![-1] * T), Arr.of (T⁻¹ * !![1]), Arr.of (!![1] * T), Arr.of !![0], none, false⟩ := by
  obtain ⟨U, h1, h2⟩ := exists_exact_numerics
  obtain ⟨F, N', D', h3, -, -, h4⟩ := C109_back (E := ⟨fun _ _ => 1, 0, 0⟩) (fun _ _ => one_ne_zero) zero_le_one h1 h2 (!![-1] : Matrix (Fin 1) (Fin 1) ℝ) !![1] !![1] !![0]
    (dt := none) (fun _ h => by cases h)
  obtain ⟨T, h5, h6⟩ := C109_roundtrip_state_partial (E := ⟨fun _ _ => 1, 0, 0⟩) (fun _ _ => one_ne_zero) zero_le_one h1 h2 (dt := none) (fun _ h => by cases h) one_pos lag_least h3
    (fun _ _ _ k => Or.inr (abs_nonneg _))
  exact ⟨U, F, T, h5, h3, h6⟩

end Harold
