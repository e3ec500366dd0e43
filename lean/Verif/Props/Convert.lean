import Verif.Lemmas.TransferMk
import Verif.Lemmas.CoarseInt

/-!
# C26, C27: `transfer_to_state`

`E.remTol`, `E.lcmTol` are the thresholds below which the code replaces coefficients by zero
(`1e-9` and `np.spacing(100.)`). The theorems are about models for which no coefficient is so small
(`Spec/Coarse.lean`); models with integer coefficients and monic denominators are of this kind
(`noRounding_int`).
-/

namespace Harold

open Matrix Spec Polynomial

variable {K L : Type} [Field K] [LinearOrder K] [IsStrictOrderedRing K] [Field L] [Algebra K L]

omit [IsStrictOrderedRing K] in
theorem properPair_of_length {n d : List K} (hd : d.getD 0 0 ≠ 0) (h : n.length ≤ d.length) : ProperPair n d := by
  cases d with
  | nil => simp at hd
  | cons a t =>
    simp only [List.getD_cons_zero] at hd
    have e := degree_toPoly_cons hd t
    refine ⟨fun h0 => by rw [h0] at e; simp at e, ?_⟩
    rw [e]
    have h1 := degree_toPoly_lt n
    by_cases h0 : toPoly n = 0
    · simp [h0]
    · rw [degree_eq_natDegree h0] at h1 ⊢
      simp only [List.length_cons] at h
      norm_cast at h1 ⊢
      omega

omit [IsStrictOrderedRing K] in
theorem toState_of_realizes {E : TNum K} {G : TransferM K} {p m : ℕ}
    {num den : Matrix (Fin p) (Fin m) (List K)} (hn : G.num = Arr.of num) (hd : G.den = Arr.of den)
    (hdt : DtOk G.dt) {r : Option (Arr K × Arr K × Arr K) × Arr K}
    (hr : t2sData E G.num G.den G.isgain = .ok r) (h : Realizes L r num den) :
    ∃ S, transferToState E G = .ok S ∧ S.dt = G.dt ∧
      (∀ (s : L) (M : Matrix (Fin p) (Fin m) L), HasVal G p m s M → HasTF S p m s M) ∧
      S.isgain = r.1.isNone ∧ ∀ abc, r.1 = some abc → S.a = abc.1 := by
  obtain ⟨r1, r2⟩ := r
  obtain ⟨D, hD, h⟩ := h
  simp only at hD
  subst hD
  have hM : ∀ {s : L} {M : Matrix (Fin p) (Fin m) L}, HasVal G p m s M → (∀ i j, polyAt s (den i j) ≠ 0) ∧
      M = Matrix.of fun i j => polyAt s (num i j) / polyAt s (den i j) := by
    rintro s M ⟨num', den', e1, e2, e3⟩
    rw [hn] at e1; rw [hd] at e2
    have e1 := Arr.of_inj.mp e1
    have e2 := Arr.of_inj.mp e2
    subst e1; subst e2
    exact ⟨fun i j => (e3 i j).1, by ext i j; exact (e3 i j).2⟩
  unfold transferToState
  simp only [hr, bind, Except.bind]
  rcases h with ⟨h1, h2⟩ | ⟨n, A, B, C, h1, h2⟩
  · simp only at h1
    subst h1
    refine ⟨_, mkGain_of hdt _, rfl, fun s M hV => ?_, rfl, fun _ h => by simp at h⟩
    obtain ⟨h3, rfl⟩ := hM hV
    rw [← h2 s h3]
    exact HasTF.of_gain
  · simp only at h1
    subst h1
    refine ⟨_, mkState_of hdt _ _ _ _, rfl, fun s M hV => ?_, rfl, fun abc h => by
      simp only [Option.some.injEq] at h; rw [← h]⟩
    obtain ⟨h3, rfl⟩ := hM hV
    exact HasTF.of_dyn (h2 s h3)

omit [IsStrictOrderedRing K] in
theorem toState_of_gain (E : TNum K) {G : TransferM K} {p m : ℕ}
    {N D : Matrix (Fin p) (Fin m) (List K)} (hn : G.num = Arr.of N) (hd : G.den = Arr.of D)
    (hdt : DtOk G.dt) (hg : G.isgain = true) (hN : ∀ i j, (N i j).length = 1)
    (hD : ∀ i j, (D i j).length = 1) :
    ∃ S, transferToState E G = .ok S ∧ S.dt = G.dt ∧
      (∀ (s : L) (M : Matrix (Fin p) (Fin m) L), HasVal G p m s M → HasTF S p m s M) ∧
      S.isgain = true := by
  obtain ⟨S, h1, h2, h3, h4, -⟩ := toState_of_realizes (L := L) (E := E)
    (r := (none, Arr.of (Matrix.of fun i j => (N i j).getD 0 0 / (D i j).getD 0 0))) hn hd hdt
    (by unfold t2sData; rw [if_pos hg, hn, hd, gainArr_of hN hD]; rfl)
    ⟨_, rfl, Or.inl ⟨rfl, fun s hs => by
      ext i j
      rw [map_apply, of_apply, of_apply, polyAt, polyAt, toPoly_const (hN i j), toPoly_const (hD i j)]
      simp only [map_div₀, aeval_C]⟩⟩
  exact ⟨S, h1, h2, h3, h4⟩

/-- Size of the SISO realization. -/
theorem t2sSiso_size {tol : K} (htol : tol ≤ 0) {num den : List K} (hp : ProperPair num den)
    (hd : 0 < (toPoly den).degree) {r : Option (Arr K × Arr K × Arr K) × Arr K}
    (h : t2sSiso tol num den = .ok r) :
    (∃ abc, r.1 = some abc ∧ abc.1.r = (toPoly den).natDegree) ∨
      (r.1 = none ∧ ∃ c : K, toPoly num = C c * toPoly den) := by
  obtain ⟨a, t, htr, ha⟩ : ∃ a t, trimZeros den = a :: t ∧ a ≠ 0 := by
    rcases trimZeros_cases den with ⟨-, h⟩ | h
    · exact absurd h hp.1
    · exact h
  have hden : toPoly (a :: t) = toPoly den := by rw [← htr, toPoly_trimZeros]
  have hdd := degree_toPoly_cons ha t
  have ht : t ≠ [] := by
    rintro rfl
    rw [← hden, hdd] at hd
    simp at hd
  have hnat : (toPoly den).natDegree = t.length := by
    rw [← hden]; exact natDegree_eq_of_degree_eq_some hdd
  unfold t2sSiso at h
  simp only [companion_eq den htr ha ht, bind, Except.bind, Arr.of_r,
    vstack_last _ (List.length_pos_iff.mpr ht), htr, List.getD_cons_zero] at h
  split_ifs at h with h1
  · simp only [Except.ok.injEq] at h
    subst h
    exact Or.inl ⟨_, rfl, by simp [hnat]⟩
  · cases hq : polydiv ((trimZeros num).map fun x => x / a) ((a :: t).map fun x => x / a) with
    | error e => rw [hq] at h; cases h
    | ok qr =>
      obtain ⟨q, r'⟩ := qr
      rw [hq] at h
      simp only [cleanup_nonpos htol] at h
      split_ifs at h with h2
      · simp only [Except.ok.injEq] at h
        subst h
        refine Or.inr ⟨rfl, ?_⟩
        have hnt : trimZeros ((trimZeros num).map fun x => x / a) = (trimZeros num).map fun x => x / a := by
          rcases trimZeros_cases num with ⟨e, -⟩ | ⟨b, u, e, hb⟩
          · rw [e]; rfl
          · rw [e, List.map_cons, trimZeros_of_cons (div_ne_zero hb ha)]
        have hle : ((trimZeros num).map fun x => x / a).length ≤ ((a :: t).map fun x => x / a).length := by
          by_cases hn0 : toPoly ((trimZeros num).map fun x => x / a) = 0
          · rw [← trimZeros_eq_nil_iff, hnt] at hn0; rw [hn0]; simp
          · obtain ⟨e, -⟩ := length_of_trimmed hnt hn0
            have h1 : (toPoly ((trimZeros num).map fun x => x / a)).degree ≤ (toPoly den).degree := by
              rw [toPoly_map_div, degree_C_mul (inv_ne_zero ha), toPoly_trimZeros]; exact hp.2
            rw [e, ← hden, hdd] at h1
            norm_cast at h1
            simp only [List.length_map, List.length_cons] at h1 ⊢
            omega
        obtain ⟨c, r'', h3, h4, -⟩ := polydiv_proper (den := (a :: t).map fun x => x / a) (by simp [ha]) hnt hle
          (by simp only [List.length_map, List.length_cons] at *; omega)
        rw [hq] at h3
        simp only [Except.ok.injEq, Prod.mk.injEq] at h3
        obtain ⟨-, rfl⟩ := h3
        rw [List.length_eq_zero_iff] at h2
        subst h2
        refine ⟨c, ?_⟩
        rw [toPoly_map_div, toPoly_map_div, toPoly_trimZeros, hden] at h4
        have h5 := congrArg (fun f => C a * f) h4
        simp only [toPoly_nil, add_zero] at h5
        have hC : C a * C a⁻¹ = (1 : K[X]) := by rw [← C_mul, mul_inv_cancel₀ ha, C_1]
        linear_combination h5 + (C c * toPoly den - toPoly num) * hC
      · simp only [Except.ok.injEq] at h
        subst h
        exact Or.inl ⟨_, rfl, by simp [hnat]⟩

/-- **C26.** Every constructed causal SISO `Transfer` is converted to a `State` with the same sampling
period and the same value wherever the denominator does not vanish; it has `deg(den)` states unless the
numerator is a multiple of the denominator, then it is a static gain. `_partial`: the remainder of the
numerator, for a monic denominator, has no nonzero coefficients below `E.remTol`
(`C26_rounding_violated`), and the number of states differs in the case mentioned
(`C26_states_violated`). -/
theorem C26_siso_partial {E : TNum K} {num den : TArg K} {dt : Option K} {G : TransferM K}
    (htol : Coarse E.remTol (C (toPoly (G.den.entry 0 0)).leadingCoeff⁻¹ *
      (toPoly (G.num.entry 0 0) % toPoly (G.den.entry 0 0)))) (hG : mkTransfer E num den dt = .ok G) (hs : G.isSISO = true)
    (hp : ProperPair (G.num.entry 0 0) (G.den.entry 0 0)) (hne : G.num.entry 0 0 ≠ []) :
    ∃ S, transferToState E G = .ok S ∧ S.dt = dt ∧
      (∀ (s : L) (M : Matrix (Fin 1) (Fin 1) L), HasVal G 1 1 s M → HasTF S 1 1 s M) ∧
      ((S.isgain = false ∧ S.a.r = (toPoly (G.den.entry 0 0)).natDegree) ∨
       (S.isgain = true ∧ ∃ c : K, toPoly (G.num.entry 0 0) = C c * toPoly (G.den.entry 0 0))) := by
  obtain ⟨hv, rfl, hdt, -⟩ := mkTransfer_inv hG
  have hs' : G.num.r = 1 ∧ G.num.c = 1 := by simpa [TransferM.isSISO] using hs
  obtain ⟨-, -, hg, hsi⟩ := validate_shape hv
  obtain ⟨a, b, ha, hb, hab⟩ := hsi hs'.1 hs'.2
  have hea : G.num.entry 0 0 = a := by rw [ha]; rfl
  have heb : G.den.entry 0 0 = b := by rw [hb]; rfl
  rw [hea] at hp hne htol ⊢
  rw [heb] at hp htol ⊢
  cases hgain : G.isgain with
  | true =>
    have hmax : maxSize G.den = 1 := by rw [hgain] at hg; simpa using hg.symm
    have hbl : b.length = 1 := by
      have h1 : b.length ≤ 1 := by
        rw [← hmax, hb]
        exact length_le_maxSize (Matrix.of fun (_ _ : Fin 1) => b) 0 0
      have h2 : b ≠ [] := fun e => hp.1 (by simp [e])
      have := List.length_pos_iff.mpr h2
      omega
    have hal : a.length = 1 := by have := List.length_pos_iff.mpr hne; omega
    have hpa := toPoly_const hal
    have hpb := toPoly_const hbl
    have hb0 : b.getD 0 0 ≠ 0 := fun e => hp.1 (by rw [hpb, e, C_0])
    obtain ⟨S, h1, h2, h3, h4⟩ := toState_of_gain (L := L) E ha hb hdt hgain (fun _ _ => hal) (fun _ _ => hbl)
    refine ⟨S, h1, h2, h3, Or.inr ⟨h4, a.getD 0 0 / b.getD 0 0, ?_⟩⟩
    rw [hpa, hpb, ← C_mul, div_mul_cancel₀ _ hb0]
  | false =>
    have hd := mkTransfer_siso hG hgain hs
    rw [heb] at hd
    obtain ⟨r, h1, h2⟩ := t2sSiso_ok (L := L) (le_refl (0 : K)) a b hp hd
    have h1' : t2sSiso E.remTol a b = .ok r := (t2sSiso_exact a b hp hd htol).trans h1
    obtain ⟨S, h3, h4, h5, h6, h7⟩ := toState_of_realizes (L := L) (E := E) (r := r) ha hb hdt
      (by unfold t2sData; rw [if_neg (by simp [hgain]), if_pos hs', hea, heb]; exact h1') h2
    refine ⟨S, h3, h4, h5, ?_⟩
    rcases t2sSiso_size (le_refl (0 : K)) hp hd h1 with ⟨abc, e1, e2⟩ | ⟨e1, e2⟩
    · left
      rw [h6, e1, h7 abc e1]
      exact ⟨rfl, e2⟩
    · right
      rw [h6, e1]
      exact ⟨rfl, e2⟩

/-- **C27.** Every constructed MIMO `Transfer` whose entries are proper and whose denominators do not
start with a zero is converted to a `State` with the same sampling period and the same transfer matrix
wherever no denominator vanishes. `_partial`: the remainders of the entries have no nonzero coefficients
below `E.remTol`, the common denominators none below `E.lcmTol` (`NoRounding`). -/
theorem C27_mimo_partial {E : TNum K} (hbal : ∀ polys i, E.bal polys i ≠ 0)
    {num den : TArg K} {dt : Option K} {G : TransferM K} {p m : ℕ}
    {N D : Matrix (Fin p) (Fin m) (List K)} (htol : NoRounding E.lcmTol E.remTol N D) (hG : mkTransfer E num den dt = .ok G)
    (hs : ¬ (p = 1 ∧ m = 1)) (hN : G.num = Arr.of N) (hD : G.den = Arr.of D)
    (h0 : ∀ i j, (D i j).getD 0 0 ≠ 0) (hne : ∀ i j, N i j ≠ [])
    (hp : ∀ i j, ProperPair (N i j) (D i j)) (hgn : G.isgain = true → ∀ i j, (N i j).length = 1) :
    ∃ S, transferToState E G = .ok S ∧ S.dt = dt ∧
      ∀ (s : L) (M : Matrix (Fin p) (Fin m) L), HasVal G p m s M → HasTF S p m s M := by
  obtain ⟨hv, rfl, hdt, -⟩ := mkTransfer_inv hG
  obtain ⟨-, hpos, hg, -⟩ := validate_shape hv
  rw [hN] at hpos
  simp only [Arr.of_r, Arr.of_c] at hpos
  have hde : ∀ i j, G.den.entry (i : Fin p) (j : Fin m) = D i j := fun i j => by rw [hD]; exact entry_of D i j
  cases hgain : G.isgain with
  | true =>
    have hmax : maxSize G.den = 1 := by rw [hgain] at hg; simpa using hg.symm
    rw [hD] at hmax
    have hDl := maxSize_one h0 hmax
    obtain ⟨S, h1, h2, h3, -⟩ := toState_of_gain (L := L) E hN hD hdt hgain (hgn hgain) hDl
    exact ⟨S, h1, h2, h3⟩
  | false =>
    have hsiso : G.isSISO = false := by
      simp only [TransferM.isSISO, hN, Arr.of_r, Arr.of_c]
      exact decide_eq_false hs
    obtain ⟨r, hr⟩ := mkTransfer_mimo hG hgain hsiso
    have hr' := hr
    unfold t2sData at hr'
    rw [if_neg (by simp [hgain]), if_neg (by rw [hN]; exact hs)] at hr'
    have hm : t2sMimo E N D = .ok r := by
      rw [← hr', hN]
      congr 1
      funext i j
      exact (hde i j).symm
    rw [t2sMimo_exact E hbal hpos.1 hpos.2 N D h0 (fun i j => (hp i j).2) (htol.2 hs)] at hm
    rcases t2sMimo_ok (L := L) E.exact hbal (le_refl (0 : K)) (le_refl (0 : K)) hpos.1 hpos.2 N D h0 hne
      (fun i j => (hp i j).2) with
      ⟨h1, -⟩ | ⟨r', h1, h2⟩
    · rw [hm] at h1; cases h1
    · rw [hm] at h1
      simp only [Except.ok.injEq] at h1
      subst h1
      obtain ⟨S, h1, h2, h3, -⟩ := toState_of_realizes (L := L) (E := E) hN hD hdt hr h2
      exact ⟨S, h1, h2, h3⟩

/-! ### Non-vacuity and counterexamples -/

/-- `(s + 2) / (2 s² + 6 s + 4)` satisfies the hypotheses of `C26_siso_partial`. -/
example (E : TNum ℚ) (htol : E.remTol = 1 / 10 ^ 14) :
    ∃ G, mkTransfer E (.vec [1, 2]) (.vec [2, 6, 4]) (some (1/2)) = .ok G ∧
    G.isSISO = true ∧ ProperPair (G.num.entry 0 0) (G.den.entry 0 0) ∧ G.num.entry 0 0 ≠ [] ∧
    Coarse E.remTol (C (toPoly (G.den.entry 0 0)).leadingCoeff⁻¹ *
      (toPoly (G.num.entry 0 0) % toPoly (G.den.entry 0 0))) := by
  refine ⟨_, mkTransfer_siso_ok E (a := [1, 2]) (b := [2, 6, 4]) (dt := some (1/2)) (by rintro t h; simp at h; subst h; norm_num)
    (by simp) (by simp) (Or.inr ⟨1, [2], rfl, one_ne_zero⟩) (by simp), rfl, ⟨?_, ?_⟩, ?_, ?_⟩
  · show toPoly [2, 6, 4] ≠ 0
    intro h
    have := degree_toPoly_cons (a := (2 : ℚ)) (by norm_num) [6, 4]
    rw [h] at this
    simp at this
  · show (toPoly [1, 2]).degree ≤ (toPoly [2, 6, 4]).degree
    rw [degree_toPoly_cons one_ne_zero, degree_toPoly_cons (by norm_num : (2 : ℚ) ≠ 0)]
    norm_cast
  · show [1, 2] ≠ []
    simp
  · show Coarse E.remTol (C (toPoly [2, 6, 4]).leadingCoeff⁻¹ * (toPoly [1, 2] % toPoly [2, 6, 4]))
    have h1 : (toPoly [(2 : ℚ), 6, 4]).leadingCoeff = 2 := by
      rw [leadingCoeff, natDegree_eq_of_degree_eq_some (degree_toPoly_cons (by norm_num : (2 : ℚ) ≠ 0) [6, 4])]
      simp [toPoly, coeff_X, coeff_C]
    have h2 : toPoly [1, 2] % toPoly [(2 : ℚ), 6, 4] = toPoly [1, 2] := by
      refine (mod_eq_self_iff ?_).mpr ?_
      · intro h; rw [h] at h1; simp at h1
      · rw [degree_toPoly_cons one_ne_zero, degree_toPoly_cons (by norm_num : (2 : ℚ) ≠ 0)]
        norm_cast
    rw [h1, h2, htol]
    intro k
    rcases k with _ | _ | k
    · right; simp [toPoly, coeff_X]; norm_num
    · right; simp [toPoly, coeff_X]; norm_num
    · left; simp [toPoly, coeff_X]

omit [IsStrictOrderedRing K] in
theorem polydiv_pair {x y d : K} : polydiv [x, y] [1, d] = .ok (trimZeros [x], trimZeros [0, y - d * x]) := by
  simp [polydiv, deconvolve, lfilterImp, convolve, bind, Except.bind, List.ofFn_succ, Finset.sum_range_succ]

/-- `(x s + y) / (s + d)` with `x ≠ 0`. -/
theorem t2sSiso_pair (tol : K) {x y d : K} (hx : x ≠ 0) :
    t2sSiso tol [x, y] [1, d] = .ok
      (if y - d * x = 0 then (none, rowArr [x]) else
        (some (Arr.of (compM (monicCoeffs 1 [d])),
          Arr.of (Matrix.of fun (i : Fin 1) (_ : Fin 1) => if i.val + 1 = 1 then (1 : K) else 0),
          rowOf 1 [if |y - d * x| < tol then 0 else y - d * x]), rowArr [x])) := by
  unfold t2sSiso
  simp only [companion_eq [1, d] (trimZeros_of_cons one_ne_zero [d]) one_ne_zero (by simp), bind, Except.bind,
    Arr.of_r, vstack_last 1 one_pos, trimZeros_of_cons (one_ne_zero : (1 : K) ≠ 0) [d], trimZeros_of_cons hx [y],
    List.getD_cons_zero, div_one, List.map_id', List.length_cons, List.length_nil, polydiv_pair,
    trimZeros_of_cons hx []]
  by_cases h : y - d * x = 0
  · simp [h, trimZeros, cleanup]
  · have e : trimZeros [0, y - d * x] = [y - d * x] := by simp [trimZeros, h]
    simp [e, cleanup, h]

theorem transferToState_pair (E : TNum K) {x y d : K} (hx : x ≠ 0) {dt : Option K} (hdt : DtOk dt) :
    transferToState E ⟨constArr 1 1 [x, y], constArr 1 1 [1, d], false, dt⟩ = .ok
      (if y - d * x = 0 then ⟨Arr.empty, Arr.empty, Arr.empty, rowArr [x], dt, true⟩ else
        ⟨Arr.of (compM (monicCoeffs 1 [d])),
          Arr.of (Matrix.of fun (i : Fin 1) (_ : Fin 1) => if i.val + 1 = 1 then (1 : K) else 0),
          rowOf 1 [if |y - d * x| < E.remTol then 0 else y - d * x], rowArr [x], dt, false⟩) := by
  have h1 : t2sData E (constArr 1 1 [x, y]) (constArr 1 1 [1, d]) false = t2sSiso E.remTol [x, y] [1, d] := by
    unfold t2sData
    rw [if_neg (by simp), if_pos (by simp [constArr])]
    rfl
  unfold transferToState
  simp only [h1, t2sSiso_pair E.remTol hx, bind, Except.bind]
  by_cases h : y - d * x = 0
  · simp only [if_pos h]
    exact mkGain_of hdt _
  · simp only [if_neg h]
    exact mkState_of hdt _ _ _ _

/-- The number of states is not always `deg(den)`: `(2s + 2) / (s + 1)` becomes a static gain. -/
theorem C26_states_violated (E : TNum K) :
    ∃ G S, mkTransfer E (.vec [2, 2]) (.vec [1, 1]) none = .ok G ∧ transferToState E G = .ok S ∧
      (toPoly (G.den.entry 0 0)).natDegree = 1 ∧ S.isgain = true ∧ S.a.r = 0 := by
  have h2 : (2 : K) ≠ 0 := two_ne_zero
  refine ⟨_, _, mkTransfer_siso_ok E (a := [2, 2]) (b := [1, 1]) (dt := none) dtOk_none (by simp) (by simp)
    (Or.inr ⟨2, [2], rfl, h2⟩) (by simp), transferToState_pair E h2 dtOk_none, ?_, ?_, ?_⟩
  · show (toPoly [1, 1]).natDegree = 1
    exact natDegree_eq_of_degree_eq_some (degree_toPoly_cons one_ne_zero [1])
  · simp
  · simp [Arr.empty]

/-- With the positive threshold of the code the value is not always preserved: the remainder of
`(s + 1 + ε) / (s + 1)` is dropped if `ε` is below the threshold. -/
theorem C26_rounding_violated (E : TNum K) (h : 0 < E.remTol) :
    ∃ (G : TransferM K) (S : StateM K) (M : Matrix (Fin 1) (Fin 1) K),
      mkTransfer E (.vec [1, 1 + E.remTol / 2]) (.vec [1, 1]) none = .ok G ∧ transferToState E G = .ok S ∧
      HasVal G 1 1 (0 : K) M ∧ ¬ HasTF S 1 1 (0 : K) M := by
  refine ⟨_, _, Matrix.of fun _ _ => 1 + E.remTol / 2,
    mkTransfer_siso_ok E (a := [1, 1 + E.remTol / 2]) (b := [1, 1]) (dt := none) dtOk_none (by simp) (by simp)
    (Or.inr ⟨1, _, rfl, one_ne_zero⟩) (by simp), transferToState_pair E one_ne_zero dtOk_none, ?_, ?_⟩
  · exact hasVal_of (N := Matrix.of fun _ _ => _) (D := Matrix.of fun _ _ => _) rfl rfl fun i j => by
      simp [polyAt, toPoly]
  · have h1 : ¬ (1 + E.remTol / 2 - 1 * 1 = 0) := by
      have : 0 < E.remTol / 2 := by positivity
      intro e; linarith
    have h3 : |1 + E.remTol / 2 - 1 * 1| < E.remTol := by
      rw [abs_of_pos (by linarith)]; linarith
    rw [if_neg h1, if_pos h3]
    rintro (⟨h4, -⟩ | ⟨-, n, A, B, C, D, hA, hB, hC, hD, -, hM⟩)
    · cases h4
    · have hn : 1 = n := congrArg Arr.r hA
      subst hn
      have hC0 : C = 0 := by
        have e : rowOf 1 [(0 : K)] = Arr.of (0 : Matrix (Fin 1) (Fin 1) K) := by
          unfold rowOf
          congr 1
          ext i j
          have : j = 0 := Subsingleton.elim _ _
          subst this
          simp
        have hC : rowOf 1 [(0 : K)] = Arr.of C := hC
        rw [e] at hC
        exact (Arr.of_inj.mp hC).symm
      have hD1 : D = Matrix.of fun _ _ => 1 := by
        have hD : rowArr [(1 : K)] = Arr.of D := hD
        rw [rowArr_singleton] at hD
        exact (Arr.of_inj.mp hD).symm
      have := congrFun (congrFun hM 0) 0
      rw [hC0, hD1] at this
      simp at this
      linarith

/-- The code violates **C27**: the MIMO conversion drops small remainders as well. All entries of the `2 × 2` model are `(s + 1 + ε) / (s + 1)`, and the result is the
static gain of ones. -/
theorem C27_rounding_violated (E : TNum K) (hbal : ∀ polys i, E.bal polys i ≠ 0) (hthr : E.lcmTol ≤ 1) (h : 0 < E.remTol) :
    ∃ (G : TransferM K) (S : StateM K) (M : Matrix (Fin 2) (Fin 2) K),
      mkTransfer E (.lists (Arr.of (Matrix.of fun (_ _ : Fin 2) => [1, 1 + E.remTol / 2]))) (.lists (Arr.of (Matrix.of fun (_ _ : Fin 2) => [1, 1]))) none = .ok G ∧
      transferToState E G = .ok S ∧ HasVal G 2 2 (0 : K) M ∧ ¬ HasTF S 2 2 (0 : K) M := by
  have hG := mkTransfer_mimo_ok E hbal hthr (p := 2) (m := 2) two_pos two_pos (by decide)
    (N := Matrix.of fun _ _ => [1, 1 + E.remTol / 2]) (D := Matrix.of fun _ _ => [1, 1]) dtOk_none (fun _ _ => by simp)
    (fun _ _ => Or.inr ⟨1, _, rfl, one_ne_zero⟩) (fun _ _ => by simp)
  have h0 : 0 < E.remTol / 2 := by positivity
  have hmax : decide (maxSize (Arr.of (Matrix.of fun (_ _ : Fin 2) => [(1 : K), 1])) = 1) = false := by
    refine decide_eq_false ?_
    have := length_le_maxSize (Matrix.of fun (_ _ : Fin 2) => [(1 : K), 1]) 0 0
    intro e
    rw [e] at this
    simp at this
  have hsplit : t2sEntry E.remTol [1, 1 + E.remTol / 2] [1, 1] = .ok (1, [0], [1]) := by
    have e : trimZeros [0, 1 + E.remTol / 2 - 1 * 1] = [1 + E.remTol / 2 - 1 * 1] := by
      have : ¬ (1 + E.remTol / 2 - 1 * 1 = 0) := by intro e; linarith
      simp only [trimZeros, List.dropWhile, decide_true, this, decide_false]
    have e2 : |1 + E.remTol / 2 - 1 * 1| < E.remTol := by
      rw [abs_of_pos (by linarith)]; linarith
    unfold t2sEntry t2sSplit
    simp only [trimZeros_of_cons (one_ne_zero : (1 : K) ≠ 0), List.length_cons, List.length_nil, polydiv_pair, e, bind, Except.bind, cleanup,
      List.map_cons, List.map_nil, e2, if_true]
    simp
  refine ⟨_, ⟨Arr.empty, Arr.empty, Arr.empty, Arr.of (Matrix.of fun (_ _ : Fin 2) => 1), none, true⟩, Matrix.of fun _ _ => 1 + E.remTol / 2, hG, ?_, ?_, ?_⟩
  · unfold transferToState t2sData
    simp only [hmax]
    rw [if_neg (by simp), if_neg (by simp)]
    have hm : matM (fun (x y : Fin 2) => t2sEntry E.remTol ((Matrix.of fun (_ _ : Fin 2) => [(1 : K), 1 + E.remTol / 2]) x y)
        ((Arr.of (Matrix.of fun (_ _ : Fin 2) => [(1 : K), 1])).entry x y)) = .ok fun _ _ => (1, [0], [1]) := matM_ok.mpr fun i j => by
      rw [entry_of (Matrix.of fun (_ _ : Fin 2) => [(1 : K), 1]) i j]
      exact hsplit
    unfold t2sMimo
    erw [hm]
    simp only [bind, Except.bind, implies_true, if_true]
    exact mkGain_of dtOk_none _
  · exact hasVal_of (N := Matrix.of fun _ _ => _) (D := Matrix.of fun _ _ => _) rfl rfl fun i j => by
      simp [polyAt, toPoly]
  · rintro (⟨-, D, hD, hM⟩ | ⟨hh, -⟩)
    · obtain rfl := Arr.of_inj.mp hD
      have := congrFun (congrFun hM 0) 0
      simp at this
      exact absurd this h.ne'
    · cases hh

/-- A `2 × 2` model with different denominators, a biproper and a zero entry satisfies the hypotheses of
`C27_mimo_partial`. -/
example (E : TNum ℚ) (hbal : ∀ polys i, E.bal polys i ≠ 0) (hthr : E.lcmTol = 1 / 10 ^ 9)
    (htol : E.remTol = 1 / 10 ^ 14) :
    ∃ (G : TransferM ℚ) (N D : Matrix (Fin 2) (Fin 2) (List ℚ)),
      mkTransfer E (.lists (Arr.of N)) (.lists (Arr.of D)) none = .ok G ∧ G.isgain = false ∧
      G.num = Arr.of N ∧ G.den = Arr.of D ∧ (∀ i j, (D i j).getD 0 0 ≠ 0) ∧ (∀ i j, N i j ≠ []) ∧
      (∀ i j, ProperPair (N i j) (D i j)) ∧ NoRounding E.lcmTol E.remTol N D := by
  have hD : ∀ i j, ((!![[1, 1], [1, 2]; [1, 3, 4], [1]] : Matrix (Fin 2) (Fin 2) (List ℚ)) i j).getD 0 0 ≠ 0 := by
    intro i j; fin_cases i <;> fin_cases j <;> simp
  have hN : ∀ i j, Trimmed ((!![[3], [2, 2]; [1, 5], [0]] : Matrix (Fin 2) (Fin 2) (List ℚ)) i j) := by
    intro i j
    fin_cases i <;> fin_cases j
    · exact Or.inr ⟨3, [], rfl, by norm_num⟩
    · exact Or.inr ⟨2, [2], rfl, by norm_num⟩
    · exact Or.inr ⟨1, [5], rfl, by norm_num⟩
    · exact Or.inl rfl
  refine ⟨_, _, _, mkTransfer_mimo_ok E hbal (by rw [hthr]; norm_num) two_pos two_pos (by decide)
    (N := !![[3], [2, 2]; [1, 5], [0]]) (D := !![[1, 1], [1, 2]; [1, 3, 4], [1]]) dtOk_none hD hN
    (by intro i j; fin_cases i <;> fin_cases j <;> simp), ?_, rfl, rfl, hD, ?_, ?_, ?_⟩
  · refine decide_eq_false (p := maxSize (Arr.of !![[(1 : ℚ), 1], [1, 2]; [1, 3, 4], [1]]) = 1) ?_
    have := length_le_maxSize (!![[1, 1], [1, 2]; [1, 3, 4], [1]] : Matrix (Fin 2) (Fin 2) (List ℚ)) 0 0
    intro e
    rw [e] at this
    simp at this
  · intro i j; fin_cases i <;> fin_cases j <;> simp
  · intro i j
    fin_cases i <;> fin_cases j
    · exact properPair_of_length (by simp) (by simp)
    · exact properPair_of_length (by simp) (by simp)
    · exact properPair_of_length (by simp) (by simp)
    · exact properPair_of_length (by simp) (by simp)
  · exact noRounding_int' (by rw [hthr]; norm_num) (by rw [htol]; norm_num)
      (!![[3], [2, 2]; [1, 5], [0]] : Matrix (Fin 2) (Fin 2) (List ℤ)) !![[1, 1], [1, 2]; [1, 3, 4], [1]]
      (by intro i j; fin_cases i <;> fin_cases j <;> simp) (by intro i j; fin_cases i <;> fin_cases j <;> simp)
      (by intro i j; fin_cases i <;> fin_cases j <;> exact ⟨_, rfl⟩)

end Harold
