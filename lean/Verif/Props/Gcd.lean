import Verif.Lemmas.GcdTail
import Verif.Lemmas.LuExists
import Mathlib.Tactic.NormNum
import Mathlib.Tactic.FinCases
import Mathlib.Data.Fintype.Basic
import Mathlib.Data.Rat.Defs
import Mathlib.Algebra.Order.Ring.Rat

/-!
# C07: `haroldgcd` returns the monic greatest common divisor
-/

namespace Harold

open Polynomial Spec

variable {K : Type} [Field K] [LinearOrder K]

section sizes

theorem le_gcdMaxSize {arr : List (List K)} {x : List K} (h : x ∈ arr) : x.length ≤ gcdMaxSize arr := by
  unfold gcdMaxSize
  induction arr with
  | nil => simp at h
  | cons y l ih =>
    rw [List.map_cons, List.foldr_cons]
    rcases List.mem_cons.1 h with rfl | h
    · exact le_max_left _ _
    · exact (ih h).trans (le_max_right _ _)

theorem gcd_foldr_max_mem : ∀ {l : List ℕ}, l ≠ [] → l.foldr max 0 ∈ l
  | [a], _ => by simp
  | a :: b :: t, _ => by
    have ih := gcd_foldr_max_mem (l := b :: t) (by simp)
    rw [List.foldr_cons]
    rcases max_choice a ((b :: t).foldr max 0) with h | h <;> rw [h]
    · simp
    · exact List.mem_cons_of_mem _ ih

theorem gcdMaxSize_mem {arr : List (List K)} (h : arr ≠ []) : ∃ x ∈ arr, x.length = gcdMaxSize arr := by
  have := gcd_foldr_max_mem (l := arr.map List.length) (by simpa using h)
  exact List.mem_map.1 this

theorem secondSize_mem {arr : List (List K)} (h : arr ≠ []) :
    ∃ x ∈ arr, x.length = secondSize arr := by
  unfold secondSize
  split_ifs with h0
  · exact gcdMaxSize_mem h
  · have := gcd_foldr_max_mem h0
    rw [List.mem_filter] at this
    exact List.mem_map.1 this.1

theorem secondSize_le {arr : List (List K)} (h : arr ≠ []) : secondSize arr ≤ gcdMaxSize arr := by
  obtain ⟨x, hx, hl⟩ := secondSize_mem h
  rw [← hl]; exact le_gcdMaxSize hx

/-- A size below the maximum is at most the second largest one. -/
theorem le_secondSize {arr : List (List K)} {x : List K} (hx : x ∈ arr)
    (hlt : x.length < gcdMaxSize arr) :
    x.length ≤ secondSize arr ∧ secondSize arr < gcdMaxSize arr := by
  have hmem : x.length ∈ (arr.map List.length).filter (fun s => decide (s < gcdMaxSize arr)) := by
    rw [List.mem_filter]
    exact ⟨List.mem_map.2 ⟨x, hx, rfl⟩, by simpa using hlt⟩
  have hne := List.ne_nil_of_mem hmem
  unfold secondSize
  rw [if_neg hne]
  refine ⟨?_, ?_⟩
  · generalize (arr.map List.length).filter (fun s => decide (s < gcdMaxSize arr)) = l at hmem
    clear hne
    induction l with
    | nil => simp at hmem
    | cons a l ih =>
      rw [List.foldr_cons]
      rcases List.mem_cons.1 hmem with h | h
      · rw [h]; exact le_max_left _ _
      · exact (ih h).trans (le_max_right _ _)
  · have := gcd_foldr_max_mem hne
    rw [List.mem_filter] at this
    simpa using this.2

theorem secondSize_all {arr : List (List K)} (h : ∀ x ∈ arr, x.length = gcdMaxSize arr) :
    secondSize arr = gcdMaxSize arr := by
  unfold secondSize
  rw [if_pos]
  rw [List.filter_eq_nil_iff]
  intro s hs
  obtain ⟨x, hx, rfl⟩ := List.mem_map.1 hs
  rw [h x hx]; simp

theorem maxIndex_lt {arr : List (List K)} (h : arr ≠ []) : maxIndex arr < arr.length := by
  obtain ⟨x, hx, hl⟩ := gcdMaxSize_mem h
  exact List.findIdx_lt_length_of_exists ⟨x, hx, by simpa using hl⟩

theorem length_maxIndex {arr : List (List K)} (h : arr ≠ []) :
    (arr.getD (maxIndex arr) []).length = gcdMaxSize arr := by
  rw [List.getD_eq_getElem _ _ (maxIndex_lt h)]
  have := List.findIdx_getElem (w := maxIndex_lt h)
  simp only [decide_eq_true_eq] at this
  exact this

theorem maxIndex_mem {arr : List (List K)} (h : arr ≠ []) : arr.getD (maxIndex arr) [] ∈ arr := by
  rw [List.getD_eq_getElem _ _ (maxIndex_lt h)]; exact List.getElem_mem _

theorem maxIndex_perm {arr : List (List K)} (h : arr ≠ []) :
    (arr.getD (maxIndex arr) [] :: arr.eraseIdx (maxIndex arr)).Perm arr := by
  rw [List.getD_eq_getElem _ _ (maxIndex_lt h)]
  exact List.getElem_cons_eraseIdx_perm (maxIndex_lt h)

end sizes

/-- No nonzero entry is below the threshold `1e-8` of line 256. -/
def TinyFree {M N : ℕ} (U : Matrix (Fin M) (Fin N) K) : Prop :=
  ∀ i j, |U i j| < 1 / 10 ^ 8 → U i j = 0

/-- The triangular factor of the Sylvester array of these polynomials has no nonzero entries below
the threshold. -/
def TinyFreeArr (E : GcdNum K) (arr : List (List K)) : Prop :=
  TinyFree (E.lu (rowsMat (sylRows arr (gcdMaxSize arr - 1) (secondSize arr - 1))
    (gcdMaxSize arr - 1 + (secondSize arr - 1))))

/-- The triangular factor of the Sylvester array of the arguments has no nonzero entries below the
threshold. -/
def NoTiny (E : GcdNum K) (args : List (List K)) : Prop := TinyFreeArr E (gcdArgs args)

/-- The core of the computation, when the second largest degree is positive. -/
theorem gcdCore_spec {E : GcdNum K} (hE : GcdNumOk E) {arr : List (List K)} {n p : ℕ}
    (hnl : ∀ x ∈ arr, NoLead x) (h2 : 2 ≤ arr.length) (hn : gcdMaxSize arr = n + 1)
    (hpp : secondSize arr = p + 1) (hp1 : 1 ≤ p)
    (hsmall : ∀ i j, |E.lu (rowsMat (sylRows arr n p) (n + p)) i j| < 1 / 10 ^ 8 →
      E.lu (rowsMat (sylRows arr n p) (n + p)) i j = 0) :
    ∃ out, gcdCore E arr = .ok out ∧ Trimmed out ∧ IsMonicGcd (arr.map toPoly) (toPoly out) := by
  have hne : arr ≠ [] := by rintro rfl; simp at h2
  have hle := secondSize_le hne
  rw [gcdCore, if_neg (by omega), if_neg (by omega), if_neg (by omega), hn, hpp]
  simp only [Nat.add_sub_cancel]
  have hpn : p ≤ n := by omega
  set m := arr.getD (maxIndex arr) [] with hm
  set rest := arr.eraseIdx (maxIndex arr) with hrest
  have hperm : (m :: rest).Perm arr := maxIndex_perm hne
  have hml : m.length = n + 1 := by rw [← hn]; exact length_maxIndex hne
  have hmem : ∀ {x}, x ∈ m :: rest ↔ x ∈ arr := fun {x} => hperm.mem_iff
  have hlen : ∀ x ∈ arr, x.length ≤ n + 1 := fun x hx => by rw [← hn]; exact le_gcdMaxSize hx
  have hrows : sylRows arr n p = sylBlock m (p - 1) p ++
      rest.flatMap fun x => sylBlock x (n + p - x.length) (n + p - x.length + 1) := rfl
  -- the row space
  have hspan : rowSpan (sylRows arr n p) = sumSpace (n + p) ((m :: rest).map toPoly) := by
    rw [hrows, rowSpan_append, rowSpan_flatMap (n + p) rest (fun x hx => by
      have hx' := hmem.1 (List.mem_cons_of_mem _ hx)
      exact ⟨hnl x hx', by have := hlen x hx'; omega⟩)]
    have h1 := rowSpan_sylBlock (hnl m (hmem.1 (by simp))) (p - 1)
    rw [show p - 1 + 1 = p by omega, show m.length + (p - 1) = n + p by omega] at h1
    rw [h1]; rfl
  have hlenRows : ∀ r ∈ sylRows arr n p, r.length = n + p := by
    intro r hr
    rw [hrows, List.mem_append, List.mem_flatMap] at hr
    rcases hr with hr | ⟨x, hx, hr⟩
    · rw [length_of_mem_sylBlock hr]; omega
    · rw [length_of_mem_sylBlock hr]
      have := hlen x (hmem.1 (List.mem_cons_of_mem _ hx)); omega
  -- there are enough rows
  have hsmallx : ∃ x ∈ rest, x.length ≤ p + 1 := by
    rcases Nat.lt_or_ge p n with hlt | hge
    · obtain ⟨x, hx, hxl⟩ := secondSize_mem hne
      rw [hpp] at hxl
      rcases List.mem_cons.1 (hmem.2 hx) with rfl | h
      · omega
      · exact ⟨x, h, hxl.le⟩
    · have : rest.length = arr.length - 1 := by
        have := hperm.length_eq; simp at this; omega
      have hr : rest ≠ [] := by intro h; rw [h] at this; simp at this; omega
      obtain ⟨x, hx⟩ := List.exists_mem_of_ne_nil _ hr
      exact ⟨x, hx, by have := hlen x (hmem.1 (List.mem_cons_of_mem _ hx)); omega⟩
  have hM : n + p ≤ (sylRows arr n p).length := by
    obtain ⟨x, hx, hxl⟩ := hsmallx
    rw [hrows, List.length_append, length_sylBlock, List.length_flatMap]
    have : n + p - x.length + 1 ≤ (rest.map fun x =>
        (sylBlock x (n + p - x.length) (n + p - x.length + 1)).length).sum := by
      apply List.single_le_sum (by simp)
      exact List.mem_map.2 ⟨x, hx, length_sylBlock _ _ _⟩
    omega
  -- the greatest common divisor
  obtain ⟨f, hf, hfl⟩ := secondSize_mem hne
  rw [hpp] at hfl
  have hf0 : toPoly f ≠ 0 := by
    rcases hnl f hf with rfl | ⟨a, t, rfl, ha⟩
    · simp at hfl
    · exact toPoly_ne_zero_of_cons ha t
  obtain ⟨G, hG0, hGd, hGs, hGq⟩ := sup_sumSpace (N := n + p) rfl ((m :: rest).map toPoly)
    (toPoly f) hf0 (by rw [natDegree_noLead (hnl f hf)]; omega) (by
      intro g hg
      obtain ⟨x, hx, rfl⟩ := List.mem_map.1 hg
      rw [natDegree_noLead (hnl x (hmem.1 hx))]
      have := hlen x (hmem.1 hx); omega)
  rw [sup_eq_right.2 (multSpace_le_sumSpace (List.mem_map.2 ⟨f, hmem.2 hf, rfl⟩)), ← hspan] at hGs
  obtain ⟨out, hout, hmon, htr, hq⟩ := gcdTail_spec hE hlenRows hM hG0 (by omega) hGs hsmall
  refine ⟨out, hout, htr, hmon, fun q => ?_⟩
  rw [hq, hGq]
  constructor
  · rintro ⟨-, h⟩ g hg
    obtain ⟨x, hx, rfl⟩ := List.mem_map.1 hg
    exact h _ (List.mem_map.2 ⟨x, hmem.2 hx, rfl⟩)
  · intro h
    refine ⟨h _ (List.mem_map.2 ⟨f, hf, rfl⟩), fun g hg => ?_⟩
    obtain ⟨x, hx, rfl⟩ := List.mem_map.1 hg
    exact h _ (List.mem_map.2 ⟨x, hmem.1 hx, rfl⟩)

/-- Nonzero arguments survive the preparation unchanged up to leading zeros. -/
theorem gcdArgs_of_ne {args : List (List K)} (h : ∀ a ∈ args, toPoly a ≠ 0) :
    gcdArgs args = args.map trimZeros := by
  unfold gcdArgs
  rw [List.filter_eq_self.2]
  intro a ha
  have : a ≠ [] := by rintro rfl; exact h _ ha toPoly_nil
  simpa [List.length_pos_iff] using this

theorem length_trimZeros {a : List K} (h : toPoly a ≠ 0) :
    (trimZeros a).length = (toPoly a).natDegree + 1 := by
  have h1 := natDegree_noLead (noLead_trimZeros a)
  rw [toPoly_trimZeros] at h1
  have : trimZeros a ≠ [] := fun h0 => h ((trimZeros_eq_nil_iff a).1 h0)
  have := List.length_pos_iff.2 this
  omega

theorem map_toPoly_trimZeros (args : List (List K)) :
    (args.map trimZeros).map toPoly = args.map toPoly := by
  rw [List.map_map]
  exact List.map_congr_left fun a _ => toPoly_trimZeros a

theorem haroldgcd_two {E : GcdNum K} {args : List (List K)} (h : ∀ a ∈ args, toPoly a ≠ 0)
    (h2 : 2 ≤ args.length) : haroldgcd E args = gcdCore E (args.map trimZeros) := by
  rw [haroldgcd, gcdArgs_of_ne h]
  match args, h2 with
  | a :: b :: t, _ => rfl

/-- **C07.** For two or more nonzero polynomials, `haroldgcd` returns the monic greatest common
divisor (without leading zeros) when the arguments are all constants, or none of them is constant, or
there are two nonconstant ones of different degrees. Missing: a constant next to nonconstant
polynomials of one degree (`C07_constant_violated`), and triangular factors with nonzero entries
below the threshold (`C07_small_violated`). -/
theorem C07_gcd_partial {E : GcdNum K} (hE : GcdNumOk E) (args : List (List K))
    (h0 : ∀ a ∈ args, toPoly a ≠ 0) (h2 : 2 ≤ args.length)
    (hgood : (∀ a ∈ args, (toPoly a).natDegree = 0) ∨ (∀ a ∈ args, (toPoly a).natDegree ≠ 0) ∨
      ∃ a ∈ args, ∃ b ∈ args, (toPoly a).natDegree ≠ 0 ∧ (toPoly b).natDegree ≠ 0 ∧
        (toPoly a).natDegree ≠ (toPoly b).natDegree)
    (hsmall : NoTiny E args) :
    ∃ out, haroldgcd E args = .ok out ∧ Trimmed out ∧
      IsMonicGcd (args.map toPoly) (toPoly out) := by
  rw [haroldgcd_two h0 h2]
  have hne : args.map trimZeros ≠ [] := by
    intro h; rw [List.map_eq_nil_iff] at h; rw [h] at h2; simp at h2
  have hmx := @le_gcdMaxSize K _ _ (args.map trimZeros)
  obtain ⟨w, hw, hwl⟩ := gcdMaxSize_mem hne
  obtain ⟨s, hs, hsl⟩ := secondSize_mem hne
  obtain ⟨w, hw', rfl⟩ := List.mem_map.1 hw
  obtain ⟨s, hs', rfl⟩ := List.mem_map.1 hs
  rw [length_trimZeros (h0 _ hw')] at hwl
  rw [length_trimZeros (h0 _ hs')] at hsl
  have hcore : 1 < secondSize (args.map trimZeros) → ∃ out,
      gcdCore E (args.map trimZeros) = .ok out ∧ Trimmed out ∧
        IsMonicGcd (args.map toPoly) (toPoly out) := by
    intro hp
    have hsm := hsmall
    unfold NoTiny at hsm
    rw [gcdArgs_of_ne h0] at hsm
    have hle := secondSize_le hne
    obtain ⟨out, h1, h3, h4⟩ := gcdCore_spec hE (arr := args.map trimZeros)
      (n := gcdMaxSize (args.map trimZeros) - 1) (p := secondSize (args.map trimZeros) - 1) (by
      intro x hx
      obtain ⟨a, -, rfl⟩ := List.mem_map.1 hx
      exact noLead_trimZeros a) (by simpa using h2) (by omega) (by omega) (by omega) hsm
    rw [map_toPoly_trimZeros] at h4
    exact ⟨out, h1, h3, h4⟩
  rcases hgood with hc | hc | ⟨a, ha, b, hb, ha0, hb0, hab⟩
  · rw [gcdCore, if_pos (by rw [← hwl, hc w hw'])]
    have hone : toPoly ([1] : List K) = 1 := by simp
    refine ⟨[1], rfl, .inr ⟨1, [], rfl, one_ne_zero⟩, ?_, fun q => ?_⟩
    · rw [hone]; exact monic_one
    · rw [hone]
      constructor
      · exact fun h f _ => h.trans (one_dvd f)
      · intro h
        have hd := h _ (List.mem_map.2 ⟨w, hw', rfl⟩)
        have hu : IsUnit (toPoly w) := by
          rw [eq_C_of_natDegree_eq_zero (hc w hw'), isUnit_C]
          refine IsUnit.mk0 _ fun h => h0 w hw' ?_
          rw [eq_C_of_natDegree_eq_zero (hc w hw'), h, C_0]
        exact isUnit_iff_dvd_one.1 (isUnit_of_dvd_unit hd hu)
  · exact hcore (by have := hc s hs'; omega)
  · apply hcore
    have hla := length_trimZeros (h0 a ha)
    have hlb := length_trimZeros (h0 b hb)
    have ham : trimZeros a ∈ args.map trimZeros := List.mem_map.2 ⟨a, ha, rfl⟩
    have hbm : trimZeros b ∈ args.map trimZeros := List.mem_map.2 ⟨b, hb, rfl⟩
    have h1 := hmx ham
    have h3 := hmx hbm
    rcases Nat.lt_or_ge (trimZeros a).length (gcdMaxSize (args.map trimZeros)) with h | h
    · have := (le_secondSize ham h).1; omega
    · have := (le_secondSize hbm (by omega)).1; omega

/-- **C07, violated.** A nonzero constant next to nonconstant polynomials of one degree: one of the
nonconstant polynomials is returned, although the greatest common divisor is `1`. -/
theorem C07_constant_violated (E : GcdNum K) (args : List (List K))
    (h0 : ∀ a ∈ args, toPoly a ≠ 0) (c : List K) (hc : c ∈ args) (hc0 : (toPoly c).natDegree = 0)
    (f : List K) (hf : f ∈ args) (hf0 : (toPoly f).natDegree ≠ 0)
    (hsame : ∀ a ∈ args, (toPoly a).natDegree = 0 ∨ (toPoly a).natDegree = (toPoly f).natDegree) :
    ∃ out, haroldgcd E args = .ok out ∧ (∃ g ∈ args, toPoly g = toPoly out) ∧
      (toPoly out).natDegree ≠ 0 ∧ ¬ IsMonicGcd (args.map toPoly) (toPoly out) := by
  have hcf : c ≠ f := by rintro rfl; exact hf0 hc0
  have h2 : 2 ≤ args.length := by
    match args, hc, hf with
    | [a], h, h' =>
      simp only [List.mem_singleton] at h h'
      exact absurd (h.trans h'.symm) hcf
    | a :: b :: t, _, _ => simp
  rw [haroldgcd_two h0 h2]
  have hne : args.map trimZeros ≠ [] := by
    intro h; rw [List.map_eq_nil_iff] at h; rw [h] at h2; simp at h2
  have hmem : ∀ {a}, a ∈ args → trimZeros a ∈ args.map trimZeros :=
    fun h => List.mem_map.2 ⟨_, h, rfl⟩
  have hcl := length_trimZeros (h0 c hc)
  have hfl := length_trimZeros (h0 f hf)
  have hfm := le_gcdMaxSize (hmem hf)
  have hmax : gcdMaxSize (args.map trimZeros) = (toPoly f).natDegree + 1 := by
    obtain ⟨w, hw, hwl⟩ := gcdMaxSize_mem hne
    obtain ⟨w, hw', rfl⟩ := List.mem_map.1 hw
    rw [length_trimZeros (h0 _ hw')] at hwl
    rcases hsame w hw' with h | h <;> omega
  have hsec : secondSize (args.map trimZeros) = 1 := by
    obtain ⟨s, hs, hsl⟩ := secondSize_mem hne
    obtain ⟨s, hs', rfl⟩ := List.mem_map.1 hs
    have hlt := (le_secondSize (hmem hc) (by omega)).2
    rw [length_trimZeros (h0 _ hs')] at hsl
    rcases hsame s hs' with h | h <;> omega
  rw [gcdCore, if_neg (by omega), if_pos ⟨by omega, hsec⟩]
  obtain ⟨g, hg, hgl⟩ := List.mem_map.1 (maxIndex_mem hne)
  have hd : (toPoly ((args.map trimZeros).getD (maxIndex (args.map trimZeros)) [])).natDegree ≠ 0 := by
    rw [← hgl, toPoly_trimZeros]
    have := length_maxIndex hne
    rw [← hgl, length_trimZeros (h0 g hg)] at this
    omega
  refine ⟨_, rfl, ⟨g, hg, by rw [← hgl, toPoly_trimZeros]⟩, hd, ?_⟩
  rintro ⟨-, hq⟩
  have hdvd := (hq _).1 (dvd_refl _) _ (List.mem_map.2 ⟨c, hc, rfl⟩)
  have := natDegree_le_of_dvd hdvd (h0 c hc)
  omega

/-- **C07, violated.** Two equal first degree polynomials with coefficients below the threshold: all
of the triangular factor is erased, and an `IndexError` is raised. -/
theorem C07_small_violated {E : GcdNum K} (hE : GcdNumOk E) (e : K) (he : e ≠ 0)
    (hsm : |e| < 1 / 10 ^ 8) :
    haroldgcd E [[e, e], [e, e]] = .error .index := by
  have htr : trimZeros [e, e] = [e, e] := trimZeros_of_cons he [e]
  have h0 : ∀ a ∈ [[e, e], [e, e]], toPoly a ≠ 0 := by
    intro a ha
    simp only [List.mem_cons, List.not_mem_nil, or_false, or_self] at ha
    subst ha
    exact toPoly_ne_zero_of_cons he [e]
  rw [haroldgcd_two h0 (by simp)]
  simp only [List.map_cons, List.map_nil, htr]
  have hmax : gcdMaxSize [[e, e], [e, e]] = 2 := rfl
  have hsec : secondSize [[e, e], [e, e]] = 2 := secondSize_all (by simp [hmax])
  have hidx : maxIndex [[e, e], [e, e]] = 0 := by
    simp [maxIndex, hmax, List.findIdx_cons]
  rw [gcdCore, if_neg (by omega), if_neg (by omega), if_neg (by omega), hmax, hsec]
  have hrows : sylRows [[e, e], [e, e]] (2 - 1) (2 - 1) = [[e, e], [e, e]] := by
    simp [sylRows, hidx, sylBlock, rollRight]
  rw [hrows]
  set S := rowsMat [[e, e], [e, e]] (2 - 1 + (2 - 1)) with hS
  have hSe : ∀ i j, S i j = e := by
    intro i j
    fin_cases i <;> fin_cases j <;> rfl
  obtain ⟨hup, σ, L, hlow, hone, hLU⟩ := hE.lu S
  have hent : ∀ i j, e = ∑ k, L i k * E.lu S k j := by
    intro i j
    have := congrFun (congrFun hLU i) j
    rw [Matrix.submatrix_apply, hSe, Matrix.mul_apply] at this
    exact this
  change Fin 2 → Fin 2 → K at L
  have hU : ∀ i j, dropSmall (E.lu S) i j = 0 := by
    change ∀ i j : Fin 2, dropSmall (E.lu S) i j = 0
    generalize E.lu S = U at hup hent ⊢
    change Fin 2 → Fin 2 → K at U
    change ∀ i j : Fin 2, j.val < i.val → U i j = 0 at hup
    change ∀ i j : Fin 2, i.val < j.val → L i j = 0 at hlow
    change ∀ i j : Fin 2, i.val = j.val → L i j = 1 at hone
    change ∀ i j : Fin 2, e = ∑ k : Fin 2, L i k * U k j at hent
    simp only [Fin.sum_univ_two] at hent
    have h10 := hup 1 0 (by decide)
    have l01 := hlow 0 1 (by decide)
    have l00 := hone 0 0 rfl
    have l11 := hone 1 1 rfl
    have e00 := hent 0 0
    have e01 := hent 0 1
    have e10 := hent 1 0
    have e11 := hent 1 1
    rw [l00, l01] at e00 e01
    rw [l11] at e10 e11
    have u00 : U 0 0 = e := by rw [e00]; ring
    have u01 : U 0 1 = e := by rw [e01]; ring
    rw [h10, u00] at e10
    rw [u01] at e11
    have hl : L 1 0 = 1 := mul_right_cancel₀ he (by linear_combination -e10)
    have u11 : U 1 1 = 0 := by rw [hl] at e11; linear_combination -e11
    intro i j
    by_cases h : |U i j| < 1 / 10 ^ 8
    · exact if_pos h
    · refine (if_neg h).trans ?_
      fin_cases i <;> fin_cases j
      · exact absurd (by rw [← u00] at hsm; exact hsm) h
      · exact absurd (by rw [← u01] at hsm; exact hsm) h
      · exact h10
      · exact u11
  have hrank : E.rank S ≠ 2 := by
    rw [hE.rank]
    have : S = Matrix.vecMulVec (fun _ => e) (fun _ => 1) := by
      ext i j; rw [hSe, Matrix.vecMulVec_apply, mul_one]
    rw [this]
    have := Matrix.rank_vecMulVec_le (R := K) (m := Fin 2) (n := Fin 2) (fun _ => e) (fun _ => 1)
    intro h
    change (Matrix.vecMulVec (fun _ : Fin 2 => e) (fun _ : Fin 2 => 1)).rank = 2 at h
    omega
  rw [gcdTail, ← hS, if_neg (by exact hrank)]
  have hd : dropSmall (E.lu S) = 0 := by funext i j; exact hU i j
  simp only [hd]
  have hrev : (List.ofFn fun i : Fin (min [[e, e], [e, e]].length (2 - 1 + (2 - 1))) =>
      List.ofFn ((0 : Matrix _ (Fin (2 - 1 + (2 - 1))) K) i)).reverse = [[0, 0], [0, 0]] := rfl
  rw [hrev]
  simp [lastRow, monicRow, trimZeros]

/-! ### The hypotheses are met -/

/-- A triangular factor, one without tiny entries if there is one. -/
theorem exists_lu_tiny {M N : ℕ} (S : Matrix (Fin M) (Fin N) K) :
    ∃ U, IsLuFactor S U ∧ ((∃ V, IsLuFactor S V ∧ TinyFree V) → TinyFree U) := by
  by_cases h : ∃ V, IsLuFactor S V ∧ TinyFree V
  · obtain ⟨V, h1, h2⟩ := h
    exact ⟨V, h1, fun _ => h2⟩
  · obtain ⟨U, hU⟩ := exists_lu S
    exact ⟨U, hU, fun h' => absurd h' h⟩

/-- Exact numerical routines; `lu` prefers a factor without tiny entries. -/
noncomputable def exactGcdNum (K : Type) [Field K] [LinearOrder K] : GcdNum K where
  rank S := S.rank
  lu S := (exists_lu_tiny S).choose

theorem exactGcdNum_ok : GcdNumOk (exactGcdNum K) where
  rank _ := rfl
  lu S := (exists_lu_tiny S).choose_spec.1

/-- The factors of the array of the example. -/
def gcdU : Matrix (Fin 3) (Fin 3) ℚ := !![1, 3, 2; 0, -2, -2; 0, 0, 0]

/-- The factors of the array of the example. -/
def gcdL : Matrix (Fin 3) (Fin 3) ℚ := !![1, 0, 0; 1, 1, 0; 0, -1/2, 1]

theorem gcdExample_tiny : NoTiny (exactGcdNum ℚ) [[1, 3, 2], [1, 1]] := by
  have harr : gcdArgs ([[1, 3, 2], [1, 1]] : List (List ℚ)) = [[1, 3, 2], [1, 1]] := by decide +kernel
  have hmax : gcdMaxSize ([[1, 3, 2], [1, 1]] : List (List ℚ)) = 3 := rfl
  have hsec : secondSize ([[1, 3, 2], [1, 1]] : List (List ℚ)) = 2 := rfl
  have hsyl : sylRows ([[1, 3, 2], [1, 1]] : List (List ℚ)) (3 - 1) (2 - 1) =
      [[1, 3, 2], [1, 1, 0], [0, 1, 1]] := by decide +kernel
  rw [NoTiny, harr, TinyFreeArr, hmax, hsec, hsyl]
  refine (exists_lu_tiny _).choose_spec.2 ?_
  have h1 : ∀ q : Fin 3 × Fin 3, q.2.val < q.1.val → gcdU q.1 q.2 = 0 := by decide +kernel
  have h2 : ∀ q : Fin 3 × Fin 3, q.1.val < q.2.val → gcdL q.1 q.2 = 0 := by decide +kernel
  have h3 : ∀ q : Fin 3 × Fin 3, q.1.val = q.2.val → gcdL q.1 q.2 = 1 := by decide +kernel
  have h4 : ∀ q : Fin 3 × Fin 3,
      rowsMat ([[1, 3, 2], [1, 1, 0], [0, 1, 1]] : List (List ℚ)) 3 q.1 q.2 =
        ∑ k : Fin 3, gcdL q.1 k * gcdU k q.2 := by decide +kernel
  have h5 : ∀ q : Fin 3 × Fin 3, |gcdU q.1 q.2| < 1 / 10 ^ 8 → gcdU q.1 q.2 = 0 := by
    decide +kernel
  exact ⟨gcdU, ⟨fun i j => h1 (i, j), Equiv.refl _, gcdL, fun i j => h2 (i, j),
    fun i j => h3 (i, j), Matrix.ext fun i j => (h4 (i, j)).trans
    (Matrix.mul_apply (M := gcdL) (N := gcdU)).symm⟩, fun i j => h5 (i, j)⟩

/-- `gcd((s+1)(s+2), s+1)`: the hypotheses of `C07_gcd_partial` hold. -/
example : ∃ out, haroldgcd (exactGcdNum ℚ) [[1, 3, 2], [1, 1]] = .ok out ∧ Trimmed out ∧
    IsMonicGcd (([[1, 3, 2], [1, 1]] : List (List ℚ)).map toPoly) (toPoly out) := by
  have hd1 : (toPoly ([1, 3, 2] : List ℚ)).natDegree = 2 :=
    natDegree_noLead (.inr ⟨1, [3, 2], rfl, one_ne_zero⟩)
  have hd2 : (toPoly ([1, 1] : List ℚ)).natDegree = 1 :=
    natDegree_noLead (.inr ⟨1, [1], rfl, one_ne_zero⟩)
  refine C07_gcd_partial exactGcdNum_ok _ ?_ (by simp) (.inr (.inl ?_)) gcdExample_tiny
  · intro a ha
    simp only [List.mem_cons, List.not_mem_nil, or_false] at ha
    rcases ha with rfl | rfl <;> exact toPoly_ne_zero_of_cons one_ne_zero _
  · intro a ha
    simp only [List.mem_cons, List.not_mem_nil, or_false] at ha
    rcases ha with rfl | rfl
    · rw [hd1]; decide
    · rw [hd2]; decide

/-- The example of the docstring, `2` and `2s+4`: the answer is `2s+4`. -/
example (E : GcdNum ℚ) : haroldgcd E [[2], [2, 4]] = .ok [2, 4] := by
  rw [haroldgcd, show gcdArgs ([[2], [2, 4]] : List (List ℚ)) = [[2], [2, 4]] by decide +kernel]
  rfl

/-- **C07**, one argument: it is returned without its leading zeros. -/
theorem C07_single (E : GcdNum K) (a : List K) (ha : toPoly a ≠ 0) :
    ∃ out, haroldgcd E [a] = .ok out ∧ Trimmed out ∧ toPoly out = toPoly a := by
  refine ⟨trimZeros a, ?_, ?_, toPoly_trimZeros a⟩
  · rw [haroldgcd, gcdArgs_of_ne (by simpa using ha)]
    rfl
  · rcases trimZeros_cases a with ⟨h, -⟩ | h
    · exact absurd ((trimZeros_eq_nil_iff a).mp h) ha
    · exact .inr h

end Harold
