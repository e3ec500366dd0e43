import Verif.Model.PairComplex
import Verif.Spec.PairComplex
import Mathlib.Tactic.Linarith
import Mathlib.Tactic.Ring
import Mathlib.Data.List.GetD

/-!
# C11: pairing of complex numbers
-/

namespace Harold

open Spec

variable {K : Type} [Field K] [LinearOrder K]

section order

theorem lexLe_total (z w : K × K) : lexLe z w ∨ lexLe w z := by
  unfold lexLe
  rcases lt_trichotomy z.1 w.1 with h | h | h
  · exact .inl (.inl h)
  · rcases le_total z.2 w.2 with h' | h'
    · exact .inl (.inr ⟨h, h'⟩)
    · exact .inr (.inr ⟨h.symm, h'⟩)
  · exact .inr (.inl h)

theorem lexLe_trans {x y z : K × K} (h1 : lexLe x y) (h2 : lexLe y z) : lexLe x z := by
  unfold lexLe at *
  rcases h1 with h1 | ⟨h1, h1'⟩ <;> rcases h2 with h2 | ⟨h2, h2'⟩
  · exact .inl (h1.trans h2)
  · exact .inl (h2 ▸ h1)
  · exact .inl (h1 ▸ h2)
  · exact .inr ⟨h1.trans h2, h1'.trans h2'⟩

theorem lexLe_antisymm {z w : K × K} (h1 : lexLe z w) (h2 : lexLe w z) : z = w := by
  unfold lexLe at *
  rcases h1 with h1 | ⟨h1, h1'⟩ <;> rcases h2 with h2 | ⟨h2, h2'⟩
  · exact absurd h1 h2.asymm
  · exact absurd h2 h1.ne'
  · exact absurd h1 h2.ne'
  · exact Prod.ext h1 (le_antisymm h1' h2')

instance : Std.Total (lexLe (K := K)) := ⟨lexLe_total⟩
instance : IsTrans (K × K) lexLe := ⟨fun _ _ _ => lexLe_trans⟩
instance : Std.Antisymm (lexLe (K := K)) := ⟨fun _ _ => lexLe_antisymm⟩

end order

/-- Splitting off the entries with a property that come first in the order. -/
theorem sorted_split {α : Type} {r : α → α → Prop} [Std.Antisymm r] {l : List α} (h : l.Pairwise r) (P : α → Bool)
    (hP : ∀ x ∈ l, ∀ y ∈ l, P x = true → P y = false → r x y) : l = l.filter P ++ l.filter fun x => !P x := by
  refine List.Perm.eq_of_pairwise' h ?_ (List.filter_append_perm P l).symm
  rw [List.pairwise_append]
  refine ⟨h.filter _, h.filter _, fun x hx y hy => ?_⟩
  rw [List.mem_filter] at hx hy
  exact hP x hx.1 y hy.1 hx.2 (by simpa using hy.2)

variable [IsStrictOrderedRing K]

/-- Blocks `(r, N)`: the entries `r + i n`, `n ∈ N`, followed by the conjugates in reverse order. -/
def assemble (bs : List (K × List K)) : List (K × K) :=
  bs.flatMap fun b => b.2.map (fun n => (b.1, n)) ++ b.2.reverse.map fun n => (b.1, -n)

theorem conj_conj (z : K × K) : conj (conj z) = z := by simp [conj]

theorem closed_filter {l : List (K × K)} (h : ConjClosed l) (P Q : K × K → Bool) (hPQ : ∀ z, P (conj z) = Q z) :
    ((l.filter Q).map conj).Perm (l.filter P) := by
  have := h.filter P
  rw [List.filter_map] at this
  have e : l.filter (P ∘ conj) = l.filter Q := List.filter_congr fun z _ => hPQ z
  rwa [e] at this

theorem sorted_blocks : ∀ (k : ℕ) (s : List (K × K)), s.length ≤ k → s.Pairwise lexLe → ConjClosed s → (∀ z ∈ s, z.2 ≠ 0) →
    ∃ bs : List (K × List K), s = assemble bs ∧ ∀ b ∈ bs, b.2 ≠ [] ∧ ∀ n ∈ b.2, n < 0
  | 0, s, hk, _, _, _ => ⟨[], by simpa [assemble] using hk, by simp⟩
  | k + 1, [], _, _, _, _ => ⟨[], by simp [assemble], by simp⟩
  | k + 1, z :: s', hk, hs, hc, h0 => by
    set s := z :: s' with hsdef
    set r := z.1 with hr
    set g := s.filter fun w => decide (w.1 = r) with hg
    set t := s.filter fun w => !decide (w.1 = r) with ht
    have hmin : ∀ w ∈ s, r ≤ w.1 := by
      intro w hw
      rcases List.mem_cons.mp hw with rfl | hw
      · exact le_refl _
      · rcases (List.pairwise_cons.mp hs).1 w hw with h | h
        · exact h.le
        · exact h.1.le
    have hsplit : s = g ++ t := sorted_split hs _ fun x hx y hy h1 h2 => by
      simp only [decide_eq_true_eq, decide_eq_false_iff_not] at h1 h2
      exact .inl (h1 ▸ lt_of_le_of_ne (hmin y hy) (Ne.symm h2))
    set gn := g.filter fun w => decide (w.2 < 0) with hgn
    set gp := g.filter fun w => !decide (w.2 < 0) with hgp
    have hgs : g.Pairwise lexLe := hs.filter _
    have hgr : ∀ w ∈ g, w.1 = r := fun w hw => by simpa using (List.mem_filter.mp hw).2
    have hgsplit : g = gn ++ gp := sorted_split hgs _ fun x hx y hy h1 h2 => by
      simp only [decide_eq_true_eq, decide_eq_false_iff_not, not_lt] at h1 h2
      exact .inr ⟨(hgr x hx).trans (hgr y hy).symm, (h1.trans_le h2).le⟩
    have hgc : ConjClosed g := closed_filter hc _ _ fun w => rfl
    have htc : ConjClosed t := closed_filter hc _ _ fun w => rfl
    have hg0 : ∀ w ∈ g, w.2 ≠ 0 := fun w hw => h0 w (List.mem_filter.mp hw).1
    have hgp' : gp = g.filter fun w => decide (0 < w.2) := List.filter_congr fun w hw => by
      have := hg0 w hw
      rcases lt_or_gt_of_ne this with h | h
      · simp [h, h.le]
      · simp [h, h.le]
    have hperm : (gn.map conj).Perm gp := by
      rw [hgp']
      exact closed_filter hgc _ _ fun w => by simp [conj]
    have hrev : gp = (gn.map conj).reverse := by
      refine List.Perm.eq_of_pairwise' (hgs.filter _) ?_ (hperm.symm.trans (List.reverse_perm _).symm)
      rw [List.pairwise_reverse, List.pairwise_map]
      refine List.Pairwise.imp_of_mem ?_ (hgs.filter _ : gn.Pairwise lexLe)
      intro x y hx hy hxy
      have hx' := hgr x (List.mem_filter.mp hx).1
      have hy' := hgr y (List.mem_filter.mp hy).1
      rcases hxy with h | h
      · exact absurd h (by rw [hx', hy']; exact lt_irrefl _)
      · exact .inr ⟨h.1.symm, neg_le_neg h.2⟩
    have hz : z ∈ g := List.mem_filter.mpr ⟨by simp [hsdef], by simp [hr]⟩
    have htl : t.length ≤ k := by
      have h1 : s.length = g.length + t.length := by rw [← List.length_append, ← hsplit]
      have h2 : 0 < g.length := List.length_pos_of_mem hz
      omega
    obtain ⟨bs, e, hbs⟩ := sorted_blocks k t htl (hs.filter _) htc fun w hw => h0 w (List.mem_filter.mp hw).1
    have hgn_ne : gn ≠ [] := by
      intro h
      rw [h, List.map_nil, List.reverse_nil] at hrev
      rw [hgsplit, h, hrev] at hz
      simp at hz
    have hgn_eq : gn = (gn.map Prod.snd).map fun n => (r, n) := by
      rw [List.map_map]
      conv_lhs => rw [← List.map_id gn]
      refine List.map_congr_left fun w hw => ?_
      exact Prod.ext (hgr w (List.mem_filter.mp hw).1) rfl
    have hgp_eq : gp = (gn.map Prod.snd).reverse.map fun n => (r, -n) := by
      rw [hrev, ← List.map_reverse, ← List.map_reverse, List.map_map]
      refine List.map_congr_left fun w hw => ?_
      exact Prod.ext (hgr w (List.mem_filter.mp (List.mem_reverse.mp hw)).1) rfl
    refine ⟨(r, gn.map Prod.snd) :: bs, ?_, ?_⟩
    · rw [hsplit, hgsplit, e]
      unfold assemble
      rw [List.flatMap_cons, ← hgn_eq, ← hgp_eq]
    · intro b hb
      rcases List.mem_cons.mp hb with rfl | hb
      · refine ⟨by simpa using hgn_ne, fun n hn => ?_⟩
        obtain ⟨w, hw, rfl⟩ := List.mem_map.mp hn
        simpa using (List.mem_filter.mp hw).2
      · exact hbs b hb

/-! ## The sign loop -/

theorem firstPos_replicate (t : List ℤ) : ∀ (k y : ℕ), firstPos (List.replicate k (-1) ++ 1 :: t) y = .ok (y + k)
  | 0, y => by simp [firstPos]
  | k + 1, y => by
    rw [List.replicate_succ, List.cons_append, firstPos, if_neg (by decide), firstPos_replicate t k (y + 1)]
    congr 1; omega

theorem map_sign_neg {N : List K} (h : ∀ n ∈ N, n < 0) : N.map signInt = List.replicate N.length (-1) := by
  rw [List.eq_replicate_iff]
  refine ⟨by simp, fun b hb => ?_⟩
  obtain ⟨n, hn, rfl⟩ := List.mem_map.mp hb
  simp [signInt, h n hn, (h n hn).le]

theorem map_sign_pos {N : List K} (h : ∀ n ∈ N, n < 0) : (N.reverse.map fun n => -n).map signInt = List.replicate N.length 1 := by
  rw [List.eq_replicate_iff]
  refine ⟨by simp, fun b hb => ?_⟩
  rw [List.map_map] at hb
  obtain ⟨n, hn, rfl⟩ := List.mem_map.mp hb
  simp [signInt, h n (List.mem_reverse.mp hn)]

theorem interleave_block (pre N post : List K) :
    interleave (pre ++ (N ++ N.reverse.map (fun n => -n)) ++ post) pre.length N.length = .ok (pre ++ N.flatMap (fun n => [n, -n]) ++ post) := by
  unfold interleave
  rw [if_pos (by simp; omega)]
  congr 2
  · congr 1
    · simp
    · have hN : N = (List.range N.length).map fun i => N.getD i 0 := by
        refine List.ext_getElem (by simp) fun i h1 h2 => ?_
        rw [List.getElem_map, List.getElem_range, List.getD_eq_getElem _ _ h1]
      have hR : N.flatMap (fun n => [n, -n]) = (List.range N.length).flatMap fun i => [N.getD i 0, -N.getD i 0] := by
        conv_lhs => rw [hN]
        rw [List.flatMap_map]
      rw [hR]
      refine List.flatMap_congr fun i hi => ?_
      have hi : i < N.length := List.mem_range.mp hi
      have e1 : nth (pre ++ (N ++ N.reverse.map (fun n => -n)) ++ post) (pre.length + i) = N.getD i 0 := by
        unfold nth
        rw [List.append_assoc, List.getD_append_right _ _ _ _ (by omega), Nat.add_sub_cancel_left, List.append_assoc, List.getD_append _ _ _ _ hi]
      have e2 : nth (pre ++ (N ++ N.reverse.map (fun n => -n)) ++ post) (pre.length + 2 * N.length - 1 - i) = -N.getD i 0 := by
        unfold nth
        rw [List.append_assoc, List.getD_append_right _ _ _ _ (by omega), List.append_assoc, List.getD_append_right _ _ _ _ (by omega),
          List.getD_append _ _ _ _ (by simp; omega), List.getD_eq_getElem _ _ (by simp; omega), List.getElem_map, List.getElem_reverse,
          List.getD_eq_getElem _ _ hi]
        congr 2
        omega
      rw [e1, e2]
  · rw [List.append_assoc, ← List.drop_drop, List.drop_left', List.drop_left']
    · simp; omega
    · rfl

/-- The imaginary parts of the blocks, and what becomes of them. -/
def imBlocks (bs : List (K × List K)) : List K := bs.flatMap fun b => b.2 ++ b.2.reverse.map fun n => -n

def imPairs (bs : List (K × List K)) : List K := bs.flatMap fun b => b.2.flatMap fun n => [n, -n]

theorem signLoop_blocks : ∀ (bs : List (K × List K)), (∀ b ∈ bs, b.2 ≠ [] ∧ ∀ n ∈ b.2, n < 0) → ∀ (fuel : ℕ) (sp : List ℤ) (pre : List K), sp.length = pre.length →
    (imBlocks bs).length ≤ fuel → signLoop (sp ++ (imBlocks bs).map signInt) fuel pre.length (pre ++ imBlocks bs) = .ok (pre ++ imPairs bs)
  | [], _, fuel, sp, pre, hsp, _ => by
    cases fuel with
    | zero => simp [signLoop, imBlocks, imPairs]
    | succ f => simp [signLoop, imBlocks, imPairs, hsp]
  | b :: bs, hbs, fuel, sp, pre, hsp, hf => by
    obtain ⟨r, N⟩ := b
    obtain ⟨hN, hneg⟩ := hbs _ (List.mem_cons_self)
    simp only at hN hneg
    have hl : 0 < N.length := List.length_pos_iff.mpr hN
    have hbl : imBlocks ((r, N) :: bs) = (N ++ N.reverse.map fun n => -n) ++ imBlocks bs := by simp [imBlocks]
    have hpl : imPairs ((r, N) :: bs) = N.flatMap (fun n => [n, -n]) ++ imPairs bs := by simp [imPairs]
    rw [hbl] at hf ⊢
    have hlen : (N ++ N.reverse.map fun n => -n).length = 2 * N.length := by simp; omega
    rw [List.length_append, hlen] at hf
    have hsg : ((N ++ N.reverse.map fun n => -n) ++ imBlocks bs).map signInt =
        List.replicate N.length (-1) ++ (List.replicate N.length 1 ++ (imBlocks bs).map signInt) := by
      rw [List.map_append, List.map_append, map_sign_neg hneg, map_sign_pos hneg, List.append_assoc]
    rw [hsg]
    obtain ⟨f, rfl⟩ : ∃ f, fuel = f + 1 := ⟨fuel - 1, by omega⟩
    have IH := fun fuel sp pre => signLoop_blocks bs (fun b hb => hbs b (List.mem_cons_of_mem _ hb)) fuel sp pre
    have hdrop : (sp ++ (List.replicate N.length (-1) ++ (List.replicate N.length (1 : ℤ) ++ (imBlocks bs).map signInt))).drop pre.length
        = List.replicate N.length (-1) ++ (List.replicate N.length 1 ++ (imBlocks bs).map signInt) := by
      rw [List.drop_left' hsp]
    unfold signLoop
    rw [if_neg (by simp; omega), hdrop]
    by_cases h1 : N.length = 1
    · obtain ⟨n, rfl⟩ := List.length_eq_one_iff.mp h1
      simp only [List.length_cons, List.length_nil, List.replicate_succ, List.replicate_zero]
      rw [if_pos (by simp)]
      have := IH f (sp ++ [-1, 1]) (pre ++ [n, -n]) (by simp [hsp]) (by simp at hf; omega)
      simp only [List.append_assoc, List.length_append, List.length_cons, List.length_nil] at this
      rw [hpl]
      simpa using this
    · obtain ⟨k, hk⟩ : ∃ k, N.length = k + 2 := ⟨N.length - 2, by omega⟩
      have htake : ((List.replicate N.length (-1 : ℤ)) ++ (List.replicate N.length 1 ++ (imBlocks bs).map signInt)).take 2 = [-1, -1] := by
        rw [hk]; simp [List.replicate_succ]
      rw [htake, if_neg (by decide), if_neg (by decide)]
      have hd2 : (sp ++ (List.replicate N.length (-1) ++ (List.replicate N.length (1 : ℤ) ++ (imBlocks bs).map signInt))).drop (pre.length + 2)
          = List.replicate k (-1) ++ 1 :: (List.replicate (k + 1) 1 ++ (imBlocks bs).map signInt) := by
        rw [← List.drop_drop, hdrop, hk]
        simp [List.replicate_succ]
      rw [hd2, firstPos_replicate]
      simp only [bind, Except.bind]
      rw [show pre.length + 2 + k - pre.length = N.length by omega, ← List.append_assoc, interleave_block]
      simp only
      have := IH f (sp ++ List.replicate N.length (-1) ++ List.replicate N.length 1) (pre ++ N.flatMap fun n => [n, -n])
        (by simp [hsp, List.length_flatMap]; omega) (by omega)
      have e : (pre ++ N.flatMap fun n => [n, -n]).length = pre.length + 2 * N.length := by
        simp [List.length_flatMap]; omega
      rw [e] at this
      rw [hpl]
      simpa only [List.append_assoc] using this

/-! ## Pairs -/

theorem evens_pairs {α : Type} (f g : α → K) : ∀ l : List α, evens (l.flatMap fun q => [f q, g q]) = l.map f
  | [] => rfl
  | a :: l => by simp [List.flatMap_cons, evens, evens_pairs f g l]

theorem odds_pairs {α : Type} (f g : α → K) : ∀ l : List α, odds (l.flatMap fun q => [f q, g q]) = l.map g
  | [] => rfl
  | a :: l => by simp [List.flatMap_cons, odds, odds_pairs f g l]

theorem perm_flatMap_pair {α β : Type} (f g : α → β) : ∀ l : List α, (l.flatMap fun q => [f q, g q]).Perm (l.map f ++ l.map g)
  | [] => by simp
  | a :: l => by
    simp only [List.flatMap_cons, List.map_cons, List.cons_append, List.nil_append]
    refine List.Perm.cons _ ?_
    exact ((perm_flatMap_pair f g l).cons _).trans List.perm_middle.symm

/-- The lower members of the pairs. -/
def lowers (bs : List (K × List K)) : List (K × K) := bs.flatMap fun b => b.2.map fun n => (b.1, n)

theorem assemble_im (bs : List (K × List K)) : (assemble bs).map Prod.snd = imBlocks bs := by
  unfold assemble imBlocks
  rw [List.map_flatMap]
  refine List.flatMap_congr fun b _ => ?_
  simp [Function.comp_def]

theorem assemble_re (bs : List (K × List K)) : (assemble bs).map Prod.fst = (lowers bs).flatMap fun q => [q.1, q.1] := by
  unfold assemble lowers
  rw [List.map_flatMap, List.flatMap_assoc]
  refine List.flatMap_congr fun b _ => ?_
  have : ∀ l : List K, (l.map fun n => (b.1, n)).flatMap (fun q : K × K => [q.1, q.1]) = List.replicate (2 * l.length) b.1 := by
    intro l
    induction l with
    | nil => rfl
    | cons a l ih => rw [List.map_cons, List.flatMap_cons, ih]; simp [mul_add, List.replicate_succ]
  rw [this]
  simp [Function.comp_def, ← List.replicate_add, two_mul]

theorem imPairs_lowers (bs : List (K × List K)) : imPairs bs = (lowers bs).flatMap fun q => [q.2, -q.2] := by
  unfold imPairs lowers
  rw [List.flatMap_assoc]
  refine List.flatMap_congr fun b _ => ?_
  rw [List.flatMap_map]

theorem assemble_perm (bs : List (K × List K)) : ((lowers bs).flatMap fun q => [q, conj q]).Perm (assemble bs) := by
  unfold lowers assemble
  rw [List.flatMap_assoc]
  refine List.Perm.flatMap_left _ fun b _ => ?_
  rw [List.flatMap_map]
  refine (perm_flatMap_pair _ _ b.2).trans (List.Perm.append_left _ ?_)
  exact (List.Perm.map _ (List.reverse_perm b.2)).symm

/-- A sorted conjugate-closed collection without reals is paired. -/
theorem pairEntries_closed {zs : List (K × K)} (hc : ConjClosed zs) (h0 : ∀ z ∈ zs, z.2 ≠ 0) {tol : K} (ht : 0 ≤ tol) (pf : Bool) :
    ∃ out, pairEntries tol pf zs = .ok out ∧ AdjacentPairs pf out ∧ out.Perm zs := by
  have hp : (zs.insertionSort lexLe).Perm zs := List.perm_insertionSort _ _
  have hc' : ConjClosed (zs.insertionSort lexLe) := (hp.map conj).trans (hc.trans hp.symm)
  obtain ⟨bs, hbs, hneg⟩ := sorted_blocks _ _ (le_refl _) (List.pairwise_insertionSort lexLe zs) hc' fun z hz => h0 z (hp.mem_iff.mp hz)
  have hlow : ∀ q ∈ lowers bs, q.2 < 0 := by
    intro q hq
    unfold lowers at hq
    obtain ⟨b, hb, hq⟩ := List.mem_flatMap.mp hq
    obtain ⟨n, hn, rfl⟩ := List.mem_map.mp hq
    exact (hneg b hb).2 n hn
  have hloop := signLoop_blocks bs hneg (imBlocks bs).length [] [] rfl (le_refl _)
  simp only [List.nil_append, List.length_nil] at hloop
  have hany : ∀ (l : List (K × K)) (F : K → K → K) (f g : K × K → K), (∀ q, F (f q) (g q) = 0) →
      (List.zipWith (fun x y => |F x y|) (l.map f) (l.map g)).any (fun d => decide (tol < d)) = false := by
    intro l F f g hF
    rw [List.any_eq_false]
    intro d hd
    rw [List.zipWith_map, List.zipWith_self] at hd
    obtain ⟨q, -, rfl⟩ := List.mem_map.mp hd
    simp [hF, ht]
  have hzip : List.zip ((lowers bs).map Prod.fst) ((lowers bs).map Prod.snd) = lowers bs := (List.zip_of_prod rfl rfl).symm
  refine ⟨(lowers bs).flatMap fun q => if pf then [(q.1, -q.2), (q.1, q.2)] else [(q.1, q.2), (q.1, -q.2)], ?_, ⟨(lowers bs).map conj, ?_, ?_⟩, ?_⟩
  · unfold pairEntries
    simp only [hbs, assemble_re, assemble_im, evens_pairs, odds_pairs]
    rw [hany (lowers bs) (fun x y => x - y) _ _ fun q => sub_self _]
    simp only [Bool.false_eq_true, if_false, bind, Except.bind, hloop, imPairs_lowers, evens_pairs, odds_pairs]
    rw [hany (lowers bs) (fun x y => x + y) _ _ fun q => add_neg_cancel _, hzip]
    rfl
  · intro q hq
    obtain ⟨w, hw, rfl⟩ := List.mem_map.mp hq
    simpa [conj] using hlow w hw
  · rw [List.flatMap_map]
    refine List.flatMap_congr fun q _ => ?_
    cases pf <;> simp [conj]
  · refine List.Perm.trans ?_ (hbs ▸ hp)
    refine List.Perm.trans ?_ (assemble_perm bs)
    refine List.Perm.flatMap_left _ fun q _ => ?_
    cases pf
    · simp [conj]
    · simpa [conj] using List.Perm.swap _ _ _

theorem realIfClose_eq {rtol : K} (h1 : rtol ≤ 1) (z : K × K) : realIfClose rtol z = cleaned rtol z := by
  unfold realIfClose cleaned
  rw [if_neg (not_lt.mpr h1)]

theorem cleaned_conj (rtol : K) (z : K × K) : cleaned rtol (conj z) = conj (cleaned rtol z) := by
  unfold cleaned conj
  simp only [abs_neg]
  split_ifs <;> simp

theorem pairs_length_even {l : List (K × K)} {pf : Bool} (h : AdjacentPairs pf l) : l.length % 2 = 0 := by
  obtain ⟨ps, -, rfl⟩ := h
  have : (ps.flatMap fun q => if pf then [q, conj q] else [conj q, q]).length = 2 * ps.length := by
    rw [List.length_flatMap]
    have : (ps.map fun q : K × K => (if pf then [q, conj q] else [conj q, q]).length) = ps.map fun _ => 2 := by
      refine List.map_congr_left fun q _ => ?_
      cases pf <;> rfl
    rw [this]
    simp [mul_comm]
  omega

/-- **C11**, conjugate-closed collections: for every such collection and all keyword values (`0 < realness_tol ≤ 1`, `0 ≤ tol`) the result is a rearrangement
of the collection (numbers with an imaginary part below `realness_tol` counting as real); the reals come in ascending order at the requested end, the others as
adjacent conjugate pairs in the requested sign order. -/
theorem C11_closed {a : List (K × K)} (hc : ConjClosed a) {tol rtol : K} (ht : 0 ≤ tol) (hr0 : 0 < rtol) (hr1 : rtol ≤ 1) (pf rf : Bool) :
    ∃ out reals pairs, pairComplex a tol rtol pf rf = .ok out ∧ out = (if rf then reals ++ pairs else pairs ++ reals) ∧
      out.Perm (a.map (cleaned rtol)) ∧ SortedReals reals ∧ AdjacentPairs pf pairs := by
  have hmap : a.map (realIfClose rtol) = a.map (cleaned rtol) := List.map_congr_left fun z _ => realIfClose_eq hr1 z
  set b := a.map (cleaned rtol) with hb
  have hbc : ConjClosed b := by
    unfold ConjClosed
    rw [hb, List.map_map]
    have : (conj ∘ cleaned rtol : K × K → K × K) = cleaned rtol ∘ conj := funext fun z => (cleaned_conj rtol z).symm
    rw [this, ← List.map_map]
    exact hc.map _
  have hbim : ∀ z ∈ b, ¬ rtol ≤ |z.2| → z.2 = 0 := by
    intro z hz hlt
    obtain ⟨w, -, rfl⟩ := List.mem_map.mp hz
    unfold cleaned at hlt ⊢
    split_ifs with h
    · rfl
    · rw [if_neg h] at hlt
      exact absurd (not_lt.mp h) hlt
  have hzc : ConjClosed (b.filter fun z => decide (rtol ≤ |z.2|)) := closed_filter hbc _ _ fun w => by simp [conj]
  have hz0 : ∀ z ∈ b.filter (fun z => decide (rtol ≤ |z.2|)), z.2 ≠ 0 := by
    intro z hz h
    have := (List.mem_filter.mp hz).2
    rw [h, abs_zero, decide_eq_true_eq] at this
    exact absurd hr0 (not_lt.mpr this)
  obtain ⟨pairs, hp1, hp2, hp3⟩ := pairEntries_closed hzc hz0 ht pf
  unfold pairComplex
  by_cases ha : a.length = 0
  · obtain rfl := List.length_eq_zero_iff.mp ha
    refine ⟨[], [], [], by simp, by simp, by simp [hb], ⟨by simp, by simp⟩, ⟨[], by simp, by simp⟩⟩
  rw [if_neg ha]
  simp only [hmap]
  by_cases hz : (b.filter fun z => decide (rtol ≤ |z.2|)).length = 0
  · rw [if_pos hz]
    have hall : ∀ z ∈ b, z.2 = 0 := by
      intro z hz'
      refine hbim z hz' fun h => ?_
      have := List.length_pos_of_mem (List.mem_filter.mpr ⟨hz', decide_eq_true h⟩ : z ∈ b.filter fun z => decide (rtol ≤ |z.2|))
      omega
    refine ⟨_, ((b.map Prod.fst).insertionSort (· ≤ ·)).map (fun x => (x, 0)), [], rfl, by cases rf <;> simp, ?_, ⟨?_, ?_⟩, ⟨[], by simp, by simp⟩⟩
    · refine ((List.perm_insertionSort _ _).map _).trans ?_
      rw [List.map_map]
      refine List.Perm.of_eq ?_
      conv_rhs => rw [← List.map_id b]
      exact List.map_congr_left fun z hz' => Prod.ext rfl (hall z hz').symm
    · intro z hz
      obtain ⟨x, -, rfl⟩ := List.mem_map.mp hz
      rfl
    · rw [List.pairwise_map]
      exact List.pairwise_insertionSort _ _
  · rw [if_neg hz, if_neg (by
      have := pairs_length_even hp2
      rw [hp3.length_eq] at this
      simpa using this), hp1]
    simp only [bind, Except.bind]
    refine ⟨_, _, pairs, rfl, rfl, ?_, ⟨?_, ?_⟩, hp2⟩
    · have h1 : ((b.filter fun z => decide (¬ rtol ≤ |z.2|)).insertionSort lexLe).Perm (b.filter fun z => decide (¬ rtol ≤ |z.2|)) := List.perm_insertionSort _ _
      have h2 := List.filter_append_perm (fun z : K × K => decide (rtol ≤ |z.2|)) b
      simp only [← decide_not] at h2
      cases rf
      · exact (hp3.append h1).trans h2
      · exact (h1.append hp3).trans (List.perm_append_comm.trans h2)
    · intro z hz'
      have := List.mem_filter.mp ((List.perm_insertionSort _ _).mem_iff.mp hz')
      exact hbim z this.1 (by simpa using this.2)
    · refine (List.pairwise_insertionSort lexLe _).imp fun h => ?_
      rcases h with h | h
      · exact h.le
      · exact h.1.le

theorem pairEntries_form {zs : List (K × K)} {tol : K} {pf : Bool} {pairs : List (K × K)} (hp : pairEntries tol pf zs = .ok pairs) :
    ∃ ps : List (K × K), pairs = ps.flatMap fun q => [q, conj q] := by
  unfold pairEntries at hp
  simp only at hp
  by_cases h1 : (List.zipWith (fun x y => |x - y|) (evens ((zs.insertionSort lexLe).map Prod.fst)) (odds ((zs.insertionSort lexLe).map Prod.fst))).any
      (fun d => decide (tol < d)) = true
  · rw [if_pos h1] at hp; cases hp
  rw [if_neg h1] at hp
  simp only [bind, Except.bind] at hp
  split at hp
  · cases hp
  · rename_i j _
    by_cases h2 : (List.zipWith (fun x y => |x + y|) (evens j) (odds j)).any (fun d => decide (tol < d)) = true
    · rw [if_pos h2] at hp; cases hp
    rw [if_neg h2] at hp
    cases hp
    cases pf
    · exact ⟨_, rfl⟩
    · refine ⟨(List.zip (evens ((zs.insertionSort lexLe).map Prod.fst)) (evens j)).map fun q => (q.1, -q.2), ?_⟩
      rw [List.flatMap_map]
      refine List.flatMap_congr fun q _ => ?_
      simp [conj]

/-- **C11**, every collection: whatever is returned consists of real numbers in ascending order and exact conjugate pairs. -/
theorem C11_exact {a : List (K × K)} {tol rtol : K} (hr1 : rtol ≤ 1) (pf rf : Bool) {out : List (K × K)}
    (h : pairComplex a tol rtol pf rf = .ok out) :
    ∃ reals ps : List (K × K), SortedReals reals ∧ out = if rf then reals ++ ps.flatMap (fun q => [q, conj q]) else ps.flatMap (fun q => [q, conj q]) ++ reals := by
  unfold pairComplex at h
  by_cases ha : a.length = 0
  · rw [if_pos ha] at h
    cases h
    exact ⟨[], [], ⟨by simp, by simp⟩, by simp⟩
  rw [if_neg ha] at h
  simp only at h
  by_cases h1 : ((a.map (realIfClose rtol)).filter fun z => decide (rtol ≤ |z.2|)).length = 0
  · rw [if_pos h1] at h
    cases h
    refine ⟨(((a.map (realIfClose rtol)).map Prod.fst).insertionSort (· ≤ ·)).map (fun x => (x, 0)), [], ⟨?_, ?_⟩, by cases rf <;> simp⟩
    · intro z hz
      obtain ⟨x, -, rfl⟩ := List.mem_map.mp hz
      rfl
    · rw [List.pairwise_map]
      exact List.pairwise_insertionSort _ _
  rw [if_neg h1] at h
  by_cases h2 : ((a.map (realIfClose rtol)).filter fun z => decide (rtol ≤ |z.2|)).length % 2 ≠ 0
  · rw [if_pos h2] at h; cases h
  · rw [if_neg h2] at h
    simp only [bind, Except.bind] at h
    cases hp : pairEntries tol pf ((a.map (realIfClose rtol)).filter fun z => decide (rtol ≤ |z.2|)) with
    | error e => rw [hp] at h; cases h
    | ok pairs =>
      rw [hp] at h
      cases h
      obtain ⟨ps, rfl⟩ := pairEntries_form hp
      refine ⟨_, ps, ⟨?_, ?_⟩, rfl⟩
      · intro z hz
        obtain ⟨hz, hlt⟩ := List.mem_filter.mp ((List.perm_insertionSort _ _).mem_iff.mp hz)
        obtain ⟨w, -, rfl⟩ := List.mem_map.mp hz
        rw [realIfClose_eq hr1] at hlt ⊢
        unfold cleaned at hlt ⊢
        split_ifs with hc
        · rfl
        · rw [if_neg hc] at hlt
          simp at hlt
          exact absurd hlt hc
      · refine (List.pairwise_insertionSort lexLe _).imp fun h => ?_
        rcases h with h | h
        · exact h.le
        · exact h.1.le

/-- **C69** fails: a collection without any conjugate pair is returned as two pairs, no error is raised. -/
theorem C69_wrong_pairs_violated : pairComplex (K := ℚ) [(1, -2), (1, -1), (2, 1), (2, 2)] (1 / 1000) (1 / 1000) false true
    = .ok [(1, -2), (1, 2), (2, -1), (2, 1)] := by decide +kernel

/-- **C69** fails: `1+i, 1+2i` raises `IndexError`. -/
theorem C69_index_violated : pairComplex (K := ℚ) [(1, 1), (1, 2)] (1 / 1000) (1 / 1000) false true = .error .index := by decide +kernel

/-- **C69**: an odd number of entries that are not real is a `ValueError`. Missing: an even number of entries that cannot be paired (`C69_wrong_pairs_violated`, `C69_index_violated`). -/
theorem C69_odd_partial {a : List (K × K)} {tol rtol : K} (hr0 : 0 < rtol) (hr1 : rtol ≤ 1) (pf rf : Bool) (h : (a.filter fun z => decide (rtol ≤ |z.2|)).length % 2 = 1) :
    pairComplex a tol rtol pf rf = .error .value := by
  have hlen : ((a.map (realIfClose rtol)).filter fun z => decide (rtol ≤ |z.2|)).length = (a.filter fun z => decide (rtol ≤ |z.2|)).length := by
    rw [List.filter_map, List.length_map]
    congr 1
    refine List.filter_congr fun z _ => ?_
    simp only [Function.comp, realIfClose_eq hr1, cleaned]
    split_ifs with hz
    · simp only [abs_zero, not_le.mpr hr0, not_le.mpr hz]
    · rfl
  unfold pairComplex
  rw [if_neg (by
    intro h0
    rw [List.length_eq_zero_iff.mp h0] at h
    simp at h)]
  simp only [hlen]
  rw [if_neg (by omega), if_pos (by omega)]

example : ConjClosed [((1 : ℚ), -2), (1, -1), (3, 0), (1, 1), (1, 2), (2, 0)] := by
  unfold ConjClosed; decide +kernel

end Harold
