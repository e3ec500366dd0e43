import Verif.Lemmas.StateMul
import Verif.Lemmas.Index

/-!
# `State.__getitem__`
-/

namespace Harold

open Matrix Spec

variable {K L : Type} [Field K] [LinearOrder K] [Field L] [Algebra K L]
variable {G H : StateM K} {p m q k : ℕ} {s : L}

local notation "φ" => algebraMap K L

/-- The positions of a list with entries below `n`. -/
def posOf {n : ℕ} (l : List ℕ) (h : ∀ k ∈ l, k < n) (i : Fin l.length) : Fin n :=
  ⟨l[i], h _ (l.getElem_mem _)⟩

theorem select_of (M : Matrix (Fin p) (Fin m) K) (rs cs : List ℕ) (hr : ∀ k ∈ rs, k < p)
    (hc : ∀ k ∈ cs, k < m) :
    (Arr.of M).select rs cs = Arr.of (M.submatrix (posOf rs hr) (posOf cs hc)) := by
  simp only [Arr.select]
  congr 1
  ext i j
  have h1 : rs.get i < p := hr _ (rs.getElem_mem _)
  have h2 : cs.get j < m := hc _ (cs.getElem_mem _)
  simp only [Matrix.of_apply, Arr.of_r, Arr.of_c, h1, h2, and_self, dif_pos, submatrix_apply]
  rfl

theorem select_range_left (M : Matrix (Fin p) (Fin m) K) (cs : List ℕ) (hc : ∀ k ∈ cs, k < m) :
    (Arr.of M).select (List.range p) cs = Arr.of (M.submatrix id (posOf cs hc)) := by
  rw [select_of M _ cs (by simp) hc, Arr.of_cast (List.length_range (n := p)).symm rfl]
  congr 1
  ext i j
  simp [posOf]

theorem select_range_right (M : Matrix (Fin p) (Fin m) K) (rs : List ℕ) (hr : ∀ k ∈ rs, k < p) :
    (Arr.of M).select rs (List.range m) = Arr.of (M.submatrix (posOf rs hr) id) := by
  rw [select_of M rs _ hr (by simp), Arr.of_cast rfl (List.length_range (n := m)).symm]
  congr 1
  ext i j
  simp [posOf]

theorem getitem_hasTF {M : Matrix (Fin p) (Fin m) L} (h : HasTF G p m s M) (hdt : DtOk G.dt)
    {rows cols : Idx} {rs cs : List ℕ} (hr : Selects p rows rs) (hc : Selects m cols cs)
    (hr0 : rs ≠ []) (hc0 : cs ≠ []) :
    ∃ R, G.getitem rows cols = .ok R ∧
      HasTF R rs.length cs.length s (M.submatrix (posOf rs hr.lt) (posOf cs hc.lt)) ∧
      R.dt = G.dt ∧ R.isgain = G.isgain := by
  have hp : G.p = p := h.r_eq
  have hm : G.m = m := h.c_eq
  cases hg : G.isgain
  · obtain ⟨n, A, B, C, D, hA, hB, hC, hD, hT⟩ := dyn_elim h hg
    have hn : G.n = n := by simp [StateM.n, hA]
    refine ok_dyn' hdt (by
      simp only [StateM.getitem, hp, hm, hn, arangeIdx_ok hr, arangeIdx_ok hc, bind, Except.bind,
        hr0, hc0, or_self, if_false, hg, hA, hB, hC, hD, Bool.false_eq_true,
        select_range_left B cs hc.lt, select_range_right C rs hr.lt, select_of D rs cs hr.lt hc.lt]
      rfl) ?_
    rw [← submatrix_map, ← submatrix_map, ← submatrix_map]
    exact hT.submatrix _ _
  · obtain ⟨D, hD, rfl⟩ := gain_elim h hg
    refine ok_gain hdt (by
      simp only [StateM.getitem, hp, hm, arangeIdx_ok hr, arangeIdx_ok hc, bind, Except.bind,
        hr0, hc0, or_self, if_false, hg, hD, if_true, select_of D rs cs hr.lt hc.lt]
      ) (submatrix_map _ _ _ _)

end Harold
