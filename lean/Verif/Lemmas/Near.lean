import Verif.Spec.Near
import Verif.Lemmas.DiscLimit
import Verif.Lemmas.LogExists
import Verif.Lemmas.Kalman
import Mathlib.Topology.Compactness.Compact

/-!
# Continuity in the data of a model
-/

namespace Harold

open Matrix Spec NormedSpace Filter Topology

variable {n m p : ℕ} {A : Matrix (Fin n) (Fin n) ℝ} {B : Matrix (Fin n) (Fin m) ℝ} {C : Matrix (Fin p) (Fin n) ℝ} {D : Matrix (Fin p) (Fin m) ℝ}

theorem near_mem {r c : ℕ} {X : Matrix (Fin r) (Fin c) ℝ} {s : Set (Matrix (Fin r) (Fin c) ℝ)} (h : s ∈ 𝓝 X) : ∃ ε > 0, ∀ Y, Near ε Y X → Y ∈ s := by
  obtain ⟨ε, h1, h2⟩ := Metric.mem_nhds_iff (α := Fin r → Fin c → ℝ).mp h
  refine ⟨ε, h1, fun Y hY => h2 ?_⟩
  exact (dist_pi_lt_iff (f := Y) (g := X) h1).mpr fun i => (dist_pi_lt_iff h1).mpr fun j => (Real.dist_eq _ _).trans_lt (hY i j)

theorem near_mono {r c : ℕ} {X Y : Matrix (Fin r) (Fin c) ℝ} {ε ε' : ℝ} (h : Near ε X Y) (he : ε ≤ ε') : Near ε' X Y := fun i j => (h i j).trans_le he

theorem near4_of {P : Matrix (Fin n) (Fin n) ℝ × Matrix (Fin n) (Fin m) ℝ × Matrix (Fin p) (Fin n) ℝ × Matrix (Fin p) (Fin m) ℝ → Prop} (h : ∀ᶠ q in 𝓝 (A, B, C, D), P q) :
    ∃ ε > 0, ∀ A' B' C' D', Near4 ε A A' B B' C C' D D' → P (A', B', C', D') := by
  obtain ⟨s1, h1, t1, k1, e1⟩ := mem_nhds_prod_iff.mp h
  obtain ⟨s2, h2, t2, k2, e2⟩ := mem_nhds_prod_iff.mp k1
  obtain ⟨s3, h3, s4, h4, e3⟩ := mem_nhds_prod_iff.mp k2
  obtain ⟨a, a0, ha⟩ := near_mem h1
  obtain ⟨b, b0, hb⟩ := near_mem h2
  obtain ⟨c, c0, hc⟩ := near_mem h3
  obtain ⟨d, d0, hd⟩ := near_mem h4
  refine ⟨min (min a b) (min c d), by positivity, fun A' B' C' D' ⟨n1, n2, n3, n4⟩ => ?_⟩
  refine e1 ⟨ha _ (near_mono n1 ?_), e2 ⟨hb _ (near_mono n2 ?_), e3 ⟨hc _ (near_mono n3 ?_), hd _ (near_mono n4 ?_)⟩⟩⟩
  · exact (min_le_left _ _).trans (min_le_left _ _)
  · exact (min_le_left _ _).trans (min_le_right _ _)
  · exact (min_le_right _ _).trans (min_le_left _ _)
  · exact (min_le_right _ _).trans (min_le_right _ _)

/-- Eigenvalues are bounded by the sum of the moduli of the entries. -/
theorem eig_bound {z : ℂ} (h : IsEig A z) : ‖z‖ ≤ ∑ i, ∑ j, |A i j| := by
  obtain ⟨v, hv, h1⟩ := vec_of_isEig h
  have h2 : ‖z‖ * ‖v‖ ≤ (∑ i, ∑ j, |A i j|) * ‖v‖ := by
    rw [← norm_smul, ← h1, pi_norm_le_iff_of_nonneg (by positivity)]
    intro i
    show ‖∑ j, (A i j : ℂ) * v j‖ ≤ _
    refine (norm_sum_le _ _).trans ?_
    have h3 : ∀ j ∈ Finset.univ, ‖(A i j : ℂ) * v j‖ ≤ |A i j| * ‖v‖ := fun j _ => by
      rw [norm_mul, Complex.norm_real, Real.norm_eq_abs]
      exact mul_le_mul_of_nonneg_left (norm_le_pi_norm v j) (abs_nonneg _)
    refine (Finset.sum_le_sum h3).trans ?_
    rw [← Finset.sum_mul]
    exact mul_le_mul_of_nonneg_right (Finset.single_le_sum (f := fun i => ∑ j, |A i j|) (fun i _ => by positivity) (Finset.mem_univ i)) (norm_nonneg _)
  exact le_of_mul_le_mul_right h2 (norm_pos_iff.mpr hv)

theorem det_continuous : Continuous fun q : Matrix (Fin n) (Fin n) ℝ × ℂ => (q.2 • (1 : Matrix (Fin n) (Fin n) ℂ) - q.1.map (algebraMap ℝ ℂ)).det := by
  refine Continuous.matrix_det ?_
  have h1 : Continuous fun q : Matrix (Fin n) (Fin n) ℝ × ℂ => q.1.map (algebraMap ℝ ℂ) := continuous_fst.matrix_map Complex.continuous_ofReal
  exact (continuous_snd.smul continuous_const).sub h1

/-- No eigenvalue of a nearby matrix is far from the eigenvalues. -/
theorem eig_upper {U : Set ℂ} (hU : IsOpen U) (h : ∀ z, IsEig A z → z ∈ U) : ∀ᶠ A' in 𝓝 A, ∀ z, IsEig A' z → z ∈ U := by
  have hb : Continuous fun A' : Matrix (Fin n) (Fin n) ℝ => ∑ i, ∑ j, |A' i j| := by
    refine continuous_finsetSum _ fun i _ => continuous_finsetSum _ fun j _ => ?_
    exact (continuous_id.matrix_elem i j).abs
  have h1 : ∀ᶠ A' in 𝓝 A, ∑ i, ∑ j, |A' i j| < ∑ i, ∑ j, |A i j| + 1 := (hb.tendsto A).eventually (gt_mem_nhds (lt_add_one _))
  have hK : IsCompact (Metric.closedBall (0 : ℂ) (∑ i, ∑ j, |A i j| + 1) \ U) := (isCompact_closedBall _ _).diff hU
  have h2 := hK.eventually_forall_of_forall_eventually (x₀ := A) (P := fun A' z => ¬ IsEig A' z) fun z hz =>
    (det_continuous.tendsto (A, z)).eventually_ne fun h0 => hz.2 (h z h0)
  filter_upwards [h1, h2] with A' h3 h4 z hz
  by_contra h5
  refine h4 z ⟨?_, h5⟩ hz
  rw [mem_closedBall_zero_iff]
  exact (eig_bound hz).trans h3.le

/-- Every eigenvalue has an eigenvalue of a nearby matrix next to it. -/
theorem eig_lower {z : ℂ} (h : IsEig A z) {δ : ℝ} (hδ : 0 < δ) : ∀ᶠ A' in 𝓝 A, ∃ z', IsEig A' z' ∧ ‖z' - z‖ < δ := by
  have h1 : Tendsto (fun A' : Matrix (Fin n) (Fin n) ℝ => ‖(z • (1 : Matrix (Fin n) (Fin n) ℂ) - A'.map (algebraMap ℝ ℂ)).det‖) (𝓝 A) (𝓝 0) := by
    have h2 : Continuous fun A' : Matrix (Fin n) (Fin n) ℝ => (z • (1 : Matrix (Fin n) (Fin n) ℂ) - A'.map (algebraMap ℝ ℂ)).det := det_continuous.comp (continuous_id.prodMk continuous_const)
    have h3 := (h2.tendsto A).norm
    rwa [show (z • (1 : Matrix (Fin n) (Fin n) ℂ) - A.map (algebraMap ℝ ℂ)).det = 0 from h, norm_zero] at h3
  filter_upwards [h1.eventually (gt_mem_nhds (pow_pos hδ n))] with A' h2
  by_contra h3
  push Not at h3
  set q := (A'.map (algebraMap ℝ ℂ)).charpoly with hq
  have e1 : ∀ w : ℂ, q.eval w = (w • (1 : Matrix (Fin n) (Fin n) ℂ) - A'.map (algebraMap ℝ ℂ)).det := fun w => by
    rw [hq, Matrix.eval_charpoly, Matrix.smul_one_eq_diagonal]
    rfl
  have e2 := (IsAlgClosed.splits q).eval_eq_prod_roots_of_monic (Matrix.charpoly_monic _) z
  have e3 : q.roots.card = n := by
    rw [← (IsAlgClosed.splits q).natDegree_eq_card_roots, hq, Matrix.charpoly_natDegree_eq_dim, Fintype.card_fin]
  rw [← e1, e2] at h2
  have e4 : δ ^ n ≤ ‖(q.roots.map fun a => z - a).prod‖ := by
    have : ∀ s : Multiset ℂ, (∀ w ∈ s, δ ≤ ‖z - w‖) → δ ^ s.card ≤ ‖(s.map fun a => z - a).prod‖ := by
      intro s
      induction s using Multiset.induction_on with
      | empty => simp
      | cons a s ih =>
        intro hs
        rw [Multiset.card_cons, Multiset.map_cons, Multiset.prod_cons, norm_mul, pow_succ, mul_comm]
        exact mul_le_mul (hs a (Multiset.mem_cons_self a s)) (ih fun w hw => hs w (Multiset.mem_cons_of_mem hw)) (by positivity) (norm_nonneg _)
    rw [← e3]
    refine this _ fun w hw => ?_
    rw [norm_sub_rev]
    refine h3 w ?_
    show _ = _
    rw [← e1]
    exact (Polynomial.mem_roots'.mp hw).2
  linarith

theorem tf_near {s : ℂ} {M : Matrix (Fin p) (Fin m) ℂ} (hM : IsTF (A.map (algebraMap ℝ ℂ)) (B.map (algebraMap ℝ ℂ)) (C.map (algebraMap ℝ ℂ)) (D.map (algebraMap ℝ ℂ)) s M) {δ : ℝ} (hδ : 0 < δ) :
    ∀ᶠ q : Matrix (Fin n) (Fin n) ℝ × Matrix (Fin n) (Fin m) ℝ × Matrix (Fin p) (Fin n) ℝ × Matrix (Fin p) (Fin m) ℝ in 𝓝 (A, B, C, D),
      ∃ F, IsTF (q.1.map (algebraMap ℝ ℂ)) (q.2.1.map (algebraMap ℝ ℂ)) (q.2.2.1.map (algebraMap ℝ ℂ)) (q.2.2.2.map (algebraMap ℝ ℂ)) s F ∧ ∀ i j, ‖F i j - M i j‖ < δ := by
  obtain ⟨hd, rfl⟩ := hM
  have a1 : Tendsto (fun q : Matrix (Fin n) (Fin n) ℝ × Matrix (Fin n) (Fin m) ℝ × Matrix (Fin p) (Fin n) ℝ × Matrix (Fin p) (Fin m) ℝ => q.1) (𝓝 (A, B, C, D)) (𝓝 A) := continuous_fst.tendsto _
  have a2 : Tendsto (fun q : Matrix (Fin n) (Fin n) ℝ × Matrix (Fin n) (Fin m) ℝ × Matrix (Fin p) (Fin n) ℝ × Matrix (Fin p) (Fin m) ℝ => q.2.1) (𝓝 (A, B, C, D)) (𝓝 B) := (continuous_fst.comp continuous_snd).tendsto _
  have a3 : Tendsto (fun q : Matrix (Fin n) (Fin n) ℝ × Matrix (Fin n) (Fin m) ℝ × Matrix (Fin p) (Fin n) ℝ × Matrix (Fin p) (Fin m) ℝ => q.2.2.1) (𝓝 (A, B, C, D)) (𝓝 C) :=
    (continuous_fst.comp (continuous_snd.comp continuous_snd)).tendsto _
  have a4 : Tendsto (fun q : Matrix (Fin n) (Fin n) ℝ × Matrix (Fin n) (Fin m) ℝ × Matrix (Fin p) (Fin n) ℝ × Matrix (Fin p) (Fin m) ℝ => q.2.2.2) (𝓝 (A, B, C, D)) (𝓝 D) :=
    (continuous_snd.comp (continuous_snd.comp continuous_snd)).tendsto _
  have b1 := (tendsto_const_nhds (x := s • (1 : Matrix (Fin n) (Fin n) ℂ))).sub (map_tendsto a1)
  have b2 := (mul_tendsto (mul_tendsto (map_tendsto a3) (inv_tendsto b1 hd)) (map_tendsto a2)).add (map_tendsto a4)
  have b3 := (((continuous_id.matrix_det).tendsto _).comp b1).eventually_ne hd
  have b4 := eventually_all.mpr fun i => eventually_all.mpr fun j => (tendsto_pi_nhds.mp (tendsto_pi_nhds.mp b2 i) j).eventually (Metric.ball_mem_nhds _ hδ)
  filter_upwards [b3, b4] with q h1 h2
  exact ⟨_, ⟨h1, rfl⟩, fun i j => by rw [← dist_eq_norm]; exact h2 i j⟩

theorem ctrb_continuous (k : ℕ) : Continuous fun q : Matrix (Fin n) (Fin n) ℝ × Matrix (Fin n) (Fin m) ℝ => ctrbM q.1 q.2 k := by
  induction k with
  | zero => exact continuous_snd
  | succ k ih =>
    have h1 : Continuous fun q : Matrix (Fin n) (Fin n) ℝ × Matrix (Fin n) (Fin m) ℝ => q.1 ^ (k + 1) * q.2 := (continuous_fst.pow (k + 1)).matrix_mul continuous_snd
    refine continuous_matrix fun i j => ?_
    show Continuous fun q : Matrix (Fin n) (Fin n) ℝ × Matrix (Fin n) (Fin m) ℝ => hcat (ctrbM q.1 q.2 k) (q.1 ^ (k + 1) * q.2) i j
    refine Fin.addCases (fun j => ?_) (fun j => ?_) j
    · simpa [hcat] using ih.matrix_elem i j
    · simpa [hcat] using h1.matrix_elem i j

section
attribute [local instance] Matrix.linftyOpNormedAddCommGroup Matrix.linftyOpNormedRing Matrix.linftyOpNormedAlgebra

theorem exp_cont {l : ℕ} : Continuous (exp : Matrix (Fin l) (Fin l) ℝ → Matrix (Fin l) (Fin l) ℝ) := exp_continuous (𝔸 := Matrix (Fin l) (Fin l) ℝ)

end

theorem gam_continuous {ι : Type} [TopologicalSpace ι] {k : ℕ} {f : ι → Matrix (Fin n) (Fin n) ℝ} {g : ι → Matrix (Fin n) (Fin k) ℝ} (hf : Continuous f) (hg : Continuous g) :
    Continuous (fun q => exp (f q)) ∧ Continuous fun q => gam (f q) (g q) 0 := by
  refine ⟨exp_cont.comp hf, ?_⟩
  unfold gam
  refine (exp_cont.comp ?_).matrix_submatrix _ _
  unfold blk
  exact (hf.matrix_fromBlocks hg continuous_const continuous_const).matrix_submatrix _ _

end Harold
