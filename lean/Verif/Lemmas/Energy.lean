import Verif.Lemmas.MaxMod
import Verif.Lemmas.Decay
import Verif.Spec.Sim
import Mathlib.RingTheory.RootsOfUnity.Complex
import Mathlib.Algebra.Field.GeomSum
import Mathlib.Topology.Instances.Matrix
import Mathlib.Analysis.Asymptotics.SpecificAsymptotics

/-!
# The energy of periodic responses and of responses to finite inputs
-/

namespace Harold

open Matrix Finset Harold.Spec
open scoped ComplexConjugate

variable {n m p M : ℕ}

theorem orthogonal_roots {ζ : ℂ} (hζ : IsPrimitiveRoot ζ M) (hM : M ≠ 0) {k l : ℕ} (hk : k < M) (hl : l < M) :
    ∑ j ∈ range M, conj (ζ ^ (j * k)) * ζ ^ (j * l) = if k = l then (M : ℂ) else 0 := by
  have h1 : ‖ζ‖ = 1 := hζ.norm'_eq_one hM
  have h2 : conj ζ * ζ = 1 := by rw [Complex.conj_mul', h1]; norm_num
  have h3 : ∀ j, conj (ζ ^ (j * k)) * ζ ^ (j * l) = (conj ζ ^ k * ζ ^ l) ^ j := fun j => by
    rw [map_pow, mul_pow, ← pow_mul, ← pow_mul, mul_comm k, mul_comm l]
  simp only [h3]
  have hz : ζ ≠ 0 := fun h => by simp [h] at h1
  split_ifs with h
  · subst h
    rw [← mul_pow, h2]
    simp
  · have h4 : conj ζ ^ k * ζ ^ l ≠ 1 := by
      intro h5
      have h6 : ζ ^ l = ζ ^ k := by
        calc ζ ^ l = (conj ζ * ζ) ^ k * ζ ^ l := by rw [h2]; simp
          _ = (conj ζ ^ k * ζ ^ l) * ζ ^ k := by rw [mul_pow]; ring
          _ = ζ ^ k := by rw [h5, one_mul]
      exact h (hζ.pow_inj hl hk h6).symm
    rw [geom_sum_eq h4, mul_pow, ← pow_mul, ← pow_mul, mul_comm k, mul_comm l, pow_mul, pow_mul, ← map_pow, hζ.pow_eq_one]
    simp

/-- Parseval's identity for the discrete Fourier transform. -/
theorem parseval {ζ : ℂ} (hζ : IsPrimitiveRoot ζ M) (hM : M ≠ 0) (f : ℕ → ℂ) :
    ∑ j ∈ range M, ‖∑ k ∈ range M, ζ ^ (j * k) * f k‖ ^ 2 = M * ∑ k ∈ range M, ‖f k‖ ^ 2 := by
  have h : ((∑ j ∈ range M, ‖∑ k ∈ range M, ζ ^ (j * k) * f k‖ ^ 2 : ℝ) : ℂ) = ((M * ∑ k ∈ range M, ‖f k‖ ^ 2 : ℝ) : ℂ) := by
    push_cast
    simp only [← Complex.conj_mul', map_sum, map_mul, sum_mul_sum]
    rw [sum_comm, mul_sum]
    refine sum_congr rfl fun k hk => ?_
    rw [sum_comm]
    have h1 : ∀ l ∈ range M, ∑ j ∈ range M, conj (ζ ^ (j * k)) * conj (f k) * (ζ ^ (j * l) * f l) = if k = l then M * (conj (f k) * f k) else 0 := by
      intro l hl
      have h2 := orthogonal_roots hζ hM (mem_range.mp hk) (mem_range.mp hl)
      calc ∑ j ∈ range M, conj (ζ ^ (j * k)) * conj (f k) * (ζ ^ (j * l) * f l) = (∑ j ∈ range M, conj (ζ ^ (j * k)) * ζ ^ (j * l)) * (conj (f k) * f l) := by
            rw [sum_mul]; exact sum_congr rfl fun j _ => by ring
        _ = _ := by rw [h2]; split_ifs with h3; · rw [h3]
                    · rw [zero_mul]
    rw [sum_congr rfl h1, sum_ite_eq, if_pos hk]
  exact_mod_cast h

theorem parseval_vec {q : ℕ} {ζ : ℂ} (hζ : IsPrimitiveRoot ζ M) (hM : M ≠ 0) (f : ℕ → Fin q → ℂ) :
    ∑ j ∈ range M, ∑ i, ‖(∑ k ∈ range M, ζ ^ (j * k) • f k) i‖ ^ 2 = M * ∑ k ∈ range M, ∑ i, ‖f k i‖ ^ 2 := by
  rw [sum_comm, sum_comm (s := range M) (f := fun k i => ‖f k i‖ ^ 2), mul_sum]
  refine sum_congr rfl fun i _ => ?_
  rw [← parseval hζ hM]
  simp [Finset.sum_apply]

/-- The transform of a periodic response. -/
theorem periodic_tf {A : Matrix (Fin n) (Fin n) ℂ} {B : Matrix (Fin n) (Fin m) ℂ} {x : ℕ → Fin n → ℂ} {u : ℕ → Fin m → ℂ} (hx : ∀ k < M, x (k + 1) = A *ᵥ x k + B *ᵥ u k)
    (hp : x M = x 0) {w : ℂ} (hw : w ^ M = 1) (hw0 : w ≠ 0) (hdet : (w⁻¹ • (1 : Matrix (Fin n) (Fin n) ℂ) - A).det ≠ 0) (C : Matrix (Fin p) (Fin n) ℂ) (D : Matrix (Fin p) (Fin m) ℂ) :
    ∑ k ∈ range M, w ^ k • (C *ᵥ x k + D *ᵥ u k) = tfAt A B C D w⁻¹ *ᵥ ∑ k ∈ range M, w ^ k • u k := by
  set X := ∑ k ∈ range M, w ^ k • x k with hX
  set U := ∑ k ∈ range M, w ^ k • u k with hU
  have h1 : w • (A *ᵥ X + B *ᵥ U) = X := by
    have h2 : w • (A *ᵥ X + B *ᵥ U) = ∑ k ∈ range M, w ^ (k + 1) • x (k + 1) := by
      rw [hX, hU, mulVec_sum, mulVec_sum, ← sum_add_distrib, smul_sum]
      refine sum_congr rfl fun k hk => ?_
      rw [hx k (mem_range.mp hk), mulVec_smul, mulVec_smul, pow_succ']
      module
    have h3 := sum_range_succ' (fun k => w ^ k • x k) M
    rw [sum_range_succ, hp, hw, ← h2, ← hX] at h3
    simpa using h3.symm
  have h2 : (w⁻¹ • (1 : Matrix (Fin n) (Fin n) ℂ) - A) *ᵥ X = B *ᵥ U := by
    rw [sub_mulVec, smul_mulVec, one_mulVec]
    nth_rw 1 [← h1]
    rw [smul_smul, inv_mul_cancel₀ hw0, one_smul]
    abel
  have h3 : X = (w⁻¹ • (1 : Matrix (Fin n) (Fin n) ℂ) - A)⁻¹ *ᵥ (B *ᵥ U) := by
    rw [← h2, mulVec_mulVec, nonsing_inv_mul _ (isUnit_iff_ne_zero.mpr hdet), one_mulVec]
  have h4 : ∑ k ∈ range M, w ^ k • (C *ᵥ x k + D *ᵥ u k) = C *ᵥ X + D *ᵥ U := by
    rw [hX, hU, mulVec_sum, mulVec_sum, ← sum_add_distrib]
    exact sum_congr rfl fun k _ => by rw [mulVec_smul, mulVec_smul]; module
  rw [h4, h3]
  simp only [tfAt, add_mulVec, mulVec_mulVec, Matrix.mul_assoc]

open scoped Matrix.Norms.L2Operator in
theorem sq_mulVec_le {γ : ℝ} {T : Matrix (Fin p) (Fin m) ℂ} (h : ‖T‖ ≤ γ) (v : Fin m → ℂ) : ∑ i, ‖(T *ᵥ v) i‖ ^ 2 ≤ γ ^ 2 * ∑ i, ‖v i‖ ^ 2 := by
  have h1 := l2_opNorm_mulVec T (WithLp.toLp 2 v)
  have h2 : ‖(WithLp.toLp 2 (T *ᵥ v) : EuclideanSpace ℂ (Fin p))‖ ≤ γ * ‖(WithLp.toLp 2 v : EuclideanSpace ℂ (Fin m))‖ := h1.trans (mul_le_mul_of_nonneg_right h (norm_nonneg _))
  have h3 := pow_le_pow_left₀ (norm_nonneg _) h2 2
  rw [mul_pow, EuclideanSpace.norm_sq_eq, EuclideanSpace.norm_sq_eq] at h3
  exact h3

open scoped Matrix.Norms.L2Operator in
/-- The energy of a periodic response over one period. -/
theorem periodic_energy {A : Matrix (Fin n) (Fin n) ℂ} {B : Matrix (Fin n) (Fin m) ℂ} {x : ℕ → Fin n → ℂ} {u : ℕ → Fin m → ℂ} (hM : M ≠ 0) (hx : ∀ k < M, x (k + 1) = A *ᵥ x k + B *ᵥ u k)
    (hp : x M = x 0) (hdet : ∀ z : ℂ, ‖z‖ = 1 → (z • (1 : Matrix (Fin n) (Fin n) ℂ) - A).det ≠ 0) {C : Matrix (Fin p) (Fin n) ℂ} {D : Matrix (Fin p) (Fin m) ℂ} {γ : ℝ}
    (hγ : ∀ z : ℂ, ‖z‖ = 1 → ‖tfAt A B C D z‖ ≤ γ) :
    ∑ k ∈ range M, ∑ i, ‖(C *ᵥ x k + D *ᵥ u k) i‖ ^ 2 ≤ γ ^ 2 * ∑ k ∈ range M, ∑ i, ‖u k i‖ ^ 2 := by
  have hζ := Complex.isPrimitiveRoot_exp M hM
  set ζ := Complex.exp (2 * Real.pi * Complex.I / M) with hz
  have h1 : ‖ζ‖ = 1 := hζ.norm'_eq_one hM
  have hz0 : ζ ≠ 0 := fun h => by simp [h] at h1
  have h2 := parseval_vec hζ hM (fun k => C *ᵥ x k + D *ᵥ u k)
  have h3 := parseval_vec hζ hM u
  have h4 : ∀ j ∈ range M, ∑ i, ‖(∑ k ∈ range M, ζ ^ (j * k) • (C *ᵥ x k + D *ᵥ u k)) i‖ ^ 2 ≤ γ ^ 2 * ∑ i, ‖(∑ k ∈ range M, ζ ^ (j * k) • u k) i‖ ^ 2 := by
    intro j _
    have h5 : ‖(ζ ^ j)⁻¹‖ = 1 := by rw [norm_inv, norm_pow, h1]; simp
    have h6 := periodic_tf hx hp (w := ζ ^ j) (by rw [← pow_mul, mul_comm, pow_mul, hζ.pow_eq_one, one_pow]) (pow_ne_zero _ hz0) (hdet _ h5) C D
    simp only [← pow_mul] at h6
    rw [h6]
    exact sq_mulVec_le (hγ _ h5) _
  have h5 := sum_le_sum h4
  rw [← mul_sum, h2, h3] at h5
  have h6 : (0 : ℝ) < M := by exact_mod_cast Nat.pos_of_ne_zero hM
  refine le_of_mul_le_mul_left ?_ h6
  linarith

theorem map_mulVec_c {r c : ℕ} (T : Matrix (Fin r) (Fin c) ℝ) (v : Fin c → ℝ) : (T.map (algebraMap ℝ ℂ)) *ᵥ (fun i => (v i : ℂ)) = fun i => (((T *ᵥ v) i : ℝ) : ℂ) := by
  funext i
  exact (RingHom.map_mulVec (algebraMap ℝ ℂ) T v i).symm

theorem schur_circle_det {A : Matrix (Fin n) (Fin n) ℝ} (hA : Schur A) (z : ℂ) (hz : ‖z‖ = 1) : (z • (1 : Matrix (Fin n) (Fin n) ℂ) - A.map (algebraMap ℝ ℂ)).det ≠ 0 :=
  fun h => absurd (hA z h) (by rw [hz]; exact lt_irrefl 1)

open Filter Topology in
theorem schur_tendsto_zero {A : Matrix (Fin n) (Fin n) ℝ} (hA : Schur A) : Tendsto (fun k : ℕ => A ^ k) atTop (𝓝 0) :=
  tendsto_pi_nhds.mpr fun i => tendsto_pi_nhds.mpr fun j => schur_pow_tendsto hA i j

open Filter Topology in
open scoped Matrix.Norms.L2Operator in
/-- The energy of the response to a finite input. -/
theorem energy_le {A : Matrix (Fin n) (Fin n) ℝ} {B : Matrix (Fin n) (Fin m) ℝ} {C : Matrix (Fin p) (Fin n) ℝ} {D : Matrix (Fin p) (Fin m) ℝ} (hA : Schur A) {γ : ℝ}
    (hγ : ∀ z : ℂ, ‖z‖ = 1 → ‖tfAt (A.map (algebraMap ℝ ℂ)) (B.map (algebraMap ℝ ℂ)) (C.map (algebraMap ℝ ℂ)) (D.map (algebraMap ℝ ℂ)) z‖ ≤ γ) {z : ℕ → Fin n → ℝ} {w : ℕ → Fin m → ℝ}
    (hz0 : z 0 = 0) (hz : ∀ k, z (k + 1) = A *ᵥ z k + B *ᵥ w k) (N : ℕ) :
    ∑ k ∈ range N, ∑ i, (C *ᵥ z k + D *ᵥ w k) i ^ 2 ≤ γ ^ 2 * ∑ k ∈ range N, ∑ i, w k i ^ 2 := by
  rcases Nat.eq_zero_or_pos N with rfl | hN
  · simp
  set w' : ℕ → Fin m → ℝ := fun k => if k < N then w k else 0 with hw'
  set z' : ℕ → Fin n → ℝ := fun k => if k ≤ N then z k else A ^ (k - N) *ᵥ z N with hz'
  have hzs : ∀ k, z' (k + 1) = A *ᵥ z' k + B *ᵥ w' k := by
    intro k
    simp only [hz', hw']
    rcases lt_trichotomy k N with h | rfl | h
    · rw [if_pos (by omega), if_pos (by omega), if_pos h, hz]
    · rw [if_neg (by omega), if_pos le_rfl, if_neg (by omega)]
      simp
    · rw [if_neg (by omega), if_neg (by omega), if_neg (by omega), mulVec_mulVec, ← pow_succ', mulVec_zero, add_zero]
      congr 2
      omega
  set X0 : ℕ → Fin n → ℝ := fun M => (1 - A ^ M)⁻¹ *ᵥ (A ^ (M - N) *ᵥ z N) with hX0
  have ht := schur_tendsto_zero hA
  have hdet : Tendsto (fun M => (1 - A ^ M).det) atTop (𝓝 1) := by
    have h1 : Tendsto (fun M => 1 - A ^ M) atTop (𝓝 (1 - 0)) := tendsto_const_nhds.sub ht
    have h2 := ((continuous_id.matrix_det (A := fun X : Matrix (Fin n) (Fin n) ℝ => X)).tendsto (1 - 0)).comp h1
    simp only [sub_zero, det_one] at h2
    exact h2.congr fun M => rfl
  have hne : ∀ᶠ M in atTop, (1 - A ^ M).det ≠ 0 := hdet.eventually_ne one_ne_zero
  have hinv : Tendsto (fun M => (1 - A ^ M)⁻¹) atTop (𝓝 1) := by
    have h1 : Tendsto (fun M => 1 - A ^ M) atTop (𝓝 (1 - 0)) := tendsto_const_nhds.sub ht
    have h2 := ((continuous_id.matrix_adjugate (A := fun X : Matrix (Fin n) (Fin n) ℝ => X)).tendsto (1 - 0)).comp h1
    have h3 := (hdet.inv₀ one_ne_zero).smul h2
    simp only [sub_zero, inv_one, adjugate_one, one_smul] at h3
    refine h3.congr fun M => ?_
    rw [Matrix.inv_def, Ring.inverse_eq_inv']
    rfl
  have hX : Tendsto X0 atTop (𝓝 0) := by
    have h1 : Tendsto (fun M => A ^ (M - N)) atTop (𝓝 0) := ht.comp (tendsto_sub_atTop_nat N)
    have h2 : Tendsto (fun M => (1 - A ^ M)⁻¹ * A ^ (M - N)) atTop (𝓝 (1 * 0)) := hinv.mul h1
    have h3 : Continuous fun T : Matrix (Fin n) (Fin n) ℝ => T *ᵥ z N := continuous_id.matrix_mulVec continuous_const
    have h4 := (h3.tendsto (1 * 0)).comp h2
    simp only [mul_zero, zero_mulVec] at h4
    refine h4.congr fun M => ?_
    simp only [Function.comp, hX0, mulVec_mulVec]
  have hF : Continuous fun v : Fin n → ℝ => ∑ k ∈ range N, ∑ i, (C *ᵥ (A ^ k *ᵥ v + z k) + D *ᵥ w k) i ^ 2 := by
    refine continuous_finsetSum _ fun k _ => continuous_finsetSum _ fun i _ => ?_
    have h1 : Continuous fun v : Fin n → ℝ => C *ᵥ (A ^ k *ᵥ v + z k) + D *ᵥ w k :=
      (continuous_const.matrix_mulVec ((continuous_const.matrix_mulVec continuous_id).add continuous_const)).add continuous_const
    exact ((continuous_apply i).comp h1).pow 2
  have hlim := (hF.tendsto 0).comp hX
  have hgoal : ∑ k ∈ range N, ∑ i, (C *ᵥ (A ^ k *ᵥ (0 : Fin n → ℝ) + z k) + D *ᵥ w k) i ^ 2 = ∑ k ∈ range N, ∑ i, (C *ᵥ z k + D *ᵥ w k) i ^ 2 := by
    simp only [mulVec_zero, zero_add]
  rw [← hgoal]
  refine le_of_tendsto hlim ?_
  filter_upwards [hne, eventually_ge_atTop N] with M hM hMN
  simp only [Function.comp]
  set x : ℕ → Fin n → ℝ := fun k => A ^ k *ᵥ X0 M + z' k with hx
  have hxs : ∀ k, x (k + 1) = A *ᵥ x k + B *ᵥ w' k := by
    intro k
    simp only [hx]
    rw [hzs, mulVec_add, pow_succ', ← mulVec_mulVec, add_assoc]
  have hxp : x M = x 0 := by
    have h1 : (1 - A ^ M) *ᵥ X0 M = A ^ (M - N) *ᵥ z N := by
      simp only [hX0]
      rw [mulVec_mulVec, mul_nonsing_inv _ (isUnit_iff_ne_zero.mpr hM), one_mulVec]
    have h2 : z' M = A ^ (M - N) *ᵥ z N := by
      simp only [hz']
      split_ifs with h
      · obtain rfl : M = N := by omega
        simp
      · rfl
    have h3 : z' 0 = 0 := by simp [hz', hz0]
    simp only [hx]
    rw [h2, h3, ← h1, sub_mulVec, pow_zero, one_mulVec]
    abel
  have hE := periodic_energy (M := M) (x := fun k i => (x k i : ℂ)) (u := fun k i => (w' k i : ℂ)) (A := A.map (algebraMap ℝ ℂ)) (B := B.map (algebraMap ℝ ℂ)) (by omega)
    (fun k _ => by
      rw [map_mulVec_c, map_mulVec_c, hxs]
      funext i
      simp) (by rw [hxp]) (schur_circle_det hA) hγ
  simp only [map_mulVec_c] at hE
  have e1 : ∀ k i, ‖((fun i => (((C *ᵥ x k) i : ℝ) : ℂ)) + fun i => (((D *ᵥ w' k) i : ℝ) : ℂ)) i‖ ^ 2 = (C *ᵥ x k + D *ᵥ w' k) i ^ 2 := by
    intro k i
    rw [Pi.add_apply, ← Complex.ofReal_add, Complex.norm_real, Real.norm_eq_abs, sq_abs, Pi.add_apply]
  have e2 : ∀ k i, ‖((w' k i : ℝ) : ℂ)‖ ^ 2 = w' k i ^ 2 := fun k i => by rw [Complex.norm_real, Real.norm_eq_abs, sq_abs]
  simp only [e1, e2] at hE
  have e3 : ∑ k ∈ range M, ∑ i, w' k i ^ 2 = ∑ k ∈ range N, ∑ i, w k i ^ 2 := by
    rw [← sum_subset (range_subset_range.mpr hMN) (fun k _ hk => by
      have : ¬ k < N := by simpa using hk
      simp [hw', this])]
    exact sum_congr rfl fun k hk => by simp [hw', mem_range.mp hk]
  rw [e3] at hE
  refine le_trans ?_ hE
  refine le_trans (le_of_eq ?_) (sum_le_sum_of_subset_of_nonneg (range_subset_range.mpr hMN) fun k _ _ => sum_nonneg fun i _ => sq_nonneg _)
  refine sum_congr rfl fun k hk => ?_
  have hk' := mem_range.mp hk
  simp only [hx, hz', hw', if_pos hk', if_pos hk'.le]

open scoped Matrix.Norms.L2Operator in
theorem opNorm_le_of_sq {γ : ℝ} (hγ0 : 0 ≤ γ) {T : Matrix (Fin p) (Fin m) ℂ} (h : ∀ v : Fin m → ℂ, ∑ i, ‖(T *ᵥ v) i‖ ^ 2 ≤ γ ^ 2 * ∑ i, ‖v i‖ ^ 2) : ‖T‖ ≤ γ := by
  rw [l2_opNorm_def]
  refine ContinuousLinearMap.opNorm_le_bound _ hγ0 fun v => ?_
  have h1 := h v
  have h2 : ‖(WithLp.toLp 2 (T *ᵥ v) : EuclideanSpace ℂ (Fin p))‖ ^ 2 ≤ (γ * ‖v‖) ^ 2 := by
    rw [mul_pow, EuclideanSpace.norm_sq_eq, EuclideanSpace.norm_sq_eq]
    exact h1
  exact le_of_sq_le_sq h2 (by positivity)

open Filter Topology in
open scoped Matrix.Norms.L2Operator in
/-- No smaller bound of the energies exists: sinusoidal inputs of growing length. -/
theorem gain_of_energy {A : Matrix (Fin n) (Fin n) ℝ} {B : Matrix (Fin n) (Fin m) ℝ} {C : Matrix (Fin p) (Fin n) ℝ} {D : Matrix (Fin p) (Fin m) ℝ} (hA : Schur A) {γ : ℝ} (hγ0 : 0 ≤ γ)
    (h : ∀ (z : ℕ → Fin n → ℝ) (w : ℕ → Fin m → ℝ), z 0 = 0 → (∀ k, z (k + 1) = A *ᵥ z k + B *ᵥ w k) → ∀ N, 2 ≤ N →
      ∑ k ∈ range N, ∑ i, (C *ᵥ z k + D *ᵥ w k) i ^ 2 ≤ γ ^ 2 * ∑ k ∈ range N, ∑ i, w k i ^ 2) (s : ℂ) (hs : ‖s‖ = 1) :
    ‖tfAt (A.map (algebraMap ℝ ℂ)) (B.map (algebraMap ℝ ℂ)) (C.map (algebraMap ℝ ℂ)) (D.map (algebraMap ℝ ℂ)) s‖ ≤ γ := by
  set Ac := A.map (algebraMap ℝ ℂ) with hAc
  set Bc := B.map (algebraMap ℝ ℂ) with hBc
  set Cc := C.map (algebraMap ℝ ℂ) with hCc
  set Dc := D.map (algebraMap ℝ ℂ) with hDc
  refine opNorm_le_of_sq hγ0 fun v => ?_
  set X : Fin n → ℂ := (s • (1 : Matrix (Fin n) (Fin n) ℂ) - Ac)⁻¹ *ᵥ (Bc *ᵥ v) with hX
  have hXe : s • X = Ac *ᵥ X + Bc *ᵥ v := by
    have h1 : (s • (1 : Matrix (Fin n) (Fin n) ℂ) - Ac) *ᵥ X = Bc *ᵥ v := by
      rw [hX, mulVec_mulVec, mul_nonsing_inv _ (isUnit_iff_ne_zero.mpr (schur_circle_det hA s hs)), one_mulVec]
    rw [← h1, sub_mulVec, smul_mulVec, one_mulVec]
    abel
  set x : ℕ → Fin n → ℂ := fun k => s ^ k • X - Ac ^ k *ᵥ X with hx
  set u : ℕ → Fin m → ℂ := fun k => s ^ k • v with hu
  have hx0 : x 0 = 0 := by simp [hx]
  have hxs : ∀ k, x (k + 1) = Ac *ᵥ x k + Bc *ᵥ u k := by
    intro k
    simp only [hx, hu]
    rw [mulVec_sub, mulVec_smul, mulVec_smul, pow_succ' Ac, ← mulVec_mulVec, pow_succ s, mul_smul, hXe]
    module
  have hre : ∀ {r c : ℕ} (T : Matrix (Fin r) (Fin c) ℝ) (v : Fin c → ℂ) (i : Fin r), ((T.map (algebraMap ℝ ℂ) *ᵥ v) i).re = (T *ᵥ fun j => (v j).re) i := by
    intro r c T v i
    simp [mulVec, dotProduct, Complex.re_sum]
  have him : ∀ {r c : ℕ} (T : Matrix (Fin r) (Fin c) ℝ) (v : Fin c → ℂ) (i : Fin r), ((T.map (algebraMap ℝ ℂ) *ᵥ v) i).im = (T *ᵥ fun j => (v j).im) i := by
    intro r c T v i
    simp [mulVec, dotProduct, Complex.im_sum]
  have hen : ∀ N, 2 ≤ N → ∑ k ∈ range N, ∑ i, ‖(Cc *ᵥ x k + Dc *ᵥ u k) i‖ ^ 2 ≤ γ ^ 2 * ∑ k ∈ range N, ∑ i, ‖u k i‖ ^ 2 := by
    intro N hN
    have h1 := h (fun k i => (x k i).re) (fun k i => (u k i).re) (by funext i; simp [hx0]) (fun k => by
      funext i
      rw [hxs, Pi.add_apply, Complex.add_re, hre, hre, Pi.add_apply]) N hN
    have h2 := h (fun k i => (x k i).im) (fun k i => (u k i).im) (by funext i; simp [hx0]) (fun k => by
      funext i
      rw [hxs, Pi.add_apply, Complex.add_im, him, him, Pi.add_apply]) N hN
    have e1 : ∀ z : ℂ, ‖z‖ ^ 2 = z.re ^ 2 + z.im ^ 2 := fun z => by rw [← Complex.normSq_eq_norm_sq, Complex.normSq_apply]; ring
    simp only [e1, sum_add_distrib, Pi.add_apply, Complex.add_re, Complex.add_im, hCc, hDc, hre, him]
    simp only [Pi.add_apply] at h1 h2
    linarith
  set T := tfAt Ac Bc Cc Dc s with hT
  have hTv : T *ᵥ v = Cc *ᵥ X + Dc *ᵥ v := by
    simp only [hT, hX, tfAt, add_mulVec, mulVec_mulVec, Matrix.mul_assoc]
  have hlim : Tendsto (fun k => ∑ i, ‖(Cc *ᵥ x k + Dc *ᵥ u k) i‖ ^ 2) atTop (𝓝 (∑ i, ‖(T *ᵥ v) i‖ ^ 2)) := by
    have hc : Continuous fun E : Fin n → ℂ => ∑ i, ‖(T *ᵥ v - Cc *ᵥ E) i‖ ^ 2 := by
      refine continuous_finsetSum _ fun i _ => ?_
      have h1 : Continuous fun E : Fin n → ℂ => T *ᵥ v - Cc *ᵥ E := continuous_const.sub (continuous_const.matrix_mulVec continuous_id)
      exact (((continuous_apply i).comp h1).norm).pow 2
    have hE : Tendsto (fun k => (s ^ k)⁻¹ • (Ac ^ k *ᵥ X)) atTop (𝓝 0) := by
      refine tendsto_pi_nhds.mpr fun i => ?_
      refine squeeze_zero_norm (a := fun k => ‖(Ac ^ k *ᵥ X) i‖) (fun k => ?_) ?_
      · simp [hs]
      · have h1 : Tendsto (fun k => Ac ^ k) atTop (𝓝 0) := by
          have h2 : Continuous fun T : Matrix (Fin n) (Fin n) ℝ => T.map (algebraMap ℝ ℂ) := continuous_id.matrix_map Complex.continuous_ofReal
          have h3 := (h2.tendsto 0).comp (schur_tendsto_zero hA)
          have h4 : (0 : Matrix (Fin n) (Fin n) ℝ).map (algebraMap ℝ ℂ) = 0 := Matrix.map_zero _ (map_zero _)
          rw [h4] at h3
          refine h3.congr fun k => ?_
          simp only [Function.comp, hAc]
          exact Matrix.map_pow A (algebraMap ℝ ℂ) k
        have h2 : Continuous fun T : Matrix (Fin n) (Fin n) ℂ => ‖(T *ᵥ X) i‖ := ((continuous_apply i).comp (continuous_id.matrix_mulVec continuous_const)).norm
        have h3 := (h2.tendsto 0).comp h1
        simp only [zero_mulVec, Pi.zero_apply, norm_zero] at h3
        exact h3.congr fun k => rfl
    have h1 := (hc.tendsto 0).comp hE
    simp only [mulVec_zero, sub_zero] at h1
    refine h1.congr fun k => ?_
    have hsk : ‖s ^ k‖ = 1 := by rw [norm_pow, hs, one_pow]
    have hsk0 : s ^ k ≠ 0 := fun h0 => by rw [h0] at hsk; simp at hsk
    simp only [Function.comp]
    refine sum_congr rfl fun i _ => ?_
    have e : Cc *ᵥ x k + Dc *ᵥ u k = s ^ k • (T *ᵥ v - Cc *ᵥ ((s ^ k)⁻¹ • (Ac ^ k *ᵥ X))) := by
      simp only [hx, hu]
      rw [hTv, mulVec_sub, mulVec_smul, mulVec_smul, mulVec_smul, smul_sub, smul_smul, mul_inv_cancel₀ hsk0, one_smul]
      module
    rw [e, Pi.smul_apply, norm_smul, hsk, one_mul]
  have hces := hlim.cesaro
  refine le_of_tendsto hces ?_
  filter_upwards [eventually_ge_atTop 2] with N hN
  have h1 := hen N hN
  have h2 : ∀ k, ∑ i, ‖u k i‖ ^ 2 = ∑ i, ‖v i‖ ^ 2 := fun k => sum_congr rfl fun i _ => by
    simp [hu, hs]
  simp only [h2, sum_const, card_range, nsmul_eq_mul] at h1
  have hN0 : (0 : ℝ) < N := by exact_mod_cast (by omega : 0 < N)
  rw [inv_mul_le_iff₀ hN0]
  linarith

end Harold
