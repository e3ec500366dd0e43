import Verif.Spec.Duality
import Verif.Lemmas.Duality
import Verif.Lemmas.VNorm
import Verif.Props.TimeUnits
import Verif.Props.TransZeros
import Verif.Props.LoopKalman

/-!
# C116: a model and its transpose
-/

namespace Harold

open Matrix Spec Filter Topology

variable {n m p : ℕ} {A : Matrix (Fin n) (Fin n) ℝ} {B : Matrix (Fin n) (Fin m) ℝ} {C : Matrix (Fin p) (Fin n) ℝ} {D : Matrix (Fin p) (Fin m) ℝ} {dt : Option ℝ}

/-- **C116**, values: the transfer matrix of the transpose is the transposed transfer matrix. -/
theorem C116_value {G G' : StateM ℝ} (hG : Transposed A B C D dt G G') (s : ℂ) (M : Matrix (Fin p) (Fin m) ℂ) : HasTF G' m p s Mᵀ ↔ HasTF G p m s M := by
  obtain ⟨rfl, rfl⟩ := hG
  exact hasTF_stateOf.trans (tf_transpose_iff.trans hasTF_stateOf.symm)

/-- **C116**, products: the transpose of a product is the product of the transposes in reverse order. -/
theorem C116_product {q k : ℕ} {A₂ : Matrix (Fin k) (Fin k) ℝ} {B₂ : Matrix (Fin k) (Fin q) ℝ} {C₂ : Matrix (Fin m) (Fin k) ℝ} {D₂ : Matrix (Fin m) (Fin q) ℝ} {G G' H H' R : StateM ℝ}
    (hG : Transposed A B C D dt G G') (hH : Transposed A₂ B₂ C₂ D₂ dt H H') (hdt : DtOk dt) {s : ℂ} {M : Matrix (Fin p) (Fin m) ℂ} {N : Matrix (Fin m) (Fin q) ℂ} (hM : HasTF G p m s M) (hN : HasTF H m q s N)
    (fuel : ℕ) (h : G.matmul (fuel + 1) H = .ok R) : HasTF R p q s (M * N) ∧ ∃ R', H'.matmul (fuel + 1) G' = .ok R' ∧ HasTF R' q p s (M * N)ᵀ := by
  have hM' := (C116_value hG s M).mpr hM
  have hN' := (C116_value hH s N).mpr hN
  obtain ⟨R₁, e1, e2, -⟩ := C17_matmul hM hN (by rw [hG.1]; exact hdt) (by rw [hG.1, hH.1]) fuel
  obtain rfl : R₁ = R := Except.ok.inj (e1.symm.trans h)
  obtain ⟨R', e3, e4, -⟩ := C17_matmul hN' hM' (by rw [hH.2]; exact hdt) (by rw [hG.2, hH.2]) fuel
  exact ⟨e2, R', e3, by rwa [transpose_mul]⟩

section tests
variable {S : SvdNum ℝ}

/-- **C116**, controllability and observability: the test for controllability of a model answers what the test for observability of its transpose answers and vice versa. -/
theorem C116_kalman (he : 0 ≤ S.eps) (hS : ∀ (k l : ℕ) (M : Matrix (Fin k) (Fin l) ℝ), SvdExact S M) (hn : 0 < n) (hm : 0 < m) (hp : 0 < p) {G G' : StateM ℝ} (hG : Transposed A B C D dt G G') :
    (∃ t, isKalmanControllableArg S (.state G) = .ok t ∧ isKalmanObservableArg S (.state G') = .ok t) ∧
    ∃ t, isKalmanObservableArg S (.state G) = .ok t ∧ isKalmanControllableArg S (.state G') = .ok t := by
  obtain ⟨rfl, rfl⟩ := hG
  obtain ⟨⟨t, h1, h2⟩, t', h3, h4⟩ := C77_tests he (A := A) (B := B) (C := C) hS hn hm hp (G := .state ⟨Arr.of A, Arr.of B, Arr.of C, Arr.of D, dt, false⟩)
    (H := .state ⟨Arr.of A, Arr.of B, Arr.of C, Arr.of D, dt, false⟩) (.state _ rfl rfl) (.state _ rfl rfl)
  obtain ⟨⟨u, k1, k2⟩, u', k3, k4⟩ := C77_tests he (A := Aᵀ) (B := Cᵀ) (C := Bᵀ) hS hn hp hm (G := .state ⟨Arr.of Aᵀ, Arr.of Cᵀ, Arr.of Bᵀ, Arr.of Dᵀ, dt, false⟩)
    (H := .state ⟨Arr.of Aᵀ, Arr.of Cᵀ, Arr.of Bᵀ, Arr.of Dᵀ, dt, false⟩) (.state _ rfl rfl) (.state _ rfl rfl)
  refine ⟨⟨t, h1, ?_⟩, t', h3, ?_⟩
  · rw [k3]
    congr 1
    rw [Bool.eq_iff_iff, h2, k4, observable_iff_dual, transpose_transpose, transpose_transpose]
  · rw [k1]
    congr 1
    rw [Bool.eq_iff_iff, k2, h4, observable_iff_dual]

/-- **C116**, least number of states: a model has it exactly if its transpose has. -/
theorem C116_least {G G' : StateM ℝ} (hG : Transposed A B C D dt G G') : LeastOrder G' m p ↔ LeastOrder G p m := by
  obtain ⟨rfl, rfl⟩ := hG
  rw [rep_least_iff (rep_dyn A B C D dt), rep_least_iff (rep_dyn Aᵀ Cᵀ Bᵀ Dᵀ dt), observable_iff_dual, observable_iff_dual, transpose_transpose, transpose_transpose, and_comm]

end tests

section zeros
variable {T : TzNum}

theorem invariantZero_transpose {s : ℂ} : InvariantZero Aᵀ Cᵀ Bᵀ Dᵀ s ↔ InvariantZero A B C D s := by
  have e : ∀ s, (sysPencil Aᵀ Cᵀ Bᵀ Dᵀ s).rank = (sysPencil A B C D s).rank := fun s => by
    rw [← rank_transpose (sysPencil A B C D s)]
    congr 1
    unfold sysPencil
    rw [fromBlocks_transpose, transpose_sub, transpose_smul, transpose_one]
    rfl
  unfold InvariantZero
  simp only [e]

theorem tfAt_transpose {s : ℂ} {M : Matrix (Fin p) (Fin m) ℂ} : TfAt Aᵀ Cᵀ Bᵀ Dᵀ s Mᵀ ↔ TfAt A B C D s M :=
  tf_transpose_iff (A := A.map Complex.ofReal) (B := B.map Complex.ofReal) (C := C.map Complex.ofReal) (D := D.map Complex.ofReal)

/-- **C116**, transmission zeros: if all values returned for a model and for its transpose are finite, the two results contain the same values. Missing from the full claim: as in `C73_zeros_partial`. -/
theorem C116_zeros_partial (hT : TzExact T) (hB : B ≠ 0) (hC : C ≠ 0) (hr : ∃ μ M, TfAt A B C D μ M ∧ M ≠ 0) : ∃ z z', transmissionZeros T ⟨Arr.of A, Arr.of B, Arr.of C, Arr.of D⟩ = .ok z ∧
    transmissionZeros T ⟨Arr.of Aᵀ, Arr.of Cᵀ, Arr.of Bᵀ, Arr.of Dᵀ⟩ = .ok z' ∧ (none ∉ z → none ∉ z' → ∀ s, some s ∈ z' ↔ some s ∈ z) := by
  obtain ⟨μ, M, hM, hne⟩ := hr
  obtain ⟨z, h1, h2⟩ := C73_zeros_partial hT hB hC ⟨μ, M, hM, hne⟩
  obtain ⟨z', h3, h4⟩ := C73_zeros_partial hT (A := Aᵀ) (B := Cᵀ) (C := Bᵀ) (D := Dᵀ) (fun h => hC (by simpa using congrArg transpose h)) (fun h => hB (by simpa using congrArg transpose h))
    ⟨μ, Mᵀ, tfAt_transpose.mpr hM, fun h => hne (by simpa using congrArg transpose h)⟩
  exact ⟨z, z', h1, h3, fun hz hz' s => by rw [h2 hz, h4 hz', invariantZero_transpose]⟩

/-- Lists with products of linear factors agreeing at all but finitely many points. -/
theorem perm_of_prod_off {l l' : List ℂ} {k k' : ℂ} {f : Polynomial ℂ} (hf : f ≠ 0) (hk : k ≠ 0) (hk' : k' ≠ 0)
    (h : ∀ s, f.eval s ≠ 0 → k * (l.map fun z => s - z).prod = k' * (l'.map fun z => s - z).prod) : List.Perm l l' := by
  have e : ∀ (l : List ℂ) (s : ℂ), (l.map fun z => s - z).prod = ((l.map fun z => Polynomial.X - Polynomial.C z).prod).eval s := fun l s => by
    induction l with
    | nil => simp
    | cons a l ih => simp [ih]
  have h1 : f * (Polynomial.C k * (l.map fun z => Polynomial.X - Polynomial.C z).prod) = f * (Polynomial.C k' * (l'.map fun z => Polynomial.X - Polynomial.C z).prod) := by
    refine Polynomial.funext fun s => ?_
    by_cases hs : f.eval s = 0
    · simp [hs]
    · simp only [Polynomial.eval_mul, Polynomial.eval_C, ← e, h s hs]
  have h2 := congrArg Polynomial.roots (mul_left_cancel₀ hf h1)
  rw [Polynomial.roots_C_mul _ hk, Polynomial.roots_C_mul _ hk', ← Multiset.prod_coe, ← Multiset.map_coe, Polynomial.roots_multiset_prod_X_sub_C, ← Multiset.prod_coe, ← Multiset.map_coe,
    Polynomial.roots_multiset_prod_X_sub_C] at h2
  exact Multiset.coe_eq_coe.mp h2

/-- **C116**, transmission zeros of square models with a transfer matrix that is invertible somewhere: the results for a model and its transpose are the same up to the order. -/
theorem C116_zeros_square {B : Matrix (Fin n) (Fin m) ℝ} {C : Matrix (Fin m) (Fin n) ℝ} {D : Matrix (Fin m) (Fin m) ℝ} (hT : TzExact T) (hB : B ≠ 0) (hC : C ≠ 0) (hr : ∃ μ M, TfAt A B C D μ M ∧ M.det ≠ 0) :
    ∃ zs zs' : List ℂ, transmissionZeros T ⟨Arr.of A, Arr.of B, Arr.of C, Arr.of D⟩ = .ok (zs.map some) ∧
      transmissionZeros T ⟨Arr.of Aᵀ, Arr.of Cᵀ, Arr.of Bᵀ, Arr.of Dᵀ⟩ = .ok (zs'.map some) ∧ List.Perm zs' zs := by
  obtain ⟨μ, M, hM, hdet⟩ := hr
  obtain ⟨zs, k, h1, hk, h2⟩ := C73_square hT hB hC ⟨μ, M, hM, hdet⟩
  obtain ⟨zs', k', h3, hk', h4⟩ := C73_square hT (A := Aᵀ) (B := Cᵀ) (C := Bᵀ) (D := Dᵀ) (fun h => hC (by simpa using congrArg transpose h)) (fun h => hB (by simpa using congrArg transpose h))
    ⟨μ, Mᵀ, tfAt_transpose.mpr hM, by rwa [det_transpose]⟩
  refine ⟨zs, zs', h1, h3, perm_of_prod_off (f := (A.map Complex.ofReal).charpoly) (Matrix.charpoly_monic _).ne_zero hk' hk fun s hs => ?_⟩
  have hd : (s • (1 : Matrix (Fin n) (Fin n) ℂ) - A.map Complex.ofReal).det ≠ 0 := by
    rw [Matrix.eval_charpoly] at hs
    convert hs using 2
    ext i j
    simp [Matrix.scalar_apply, Matrix.diagonal_apply, Matrix.one_apply]
  have hM' : TfAt A B C D s _ := ⟨hd, rfl⟩
  rw [← h2 s _ hM', ← h4 s _ (tfAt_transpose.mpr hM'), det_transpose, show (Aᵀ.map Complex.ofReal) = (A.map Complex.ofReal)ᵀ from rfl, charpoly_transpose]

end zeros

theorem hurwitz_transpose : Hurwitz Aᵀ ↔ Hurwitz A := by
  unfold Hurwitz
  simp only [isEig_transpose]

theorem motions_transpose : MotionsVanish dt Aᵀ ↔ MotionsVanish dt A := by
  cases dt with
  | none => rw [← hurwitz_iff_motions, ← hurwitz_iff_motions, hurwitz_transpose]
  | some h =>
    rw [← schur_iff_motions, ← schur_iff_motions]
    unfold Schur
    simp only [isEig_transpose]

section poles
variable {N : Numerics ℝ ℂ} {G G' : StateM ℝ}

/-- **C116**, poles and the stability flag: they are those of the model. -/
theorem C116_poles (hN : EigExact N) (hR : RegionExact N) (hG : Transposed A B C D dt G G') :
    List.Perm (StateObj.built N G').poles (StateObj.built N G).poles ∧ (StateObj.built N G').isstable = (StateObj.built N G).isstable := by
  obtain ⟨rfl, rfl⟩ := hG
  have hp : List.Perm (N.eig (Arr.of Aᵀ)) (N.eig (Arr.of A)) := by
    have h1 := hN A
    have h2 := hN Aᵀ
    rw [charpoly_transpose, h1] at h2
    have h3 := congrArg Polynomial.roots h2
    rw [← Multiset.prod_coe, ← Multiset.map_coe, Polynomial.roots_multiset_prod_X_sub_C, ← Multiset.prod_coe, ← Multiset.map_coe, Polynomial.roots_multiset_prod_X_sub_C] at h3
    exact (Multiset.coe_eq_coe.mp h3).symm
  refine ⟨hp, ?_⟩
  have hf := fun (p m : ℕ) (T : StateM ℝ) => flag_motions (p := p) (m := m) (T := StateObj.built N T) hN hR (recalc_current N _).1 (recalc_current N _).2
  rw [Bool.eq_iff_iff, hf m p ⟨Arr.of Aᵀ, Arr.of Cᵀ, Arr.of Bᵀ, Arr.of Dᵀ, dt, false⟩ ⟨⟨rfl, rfl⟩, fun _ => ⟨rfl, rfl, rfl, rfl, rfl⟩⟩,
    hf p m ⟨Arr.of A, Arr.of B, Arr.of C, Arr.of D, dt, false⟩ ⟨⟨rfl, rfl⟩, fun _ => ⟨rfl, rfl, rfl, rfl, rfl⟩⟩]
  have hst : ∀ {m p : ℕ} (X : Matrix (Fin n) (Fin n) ℝ) (Y : Matrix (Fin n) (Fin m) ℝ) (Z : Matrix (Fin p) (Fin n) ℝ) (W : Matrix (Fin p) (Fin m) ℝ),
      StableModel (stateOf X Y Z W dt) ↔ MotionsVanish dt X := fun X Y Z W => by
    constructor
    · rintro (h | ⟨k, X', e, h⟩)
      · cases h
      · obtain rfl : n = k := congrArg Arr.r e
        obtain rfl := Arr.of_inj.mp e
        exact h
    · exact fun h => Or.inr ⟨n, X, rfl, h⟩
  exact (hst _ _ _ _).trans ((motions_transpose).trans (hst _ _ _ _).symm)

end poles

section discretization
variable {P : Type} {N : Numerics ℝ P} {E : DNum} {G G' : StateObj ℝ P} {h pw : ℝ} {q q' : Option (Arr ℝ)} {method : String}

theorem lft_transpose {y w : ℝ} (hh : 0 < h) (hG : Transposed A B C D none G.g G'.g) (hk : method ∈ knownMethods)
    (ha : discretizeArgs E G.g h method pw q = simpleLft (q2 1 y y w) G.g.a G.g.b G.g.c G.g.d) (ha' : discretizeArgs E G'.g h method pw q' = simpleLft (q2 1 y y w) G'.g.a G'.g.b G'.g.c G'.g.d)
    (hpw : method ∈ tustinNames → pw ≤ 1 / (2 * h)) :
    (discretize N E G h method pw q = .error .linAlg ∧ discretize N E G' h method pw q' = .error .linAlg) ∨
    ∃ S S' A₁ B₁ C₁ D₁, discretize N E G h method pw q = .ok S ∧ discretize N E G' h method pw q' = .ok S' ∧ Transposed (n := n) (m := m) (p := p) A₁ B₁ C₁ D₁ (some h) S.g S'.g := by
  obtain ⟨k1, k2⟩ := discretize_lft_ok (N := N) ha (fun h _ => hpw h) hG.1 hk
  obtain ⟨k1', k2'⟩ := discretize_lft_ok (N := N) ha' (fun h _ => hpw h) hG.2 hk
  have e : (1 - w • Aᵀ) = (1 - w • A)ᵀ := by rw [transpose_sub, transpose_smul, transpose_one]
  rw [e, det_transpose] at k1' k2'
  by_cases hd : (1 - w • A).det = 0
  · exact Or.inl ⟨k1 hd, k1' hd⟩
  · obtain ⟨S, h1, h2, -⟩ := k2 hd hh
    obtain ⟨S', h1', h2', -⟩ := k2' hd hh
    refine Or.inr ⟨S, S', _, _, _, _, h1, h1', h2, ?_⟩
    have hc : Aᵀ * (1 - w • A)ᵀ⁻¹ = (A * (1 - w • A)⁻¹)ᵀ := by
      have hu : IsUnit (1 - w • A).det := Ne.isUnit hd
      have : A * (1 - w • A) = (1 - w • A) * A := by simp [Matrix.mul_sub, Matrix.sub_mul]
      have h3 : A * (1 - w • A)⁻¹ = (1 - w • A)⁻¹ * A := by
        calc _ = (1 - w • A)⁻¹ * ((1 - w • A) * A) * (1 - w • A)⁻¹ := by rw [nonsing_inv_mul_cancel_left _ _ hu]
          _ = _ := by rw [← this, Matrix.mul_assoc, Matrix.mul_assoc, mul_nonsing_inv _ hu, Matrix.mul_one]
      rw [h3, transpose_mul, transpose_nonsing_inv]
    rw [h2', hc]
    simp only [transpose_add, transpose_smul, transpose_mul, transpose_one, transpose_nonsing_inv, Matrix.mul_assoc]

/-- **C116**, Tustin, forward and backward rectangular rules: the discretized transpose is the transpose of the discretized model, matrix by matrix, or both discretizations fail. -/
theorem C116_rules {r : Rule} (hh : 0 < h) (hG : Transposed A B C D none G.g G'.g) (hm : method ∈ r.names) (hpw : r = .tustin → pw = 0) :
    (discretize N E G h method pw q = .error .linAlg ∧ discretize N E G' h method pw q' = .error .linAlg) ∨
    ∃ S S' A₁ B₁ C₁ D₁, discretize N E G h method pw q = .ok S ∧ discretize N E G' h method pw q' = .ok S' ∧ Transposed (n := n) (m := m) (p := p) A₁ B₁ C₁ D₁ (some h) S.g S'.g :=
  lft_transpose hh hG (rule_known hm) (rule_args hm hpw _) (rule_args hm hpw _) fun ht => by
    rw [hpw (rule_tustinNames hm ht)]; positivity

theorem map_commute {X Y : Matrix (Fin n) (Fin n) ℝ} (h : Commute X Y) : Commute (X.map (algebraMap ℝ ℂ)) (Y.map (algebraMap ℝ ℂ)) := by
  rw [commute_iff_eq, ← Matrix.map_mul, h.eq, Matrix.map_mul]

/-- **C116**, holds: the transfer matrix of the transpose, sampled by zero-order or first-order hold, is the transposed transfer matrix of the sampled model. -/
theorem C116_hold (hE : BalanceOk E) (hh : 0 < h) (hG : Transposed A B C D none G.g G'.g) (hm : method = "zoh" ∨ method = "foh") :
    ∃ S S', discretize N E G h method pw q = .ok S ∧ discretize N E G' h method pw q' = .ok S' ∧ S.g.dt = some h ∧ S'.g.dt = some h ∧
      ∀ (z : ℂ) (M : Matrix (Fin p) (Fin m) ℂ), HasTF S'.g m p z Mᵀ ↔ HasTF S.g p m z M := by
  have key : ∀ (F : Matrix (Fin n) (Fin n) ℝ) (D : Matrix (Fin p) (Fin m) ℝ), Commute (h • A) F → ∀ (z : ℂ) (M : Matrix (Fin p) (Fin m) ℂ),
      HasTF (stateOf (NormedSpace.exp (h • A))ᵀ (Fᵀ * Cᵀ) Bᵀ Dᵀ (some h)) m p z Mᵀ ↔ HasTF (stateOf (NormedSpace.exp (h • A)) (F * B) C D (some h)) p m z M := fun F D hF z M => by
    have e : (F * B).map (algebraMap ℝ ℂ) = F.map (algebraMap ℝ ℂ) * B.map (algebraMap ℝ ℂ) := Matrix.map_mul
    have e' : (Fᵀ * Cᵀ).map (algebraMap ℝ ℂ) = (C.map (algebraMap ℝ ℂ) * F.map (algebraMap ℝ ℂ))ᵀ := by rw [← Matrix.map_mul, ← transpose_mul, transpose_map]
    rw [hasTF_stateOf, hasTF_stateOf, e, e', tf_move (map_commute hF.exp_left)]
    exact tf_transpose_iff
  rcases hm with rfl | rfl
  · obtain ⟨S, h1, h2, -⟩ := discretize_zoh_gam (N := N) (pw := pw) (q := q) hE hh hG.1
    obtain ⟨S', h1', h2', -⟩ := discretize_zoh_gam (N := N) (pw := pw) (q := q') hE hh hG.2
    refine ⟨S, S', h1, h1', by rw [h2], by rw [h2'], fun z M => ?_⟩
    have := key (h • phi1 (h • A)) D ((phi1_comm _).smul_right h) z M
    rw [gam_phi1, Matrix.mul_smul, ← Matrix.smul_mul] at h2 h2'
    rw [h2, h2', ← transpose_smul, phi1_transpose, ← transpose_smul, Matrix.exp_transpose]
    exact this
  · obtain ⟨S, h1, h2, -⟩ := discretize_foh_gam (N := N) (pw := pw) (q := q) hE hh hG.1 (gam_phi2 _ _)
    obtain ⟨S', h1', h2', -⟩ := discretize_foh_gam (N := N) (pw := pw) (q := q') hE hh hG.2 (gam_phi2 _ _)
    refine ⟨S, S', h1, h1', by rw [h2], by rw [h2'], fun z M => ?_⟩
    have c2 := phi2_comm (h • A)
    have := key (h • (phi1 (h • A) + NormedSpace.exp (h • A) * phi2 (h • A) - phi2 (h • A))) (D + C * (phi2 (h • A) * (h • B)))
      ((((phi1_comm _).add_right ((Commute.refl (h • A)).exp_right.mul_right c2)).sub_right c2).smul_right h) z M
    have e : ∀ {k : ℕ} (X : Matrix (Fin n) (Fin n) ℝ) (Y : Matrix (Fin n) (Fin k) ℝ), gam X (h • Y) 0 + NormedSpace.exp X * (phi2 X * (h • Y)) - phi2 X * (h • Y) =
        (h • (phi1 X + NormedSpace.exp X * phi2 X - phi2 X)) * Y := fun X Y => by
      rw [gam_phi1]
      simp only [Matrix.mul_smul, Matrix.smul_mul, Matrix.add_mul, Matrix.sub_mul, Matrix.mul_assoc, smul_add, smul_sub]
    rw [e] at h2 h2'
    rw [h2, h2']
    convert this using 2
    have ec : NormedSpace.exp (h • A) * phi2 (h • A) = phi2 (h • A) * NormedSpace.exp (h • A) := c2.exp_left.eq
    rw [← transpose_smul, phi1_transpose, phi2_transpose, Matrix.exp_transpose]
    unfold stateOf
    congr 2
    · rw [ec, transpose_smul, transpose_sub, transpose_add, transpose_mul]
    · simp only [transpose_add, transpose_mul, transpose_smul, Matrix.mul_smul, Matrix.smul_mul, Matrix.mul_assoc]

end discretization

section norms
variable {N : Numerics ℝ ℂ} {L : LyapNum ℝ} {X0 : Wk ℝ} {close : ℝ} {F : HinfNum} {eigTol : ℝ} {G G' : StateM ℝ}

theorem fro2_transpose (M : Matrix (Fin p) (Fin m) ℝ) : fro2 Mᵀ = fro2 M := by
  unfold fro2
  rw [Finset.sum_comm]
  rfl

/-- **C116**, 2-norm: that of the transpose is that of the model. Missing from the full claim: models without states and discrete time models with feedthrough. -/
theorem C116_h2_partial (hN : EigExact N) (hR : RegionExact N) (hL : ∀ {n : ℕ} (A : Matrix (Fin n) (Fin n) ℝ), SchurOk L A) (hcl : 0 ≤ close) (hn : 0 < n) (hG : Transposed A B C 0 dt G G') {x : ℝ}
    (hx : systemNorm L X0 close F eigTol (StateObj.built N G) .two = .ok (.fin x)) : systemNorm L X0 close F eigTol (StateObj.built N G') .two = .ok (.fin x) := by
  obtain ⟨rfl, rfl⟩ := hG
  obtain ⟨n', A', B', C', -, h2, h3, h4, h5, h6⟩ := norm_fin_parts hN hR hL hcl (p := p) (m := m) (G := stateOf A B C 0 dt) ⟨⟨rfl, rfl⟩, fun _ => ⟨rfl, rfl, rfl, rfl, rfl⟩⟩ rfl hn (fun i j => rfl) hx
  obtain ⟨e1, e2, e3, -⟩ := StateM.mk.inj h2
  obtain rfl : n = n' := congrArg Arr.r e1
  obtain rfl := Arr.of_inj.mp e1
  obtain rfl := Arr.of_inj.mp e2
  obtain rfl := Arr.of_inj.mp e3
  obtain ⟨z, k1, k2, k3, k4⟩ := norm_fin_of hN hR hL X0 hcl F eigTol Cᵀ Bᵀ hn (motions_transpose.mpr h3)
  have hz : z ^ 2 = x ^ 2 := by
    cases dt with
    | none =>
      refine tendsto_nhds_unique (k3 rfl) ((h5 rfl).congr fun T => ?_)
      refine intervalIntegral.integral_congr fun t _ => ?_
      rw [← fro2_transpose, ← transpose_smul, Matrix.exp_transpose, transpose_mul, transpose_mul, Matrix.mul_assoc]
    | some h =>
      have e : (fun k => fro2 (dimpulse Aᵀ Cᵀ Bᵀ 0 k)) = fun k => fro2 (dimpulse A B C 0 k) := by
        funext k
        rw [← fro2_transpose (dimpulse A B C 0 k)]
        cases k with
        | zero => simp [dimpulse]
        | succ k => simp only [dimpulse, transpose_mul, transpose_pow, Matrix.mul_assoc]
      have h7 := k4 h rfl
      unfold DEnergy at h7
      rw [e] at h7
      exact h7.unique (h6 h rfl)
  rw [show z = x by rw [← Real.sqrt_sq k2, hz, Real.sqrt_sq h4]] at k1
  rw [transpose_zero]
  exact k1

open scoped Matrix.Norms.L2Operator in
theorem isHinf_transpose {v : ℝ} : IsHinf Aᵀ Cᵀ Bᵀ Dᵀ dt v ↔ IsHinf A B C D dt v := by
  have e : {g | ∃ ω, IsGainAt Aᵀ Cᵀ Bᵀ Dᵀ dt ω g} = {g | ∃ ω, IsGainAt A B C D dt ω g} := by
    ext g
    constructor
    · rintro ⟨ω, M, hM, hg⟩
      exact ⟨ω, Mᵀ, hM.transpose, by rw [hg, norm_transpose]⟩
    · rintro ⟨ω, M, hM, hg⟩
      exact ⟨ω, Mᵀ, hM.transpose, by rw [hg, norm_transpose]⟩
  unfold IsHinf
  rw [e]

open scoped Matrix.Norms.L2Operator in
/-- **C116**, H∞ norm in continuous time: the results for a model and its transpose agree up to the accuracy of the computation. Missing from the full claim: results below the norm of the feedthrough,
see `C70_hinf_partial`. -/
theorem C116_hinf_partial (hN : EigExact N) (hR : RegionExact N) (htol : 0 ≤ eigTol) (hE : EigvalsExact F) (hm : 0 < m) (hp : 0 < p) (hG : Transposed A B C D none G G')
    (hF : FreqExact F A B C D none G) (hF' : FreqExact F Aᵀ Cᵀ Bᵀ Dᵀ none G') {v v' : ℝ} (hs : (StateObj.built N G).isstable = true)
    (h : systemNorm L X0 close F eigTol (StateObj.built N G) .inf = .ok (.fin v)) (h' : systemNorm L X0 close F eigTol (StateObj.built N G') .inf = .ok (.fin v'))
    (hv : ‖D.map (algebraMap ℝ ℂ)‖ * (1 + 1 / 2 ^ 26) ≤ v) (hv' : ‖D.map (algebraMap ℝ ℂ)‖ * (1 + 1 / 2 ^ 26) ≤ v') :
    v ≤ v' * (1 + 1 / 2 ^ 25) ^ 2 ∧ v' ≤ v * (1 + 1 / 2 ^ 25) ^ 2 := by
  have hs' : (StateObj.built N G').isstable = true := (C116_poles hN hR hG).2.trans hs
  obtain ⟨rfl, rfl⟩ := hG
  have hA : Hurwitz A := by
    obtain ⟨k, A', B', C', D', e, hm⟩ := stable_parts (p := p) (m := m) hN hR (recalc_current N _).1 (recalc_current N _).2 ⟨⟨rfl, rfl⟩, fun _ => ⟨rfl, rfl, rfl, rfl, rfl⟩⟩ hs rfl
    have e1 := (StateM.mk.inj e).1
    obtain rfl : n = k := congrArg Arr.r e1
    obtain rfl := Arr.of_inj.mp e1
    exact hurwitz_iff_motions.mpr hm
  obtain ⟨x, k1, k2, k3⟩ := C70_hinf_partial htol (StateObj.built N (stateOf A B C D none)) A B C D hm rfl hs hA hF hE v h hv
  obtain ⟨x', k1', k2', k3'⟩ := C70_hinf_partial htol (StateObj.built N (stateOf Aᵀ Cᵀ Bᵀ Dᵀ none)) Aᵀ Cᵀ Bᵀ Dᵀ hp rfl hs' (hurwitz_transpose.mpr hA) hF' hE v' h' (by
    rw [transpose_map, norm_transpose]; exact hv')
  obtain rfl : x' = x := (isHinf_transpose.mp k1').unique k1
  constructor
  · calc v ≤ x' * (1 + 1 / 2 ^ 25) := k2
      _ ≤ v' * (1 + 1 / 2 ^ 25) * (1 + 1 / 2 ^ 25) := mul_le_mul_of_nonneg_right k3' (by norm_num)
      _ = v' * (1 + 1 / 2 ^ 25) ^ 2 := by ring
  · calc v' ≤ x' * (1 + 1 / 2 ^ 25) := k2'
      _ ≤ v * (1 + 1 / 2 ^ 25) * (1 + 1 / 2 ^ 25) := mul_le_mul_of_nonneg_right k3 (by norm_num)
      _ = v * (1 + 1 / 2 ^ 25) ^ 2 := by ring

end norms

/-! ## The hypotheses are satisfiable -/

-- `C116_value`, `C116_product`, `C116_kalman` and `C116_least`: a model with one state, one input and two outputs, followed by a lag.
example : ∃ (G G' H H' R R' : StateM ℝ) (M : Matrix (Fin 2) (Fin 1) ℂ) (N : Matrix (Fin 1) (Fin 1) ℂ) (S : SvdNum ℝ), Transposed !![-1] !![1] !![1; 2] !![(0 : ℝ); 1] none G G' ∧
    Transposed !![-3] !![1] !![2] !![(0 : ℝ)] none H H' ∧ HasTF G 2 1 1 M ∧ HasTF H 1 1 1 N ∧ G.matmul 1 H = .ok R ∧ H'.matmul 1 G' = .ok R' ∧ 0 ≤ S.eps ∧
    ∀ (k l : ℕ) (M : Matrix (Fin k) (Fin l) ℝ), SvdExact S M := by
  obtain ⟨S, h0, hS⟩ := exists_svdNum
  have hG : Transposed !![-1] !![1] !![1; 2] !![(0 : ℝ); 1] none (stateOf !![-1] !![1] !![1; 2] !![(0 : ℝ); 1] none) _ := ⟨rfl, rfl⟩
  have hH : Transposed !![-3] !![1] !![2] !![(0 : ℝ)] none (stateOf !![-3] !![1] !![2] !![(0 : ℝ)] none) _ := ⟨rfl, rfl⟩
  have hM := hasTF_stateOf (A := (!![-1] : Matrix (Fin 1) (Fin 1) ℝ)) (B := (!![1] : Matrix (Fin 1) (Fin 1) ℝ)) (C := (!![1; 2] : Matrix (Fin 2) (Fin 1) ℝ)) (D := !![(0 : ℝ); 1]) (dt := none) (s := 1)
    |>.mpr ⟨by rw [det_fin_one]; simp, rfl⟩
  have hN := hasTF_stateOf (A := (!![-3] : Matrix (Fin 1) (Fin 1) ℝ)) (B := (!![1] : Matrix (Fin 1) (Fin 1) ℝ)) (C := (!![2] : Matrix (Fin 1) (Fin 1) ℝ)) (D := !![(0 : ℝ)]) (dt := none) (s := 1)
    |>.mpr ⟨by rw [det_fin_one]; simp; norm_num, rfl⟩
  obtain ⟨R, e1, -⟩ := C17_matmul hM hN dtOk_none rfl 0
  obtain ⟨-, R', e2, -⟩ := C116_product hG hH dtOk_none hM hN 0 e1
  exact ⟨_, _, _, _, R, R', _, _, S, hG, hH, hM, hN, e1, e2, h0.ge, fun _ _ M => hS M⟩

-- `C116_zeros_partial` and `C116_zeros_square`: `(s + 3)/((s + 1)(s + 2))`.
example : ∃ (T : TzNum) (zs zs' : List ℂ), TzExact T ∧ transmissionZeros T ⟨Arr.of !![0, 1; -2, -3], Arr.of !![0; 1], Arr.of !![3, 1], Arr.of !![0]⟩ = .ok (zs.map some) ∧
    transmissionZeros T ⟨Arr.of (!![0, 1; -2, -3] : Matrix (Fin 2) (Fin 2) ℝ)ᵀ, Arr.of (!![3, 1] : Matrix (Fin 1) (Fin 2) ℝ)ᵀ, Arr.of (!![0; 1] : Matrix (Fin 2) (Fin 1) ℝ)ᵀ, Arr.of (!![0] : Matrix (Fin 1) (Fin 1) ℝ)ᵀ⟩ =
      .ok (zs'.map some) ∧ List.Perm zs' zs := by
  obtain ⟨T, hT⟩ := exists_tzExact
  obtain ⟨zs, zs', h⟩ := C116_zeros_square (A := !![0, 1; -2, -3]) (B := !![0; 1]) (C := !![3, 1]) (D := !![0]) hT
    (fun h => by have := congrFun (congrFun h 1) 0; norm_num at this) (fun h => by have := congrFun (congrFun h 0) 1; norm_num at this)
    ⟨0, _, tfAt_of (X := !![3 / 2, 1 / 2; -1, 0]) (by
      ext i j
      fin_cases i <;> fin_cases j <;> norm_num [Matrix.mul_apply, Fin.sum_univ_two]), by
      rw [det_fin_one]
      norm_num [Matrix.mul_apply, Fin.sum_univ_two]⟩
  exact ⟨T, zs, zs', hT, h⟩

-- `C116_rules` and `C116_hold`.
example {P : Type} (N : Numerics ℝ P) : ∃ (G G' : StateObj ℝ P), Transposed !![-1] !![1] !![1; 2] !![(0 : ℝ); 1] none G.g G'.g ∧ BalanceOk plainDNum ∧
    (∃ S S', discretize N plainDNum G 1 "foh" 0 none = .ok S ∧ discretize N plainDNum G' 1 "foh" 0 none = .ok S') ∧
    ∃ S S', discretize N plainDNum G 1 "tustin" 0 none = .ok S ∧ discretize N plainDNum G' 1 "tustin" 0 none = .ok S' := by
  let G : StateObj ℝ P := StateObj.recalc N ⟨stateOf (!![-1] : Matrix (Fin 1) (Fin 1) ℝ) (!![1] : Matrix (Fin 1) (Fin 1) ℝ) (!![1; 2] : Matrix (Fin 2) (Fin 1) ℝ) !![0; 1] none, (2, 1), none, none, 0, [], [], false⟩
  let G' : StateObj ℝ P := StateObj.recalc N ⟨stateOf (!![-1] : Matrix (Fin 1) (Fin 1) ℝ)ᵀ (!![1; 2] : Matrix (Fin 2) (Fin 1) ℝ)ᵀ (!![1] : Matrix (Fin 1) (Fin 1) ℝ)ᵀ (!![0; 1] : Matrix (Fin 2) (Fin 1) ℝ)ᵀ none, (1, 2),
    none, none, 0, [], [], false⟩
  have hG : Transposed !![-1] !![1] !![1; 2] !![(0 : ℝ); 1] none G.g G'.g := ⟨rfl, rfl⟩
  obtain ⟨S, S', h1, h2, -⟩ := C116_hold (N := N) (h := 1) (pw := 0) (q := none) (q' := none) plainDNum_ok one_pos hG (Or.inr rfl)
  refine ⟨G, G', hG, plainDNum_ok, ⟨S, S', h1, h2⟩, ?_⟩
  obtain ⟨h3, -⟩ | ⟨S, S', -, -, -, -, h3, h4, -⟩ := C116_rules (N := N) (E := plainDNum) (h := 1) (pw := 0) (q := none) (q' := none) (method := "tustin") (r := .tustin) one_pos hG (by simp [Rule.names]) (fun _ => rfl)
  · obtain ⟨-, k⟩ := discretize_lft_ok (N := N) (E := plainDNum) (G := G) (rule_args (r := .tustin) (method := "tustin") (pw := 0) (dt := 1) (q := none) (by simp [Rule.names]) (fun _ => rfl) G.g)
      (fun _ _ => by positivity) hG.1 (rule_known (r := .tustin) (by simp [Rule.names]))
    obtain ⟨S, k1, -⟩ := k (by rw [det_fin_one]; simp [ruleW]; norm_num) one_pos
    rw [k1] at h3
    cases h3
  · exact ⟨S, S', h3, h4⟩

-- `C116_poles` and `C116_h2_partial`.
example (X0 : Wk ℝ) (F : HinfNum) (eigTol : ℝ) : ∃ (N : Numerics ℝ ℂ) (L : LyapNum ℝ) (G G' : StateM ℝ) (x : ℝ), EigExact N ∧ RegionExact N ∧ Transposed !![-1] !![1] !![1; 2] (0 : Matrix (Fin 2) (Fin 1) ℝ) none G G' ∧
    systemNorm L X0 (1 / 10 ^ 8) F eigTol (StateObj.built N G) .two = .ok (.fin x) ∧ systemNorm L X0 (1 / 10 ^ 8) F eigTol (StateObj.built N G') .two = .ok (.fin x) := by
  obtain ⟨N, -, hN, hR, -⟩ := exists_pole_numerics
  obtain ⟨L, -, hL, -⟩ := exists_lyapNum
  have hcl : (0 : ℝ) ≤ 1 / 10 ^ 8 := by norm_num
  obtain ⟨x, hx, -⟩ := norm_fin_of hN hR hL X0 hcl F eigTol !![(1 : ℝ)] !![(1 : ℝ); 2] (by norm_num) (lag_motions (-1) (by norm_num))
  exact ⟨N, L, _, _, x, hN, hR, ⟨rfl, rfl⟩, hx, C116_h2_partial hN hR hL hcl one_pos ⟨rfl, rfl⟩ hx⟩

open scoped Matrix.Norms.L2Operator in
-- `C116_hinf_partial`.
example (L : LyapNum ℝ) (X0 : Wk ℝ) (close : ℝ) : ∃ (N : Numerics ℝ ℂ) (F : HinfNum) (G G' : StateM ℝ) (v v' : ℝ), Transposed !![-1] !![1] !![1] !![(0 : ℝ)] none G G' ∧
    systemNorm L X0 close F (1 / 10 ^ 8) (StateObj.built N G) .inf = .ok (.fin v) ∧ systemNorm L X0 close F (1 / 10 ^ 8) (StateObj.built N G') .inf = .ok (.fin v') ∧
    v ≤ v' * (1 + 1 / 2 ^ 25) ^ 2 ∧ v' ≤ v * (1 + 1 / 2 ^ 25) ^ 2 := by
  obtain ⟨N, -, hN, hR, -⟩ := exists_pole_numerics
  obtain ⟨F, hF, hE⟩ := exists_hinfNum
  have e : ∀ x : ℝ, (!![x] : Matrix (Fin 1) (Fin 1) ℝ)ᵀ = !![x] := fun x => by ext i j; fin_cases i; fin_cases j; simp
  have hG : Transposed !![-1] !![1] !![1] !![(0 : ℝ)] none (stateOf !![-1] !![1] !![1] !![0] none) (stateOf !![-1] !![1] !![1] !![0] none) := ⟨rfl, by rw [e, e, e]⟩
  have hst : (StateObj.built N (stateOf (!![-1] : Matrix (Fin 1) (Fin 1) ℝ) (!![1] : Matrix (Fin 1) (Fin 1) ℝ) (!![1] : Matrix (Fin 1) (Fin 1) ℝ) !![0] none)).isstable = true :=
    (flag_motions (p := 1) (m := 1) hN hR (recalc_current N _).1 (recalc_current N _).2 ⟨⟨rfl, rfl⟩, fun _ => ⟨rfl, rfl, rfl, rfl, rfl⟩⟩).mpr (Or.inr ⟨1, !![-1], rfl, lag_motions (-1) (by norm_num)⟩)
  have hv : ‖(!![0] : Matrix (Fin 1) (Fin 1) ℝ).map (algebraMap ℝ ℂ)‖ * (1 + 1 / 2 ^ 26) ≤ 1 + 1 / 2 ^ 26 := by
    have : (!![0] : Matrix (Fin 1) (Fin 1) ℝ).map (algebraMap ℝ ℂ) = 0 := by ext i j; fin_cases i; fin_cases j; simp
    rw [this, norm_zero]
    norm_num
  have n1 := hinf_lag_any (b := 1) (by norm_num) rfl (lag_poles hN) hst (hF _ _ _ _ _) hE
  exact ⟨N, F, _, _, _, _, hG, n1, n1, C116_hinf_partial (L := L) (X0 := X0) (close := close) hN hR (by norm_num) hE one_pos one_pos hG (hF _ _ _ _ _) (by rw [e, e, e]; exact hF _ _ _ _ _) hst n1 n1 hv hv⟩

end Harold
