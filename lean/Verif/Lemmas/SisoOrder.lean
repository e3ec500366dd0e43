import Verif.Props.Minimality
import Verif.Props.Convert
import Verif.Props.ToTransfer
import Verif.Spec.SisoOrder
import Verif.Lemmas.Hautus
import Mathlib.Analysis.Polynomial.Basic

/-!
# The number of states of models with one input and one output
-/

namespace Harold

open Matrix Spec Filter Topology Polynomial

variable {n : ℕ}

/-- Numerator over the characteristic polynomial. -/
noncomputable def fullNum (A : Matrix (Fin n) (Fin n) ℝ) (B : Matrix (Fin n) (Fin 1) ℝ) (C : Matrix (Fin 1) (Fin n) ℝ) (D : Matrix (Fin 1) (Fin 1) ℝ) : ℝ[X] :=
  numPoly A (fun i => B i 0) (C 0) + Polynomial.C (D 0 0) * A.charpoly

theorem tfReal_poly (A : Matrix (Fin n) (Fin n) ℝ) (B : Matrix (Fin n) (Fin 1) ℝ) (C : Matrix (Fin 1) (Fin n) ℝ) (D : Matrix (Fin 1) (Fin 1) ℝ) {s : ℝ}
    (hs : (s • (1 : Matrix (Fin n) (Fin n) ℝ) - A).det ≠ 0) :
    eval s A.charpoly ≠ 0 ∧ tfReal A B C D s 0 0 = eval s (fullNum A B C D) / eval s A.charpoly := by
  have e : A.map (algebraMap ℝ ℝ) = A := by ext; simp
  have h := resolvent_entry (L := ℝ) A (fun i => B i 0) (C 0) s (by rw [e]; exact hs)
  have h2 := aeval_charpoly (L := ℝ) A s
  rw [e] at h h2
  simp only [Algebra.algebraMap_self, RingHom.id_apply, coe_aeval_eq_eval] at h h2
  have h0 : eval s A.charpoly ≠ 0 := by rw [h2]; exact hs
  refine ⟨h0, ?_⟩
  rw [fullNum, eval_add, eval_mul, eval_C, add_div, mul_div_assoc, div_self h0, mul_one, ← h]
  simp [tfReal, Matrix.mul_apply, dotProduct, mulVec, Finset.sum_mul, Finset.mul_sum]
  rw [Finset.sum_comm]
  simp only [mul_assoc]

theorem cross_of_agree {A : Matrix (Fin n) (Fin n) ℝ} {B : Matrix (Fin n) (Fin 1) ℝ} {C : Matrix (Fin 1) (Fin n) ℝ} {D : Matrix (Fin 1) (Fin 1) ℝ} {P Q : ℝ[X]}
    (hQ : Q ≠ 0) (h : ∀ᶠ s : ℝ in atTop, tfReal A B C D s 0 0 = eval s P / eval s Q) : P * A.charpoly = Q * fullNum A B C D := by
  refine poly_eq_of_eventually ?_
  filter_upwards [h, eventually_det A, eventually_atTop_not_isRoot Q hQ] with s h1 h2 h3
  obtain ⟨h4, h5⟩ := tfReal_poly A B C D h2
  rw [h5, div_eq_div_iff h4 h3] at h1
  rw [eval_mul, eval_mul]
  linarith

theorem natDegree_le_of_cross {A : Matrix (Fin n) (Fin n) ℝ} {P Q R : ℝ[X]} (h : P * A.charpoly = Q * R) (hc : IsCoprime P Q) : Q ∣ A.charpoly ∧ Q.natDegree ≤ n := by
  have h1 : Q ∣ A.charpoly := hc.symm.dvd_of_dvd_mul_left ⟨R, h⟩
  refine ⟨h1, ?_⟩
  have := natDegree_le_of_dvd h1 A.charpoly_monic.ne_zero
  rwa [A.charpoly_natDegree_eq_dim, Fintype.card_fin] at this

theorem exists_coeffs (k : ℕ) (P : ℝ[X]) (h : P.degree < k) : ∃ l : List ℝ, l.length = k ∧ toPoly l = P := by
  induction k generalizing P with
  | zero =>
    refine ⟨[], rfl, ?_⟩
    have : P = 0 := by
      rw [← degree_eq_bot]
      by_contra h0
      rw [degree_eq_natDegree (fun e => h0 (by rw [e]; simp))] at h
      norm_cast at h
    rw [this]; rfl
  | succ k ih =>
    obtain ⟨l, h1, h2⟩ := ih (P - C (P.coeff k) * X ^ k) (by
      rw [degree_lt_iff_coeff_zero]
      intro j hj
      rw [coeff_sub, coeff_C_mul, coeff_X_pow]
      rcases eq_or_lt_of_le hj with rfl | hj
      · simp
      · rw [if_neg (by omega), (degree_lt_iff_coeff_zero P (k + 1)).mp h j (by omega)]
        simp)
    exact ⟨P.coeff k :: l, by simp [h1], by rw [toPoly, h1, h2]; ring⟩

/-- A proper fraction is the transfer function of a model with at most as many states as the degree of the denominator. -/
theorem exists_state_of_poly {P Q : ℝ[X]} (hQ : Q ≠ 0) (h : P.degree ≤ Q.degree) :
    ∃ g : StateM ℝ, Consistent g 1 1 ∧ order g ≤ Q.natDegree ∧ ∀ s : ℝ, eval s Q ≠ 0 → HasTF g 1 1 s (Matrix.of fun _ _ => eval s P / eval s Q) := by
  obtain ⟨num, -, hn⟩ := exists_coeffs (Q.natDegree + 1) P (lt_of_le_of_lt h (by rw [degree_eq_natDegree hQ]; exact_mod_cast Nat.lt_succ_self _))
  obtain ⟨den, -, hd⟩ := exists_coeffs (Q.natDegree + 1) Q (by rw [degree_eq_natDegree hQ]; exact_mod_cast Nat.lt_succ_self _)
  by_cases h0 : Q.natDegree = 0
  · obtain ⟨c, rfl⟩ := natDegree_eq_zero.mp h0
    have hP : P.natDegree = 0 := by
      have := natDegree_le_natDegree h
      omega
    obtain ⟨b, rfl⟩ := natDegree_eq_zero.mp hP
    refine ⟨⟨Arr.empty, Arr.empty, Arr.empty, Arr.of (Matrix.of fun (_ _ : Fin 1) => b / c), none, true⟩, ⟨⟨rfl, rfl⟩, fun h => by cases h⟩, by simp [order], fun s hs => ?_⟩
    exact Or.inl ⟨rfl, _, rfl, by ext; simp⟩
  · have hpp : ProperPair num den := ⟨by rw [hd]; exact hQ, by rw [hn, hd]; exact h⟩
    have hdd : 0 < (toPoly den).degree := by rw [hd]; exact natDegree_pos_iff_degree_pos.mp (by omega)
    obtain ⟨⟨r1, r2⟩, h1, D, hD, h2⟩ := t2sSiso_ok (L := ℝ) (le_refl (0 : ℝ)) num den hpp hdd
    have h3 := t2sSiso_size (le_refl (0 : ℝ)) hpp hdd h1
    simp only at hD h2 h3
    have hv : ∀ (s : ℝ) (l : List ℝ), polyAt s l = eval s (toPoly l) := fun s l => by rw [polyAt, coe_aeval_eq_eval]
    simp only [hv, hn, hd] at h2 h3
    rcases h2 with ⟨rfl, h2⟩ | ⟨k, A, B, C, rfl, h2⟩
    · refine ⟨⟨Arr.empty, Arr.empty, Arr.empty, Arr.of D, none, true⟩, ⟨⟨rfl, rfl⟩, fun h => by cases h⟩, by simp [order], fun s hs => ?_⟩
      rw [← h2 s fun _ _ => hs]
      exact HasTF.of_gain
    · refine ⟨⟨Arr.of A, Arr.of B, Arr.of C, Arr.of D, none, false⟩, ⟨⟨rfl, rfl⟩, fun _ => ⟨rfl, rfl, rfl, rfl, rfl⟩⟩, ?_, fun s hs => ?_⟩
      · rcases h3 with ⟨abc, e, h3⟩ | ⟨h3, -⟩
        · simp only [Option.some.injEq] at e
          rw [← e] at h3
          simp only at h3
          simp [order, h3]
        · cases h3
      · exact HasTF.of_dyn (h2 s fun _ _ => hs)

/-- Companion matrices are controllable from the last state. -/
theorem compM_reachable (a : Fin n → ℝ) : Reachable (compM a) (Matrix.of fun (i : Fin n) (_ : Fin 1) => if i.val + 1 = n then (1 : ℝ) else 0) := by
  rw [hautus_reach]
  intro z v hv hB
  have h0 : ∀ i : Fin n, i.val + 1 = n → v i = 0 := by
    intro i hi
    have := congrFun hB 0
    simp only [mulVec, dotProduct, transpose_apply, map_apply, of_apply, Pi.zero_apply] at this
    rw [Finset.sum_eq_single i] at this
    · simpa [hi] using this
    · intro j _ hj
      have : ¬ j.val + 1 = n := fun e => hj (Fin.ext (by omega))
      simp [this]
    · simp
  have h1 : ∀ k, ∀ i : Fin n, i.val + 1 + k = n → v i = 0 := by
    intro k
    induction k with
    | zero => exact fun i hi => h0 i hi
    | succ k ih =>
      intro i hi
      have hlt : i.val + 1 < n := by omega
      have h2 := congrFun hv ⟨i.val + 1, hlt⟩
      simp only [mulVec, dotProduct, transpose_apply, map_apply, Pi.smul_apply] at h2
      rw [ih ⟨i.val + 1, hlt⟩ (by simp; omega), smul_zero, Finset.sum_eq_single i] at h2
      · have h3 : ¬ i.val + 1 = n := by omega
        simpa [compM, h3] using h2
      · intro j _ hj
        by_cases hjn : j.val + 1 = n
        · rw [h0 j hjn, mul_zero]
        · have : ¬ i.val + 1 = j.val + 1 := fun e => hj (Fin.ext (by omega))
          simp [compM, hjn]
          intro e
          exact absurd (Fin.ext e.symm) hj
      · simp
  ext i
  exact h1 (n - 1 - i.val) i (by omega)

theorem charpoly_monicCoeffs {a : ℝ} (ha : a ≠ 0) (t : List ℝ) : (compM (monicCoeffs a t)).charpoly = C a⁻¹ * toPoly (a :: t) := by
  rw [charpoly_compM, toPoly_monic ha, ← mul_assoc, ← C_mul, inv_mul_cancel₀ ha, C_1, one_mul]

/-- The matrices of a converted model with one input and one output. -/
theorem t2sSiso_shape {num den : List ℝ} (hp : ProperPair num den) (hd : 0 < (toPoly den).degree) {r : Option (Arr ℝ × Arr ℝ × Arr ℝ) × Arr ℝ}
    (h : t2sSiso 0 num den = .ok r) {abc : Arr ℝ × Arr ℝ × Arr ℝ} (hr : r.1 = some abc) :
    ∃ A : Matrix (Fin (toPoly den).natDegree) (Fin (toPoly den).natDegree) ℝ, ∃ B : Matrix (Fin (toPoly den).natDegree) (Fin 1) ℝ, abc.1 = Arr.of A ∧ abc.2.1 = Arr.of B ∧
      Reachable A B ∧ A.charpoly = C (toPoly den).leadingCoeff⁻¹ * toPoly den := by
  obtain ⟨a, t, htr, ha⟩ : ∃ a t, trimZeros den = a :: t ∧ a ≠ 0 := by
    rcases trimZeros_cases den with ⟨-, h⟩ | h
    · exact absurd h hp.1
    · exact h
  have hden : toPoly (a :: t) = toPoly den := by rw [← htr, toPoly_trimZeros]
  have hdd := degree_toPoly_cons ha t
  have ht : t ≠ [] := by
    rintro rfl
    rw [← hden, hdd] at hd
    simp at hd
  have hnat : (toPoly den).natDegree = t.length := by
    rw [← hden]; exact natDegree_eq_of_degree_eq_some hdd
  have hlc : (toPoly den).leadingCoeff = a := by
    rw [← hden, toPoly_monic ha, ← charpoly_compM, leadingCoeff_mul, (charpoly_monic _).leadingCoeff, leadingCoeff_C, mul_one]
  unfold t2sSiso at h
  simp only [companion_eq den htr ha ht, Bind.bind, Except.bind,
    vstack_last _ (List.length_pos_iff.mpr ht), htr, List.getD_cons_zero] at h
  have key : abc.1 = Arr.of (compM (monicCoeffs a t)) ∧ abc.2.1 = Arr.of (Matrix.of fun (i : Fin t.length) (_ : Fin 1) => if i.val + 1 = t.length then (1 : ℝ) else 0) := by
    split_ifs at h with h1
    · simp only [Except.ok.injEq] at h
      subst h
      simp only [Option.some.injEq] at hr
      rw [← hr]
      exact ⟨rfl, rfl⟩
    · cases hq : polydiv ((trimZeros num).map fun x => x / a) ((a :: t).map fun x => x / a) with
      | error e => rw [hq] at h; cases h
      | ok qr =>
        obtain ⟨q, r'⟩ := qr
        rw [hq] at h
        simp only at h
        split_ifs at h with h2
        · simp only [Except.ok.injEq] at h
          subst h
          cases hr
        · simp only [Except.ok.injEq] at h
          subst h
          simp only [Option.some.injEq] at hr
          rw [← hr]
          exact ⟨rfl, rfl⟩
  rw [hlc, hnat, ← hden]
  exact ⟨_, _, key.1, key.2, compM_reachable _, charpoly_monicCoeffs ha t⟩

end Harold
