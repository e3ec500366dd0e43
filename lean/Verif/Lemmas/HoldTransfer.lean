import Verif.Lemmas.HoldMarkov
import Verif.Lemmas.LogExists
import Verif.Props.HoldInverse
import Verif.Props.DiscTransfer
import Verif.Props.SimTransfer

/-!
# Lemmas on `undiscretize` with the hold methods
-/

namespace Harold

open Matrix Harold.Spec NormedSpace Filter

variable {E : DNum} {dt pw : ℝ} {name : String} {q : Option (Arr ℝ)} {n n' m p : ℕ}
  {A Φ : Matrix (Fin n) (Fin n) ℝ} {B Γ : Matrix (Fin n) (Fin m) ℝ} {C : Matrix (Fin p) (Fin n) ℝ} {D F : Matrix (Fin p) (Fin m) ℝ}
  {A' Φ' : Matrix (Fin n') (Fin n') ℝ} {B' Γ' : Matrix (Fin n') (Fin m) ℝ} {C' : Matrix (Fin p) (Fin n') ℝ} {D' F' : Matrix (Fin p) (Fin m) ℝ}

/-- `(Φ, Γ, C, F)` is the hold discretization of `(A, B, C, D)`. -/
def HoldOf (name : String) (dt : ℝ) (A : Matrix (Fin n) (Fin n) ℝ) (B : Matrix (Fin n) (Fin m) ℝ) (C : Matrix (Fin p) (Fin n) ℝ)
    (D : Matrix (Fin p) (Fin m) ℝ) (Φ : Matrix (Fin n) (Fin n) ℝ) (Γ : Matrix (Fin n) (Fin m) ℝ) (F : Matrix (Fin p) (Fin m) ℝ) : Prop :=
  Φ = exp (dt • A) ∧ ((name = "zoh" ∧ Γ = gam (dt • A) (dt • B) 0 ∧ F = D) ∨
    (name = "foh" ∧ ∃ g, gam (dt • A) (hcat (dt • B) 0) (shiftN m) = hcat (gam (dt • A) (dt • B) 0) g ∧
      Γ = gam (dt • A) (dt • B) 0 + exp (dt • A) * g - g ∧ F = D + C * g))

theorem discretize_holdOf {P : Type} {N : Numerics ℝ P} {G : StateObj ℝ P} (hE : BalanceOk E) (hn : name = "zoh" ∨ name = "foh") (hdt : 0 < dt)
    (hG : G.g = ⟨Arr.of A, Arr.of B, Arr.of C, Arr.of D, none, false⟩) :
    ∃ S Φ Γ F, discretize N E G dt name pw q = .ok S ∧ S.g = ⟨Arr.of Φ, Arr.of Γ, Arr.of C, Arr.of F, some dt, false⟩ ∧ S.discWith = some name ∧
      HoldOf name dt A B C D Φ Γ F := by
  rcases hn with rfl | rfl
  · obtain ⟨S, h1, h2, h3⟩ := discretize_zoh_gam (N := N) (pw := pw) (q := q) hE hdt hG
    exact ⟨S, _, _, _, h1, h2, h3, rfl, .inl ⟨rfl, rfl, rfl⟩⟩
  · obtain ⟨g, hg1, hg2⟩ := gam_foh (dt • A) (dt • B)
    obtain ⟨S, h1, h2, h3⟩ := discretize_foh_gam (N := N) (pw := pw) (q := q) hE hdt hG hg1
    exact ⟨S, _, _, _, h1, h2, h3, rfl, .inr ⟨rfl, g, hg1, rfl, rfl⟩⟩

/-- Equal Markov parameters are preserved by the hold methods. -/
theorem HoldOf.markov_eq (h : HoldOf name dt A B C D Φ Γ F) (h' : HoldOf name dt A' B' C' D' Φ' Γ' F') (hdt : dt ≠ 0)
    (hk : ∀ k, markov A B C D k = markov A' B' C' D' k) (k : ℕ) : markov Φ Γ C F k = markov Φ' Γ' C' F' k := by
  obtain ⟨rfl, h⟩ := h
  obtain ⟨rfl, h'⟩ := h'
  rw [← markov_smul_iff hdt] at hk
  rcases h with ⟨rfl, rfl, rfl⟩ | ⟨rfl, g, hg, rfl, rfl⟩ <;> rcases h' with ⟨hn, rfl, rfl⟩ | ⟨hn, g', hg', rfl, rfl⟩
  · exact markov_hold ((markov_smul_iff hdt).mp hk) dt k
  · exact absurd hn (by decide)
  · exact absurd hn (by decide)
  · refine ramp_sums.mp (fun r => ?_) k
    rw [← foh_exp_krylov hg, ← foh_exp_krylov hg']
    refine krylov_exp_two (fun r => ?_) r
    revert r
    refine (shift_iff ?_).mpr ?_
    · rw [pow_zero, pow_zero, Matrix.one_mul, Matrix.one_mul, fohE, fohE, zohE, hcat_mul_vcat', hcat_mul_vcat', hcat_mul_vcat', hcat_mul_vcat']
      simp
    · intro r
      rw [foh_krylov, foh_krylov, hk r]

/-- Below the Nyquist frequency the hold methods are injective on Markov parameters. -/
theorem HoldOf.markov_inj (h : HoldOf name dt A B C D Φ Γ F) (h' : HoldOf name dt A' B' C' D' Φ' Γ' F') (hdt : 0 < dt)
    (hA : ImBelow (Real.pi / dt) A) (hA' : ImBelow (Real.pi / dt) A')
    (hk : ∀ k, markov Φ Γ C F k = markov Φ' Γ' C' F' k) (k : ℕ) : markov A B C D k = markov A' B' C' D' k := by
  have hA1 := (imBelow_smul hdt).mpr hA
  have hA2 := (imBelow_smul hdt).mpr hA'
  obtain ⟨rfl, h⟩ := h
  obtain ⟨rfl, h'⟩ := h'
  refine (markov_smul_iff hdt.ne').mp (fun k => ?_) k
  rcases h with ⟨rfl, rfl, rfl⟩ | ⟨rfl, g, hg, rfl, rfl⟩ <;> rcases h' with ⟨hn, rfl, rfl⟩ | ⟨hn, g', hg', rfl, rfl⟩
  · exact (markov_zoh_iff hA1 hA2).mp hk k
  · exact absurd hn (by decide)
  · exact absurd hn (by decide)
  · exact (markov_foh_iff hA1 hA2 hg hg').mp hk k

theorem offNegAxis_blk {k : ℕ} {R : Matrix (Fin n) (Fin k) ℝ} {J Nl : Matrix (Fin k) (Fin k) ℝ} (hJ : IsPrincipalLog Nl J) (hA : OffNegAxis A) :
    ∃ X, IsPrincipalLog X (blk A R 0 J) := by
  have hJ' := principalLog_iff.mp ⟨Nl, hJ⟩
  refine principalLog_iff.mpr fun z hz => ?_
  rcases isEig_blk.mp hz with h | h
  · exact hA z h
  · exact hJ' z h

/-- `undiscretize` with a hold method, on the level of `_undiscretize`. -/
theorem undiscArgs_hold (hE : BalanceOk E) (hL : LogmOk E) (hn : name = "zoh" ∨ name = "foh") (ht : 0 < dt) :
    (E.nearZero (Arr.of A) = true → undiscretizeArgs E ⟨Arr.of A, Arr.of B, Arr.of C, Arr.of D, some dt, false⟩ dt name pw q = .error .value) ∧
    (E.nearZero (Arr.of A) = false → OffNegAxis A →
      ∃ r, undiscretizeArgs E ⟨Arr.of A, Arr.of B, Arr.of C, Arr.of D, some dt, false⟩ dt name pw q = .ok r) ∧
    (¬ OffNegAxis A → undiscretizeArgs E ⟨Arr.of A, Arr.of B, Arr.of C, Arr.of D, some dt, false⟩ dt name pw q = .error .value) ∧
    ∀ r, undiscretizeArgs E ⟨Arr.of A, Arr.of B, Arr.of C, Arr.of D, some dt, false⟩ dt name pw q = .ok r →
      ∃ A' B' D', r = (Arr.of A', Arr.of B', Arr.of C, Arr.of D') ∧ ImBelow (Real.pi / dt) A' ∧ HoldOf name dt A' B' C D' A B D := by
  have hs : ∀ {k : ℕ} (Y : Matrix (Fin n) (Fin k) ℝ), dt • (1 / dt) • Y = Y := fun Y => by rw [smul_smul, mul_one_div_cancel ht.ne', one_smul]
  have hlogfail : ∀ {k : ℕ} {R : Matrix (Fin n) (Fin k) ℝ} {J Nl : Matrix (Fin k) (Fin k) ℝ}, IsPrincipalLog Nl J → ¬ OffNegAxis A →
      balLog E (Arr.of (blk A R 0 J)) dt = .error .value := by
    intro k R J Nl hJ hA
    cases hb : balLog E (Arr.of (blk A R 0 J)) dt with
    | ok Z =>
      obtain ⟨X, hX, -⟩ := balLog_inv hE hL hb
      obtain ⟨X11, X12, -, hX1, -⟩ := log_blk hJ hX
      exact absurd (principalLog_iff.mp ⟨_, hX1⟩) hA
    | error e =>
      unfold balLog at hb
      split at hb
      · simp only at hb
        split at hb
        · rw [← hb]
        · cases hb
      · rw [← hb]
  rcases hn with rfl | rfl
  · have hu : undiscretizeArgs E ⟨Arr.of A, Arr.of B, Arr.of C, Arr.of D, some dt, false⟩ dt "zoh" pw q
        = undiscZoh E ⟨Arr.of A, Arr.of B, Arr.of C, Arr.of D, some dt, false⟩ dt := by simp [undiscretizeArgs]
    rw [hu, undiscZoh_eq]
    cases hnz : E.nearZero (Arr.of A) with
    | true => exact ⟨fun _ => rfl, fun h => (by cases h), fun _ => rfl, fun r h => by cases h⟩
    | false =>
      refine ⟨fun h => (by cases h), fun _ hA => ?_, fun hA => ?_, fun r h => ?_⟩
      · obtain ⟨X, hX⟩ := offNegAxis_blk (R := B) (log_one (m := m)) hA
        rw [zohL, balLog_of hE hL hX]
        exact ⟨_, rfl⟩
      · rw [zohL, hlogfail log_one hA]
        rfl
      · simp only [Bool.false_eq_true, if_false] at h
        obtain ⟨Z, h3, h4⟩ := bind_ok h
        obtain ⟨X, hX, rfl⟩ := balLog_inv hE hL h3
        obtain ⟨X11, X12, rfl, hX1, hX2⟩ := log_blk log_one hX
        rw [smul_blk, topBlocks_of, blk_left, blk_right] at h4
        obtain rfl := Except.ok.inj h4
        refine ⟨_, _, _, rfl, ?_, ?_, .inl ⟨rfl, ?_, rfl⟩⟩
        · have := hX1.2
          rw [← hs X11] at this
          exact (imBelow_smul ht).mp this
        · rw [hs, hX1.1]
        · rw [hs, hs, hX2]
  · have hu : undiscretizeArgs E ⟨Arr.of A, Arr.of B, Arr.of C, Arr.of D, some dt, false⟩ dt "foh" pw q
        = undiscFoh E ⟨Arr.of A, Arr.of B, Arr.of C, Arr.of D, some dt, false⟩ dt := by simp [undiscretizeArgs]
    rw [hu, undiscFoh_eq]
    cases hnz : E.nearZero (Arr.of A) with
    | true => exact ⟨fun _ => rfl, fun h => (by cases h), fun _ => rfl, fun r h => by cases h⟩
    | false =>
      refine ⟨fun h => (by cases h), fun _ hA => ?_, fun hA => ?_, fun r h => ?_⟩
      · obtain ⟨X, hX⟩ := offNegAxis_blk (R := hcat (dt • B) 0) (log_shift (m := m)) hA
        obtain ⟨X11, X12, rfl, hX1, hX2⟩ := log_blk log_shift hX
        obtain ⟨x, y, rfl⟩ := exists_hcat' X12
        obtain ⟨Y, hY⟩ := offNegAxis_blk (R := (1 / dt) • x) (log_one (m := m)) hA
        rw [fohL, balLog_of hE hL hX, smul_blk, smul_hcat']
        simp only [Bool.false_eq_true, if_false, Except.bind, fohTail_of, zohL]
        rw [balLog_of hE hL hY]
        exact ⟨_, rfl⟩
      · rw [fohL, hlogfail log_shift hA]
        rfl
      · simp only [Bool.false_eq_true, if_false] at h
        obtain ⟨Z, h3, h4⟩ := bind_ok h
        obtain ⟨X, hX, rfl⟩ := balLog_inv hE hL h3
        have hX0 := hX
        obtain ⟨X11, X12, rfl, hX1, hX2⟩ := log_blk log_shift hX
        obtain ⟨x, y, rfl⟩ := exists_hcat' X12
        rw [smul_blk, smul_hcat', fohTail_of] at h4
        obtain ⟨W, h5, h6⟩ := bind_ok h4
        obtain ⟨Y, hY, rfl⟩ := balLog_inv hE hL h5
        obtain ⟨Y11, Y12, rfl, hY1, hY2⟩ := log_blk log_one hY
        obtain rfl : X11 = Y11 := principal_unique hX1 hY1
        rw [smul_blk, topBlocks_of, blk_right] at h6
        obtain rfl := Except.ok.inj h6
        obtain ⟨g, hg1, hg2⟩ := gam_foh X11 Y12
        have hun := gam_unfoh X11 Y12 g dt hg1 hg2
        obtain ⟨g1, hf1⟩ := gam_first X11 x y
        obtain ⟨g2, hf2⟩ := gam_first X11 (dt • gam X11 Y12 0) (-(dt • g))
        have hx : dt • gam X11 Y12 0 = x := by rw [hY2, hs]
        rw [hX2] at hf1
        rw [hun, hx] at hf2
        have hB : dt • B = dt • (gam X11 Y12 0 + exp X11 * g - g) := (hcat_inj hf1).1.trans (hcat_inj hf2).1.symm
        have hB' : gam X11 Y12 0 + exp X11 * g - g = B := by
          have := congrArg (fun Y => (1 / dt) • Y) hB
          simpa [smul_smul, ht.ne'] using this.symm
        have hlog := log_of_blk (R := hcat (dt • gam X11 Y12 0) (-(dt • g))) hX1.2 log_shift
        rw [hun, hB', hX1.1] at hlog
        have hu := principal_unique hX0 hlog
        have hy : y = -(dt • g) := (hcat_inj (blk_inj hu).2.1).2
        refine ⟨_, _, _, rfl, ?_, ?_, .inr ⟨rfl, g, ?_, ?_, ?_⟩⟩
        · have := hX1.2
          rw [← hs X11] at this
          exact (imBelow_smul ht).mp this
        · rw [hs, hX1.1]
        · rw [hs, hs, hg1]
        · rw [hs, hs, hB']
        · rw [hy, smul_neg, smul_smul, one_div_mul_cancel ht.ne', one_smul, Matrix.mul_neg, add_assoc, neg_add_cancel, add_zero]

end Harold
