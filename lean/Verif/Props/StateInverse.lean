import Verif.Props.StateAlgebra
import Mathlib.LinearAlgebra.Matrix.SchurComplement

/-!
# C19: where the inverse of a `State` model is defined
-/

namespace Harold

open Matrix Spec

variable {K L : Type} [Field K] [LinearOrder K] [IsStrictOrderedRing K] [Field L] [Algebra K L]
variable {G : StateM K} {m : ℕ} {s : L}

local notation "φ" => algebraMap K L

/-- `det (sI - (A - B D⁻¹ C)) det D = det (sI - A) det (D + C (sI - A)⁻¹ B)`. -/
theorem det_inverse_system {n : ℕ} {A : Matrix (Fin n) (Fin n) L} {B : Matrix (Fin n) (Fin m) L} {C : Matrix (Fin m) (Fin n) L} {D E : Matrix (Fin m) (Fin m) L}
    (hE : E * D = 1) (hA : (s • (1 : Matrix (Fin n) (Fin n) L) - A).det ≠ 0) :
    (s • (1 : Matrix (Fin n) (Fin n) L) - (A - B * (E * C))).det * D.det =
      (s • (1 : Matrix (Fin n) (Fin n) L) - A).det * (C * (s • (1 : Matrix (Fin n) (Fin n) L) - A)⁻¹ * B + D).det := by
  set R := s • (1 : Matrix (Fin n) (Fin n) L) - A with hR
  have hDE : D * E = 1 := mul_eq_one_comm.mp hE
  have h1 : R * R⁻¹ = 1 := Matrix.mul_nonsing_inv _ (isUnit_iff_ne_zero.mpr hA)
  have e1 : s • (1 : Matrix (Fin n) (Fin n) L) - (A - B * (E * C)) = R * (1 + R⁻¹ * B * (E * C)) := by
    rw [Matrix.mul_add, Matrix.mul_one, ← Matrix.mul_assoc R, ← Matrix.mul_assoc R, h1, Matrix.one_mul, hR]
    abel
  have e2 : C * R⁻¹ * B + D = D * (1 + E * C * (R⁻¹ * B)) := by
    rw [Matrix.mul_add, Matrix.mul_one, ← Matrix.mul_assoc D, ← Matrix.mul_assoc D E, hDE, Matrix.one_mul, Matrix.mul_assoc]
    abel
  rw [e1, e2, Matrix.det_mul, Matrix.det_mul, Matrix.det_one_add_mul_comm]
  ring

/-- **C19**: `1/G` is defined and takes the value `G(s)⁻¹` at every point `s` at which `G(s)` is defined and invertible, whenever the feedthrough has no singular value below `2⁻⁵²`. -/
theorem C19_defined {D : Matrix (Fin m) (Fin m) K} (hD : G.d = Arr.of D) (hdt : DtOk G.dt) (hsv : ¬ HasSVBelow spacing1 D)
    {M : Matrix (Fin m) (Fin m) L} (hM : HasTF G m m s M) (hu : M.det ≠ 0) :
    ∃ R, StateM.rtruedivGain (.scalar 1) G = .ok R ∧ R.dt = G.dt ∧ HasTF R m m s M⁻¹ := by
  have hdet : D.det ≠ 0 := det_ne_zero_of_not_svBelow (by simp [spacing1]) hsv
  have hDD : D⁻¹ * D = 1 := Matrix.nonsing_inv_mul _ (isUnit_iff_ne_zero.mpr hdet)
  have hDDφ : D⁻¹.map φ * D.map φ = 1 := by
    rw [← map_mul', hDD, Matrix.map_one _ (map_zero _) (map_one _)]
  cases hg : G.isgain
  · obtain ⟨n, A, B, C, D', hA, hB, hC, hD', hT⟩ := dyn_elim hM hg
    obtain rfl := Arr.of_inj.mp (hD.symm.trans hD')
    obtain ⟨R0, e0, d0, g0, dd0, hR0⟩ := invert_hasTF hdt hD hsv (.inr ⟨n, A, B, C, hA, hB, hC⟩)
    obtain ⟨ha, hb, hc⟩ := hR0 n A B C hg hA hB hC
    have := mkState_of (d0 ▸ hdt : DtOk R0.dt) (A - B * (D⁻¹ * C)) (B * D⁻¹) (-(D⁻¹ * C)) D⁻¹
    refine ⟨⟨Arr.of (A - B * (D⁻¹ * C)), Arr.of (B * D⁻¹), Arr.of (-(D⁻¹ * C)), Arr.of D⁻¹, R0.dt, false⟩, ?_, d0, ?_⟩
    · simp only [StateM.rtruedivGain, e0, bind, Except.bind, StateM.rmatmulGain, g0, hg, Bool.false_eq_true, if_false, one_ne_zero, ite_self,
        ha, hb, hc, dd0, Arr.smul_of, one_smul]
      exact this
    · have hmap : (A - B * (D⁻¹ * C)).map φ = A.map φ - B.map φ * (D⁻¹.map φ * C.map φ) := by
        rw [map_sub', map_mul', map_mul']
      have hmap2 : (-(D⁻¹ * C)).map φ = -(D⁻¹.map φ * C.map φ) := by
        rw [map_neg', map_mul']
      have hne : (s • (1 : Matrix (Fin n) (Fin n) L) - (A.map φ - B.map φ * (D⁻¹.map φ * C.map φ))).det ≠ 0 := by
        intro h0
        have h := det_inverse_system (s := s) (A := A.map φ) (B := B.map φ) (C := C.map φ) hDDφ hT.1
        rw [h0, zero_mul, ← hT.2] at h
        exact mul_ne_zero hT.1 hu h.symm
      obtain ⟨N', hN', h1, h2⟩ := hT.inv hDDφ hne
      rw [Matrix.inv_eq_left_inv h1]
      refine HasTF.of_dyn ?_
      rw [hmap, hmap2, map_mul']
      exact hN'
  · obtain ⟨D', hD', rfl⟩ := gain_elim hM hg
    obtain rfl := Arr.of_inj.mp (hD.symm.trans hD')
    obtain ⟨R0, e0, d0, g0, dd0, -⟩ := invert_hasTF hdt hD hsv (.inl hg)
    refine ⟨⟨Arr.empty, Arr.empty, Arr.empty, Arr.of D⁻¹, R0.dt, true⟩, ?_, d0, ?_⟩
    · simp only [StateM.rtruedivGain, e0, bind, Except.bind, StateM.rmatmulGain, g0, hg, if_true, dd0, Arr.smul_of, one_smul]
      exact mkGain_of (d0 ▸ hdt) _
    · rw [Matrix.inv_eq_left_inv hDDφ]
      exact HasTF.of_gain

/-- `State(-1, 1, 1, 2)`, which is `2 + 1/(s + 1)`, takes the value `3` at `s = 0`, so `C19_defined` gives its inverse the value `1/3` there. -/
example : ∃ R, StateM.rtruedivGain (.scalar 1) (⟨Arr.of !![-1], Arr.of !![1], Arr.of !![1], Arr.of !![2], none, false⟩ : StateM ℚ) = .ok R ∧
    HasTF R 1 1 (0 : ℚ) (!![3] : Matrix (Fin 1) (Fin 1) ℚ)⁻¹ := by
  have hsv : ¬ HasSVBelow (spacing1 : ℚ) (!![2] : Matrix (Fin 1) (Fin 1) ℚ) := by
    rintro ⟨x, hx, h⟩
    simp [Matrix.mulVec, dotProduct, spacing1] at h
    nlinarith [mul_self_nonneg (x 0)]
  have hM : HasTF (⟨Arr.of !![-1], Arr.of !![1], Arr.of !![1], Arr.of !![2], none, false⟩ : StateM ℚ) 1 1 (0 : ℚ) !![3] := by
    refine HasTF.of_dyn ⟨by simp, ?_⟩
    ext i j
    fin_cases i; fin_cases j
    simp [Matrix.mul_apply, Matrix.inv_def, Matrix.adjugate_fin_one]
    norm_num
  obtain ⟨R, hR, -, h⟩ := C19_defined (D := !![2]) rfl (dtOk_none) hsv hM (by simp)
  exact ⟨R, hR, h⟩

end Harold
