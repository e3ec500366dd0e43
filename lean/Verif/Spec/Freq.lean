import Verif.Model.Freq
import Verif.Spec.TF
import Verif.Spec.Transfer
import Verif.Spec.Hess
import Mathlib.LinearAlgebra.Matrix.Determinant.Basic

/-!
# Specification: frequencies, units, grids
-/

namespace Harold.Spec

open Matrix

/-- `s = jω` in continuous time and `z = exp(jω dt)` in discrete time. -/
noncomputable def evalPoint (dt : Option ℝ) (ω : ℝ) : ℂ :=
  dt.elim (Complex.I * ω) fun dt => Complex.exp (Complex.I * (ω * dt))

/-- Spellings of the units, upper and lower case letters mixed. -/
def IsHz (u : String) : Prop := u.toList.map Char.toLower = "hz".toList
def IsRad (u : String) : Prop := u.toList.map Char.toLower = "rad/s".toList

/-- Frequency `x` given in the unit `u`, in rad/s. -/
noncomputable def toRad (u : String) (x : ℝ) : ℝ :=
  open Classical in if IsHz u then 2 * Real.pi * x else x

open Classical in
/-- The frequencies asked for, in rad/s: the user's grid in the unit `iu`, without the frequencies above `π / dt` for a discrete model. -/
noncomputable def askedGrid (dt : Option ℝ) (iu : String) (data : List ℝ) : List ℝ :=
  (data.map (toRad iu)).filter fun x => decide (∀ d, dt = some d → x ≤ Real.pi / d)

/-- The samples of `R` are the values of the model at the returned frequencies. `val s M` says that the model has the value `M` at the point `s`, `ou` is
the unit of the returned grid. There is one sample for each returned frequency. -/
structure Samples (R : FreqOut) (dt : Option ℝ) (ou : String) (p m : ℕ) (val : ℂ → Matrix (Fin p) (Fin m) ℂ → Prop) : Prop where
  length : R.resp.length = R.w.length
  value : ∀ (k : ℕ) (ω : ℝ), R.w[k]? = some ω → ∀ M, val (evalPoint dt (toRad ou ω)) M → R.resp[k]? = some (Arr.of (M.map some))

/-- No pivot vanishes when `sI - H` is eliminated for a Hessenberg form `H = TᵀAT` (`T` orthogonal) in which some output reads the last state only: the
leading principal minors of `sI - H` are not zero. -/
def PivotsOk {n p : ℕ} (A : Matrix (Fin n) (Fin n) ℝ) (C : Matrix (Fin p) (Fin n) ℝ) (s : ℂ) : Prop :=
  ∀ T : Matrix (Fin n) (Fin n) ℝ, Tᵀ * T = 1 → IsHess (Tᵀ * A * T) → (∃ i, ∀ j : Fin n, (j : ℕ) + 1 ≠ n → (C * T) i j = 0) →
    ∀ (k : ℕ) (hk : k ≤ n),
      ((s • (1 : Matrix (Fin n) (Fin n) ℂ) - (Tᵀ * A * T).map (algebraMap ℝ ℂ)).submatrix (Fin.castLE hk) (Fin.castLE hk)).det ≠ 0

end Harold.Spec
