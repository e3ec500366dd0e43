import Verif.Model.Hinf
import Verif.Model.Transfer

/-!
# `system_norm` of `State` and `Transfer` models (`_system_props.py:15-148`)
-/

namespace Harold

/-- The argument `p` of `system_norm`: `2`, `np.inf` or anything else. -/
inductive NormOrder where
  | two
  | inf
  | other

/-- The `State` object that `transfer_to_state` returns: the constructor has computed poles, zeros and the stability flag. -/
def StateObj.built (N : Numerics ℝ ℂ) (T : StateM ℝ) : StateObj ℝ ℂ := StateObj.recalc N ⟨T, T.d.shape, none, none, 0, [], [], false⟩

/-- `system_norm(G, p)` (`_system_props.py:64-148`) for `State` models; other values of `p` raise `ValueError` (lines 64-66). -/
noncomputable def systemNorm (L : LyapNum ℝ) (X0 : Wk ℝ) (close : ℝ) (F : HinfNum) (eigTol : ℝ) (S : StateObj ℝ ℂ) : NormOrder → Res FVal
  | .two => systemNorm2 L X0 close S
  | .inf => systemNormInf F eigTol S
  | .other => .error .value

/-- `system_norm(G, p)` (`_system_props.py:64-148`) for `Transfer` models: converted in line 68, after the check of `p`. -/
noncomputable def systemNormTransfer (E : TNum ℝ) (N : Numerics ℝ ℂ) (L : LyapNum ℝ) (X0 : Wk ℝ) (close : ℝ) (F : HinfNum) (eigTol : ℝ) (G : TransferM ℝ) : NormOrder → Res FVal
  | .other => .error .value
  | .two => do
    let T ← transferToState E G
    systemNorm2 L X0 close (StateObj.built N T)
  | .inf => do
    let T ← transferToState E G
    systemNormInf F eigTol (StateObj.built N T)

end Harold
