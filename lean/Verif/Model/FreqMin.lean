import Verif.Model.Freq
import Verif.Model.MinrealState

/-!
# `frequency_response(..., use_minreal=True)`

Models `/repo/harold/_frequency_domain.py:73-85` with `_minimal_realization_state` (`/repo/harold/_system_funcs.py:355-421`).
-/

namespace Harold

/-- `frequency_response(G, w, samples, w_unit, output_unit, use_minreal)` of a `State` (`_frequency_domain.py:48-114`); `tol` is the default `1e-6` of
`_minimal_realization_state`. -/
noncomputable def freqStateMin (N : HessNum ℝ) (S : SvdNum ℝ) (M : MinNum ℝ) (tol : ℝ) (useMinreal : Bool) (auto : List ℝ) (G : StateM ℝ) (w : Option GridArg)
    (samples : Option ℕ) (iu ou : String) : Res FreqOut :=
  freqState N (if useMinreal then some (minrealMatrices S M tol) else none) auto G w samples iu ou

end Harold
