import Verif.Model.Sim
import Verif.Model.Transfer

/-!
# Time domain simulation of `Transfer` models (`_time_domain.py`)
-/

namespace Harold

variable {P : Type}

/-- The `State` instance with the data `T` that `transfer_to_state` returns. Poles, zeros and the stability flag are left out; the
simulation does not read them. -/
def StateObj.plain (T : StateM ℝ) : StateObj ℝ P := ⟨T, (T.p, T.m), none, none, 0, [], [], true⟩

/-- `simulate_linear_system` (`_time_domain.py:13-154`) for `Transfer` models: an initial condition raises `ValueError` (lines 62-68), the
model is converted (lines 80-84), and the rest is the same as for `State` models. -/
noncomputable def simulateTransfer (E : TNum ℝ) (N : Numerics ℝ P) (B : DNum) (G : TransferM ℝ) (u : Arr ℝ) (t : Option (List ℝ))
    (x0 : Option (List ℝ)) (perChannel : Bool) : Res (SimOut × List ℝ) :=
  match x0 with
  | some _ => .error .value
  | none => do
    let T ← transferToState E G
    simulate N B (StateObj.plain T) u t none perChannel

/-- `simulate_step_response` (`_time_domain.py:157-203`) for `Transfer` models, converted in lines 184-188. `auto` is the result of
`_compute_tfinal_and_dt` for the converted model. -/
noncomputable def stepResponseTransfer (E : TNum ℝ) (N : Numerics ℝ P) (B : DNum) (G : TransferM ℝ) (auto : StateM ℝ → ℝ × ℝ)
    (t : Option (List ℝ)) : Res (SimOut × List ℝ) := do
  let T ← transferToState E G
  stepResponse N B (StateObj.plain T) (auto T) t

/-- `simulate_impulse_response` (`_time_domain.py:206-254`) for `Transfer` models, converted in lines 234-238. -/
noncomputable def impulseResponseTransfer (E : TNum ℝ) (N : Numerics ℝ P) (B : DNum) (G : TransferM ℝ) (auto : StateM ℝ → ℝ × ℝ)
    (t : Option (List ℝ)) : Res (SimOut × List ℝ) := do
  let T ← transferToState E G
  impulseResponse N B (StateObj.plain T) (auto T) t

end Harold
