import Verif.Model.StateObj
import Verif.Model.TransferObj

/-!
# The printed form of models

Models `State.__repr__` and `Transfer.__repr__` (`/repo/harold/_classes.py:1005-1036, 2506-2540`). `__str__` is not
defined by harold, so `str(G)` and `print(G)` show the same text.
-/

namespace Harold

variable {K P : Type}

/-- The external routines of `__repr__`: `fixed3 x` is `'{:.3f}'.format(x)`, `tabulate rows headers` is the function
of the package of that name, `re` and `im` are `np.real` and `np.imag`. -/
structure Printing (K P : Type) where
  fixed3 : K → String
  tabulate : List (List (Option K)) → List String → String
  re : P → K
  im : P → K

/-- `itertools.zip_longest(*cols)` with fill value `None`. -/
def zipLongest {α : Type} (cols : List (List α)) : List (List (Option α)) :=
  (List.range ((cols.map List.length).foldr max 0)).map fun i => cols.map fun c => c[i]?

/-- `pole_zero_table` (`_classes.py:1021-1025, 2525-2529`). -/
def poleZeroTable (W : Printing K P) (poles zeros : List P) : List (List (Option K)) :=
  zipLongest [poles.map W.re, poles.map W.im, zeros.map W.re, zeros.map W.im]

/-- The `headers` argument of `tabulate` (`_classes.py:1028-1031, 2532-2535`). -/
def tableHeaders : List String := ["Poles(real)", "Poles(imag)", "Zeros(real)", "Zeros(imag)"]

/-- `'s' if k > 1 else ''`. -/
def plural (k : ℕ) : String := if 1 < k then "s" else ""

variable [Field K] [LinearOrder K]

/-- `'… sampling time: {0:.3f} ({1:.3f} Hz.)\n'.format(float(dt), 1/float(dt))` after the text `pre`
(`_classes.py:1010-1013, 2511-2514`). -/
def discreteHeader (W : Printing K P) (pre : String) (t : K) : Res String :=
  if t = 0 then .error .zeroDivision
  else .ok (pre ++ "sampling time: " ++ W.fixed3 t ++ " (" ++ W.fixed3 (1 / t) ++ " Hz.)\n")

/-- `'\n{}x{} Static Gain\n'.format(p, m)` (`_classes.py:1016, 2517`). -/
def gainLine (p m : ℕ) : String := "\n" ++ toString p ++ "x" ++ toString m ++ " Static Gain\n"

/-- `State.__repr__` (`_classes.py:2506-2540`). -/
def StateObj.repr (W : Printing K P) (S : StateObj K P) : Res String := do
  let p := S.shape.1
  let m := S.shape.2
  let n := S.g.n
  let desc ← match S.g.dt with
    | none => .ok "\nContinuous-time state representation\n"
    | some t => discreteHeader W "\nDiscrete-Time state representation with " t
  if S.g.isgain then .ok (desc ++ gainLine p m ++ "\n\n")
  else .ok (desc ++ (toString n ++ " state" ++ plural n ++ ", " ++ toString m ++ " input" ++ plural m ++ ", and " ++
      toString p ++ " output" ++ plural p) ++ ("\n" ++ W.tabulate (poleZeroTable W S.poles S.zeros) tableHeaders) ++ "\n\n")

/-- `Transfer.__repr__` (`_classes.py:1005-1036`). -/
def TransferObj.repr (W : Printing K P) (S : TransferObj K P) : Res String := do
  let p := S.shape.1
  let m := S.shape.2
  let desc ← match S.g.dt with
    | none => .ok "Continuous-Time Transfer function\n"
    | some t => discreteHeader W "Discrete-Time Transfer function with " t
  if S.g.isgain then .ok (desc ++ gainLine p m ++ "\n\n")
  else .ok (desc ++ (" " ++ toString m ++ " input" ++ plural m ++ " and " ++ toString p ++ " output" ++ plural p ++ "\n") ++
      ("\n" ++ W.tabulate (poleZeroTable W S.poles S.zeros) tableHeaders) ++ "\n\n")

end Harold
