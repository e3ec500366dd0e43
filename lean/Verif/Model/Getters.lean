import Verif.Model.TransferObj

/-!
# Reading the properties of `State` and `Transfer` objects

Models the getters of `/repo/harold/_classes.py:74-143, 203-257` (`Transfer`) and `1640-1805` (`State`).
-/

namespace Harold

variable {K P : Type}

/-- `G.SamplingSet` (`_classes.py:105-112`, `1688-1695`): `_rz`, set together with `_dt` (lines 267-275, 1858-1866). -/
def samplingSet (dt : Option K) : String := if dt.isSome then "Z" else "R"

/-- `G.DiscretizedWith` of a `State` (`_classes.py:1734-1743`). -/
def StateObj.discretizedWith (S : StateObj K P) : Option String := S.discWith

/-- `G.DiscretizationMatrix` of a `State` (`_classes.py:1746-1791`). -/
def StateObj.discretizationMatrix (S : StateObj K P) : Option (Arr K) := S.discMat

/-- `G.DiscretizedWith` of a `Transfer` (`_classes.py:204-216`). -/
def TransferObj.discretizedWith (S : TransferObj K P) : Option String :=
  if samplingSet S.g.dt = "R" ∨ S.discWith = none then none else S.discWith

/-- `G.DiscretizationMatrix` of a `Transfer` (`_classes.py:219-242`). -/
def TransferObj.discretizationMatrix (S : TransferObj K P) : Option (Arr K) :=
  if samplingSet S.g.dt = "R" ∨ S.discretizedWith ≠ some "lft" then none else S.discMat

/-- `G.PrewarpFrequency` of a `Transfer` (`_classes.py:245-256`). -/
def TransferObj.prewarpFrequency (S : TransferObj K P) : Option K :=
  if samplingSet S.g.dt = "R" ∨ (S.discretizedWith.getD "") ∉ tustinNames then none else some S.prewarp

/-- `G.shape`, `G.NumberOfOutputs`, `G.NumberOfInputs` of a `State` (`_classes.py:1705-1724`): `_shape`, `_p` and `_m` are set once by the constructor (line 1630). -/
def StateObj.size (S : StateObj K P) : ℕ × ℕ := S.shape

/-- `G.shape`, `G.NumberOfOutputs`, `G.NumberOfInputs` of a `Transfer` (`_classes.py:115-134`). -/
def TransferObj.size (S : TransferObj K P) : ℕ × ℕ := S.shape

/-- `G.matrices` (`_classes.py:1727-1731`). -/
def StateObj.matrices (S : StateObj K P) : Arr K × Arr K × Arr K × Arr K := (S.g.a, S.g.b, S.g.c, S.g.d)

/-- `G.polynomials` (`_classes.py:137-142`). -/
def TransferObj.polynomials (S : TransferObj K P) : Arr (List K) × Arr (List K) := (S.g.num, S.g.den)

end Harold
