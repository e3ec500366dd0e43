/-!
# Python exceptions as values

A modelled function that can raise returns `Except Err α`. One constructor per exception class
that harold (or numpy/scipy underneath it) raises on a modelled path.
-/

universe u

namespace Harold

/-- Exception classes. `linAlg` is `scipy.linalg.LinAlgError` (a subclass of `Exception`, *not* of
`ValueError` as far as the `except ValueError` clauses of harold are concerned). -/
inductive Err where
  | value
  | type
  | index
  | attribute
  | linAlg
  | unboundLocal
  | recursion
  | notImplemented
  | zeroDivision
  deriving DecidableEq, Repr

/-- Result of a Python call. -/
abbrev Res (α : Type u) := Except Err α

end Harold
