/-!
Python run-time notions shared by the models.

Exceptions are values: a Python call that may raise is modelled as `Except PyErr α`.
-/
namespace Verif

/-- The exception classes the modelled code can raise. -/
inductive PyErr where
  | typeError
  | valueError
  | zeroDivision
  | unboundLocal
  | indexError
  | attributeError
  | keyError
  deriving DecidableEq, Repr

end Verif
