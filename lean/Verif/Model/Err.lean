/-
Exceptions raised by the modelled Python code, as values.
-/

namespace PFEM

/-- Python exception classes that the modelled functions can raise.
`multiIndexError`, `degenerateTriangle`, `invalidVariable`, `polynomialError`:
`/repo/puncturedfem/locfun/poly/poly_exceptions.py`;
`edgeTransformation`, `notParameterized`, `sizeMismatch`, ...:
`/repo/puncturedfem/mesh/mesh_exceptions.py`; the rest are Python built-ins. -/
inductive PyErr
  | typeError
  | valueError
  | indexError
  | keyError
  | attributeError
  | zeroDivision
  | notImplemented
  | unboundLocal
  | runtimeError
  | exception
  | multiIndexError
  | invalidVariable
  | polynomialError
  | degenerateTriangle
  | edgeTransformation
  | notParameterized
  | sizeMismatch
  | topologyError
  | embedding
  | interiorPoint
  | fileNotFound
  deriving DecidableEq, Repr

/-- Outcome of a Python call: a value or a raised exception. -/
abbrev Py (α : Type) := Except PyErr α

/-- Did the call finish without raising? -/
def Py.isOk {α : Type} : Py α → Bool
  | .ok _ => true
  | .error _ => false

end PFEM
