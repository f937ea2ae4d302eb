/-! # Python exceptions as values -/

namespace Verif

/-- The exception classes that matter for the modelled code. -/
inductive PyErr where
  | typeError
  | valueError
  | indexError
  | assertionError
  | attributeError
  | zeroDivisionError
  | keyError
  | unboundLocalError
  /-- bare `Exception` -/
  | exception
  deriving DecidableEq, Repr

/-- A computation that may raise. -/
abbrev Py (α : Type _) := Except PyErr α

end Verif
