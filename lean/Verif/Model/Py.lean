/-!
# Python exceptions as values
-/

namespace Copt

/-- The Python exception classes that the modelled code can raise (explicitly or implicitly). -/
inductive PyErr where
  | assertionError
  | indexError
  | valueError
  | typeError
  | keyError
  | unboundLocalError
  | zeroDivisionError
  | notImplementedError
  | attributeError
  | fileExistsError
  | fileNotFoundError
  | recursionError
  | readError
  | runtimeError
  /-- out-of-bounds access (or division by zero) in compiled code: undefined behaviour -/
  | memoryFault
  deriving DecidableEq, Repr

end Copt
