/-
Shared vocabulary of the model: Python exceptions as values.
-/
namespace Spreg

/-- The exception classes that the modelled code can raise (Python built-ins, plus the bare
`Exception(...)` that spreg raises for invalid arguments, plus NumPy's `LinAlgError`). -/
inductive PyErr where
  | exception      -- raise Exception("...")
  | valueError
  | indexError
  | typeError
  | attributeError
  | unboundLocal
  | linAlgError
  | zeroDivision
  | keyError
  deriving DecidableEq, Repr

abbrev Py (α : Type) := Except PyErr α

end Spreg
