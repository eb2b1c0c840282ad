/-!
Exceptions of the modelled code, as values.
-/
namespace Edpyt

/-- The exception classes raised by the modelled functions (`OutOfHilbertError` is
`edpyt/sector.py:14`, `ZeroNormInitialVector` is `edpyt/lanczos.py:20`; the others are
Python's own). -/
inductive PyErr
  | indexError
  | valueError
  | keyError
  | typeError
  | attributeError
  | nameError
  | runtimeError
  | assertionError
  | stopIteration
  | zeroDivision
  | outOfHilbert
  | zeroNorm
  | notImplemented
  deriving DecidableEq, Repr

/-- `True` if the model ended with an exception. Source: `edpyt/sector.py:14-15`. -/
def Raises {α : Type _} (r : Except PyErr α) : Prop := ∃ e, r = .error e

end Edpyt
