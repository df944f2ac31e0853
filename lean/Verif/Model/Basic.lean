/-
Basic vocabulary of the model: Python exceptions as values.
-/
namespace Verif

/-- The Python exceptions raised by the modelled code (only the class is kept, not the message). -/
inductive PyErr where
  | valueError | typeError | runtimeError | assertionError | keyError | indexError
  | stopIteration | overflowError | attributeError
  /-- Not a Python exception: a fuel-bounded loop of the model ran out of fuel. Theorems show where it
  cannot occur. -/
  | outOfFuel
deriving DecidableEq, Repr

/-- Result of a Python call: a value, or the exception raised. -/
abbrev Py := Except PyErr

deriving instance DecidableEq for Except

/-- A byte string. Elements are Python ints; theorems state they are `< 256` where it matters. -/
abbrev Bytes := List Nat

/-- `assert c` -/
def pyAssert (c : Bool) : Py Unit := if c then .ok () else .error .assertionError

end Verif
