/-!
# Python exceptions as values

`ub` stands for C undefined behaviour (an access outside a buffer with bounds checks disabled, or a shift by a
negative amount); `diverges` that a loop has not ended after the given number of rounds (proved not to happen where
it is used).
-/

namespace QIP

/-- The exceptions raised by the modelled code (class only, messages dropped). -/
inductive PyErr where
  | valueError
  | typeError
  | indexError
  | keyError
  | attributeError
  | zeroDivision
  | overflowError
  | recursionError
  | exception
  | diverges
  | ub
  deriving DecidableEq, Repr

end QIP
