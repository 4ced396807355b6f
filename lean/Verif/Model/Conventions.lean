import Mathlib.Data.Matrix.Basic

/-!
# Model of `precise/_conventions.py`, and the exceptions the package raises

Exceptions are values (`PyErr`), a mutating method returns the new object together with its outcome.
-/

namespace Precise

/-- The exceptions that matter to the modelled code. -/
inductive PyErr
  | valueError        -- ValueError (`_conventions.py:25`, `base.py:71`, `keyed.py:39,157,161,254`)
  | notFitted         -- NotFittedError (`base.py:24-25`, raised at `base.py:76`)
  | keyError          -- KeyError (`registry.py:65`, `assessment/registry.py:34`)
  | linAlgError       -- numpy.linalg.LinAlgError
  | zeroDivision      -- ZeroDivisionError (`_state.py:52` with r = 0)
  | notImplemented    -- NotImplementedError (`conditional.py:163-171`)
  | typeError         -- TypeError (`conditional.py:131`, a call with wrong arguments)
  | attributeError    -- AttributeError (assigning to a read-only property, `base.py:84-102`)
  | indexError        -- IndexError (`bakeoff.py:151`)
  | stopIteration     -- StopIteration (`bakeoff.py:143,166`)
  deriving DecidableEq, Repr

variable {ι K : Type}

/-- The argument `X` of `partial_fit`/`fit` after `np.asarray(X, dtype=float)` (`_conventions.py:20`):
a 1d observation, a 2d batch of rows, or an array of any other rank.
Simplification: the row length is fixed by the index type `ι`; wrong lengths are in `Model/Shapes.lean`. -/
inductive Input (ι K : Type)
  | row (x : ι → K)
  | batch (xs : List (ι → K))
  | other (ndim : ℕ)

/-- `as_rows` (`_conventions.py:13-25`): 1d becomes one row, 2d is kept, everything else is rejected. -/
def asRows : Input ι K → Except PyErr (List (ι → K))
  | .row x => .ok [x]
  | .batch xs => .ok xs
  | .other _ => .error .valueError

end Precise
