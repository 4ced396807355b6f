import Verif.Model.History

/-!
# Specification vocabulary for streams of observations

Independent of the model of the estimators: rows, differences, rows since the last `fit`.
-/

namespace Precise.Spec

variable {ι K : Type}

/-- The observations carried by one call argument (a rejected argument carries none). -/
def rowsOf : Input ι K → List (ι → K)
  | .row x => [x]
  | .batch xs => xs
  | .other _ => []

/-- First differences `x₂-x₁, x₃-x₂, …` of a stream. -/
def diffs [Sub K] : List (ι → K) → List (ι → K)
  | [] => []
  | [_] => []
  | x :: y :: t => (y - x) :: diffs (y :: t)

/-- The observations the estimator is documented to use: the rows, or their first differences. -/
def effective [Sub K] (diff : Bool) (xs : List (ι → K)) : List (ι → K) :=
  if diff then diffs xs else xs

/-- The rows consumed since construction or the last `fit`. A `fit` call (even a rejected one, see C03)
starts over; a 2d `fit` brings its own rows. -/
def rowsSinceFit : List (Call ι K) → List (ι → K) → List (ι → K)
  | [], acc => acc
  | .partialFit X :: cs, acc => rowsSinceFit cs (acc ++ rowsOf X)
  | .fit (.batch xs) :: cs, _ => rowsSinceFit cs xs
  | .fit _ :: cs, _ => rowsSinceFit cs []

/-- The observations an estimator with the given `diff` flag has used after a history of calls: the rows since
the last `fit`, or their first differences. -/
def used [Sub K] (diff : Bool) (calls : List (Call ι K)) : List (ι → K) := effective diff (rowsSinceFit calls [])

end Precise.Spec
