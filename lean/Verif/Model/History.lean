import Verif.Model.Base

/-!
# Call histories on one estimator (`base.py:50-72`)

The mutating calls a user makes on an instance. Accessors (`covariance_`, ...) do not change the object.
-/

namespace Precise

variable {ι K : Type}

/-- A mutating call: `partial_fit(X)`, `fit(X)` (`base.py:50,65`). -/
inductive Call (ι K : Type)
  | partialFit (X : Input ι K)
  | fit (X : Input ι K)

namespace Obj

variable {C : Cls ι K}

/-- The object after one call, whether or not the call raised (`base.py:50-72`). -/
def call [Fintype ι] [Sub K] (o : Obj C) : Call ι K → Obj C
  | .partialFit X => (o.partialFit X).1
  | .fit X => (o.fit X).1

/-- The object after a sequence of calls (the user catches the exceptions) (`base.py:50-72`). -/
def run [Fintype ι] [Sub K] (o : Obj C) (cs : List (Call ι K)) : Obj C := cs.foldl call o

end Obj

end Precise
