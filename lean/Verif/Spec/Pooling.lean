import Verif.Model.History
import Verif.Spec.Stream
import Verif.Spec.Stats

/-! # Putting estimates together, and going on from what an estimator shows -/

namespace Precise.Spec

variable {ι K : Type}

/-- What `location_` and `covariance_` show is all that matters for the future: two objects built with the same parameters that used at least
`b` observations each, or the same number, and that show the same location and covariance, show the same location and covariance after any
further observations. -/
def ShowsAll [Fintype ι] [Field K] [LinearOrder K] (C : Cls ι K) (p : C.Param) (b : ℕ) : Prop :=
  ∀ (A B A' B' : List (Call ι K)) (zs : List (ι → K)) (m : ι → K) (c : Matrix ι ι K),
    ((used (C.diff p) A).length = (used (C.diff p) B).length ∨ b ≤ (used (C.diff p) A).length ∧ b ≤ (used (C.diff p) B).length) →
    ((Obj.new C p).run A).location = .ok m → ((Obj.new C p).run A).covariance = .ok c →
    ((Obj.new C p).run B).location = .ok m → ((Obj.new C p).run B).covariance = .ok c →
    used (C.diff p) A' = used (C.diff p) A ++ zs → used (C.diff p) B' = used (C.diff p) B ++ zs →
    ((Obj.new C p).run A').location = ((Obj.new C p).run B').location ∧ ((Obj.new C p).run A').covariance = ((Obj.new C p).run B').covariance

end Precise.Spec
