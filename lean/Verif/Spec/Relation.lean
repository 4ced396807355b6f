import Mathlib.Data.Matrix.Mul

/-! # Specification vocabulary for exact linear relations between the variables -/

namespace Precise.Spec

open Matrix

variable {ι K : Type}

/-- Every observation satisfies the linear relation `∑ i, w i * x i = c` (an index and its members, shares that add up to
one, a column that occurs twice). -/
def Obeys [Fintype ι] [NonUnitalNonAssocSemiring K] (w : ι → K) (c : K) (xs : List (ι → K)) : Prop := ∀ x ∈ xs, w ⬝ᵥ x = c

end Precise.Spec
