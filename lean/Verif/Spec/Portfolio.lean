import Verif.Spec.Matrix
import Mathlib.Data.Real.Basic

/-!
# Specification vocabulary: the portfolio read off `precision_`
-/

namespace Precise.Spec

variable {ι : Type} [Fintype ι]

/-- The row sums of a matrix, rescaled to sum to 1 (`w = P @ ones; w /= w.sum()`). -/
noncomputable def rowSumWeights (P : Matrix ι ι ℝ) : ι → ℝ := fun i => (∑ j, P i j) / ∑ k, ∑ j, P k j

end Precise.Spec
