import Verif.Spec.Columns
import Verif.Spec.Stats

/-!
# Specification vocabulary: hedging one column with the others
-/

namespace Precise.Spec

variable {ι : Type} [Fintype ι] [DecidableEq ι]

/-- Long one unit of column `i`, short `β j` of every other column `j`. -/
def hedged (i : ι) (β : ι → ℝ) : ι → ℝ := fun j => if j = i then 1 else -β j

/-- What is left of the row `z` in column `i` after the line `α + ∑ β j z j` over the other columns is taken off. -/
def lineResidual (i : ι) (α : ℝ) (β : ι → ℝ) (z : ι → ℝ) : ℝ := z i - (α + ∑ j ∈ Finset.univ.erase i, β j * z j)

end Precise.Spec
