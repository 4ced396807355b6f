import Verif.Spec.Recency
import Mathlib.Data.Matrix.Basic
import Mathlib.Analysis.SpecialFunctions.Pow.Real

/-!
# Specification: standardized innovations and their second moment (dynamic conditional correlation)
-/

namespace Precise.Spec

variable {ι : Type}

/-- The standardized innovation of observation `t`: divided by the tracked volatility *including* observation `t`,
the variance floored at 1e-12. -/
noncomputable def dccResidual (volR : ℝ) (b : ℕ) (xs : List (ι → ℝ)) (t : ℕ) : ι → ℝ :=
  fun i => innovation volR b xs t i / Real.sqrt (max (trackedVar volR b (xs.take (t + 1)) i) (1 / 10 ^ 12))

/-- The quasi-correlation: recency-weighted second moment of the standardized innovations. -/
noncomputable def dccQuasi (r volR : ℝ) (b : ℕ) (xs : List (ι → ℝ)) : Matrix ι ι ℝ :=
  Matrix.of fun i j => ∑ t ∈ Finset.range xs.length, recencyWeight r b xs.length t * (dccResidual volR b xs t i * dccResidual volR b xs t j)

end Precise.Spec
