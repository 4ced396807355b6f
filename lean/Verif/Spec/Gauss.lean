import Verif.Spec.Matrix
import Mathlib.Analysis.SpecialFunctions.Log.Basic
import Mathlib.Analysis.SpecialFunctions.Pow.Real
import Mathlib.Analysis.Real.Pi.Bounds
import Mathlib.LinearAlgebra.Matrix.NonsingularInverse

/-!
# Specification: the multivariate normal density (textbook formula)
-/

open Matrix

namespace Precise.Spec

variable {ι : Type} [Fintype ι] [DecidableEq ι]

/-- Density of `N(m, S)` at `x`: `exp(-(x-m)ᵀ S⁻¹ (x-m) / 2) / sqrt((2π)^p det S)`. -/
noncomputable def gaussDensity (m : ι → ℝ) (S : Matrix ι ι ℝ) (x : ι → ℝ) : ℝ :=
  Real.exp (-(1 / 2) * quad S⁻¹ (x - m)) / Real.sqrt ((2 * Real.pi) ^ Fintype.card ι * S.det)

/-- Mean log-likelihood of a sample under `N(m, S)`. -/
noncomputable def meanLogLik (m : ι → ℝ) (S : Matrix ι ι ℝ) (xs : List (ι → ℝ)) : ℝ :=
  (xs.map fun x => Real.log (gaussDensity m S x)).sum / (xs.length : ℝ)

end Precise.Spec
