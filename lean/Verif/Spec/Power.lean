import Verif.Spec.Matrix
import Mathlib.Analysis.SpecialFunctions.Log.Basic
import Mathlib.LinearAlgebra.Matrix.NonsingularInverse
import Mathlib.MeasureTheory.Integral.Bochner.Basic

/-!
# Specification for the judges of `research/metric_power.py`
-/

open MeasureTheory

namespace Precise.Spec

variable {ι K : Type}

/-- `c` is the largest Rayleigh quotient (top eigenvalue of the symmetric part) of `a`. -/
def TopEig [Fintype ι] [NonUnitalNonAssocSemiring K] [LE K] (a : Matrix ι ι K) (c : K) : Prop :=
  MaxEigLE a c ∧ ∃ x, x ≠ 0 ∧ quad a x = c * normSq x

/-- `n` random test rows, each with second-moment matrix `S` (mean 0 and covariance `S`, say); nothing is assumed about their joint law. -/
structure TestRows {Ω : Type} [MeasurableSpace Ω] (P : Measure Ω) {n : ℕ} (X : Fin n → Ω → ι → ℝ) (S : Matrix ι ι ℝ) : Prop where
  int : ∀ t i j, Integrable (fun ω => X t ω i * X t ω j) P
  moment : ∀ t i j, ∫ ω, X t ω i * X t ω j ∂P = S i j

/-- The rows as the list a judge gets. -/
def rows {Ω : Type} {n : ℕ} (X : Fin n → Ω → ι → ℝ) (ω : Ω) : List (ι → ℝ) := List.ofFn fun t => X t ω

/-- Textbook `KL(N(0,S) ‖ N(0,a))`. -/
noncomputable def gaussKL [Fintype ι] [DecidableEq ι] (S a : Matrix ι ι ℝ) : ℝ :=
  (1 / 2) * ((a⁻¹ * S).trace - (Fintype.card ι : ℝ) + Real.log (a.det / S.det))

end Precise.Spec
