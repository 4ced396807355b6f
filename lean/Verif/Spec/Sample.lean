import Verif.Spec.Recency
import Mathlib.Probability.IdentDistrib
import Mathlib.Probability.Moments.Covariance

/-!
# Specification: random streams

`X t ω` is row `t` of the stream in outcome `ω`.
-/

open MeasureTheory ProbabilityTheory

namespace Precise.Spec

variable {Ω ι : Type} [MeasurableSpace Ω]

/-- The first `n` rows of the stream. -/
def sample (X : ℕ → Ω → ι → ℝ) (n : ℕ) (ω : Ω) : List (ι → ℝ) := (List.range n).map fun t => X t ω

/-- Rows with common mean `μ` and common covariance `S`, rows at different times uncorrelated. -/
structure Uncorrelated (P : Measure Ω) (X : ℕ → Ω → ι → ℝ) (μ : ι → ℝ) (S : Matrix ι ι ℝ) : Prop where
  int1 : ∀ t i, Integrable (fun ω => X t ω i) P
  int2 : ∀ s t i j, Integrable (fun ω => (X s ω i - μ i) * (X t ω j - μ j)) P
  mean : ∀ t i, ∫ ω, X t ω i ∂P = μ i
  cov : ∀ t i j, ∫ ω, (X t ω i - μ i) * (X t ω j - μ j) ∂P = S i j
  uncor : ∀ s t i j, s ≠ t → ∫ ω, (X s ω i - μ i) * (X t ω j - μ j) ∂P = 0

/-- Independent, identically distributed rows with finite second moments (pairwise independence is enough). -/
structure IID (P : Measure Ω) (X : ℕ → Ω → ι → ℝ) : Prop where
  indep : Pairwise fun s t => IndepFun (X s) (X t) P
  ident : ∀ t, IdentDistrib (X t) (X 0) P P
  moments : ∀ i, MemLp (fun ω => X 0 ω i) 2 P

/-- The mean of a row. -/
noncomputable def meanRow (P : Measure Ω) (X : ℕ → Ω → ι → ℝ) : ι → ℝ := fun i => ∫ ω, X 0 ω i ∂P

/-- The covariance matrix of a row. -/
noncomputable def covRow (P : Measure Ω) (X : ℕ → Ω → ι → ℝ) : Matrix ι ι ℝ :=
  Matrix.of fun i j => ∫ ω, (X 0 ω i - meanRow P X i) * (X 0 ω j - meanRow P X j) ∂P

end Precise.Spec
