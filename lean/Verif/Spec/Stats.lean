import Verif.Spec.Matrix
import Mathlib.Algebra.BigOperators.Group.List.Basic

/-!
# Specification: batch statistics of a list of observations (textbook formulas)
-/

namespace Precise.Spec

variable {ι K : Type}

/-- Arithmetic mean of each variable. -/
def meanOf [Field K] (xs : List (ι → K)) : ι → K := fun i => (xs.map fun x => x i).sum / (xs.length : K)

/-- Population covariance (divide by n) about the mean. -/
def covOf [Field K] (xs : List (ι → K)) : Matrix ι ι K :=
  Matrix.of fun i j => (xs.map fun x => (x i - meanOf xs i) * (x j - meanOf xs j)).sum / (xs.length : K)

/-- Second-moment matrix (covariance about zero): the mean of `x xᵀ`. -/
def secondMoment [Field K] (xs : List (ι → K)) : Matrix ι ι K :=
  Matrix.of fun i j => (xs.map fun x => x i * x j).sum / (xs.length : K)

open Matrix in
/-- The affine map `x ↦ A x + b`. -/
def affine {κ : Type} [Fintype ι] [Field K] (A : Matrix κ ι K) (b : κ → K) (x : ι → K) : κ → K := A *ᵥ x + b

end Precise.Spec
