import Mathlib.Data.Matrix.Mul
import Mathlib.Algebra.Order.Field.Basic
import Mathlib.LinearAlgebra.Matrix.Trace

/-!
# Specification vocabulary for matrices

Quadratic forms and positivity, spelled out over any ordered field, independent of the model.
-/

namespace Precise.Spec

variable {ι K : Type}

/-- A matrix is symmetric. -/
def Symm (a : Matrix ι ι K) : Prop := ∀ i j, a i j = a j i

open Matrix in
/-- The quadratic form `xᵀ a x`. -/
def quad [Fintype ι] [NonUnitalNonAssocSemiring K] (a : Matrix ι ι K) (x : ι → K) : K := x ⬝ᵥ a *ᵥ x

/-- Squared Euclidean norm. -/
def normSq [Fintype ι] [NonUnitalNonAssocSemiring K] (x : ι → K) : K := ∑ i, x i * x i

/-- Positive semi-definite: symmetric with non-negative quadratic form. -/
def PSD [Fintype ι] [NonUnitalNonAssocSemiring K] [LE K] (a : Matrix ι ι K) : Prop :=
  Symm a ∧ ∀ x, 0 ≤ quad a x

/-- Positive definite: symmetric with positive quadratic form away from 0. -/
def PD [Fintype ι] [NonUnitalNonAssocSemiring K] [LT K] (a : Matrix ι ι K) : Prop :=
  Symm a ∧ ∀ x, x ≠ 0 → 0 < quad a x

/-- `a ⪯ b` in the Loewner order: every linear combination has at most as much variance under `a`. -/
def Loewner [Fintype ι] [NonUnitalNonAssocSemiring K] [LE K] (a b : Matrix ι ι K) : Prop :=
  ∀ x, quad a x ≤ quad b x

/-- All eigenvalues (Rayleigh quotients) of `a` are at least `c`. -/
def MinEigGE [Fintype ι] [NonUnitalNonAssocSemiring K] [LE K] (a : Matrix ι ι K) (c : K) : Prop :=
  ∀ x, c * normSq x ≤ quad a x

/-- All eigenvalues (Rayleigh quotients) of `a` are at most `c`. -/
def MaxEigLE [Fintype ι] [NonUnitalNonAssocSemiring K] [LE K] (a : Matrix ι ι K) (c : K) : Prop :=
  ∀ x, quad a x ≤ c * normSq x

open Matrix in
/-- The Moore–Penrose equations for `p` as pseudo-inverse of `a`. -/
def IsPinv [Fintype ι] [NonUnitalNonAssocSemiring K] (a p : Matrix ι ι K) : Prop :=
  a * p * a = a ∧ p * a * p = p ∧ Symm (a * p) ∧ Symm (p * a)

end Precise.Spec
