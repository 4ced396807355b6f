import Verif.Spec.Stats
import Mathlib.Algebra.Order.Field.Basic
import Mathlib.Algebra.BigOperators.Group.Finset.Basic

/-!
# Specification: recency weights

Plain averaging over the first `b` observations, exponential forgetting with rate `r` afterwards.
-/

namespace Precise.Spec

/-- The weight of observation `t` (counted from 0) after `n` observations: `1/n` while `n ≤ b`, afterwards
`(1-r)^(n-b)/b` for the first `b` observations and `r (1-r)^(n-1-t)` for the later ones. -/
def recencyWeight {K : Type} [Field K] (r : K) (b n t : ℕ) : K :=
  if n ≤ b then 1 / (n : K) else if t < b then (1 - r) ^ (n - b) / (b : K) else r * (1 - r) ^ (n - 1 - t)

/-- The mean with recency weights; 0 before the first observation. -/
def recencyMean {ι K : Type} [Field K] (r : K) (b : ℕ) (xs : List (ι → K)) : ι → K :=
  fun i => ∑ t ∈ Finset.range xs.length, recencyWeight r b xs.length t * xs.getD t 0 i

/-- The innovation of observation `t`: its deviation from the recency mean of the earlier ones. -/
def innovation {ι K : Type} [Field K] (r : K) (b : ℕ) (xs : List (ι → K)) (t : ℕ) : ι → K :=
  xs.getD t 0 - recencyMean r b (xs.take t)

/-- The tracked variance: recency-weighted mean of the squared innovations. -/
def trackedVar {ι K : Type} [Field K] (r : K) (b : ℕ) (xs : List (ι → K)) : ι → K :=
  fun i => ∑ t ∈ Finset.range xs.length, recencyWeight r b xs.length t * innovation r b xs t i ^ 2

/-- The exponentially weighted covariance: the population covariance of the first `b` observations, afterwards
forgetting with rate `r` in favour of the outer products of the innovations. -/
def recencyCov {ι K : Type} [Field K] (r : K) (b : ℕ) (xs : List (ι → K)) : Matrix ι ι K :=
  Matrix.of fun i j => if xs.length ≤ b then covOf xs i j
    else (1 - r) ^ (xs.length - b) * covOf (xs.take b) i j
      + ∑ t ∈ Finset.Ico b xs.length, r * (1 - r) ^ (xs.length - 1 - t) * (innovation r b xs t i * innovation r b xs t j)

end Precise.Spec
