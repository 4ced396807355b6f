import Verif.Spec.Forgetting

/-!
# Specification vocabulary: forecasts against the best forecaster in hindsight
-/

open Matrix

namespace Precise.Spec

/-- `location_`, read before each observation, as a forecast of the return `w · x t` of a portfolio `w`, against a forecaster who says the same number `u` each time and
may choose it after the fact: over any `n` observations that follow a past of at least `n0` used observations, the squared errors, times `1 - r`, sum to at most those
of `u` plus the square of the distance it started at, over `r`. -/
def CompetesWithConstants {ι : Type} [Fintype ι] (C : Cls ι ℝ) (p : C.Param) (r : ℝ) (n0 : ℕ) : Prop :=
  ∀ (a : List (ι → ℝ)) (x : ℕ → ι → ℝ) (calls : ℕ → List (Call ι ℝ)), n0 ≤ a.length → (∀ k, used (C.diff p) (calls k) = a ++ firstRows k x) →
    ∃ m : ℕ → ι → ℝ, (∀ k, ((Obj.new C p).run (calls k)).location = .ok (m k)) ∧
      ∀ (w : ι → ℝ) (n : ℕ) (u : ℝ), (1 - r) * ∑ t ∈ Finset.range n, (w ⬝ᵥ x t - w ⬝ᵥ m t) ^ 2
        ≤ ∑ t ∈ Finset.range n, (w ⬝ᵥ x t - u) ^ 2 + (w ⬝ᵥ m 0 - u) ^ 2 / r

/-- The same against a forecaster who says `u t` at time `t`: when the returns, the start and the `u t` lie in `[lo, hi]`, the price of the competitor's changes of mind
is `2 (hi - lo) / r` times the way `u` has gone. -/
def CompetesWithPaths {ι : Type} [Fintype ι] (C : Cls ι ℝ) (p : C.Param) (r : ℝ) (n0 : ℕ) : Prop :=
  ∀ (a : List (ι → ℝ)) (x : ℕ → ι → ℝ) (calls : ℕ → List (Call ι ℝ)), n0 ≤ a.length → (∀ k, used (C.diff p) (calls k) = a ++ firstRows k x) →
    ∃ m : ℕ → ι → ℝ, (∀ k, ((Obj.new C p).run (calls k)).location = .ok (m k)) ∧
      ∀ (w : ι → ℝ) (lo hi : ℝ), (∀ t, lo ≤ w ⬝ᵥ x t ∧ w ⬝ᵥ x t ≤ hi) → lo ≤ w ⬝ᵥ m 0 → w ⬝ᵥ m 0 ≤ hi →
        ∀ (n : ℕ) (u : ℕ → ℝ), (∀ t, lo ≤ u t ∧ u t ≤ hi) → (1 - r) * ∑ t ∈ Finset.range n, (w ⬝ᵥ x t - w ⬝ᵥ m t) ^ 2
          ≤ ∑ t ∈ Finset.range n, (w ⬝ᵥ x t - u t) ^ 2 + ((hi - lo) ^ 2 + 2 * (hi - lo) * ∑ t ∈ Finset.range n, |u (t + 1) - u t|) / r

/-- `covariance_`, read before each observation, as a forecast of the product of the errors of columns `i` and `j` (for the pairs in `I`), against any constant `v`
chosen after the fact. -/
def CovCompetesWithConstants {ι : Type} [Fintype ι] (C : Cls ι ℝ) (p : C.Param) (r : ℝ) (n0 : ℕ) (I : ι → ι → Prop) : Prop :=
  ∀ (a : List (ι → ℝ)) (x : ℕ → ι → ℝ) (calls : ℕ → List (Call ι ℝ)), n0 ≤ a.length → (∀ k, used (C.diff p) (calls k) = a ++ firstRows k x) →
    ∃ (m : ℕ → ι → ℝ) (c : ℕ → Matrix ι ι ℝ), (∀ k, ((Obj.new C p).run (calls k)).location = .ok (m k)) ∧
      (∀ k, ((Obj.new C p).run (calls k)).covariance = .ok (c k)) ∧
      ∀ (i j : ι), I i j → ∀ (n : ℕ) (v : ℝ), (1 - r) * ∑ t ∈ Finset.range n, ((x t i - m t i) * (x t j - m t j) - c t i j) ^ 2
        ≤ ∑ t ∈ Finset.range n, ((x t i - m t i) * (x t j - m t j) - v) ^ 2 + (c 0 i j - v) ^ 2 / r

end Precise.Spec
