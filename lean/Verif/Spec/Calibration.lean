import Verif.Spec.Forgetting

/-!
# Specification vocabulary: what one-step-ahead forecasts get wrong on average
-/

namespace Precise.Spec

/-- `location_`, read before each observation `x t`, as a forecast of it: over any `n` observations that follow a past of at least `n0` used observations, the forecast
errors sum to `1/r` times the distance `location_` has moved. (`calls k` is any history that uses the past `a` and then `x 0, …, x (k-1)`.) -/
def CalibratedMean {ι : Type} [Fintype ι] (C : Cls ι ℝ) (p : C.Param) (r : ℝ) (n0 : ℕ) : Prop :=
  ∀ (a : List (ι → ℝ)) (x : ℕ → ι → ℝ) (calls : ℕ → List (Call ι ℝ)), n0 ≤ a.length → (∀ k, used (C.diff p) (calls k) = a ++ firstRows k x) →
    ∃ m : ℕ → ι → ℝ, (∀ k, ((Obj.new C p).run (calls k)).location = .ok (m k)) ∧
      ∀ n i, r * ∑ t ∈ Finset.range n, (x t i - m t i) = m n i - m 0 i

/-- `covariance_`, read before each observation, as a forecast of the product of the errors of columns `i` and `j` (for the pairs in `I`). -/
def CalibratedCov {ι : Type} [Fintype ι] (C : Cls ι ℝ) (p : C.Param) (r : ℝ) (n0 : ℕ) (I : ι → ι → Prop) : Prop :=
  ∀ (a : List (ι → ℝ)) (x : ℕ → ι → ℝ) (calls : ℕ → List (Call ι ℝ)), n0 ≤ a.length → (∀ k, used (C.diff p) (calls k) = a ++ firstRows k x) →
    ∃ (m : ℕ → ι → ℝ) (c : ℕ → Matrix ι ι ℝ), (∀ k, ((Obj.new C p).run (calls k)).location = .ok (m k)) ∧
      (∀ k, ((Obj.new C p).run (calls k)).covariance = .ok (c k)) ∧
      ∀ n i j, I i j → r * ∑ t ∈ Finset.range n, ((x t i - m t i) * (x t j - m t j) - c t i j) = c n i j - c 0 i j

end Precise.Spec
