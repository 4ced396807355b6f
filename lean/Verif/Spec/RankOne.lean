import Verif.Spec.Forgetting
import Verif.Model.Linalg

/-!
# Specification vocabulary: carrying `precision_` forward
-/

open Matrix

namespace Precise.Spec

/-- The correction of the inverse `P` when the covariance becomes `decay * (C + gain * e eᵀ)`: with `u = P e` and `D = eᵀ P e`, subtract `gain / (1 + gain D) * u uᵀ` and
divide by `decay`. -/
noncomputable def carried {ι : Type} [Fintype ι] (decay gain : ℝ) (P : Matrix ι ι ℝ) (e : ι → ℝ) : Matrix ι ι ℝ :=
  Matrix.of fun i j => (P i j - gain / (1 + gain * ∑ k, ∑ l, e k * P k l * e l) * ((∑ k, P i k * e k) * ∑ k, P j k * e k)) / decay

/-- On a stream `x` that follows a past `a` of at least `n0` used observations with a positive-definite `covariance_`: `precision_` after each observation is the one
before, carried forward with the forecast error `x - location_`; and the distance `mahalanobis` gives the observation goes, by feeding it, from `D` to
`shrink * D / (1 + gain * D)`. -/
def CarriesPrecision {ι : Type} [Fintype ι] [DecidableEq ι] (L : Lapack) (C : Cls ι ℝ) (p : C.Param) (n0 : ℕ) (decay gain shrink : ℕ → ℝ) : Prop :=
  ∀ (a : List (ι → ℝ)) (x : ℕ → ι → ℝ) (calls : ℕ → List (Call ι ℝ)), n0 ≤ a.length → (∀ k, used (C.diff p) (calls k) = a ++ firstRows k x) →
    ∀ c0, ((Obj.new C p).run (calls 0)).covariance = .ok c0 → PD c0 →
      ∃ (m : ℕ → ι → ℝ) (P : ℕ → Matrix ι ι ℝ) (D D' : ℕ → ℝ), (∀ k, ((Obj.new C p).run (calls k)).location = .ok (m k)) ∧
        (∀ k, ((Obj.new C p).run (calls k)).precision L = .ok (P k)) ∧ (∀ k, P (k + 1) = carried (decay (a.length + k)) (gain (a.length + k)) (P k) (x k - m k)) ∧
        (∀ k, ((Obj.new C p).run (calls k)).mahalanobis L (.row (x k)) = .ok [D k]) ∧
        (∀ k, ((Obj.new C p).run (calls (k + 1))).mahalanobis L (.row (x k)) = .ok [D' k]) ∧
        ∀ k, D' k = shrink (a.length + k) * D k / (1 + gain (a.length + k) * D k)

end Precise.Spec
