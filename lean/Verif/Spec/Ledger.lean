import Verif.Spec.Forgetting
import Verif.Model.Linalg
import Mathlib.Analysis.SpecialFunctions.Log.Basic

/-!
# Specification vocabulary: reported volume and surprise
-/

open Matrix

namespace Precise.Spec

/-- Read before each observation of a stream `x` that follows a past `a` of at least `n0` used observations, with a positive-definite `covariance_` after the past:
`covariance_` stays positive definite; its determinant after the observation is the one before, times `decay ^ n` (`n` columns, the `N`-th observation), times
`1 + gain * D`, where `D` is the distance `mahalanobis` gives the observation; so the surprises `log (1 + gain * D)` of any stretch add up to the change of the
log-volume plus what decay has taken from it. -/
def SurpriseLedger {ι : Type} [Fintype ι] [DecidableEq ι] (L : Lapack) (C : Cls ι ℝ) (p : C.Param) (n0 : ℕ) (decay gain : ℕ → ℝ) : Prop :=
  ∀ (a : List (ι → ℝ)) (x : ℕ → ι → ℝ) (calls : ℕ → List (Call ι ℝ)), n0 ≤ a.length → (∀ k, used (C.diff p) (calls k) = a ++ firstRows k x) →
    ∀ c0, ((Obj.new C p).run (calls 0)).covariance = .ok c0 → PD c0 →
      ∃ (c : ℕ → Matrix ι ι ℝ) (D : ℕ → ℝ), (∀ k, ((Obj.new C p).run (calls k)).covariance = .ok (c k)) ∧ (∀ k, PD (c k)) ∧
        (∀ k, ((Obj.new C p).run (calls k)).mahalanobis L (.row (x k)) = .ok [D k]) ∧ (∀ k, 0 ≤ D k) ∧
        (∀ k, (c (k + 1)).det = decay (a.length + k) ^ Fintype.card ι * (c k).det * (1 + gain (a.length + k) * D k)) ∧
        ∀ n, ∑ t ∈ Finset.range n, Real.log (1 + gain (a.length + t) * D t)
          = Real.log (c n).det - Real.log (c 0).det - (Fintype.card ι : ℝ) * ∑ t ∈ Finset.range n, Real.log (decay (a.length + t))

end Precise.Spec
