import Verif.Spec.Stream
import Verif.Model.History
import Mathlib.Topology.MetricSpace.Basic
import Mathlib.Topology.Instances.Real.Lemmas

/-!
# Specification vocabulary: forgetting the past
-/

open Filter Topology

namespace Precise.Spec

/-- The first `k` rows of a stream. -/
def firstRows {ι : Type} (k : ℕ) (x : ℕ → ι → ℝ) : List (ι → ℝ) := (List.range k).map x

/-- Two sequences of numbers stay bounded and come together. -/
structure Merge (u v : ℕ → ℝ) : Prop where
  bound : ∃ B : ℝ, ∀ᶠ k in atTop, |u k| ≤ B ∧ |v k| ≤ B
  lim : Tendsto (fun k => u k - v k) atTop (𝓝 0)

/-- A `C(p)` forgets: whatever two instances used before (`a` and `b`), if the observations they use from then on stay bounded and come
together (for example: are the same), then `location_` and `covariance_` stay bounded and come together. `calls k` is any history that uses
`a` and the first `k` further rows. -/
def Forgets {ι : Type} [Fintype ι] (C : Cls ι ℝ) (p : C.Param) : Prop :=
  ∀ (a b : List (ι → ℝ)) (x y : ℕ → ι → ℝ), (∀ i, Merge (fun k => x k i) (fun k => y k i)) → ∀ calls calls' : ℕ → List (Call ι ℝ),
    (∀ k, used (C.diff p) (calls k) = a ++ firstRows k x) → (∀ k, used (C.diff p) (calls' k) = b ++ firstRows k y) →
      (∀ m m' : ℕ → ι → ℝ, (∀ᶠ k in atTop, ((Obj.new C p).run (calls k)).location = .ok (m k)) →
        (∀ᶠ k in atTop, ((Obj.new C p).run (calls' k)).location = .ok (m' k)) → ∀ i, Merge (fun k => m k i) (fun k => m' k i)) ∧
      (∀ c c' : ℕ → Matrix ι ι ℝ, (∀ᶠ k in atTop, ((Obj.new C p).run (calls k)).covariance = .ok (c k)) →
        (∀ᶠ k in atTop, ((Obj.new C p).run (calls' k)).covariance = .ok (c' k)) → ∀ i j, Merge (fun k => c k i j) (fun k => c' k i j))

end Precise.Spec
