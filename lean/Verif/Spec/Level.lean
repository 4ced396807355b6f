import Verif.Spec.Forgetting

/-!
# Specification vocabulary: finding a new level
-/

open Filter Topology

namespace Precise.Spec

/-- A `C(p)` finds a level: whatever it used before (`a`), if the observations it uses from then on converge to `v` (for example: are all `v`),
`location_` converges to `v`. `calls k` is any history that uses `a` and the first `k` further rows. -/
def FindsLevel {ι : Type} [Fintype ι] (C : Cls ι ℝ) (p : C.Param) : Prop :=
  ∀ (a : List (ι → ℝ)) (x : ℕ → ι → ℝ) (v : ι → ℝ), (∀ i, Tendsto (fun k => x k i) atTop (𝓝 (v i))) → ∀ calls : ℕ → List (Call ι ℝ),
    (∀ k, used (C.diff p) (calls k) = a ++ firstRows k x) → ∀ m : ℕ → ι → ℝ,
      (∀ᶠ k in atTop, ((Obj.new C p).run (calls k)).location = .ok (m k)) → ∀ i, Tendsto (fun k => m k i) atTop (𝓝 (v i))

end Precise.Spec
