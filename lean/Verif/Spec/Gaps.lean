import Verif.Spec.Keyed

/-!
# Specification: times at which keys are observed, and steps between them
-/

namespace Precise.Spec

variable {Key : Type} [DecidableEq Key]

/-- The times (positions in the stream, from `t` on) of the observations that contain all of `ks`. -/
def timesOf (X : List (KDict Key)) (t : ℕ) (ks : List Key) : List ℕ :=
  (((X.drop t).zipIdx t).filter fun p => decide (hasAll ks p.1)).map Prod.snd

/-- Differences of consecutive numbers. -/
def steps : List ℝ → List ℝ
  | [] => []
  | [_] => []
  | a :: b :: t => (b - a) :: steps (b :: t)

/-- The population variance of a list of numbers. -/
noncomputable def variance (l : List ℝ) : ℝ := (l.map fun a => (a - l.sum / l.length) * (a - l.sum / l.length)).sum / l.length

/-- Every value in the stream lies on the line through `a k` with slope `v k`, time being the position in the stream. -/
def OnTrend (a v : Key → ℝ) (X : List (KDict Key)) : Prop :=
  ∀ (s : ℕ) (x : KDict Key), X[s]? = some x → ∀ k w, x.get? k = some w → w = a k + v k * s

end Precise.Spec
