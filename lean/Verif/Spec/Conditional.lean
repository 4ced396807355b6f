import Verif.Model.Conditional

/-!
# Specification for ConditionalCovariance: forecasts and standardized residuals

Written with the public interface of the sub-models only: build a new one, push the series, read the attributes.
-/

namespace Precise.Spec

variable {ι : Type} {V : Cls (Fin 1) ℝ} {Sk : Type}

/-- A new volatility estimator with the prototype's parameters, after the series `ys` one value at a time. -/
def volAfter (p : V.Param) (ys : List ℝ) : Obj V :=
  (Obj.new V p).run (ys.map fun y => .partialFit (.row fun _ => y))

/-- A skater's answer to the last value of `ys`, started from no state: mean and std of its next-step forecast. -/
def skaterAfter (f : Skater Sk) (ys : List ℝ) : Option ((ℝ × ℝ) × Sk) :=
  ys.foldl (fun a y => some (f y (a.map Prod.snd))) none

/-- The mean forecast for the value following the series `ys`; 0 before any information. -/
def forecastMean : VolArg V Sk → List ℝ → ℝ
  | .est o, ys => match (volAfter o.params ys).location with
    | .ok m => m 0
    | .error _ => 0
  | .skater f, ys => match skaterAfter f ys with
    | some a => a.1.1
    | none => 0
  | .other, _ => 0

/-- The variance forecast for the value following the series `ys`; 1 before any information. -/
noncomputable def forecastVar : VolArg V Sk → List ℝ → ℝ
  | .est o, ys => match (volAfter o.params ys).covariance with
    | .ok c => c 0 0
    | .error _ => 1
  | .skater f, ys => match skaterAfter f ys with
    | some a => a.1.2 ^ 2
    | none => 1
  | .other, _ => 1

/-- The standardized residual of row `t`: by the forecasts from the rows before `t` only. -/
noncomputable def standardized (vol : VolArg V Sk) (xs : List (ι → ℝ)) (t : ℕ) : ι → ℝ := fun i =>
  (xs.getD t 0 i - forecastMean vol ((xs.take t).map fun x => x i)) /
    Real.sqrt (max (forecastVar vol ((xs.take t).map fun x => x i)) (1 / 10 ^ 12))

/-- The calls that feed a sequence of rows one at a time. -/
def feedCalls (es : List (ι → ℝ)) : List (Call ι ℝ) := es.map fun e => .partialFit (.row e)

end Precise.Spec
