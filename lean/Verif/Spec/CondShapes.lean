import Verif.Spec.Conditional
import Verif.Props.Shapes

/-!
# Specification: what each series of a ConditionalCovariance sees when single numbers are mixed with full rows
-/

namespace Precise.Spec

open Shapes (Row)

variable {d : ℕ} {V : Cls (Fin 1) ℝ} {Sk : Type}

/-- Series 0 sees every row, the others only the full ones. -/
def seenBy (i : Fin d) (rows : List (Row d ℝ)) : List ℝ := rows.filterMap fun r => match r with
  | .full x => some (x i)
  | .one a => if i.1 = 0 then some a else none

/-- The full rows. -/
def fullRows (rows : List (Row d ℝ)) : List (Fin d → ℝ) := rows.filterMap fun r => match r with
  | .full x => some x
  | .one _ => none

/-- The standardized residual of row `t`: a single number counts for every series; each series' forecast is that from what it has seen. -/
noncomputable def mixedResidual (vol : VolArg V Sk) (rows : List (Row d ℝ)) (t : ℕ) : Fin d → ℝ := fun i =>
  ((rows.map Row.repeated).getD t 0 i - forecastMean vol (seenBy i (rows.take t))) /
    Real.sqrt (max (forecastVar vol (seenBy i (rows.take t))) (1 / 10 ^ 12))

end Precise.Spec
