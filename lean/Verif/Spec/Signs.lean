import Verif.Spec.Symmetry
import Mathlib.MeasureTheory.Measure.MeasureSpace
import Mathlib.Dynamics.Ergodic.MeasurePreserving

/-!
# Specification: turning columns round, and noise that has no direction

`w i` is `-1` for a column recorded with the opposite sign and `1` for the others.
-/

set_option linter.all false

open MeasureTheory

namespace Precise.Spec

variable {ι Ω : Type}

/-- A choice of signs. -/
def Signs (w : ι → ℝ) : Prop := ∀ i, w i = 1 ∨ w i = -1

/-- The row with the signs `w`. -/
def flipVec (w : ι → ℝ) (x : ι → ℝ) : ι → ℝ := fun i => w i * x i

/-- The matrix that goes with it: an entry changes sign when exactly one of its two columns does. -/
def flipMat (w : ι → ℝ) (a : Matrix ι ι ℝ) : Matrix ι ι ℝ := Matrix.of fun i j => w i * a i j * w j

/-- The reflection of a row through the point `m`. -/
def reflect (m x : ι → ℝ) : ι → ℝ := fun i => 2 * m i - x i

/-- The random data set `calls` looks the same (in law) after every row `x` is replaced by `g x`: there is a
measure-preserving rearrangement of the outcomes that does it. -/
structure Invariant [MeasurableSpace Ω] (P : Measure Ω) (g : (ι → ℝ) → ι → ℝ) (calls : Ω → List (Call ι ℝ)) : Prop where
  swap : ∃ T : Ω ≃ᵐ Ω, MeasurePreserving T P P ∧ ∀ ω, calls (T ω) = (calls ω).map (mapCall g)

/-- The reported number, `0` where the attribute raises. -/
def matEntry (e : Except PyErr (Matrix ι ι ℝ)) (i j : ι) : ℝ :=
  match e with
  | .ok a => a i j
  | .error _ => 0

/-- The reported number, `v` where the attribute raises. -/
def vecEntry (v : ι → ℝ) (e : Except PyErr (ι → ℝ)) (i : ι) : ℝ :=
  match e with
  | .ok m => m i
  | .error _ => v i

end Precise.Spec
