import Verif.Spec.Symmetry

/-! # Watching a selection of the columns: what it means that the rest does not matter -/

open Matrix

namespace Precise.Spec

variable {ι κ : Type} [Fintype ι] [Fintype κ]

/-- The row `x` cut down to the columns `f` lists. -/
def cols (f : κ → ι) (x : ι → ℝ) : κ → ℝ := fun k => x (f k)

/-- The matrix `a` cut down to the rows and columns `f` lists. -/
def colsMat (f : κ → ι) (a : Matrix ι ι ℝ) : Matrix κ κ ℝ := Matrix.of fun k l => a (f k) (f l)

open Obj in
/-- Feeding only the columns `f` gives the location the wide estimator has for them: the other columns do not matter. -/
def LocationPicks (C : Cls ι ℝ) (C' : Cls κ ℝ) (p : C.Param) (p' : C'.Param) (f : κ → ι) : Prop :=
  ∀ calls : List (Call ι ℝ), ((new C' p').run (calls.map (mapCall (cols f)))).location = ((new C p).run calls).location.map (cols f)

end Precise.Spec
