import Verif.Props.Ewa

/-!
# Specification: what it means that an estimator respects a transformation of the data

Two instances get the same calls, one with the original rows, one with every row transformed. `Transports` says that the
second has seen as many observations as the first and that its fitted attributes are the transformed attributes of the
first, including the case where both raise.
-/

set_option linter.all false

namespace Precise.Spec

open Obj

variable {ι κ : Type} [Fintype ι] [Fintype κ]

/-- Feeding `g x` for every row `x` turns `location_` into `m location_` and `covariance_` into `c covariance_`. -/
def Transports (C : Cls ι ℝ) (C' : Cls κ ℝ) (p : C.Param) (p' : C'.Param) (g m : (ι → ℝ) → κ → ℝ)
    (c : Matrix ι ι ℝ → Matrix κ κ ℝ) : Prop :=
  ∀ calls : List (Call ι ℝ),
    ((new C' p').run (calls.map (mapCall g))).nSamples = ((new C p).run calls).nSamples ∧
    ((new C' p').run (calls.map (mapCall g))).location = ((new C p).run calls).location.map m ∧
    ((new C' p').run (calls.map (mapCall g))).covariance = ((new C p).run calls).covariance.map c

/-- A row with its columns renamed by `e`. -/
def relabelVec (e : ι ≃ κ) (x : ι → ℝ) : κ → ℝ := fun k => x (e.symm k)

/-- A matrix with its rows and columns renamed by `e`. -/
def relabelMat (e : ι ≃ κ) (a : Matrix ι ι ℝ) : Matrix κ κ ℝ := Matrix.of fun k l => a (e.symm k) (e.symm l)

end Precise.Spec
