import Verif.Model.Inf

/-! # Specification vocabulary for streams with infinities -/

namespace Precise.Spec

variable {ι K : Type}

/-- An ordinary number. -/
def IsNum (a : Ext K) : Prop := ∃ v, a = .num v

/-- Some observation has an infinity or NaN in column `i`. -/
def Infected (xs : List (ι → Ext K)) (i : ι) : Prop := ∃ x ∈ xs, ¬ IsNum (x i)

/-- `ys` is `xs` with each infinity or NaN replaced by some number (any number, possibly a different one each time). -/
def FillsExt (xs : List (ι → Ext K)) (ys : List (ι → K)) : Prop :=
  List.Forall₂ (fun x y => ∀ i v, x i = .num v → y i = v) xs ys

end Precise.Spec
