import Verif.Model.Nan

/-! # Specification vocabulary for streams with NaN -/

namespace Precise.Spec

variable {ι K : Type}

/-- Some observation is NaN in column `i`. -/
def BadColumn (xs : List (ι → Nan K)) (i : ι) : Prop := ∃ x ∈ xs, x i = .nan

/-- `ys` is `xs` with each NaN replaced by some number (any number, possibly a different one each time). -/
def FillsIn (xs : List (ι → Nan K)) (ys : List (ι → K)) : Prop :=
  List.Forall₂ (fun x y => ∀ i v, x i = .num v → y i = v) xs ys

end Precise.Spec
