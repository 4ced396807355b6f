import Verif.Model.Heap

/-! # Specification vocabulary for callers that reuse arrays -/

namespace Precise.Spec

open Heap

variable {ι K : Type}

/-- What the caller's arrays hold after `arr_a[i] = x`: only row `i` of array number `a` changes. -/
def overwrite (h : List (List (ι → K))) (a i : ℕ) (x : ι → K) : List (List (ι → K)) :=
  h.mapIdx fun b arr => if b = a then arr.mapIdx fun j r => if j = i then x else r else arr

/-- The rows handed to the estimator, each with the contents it has at the time of the call. -/
def passed : List (Op ι K) → List (List (ι → K)) → List (ι → K)
  | [], _ => []
  | .alloc rows :: t, h => passed t (h ++ [rows])
  | .write a i x :: t, h => passed t (overwrite h a i x)
  | .pass a :: t, h => h[a]?.getD [] ++ passed t h
  | .passList rows :: t, h => rows ++ passed t h
  | .writeLoc _ _ :: t, h => passed t h

/-- The caller never writes to an array obtained from `location_`. -/
def keepsLocation (ops : List (Op ι K)) : Prop := ∀ k x, Op.writeLoc k x ∉ ops

/-- The caller never writes to an array it has already passed to the estimator. -/
def noReuse : List (Op ι K) → Prop
  | [] => True
  | .pass a :: t => (∀ i x, Op.write a i x ∉ t) ∧ noReuse t
  | _ :: t => noReuse t

end Precise.Spec
