import Mathlib.Data.List.Flatten
import Mathlib.Data.List.Range

/-!
# Specification: an even partition of `0, …, p-1` into contiguous blocks
-/

namespace Precise.Spec

/-- `bs` lists half-open ranges `(a, b)` that cut `0, …, p-1` into contiguous non-empty pieces whose sizes differ by
at most one: listing the pieces one after the other gives `0, …, p-1`. -/
structure EvenPartition (p : ℕ) (bs : List (ℕ × ℕ)) : Prop where
  nonempty : ∀ b ∈ bs, b.1 < b.2
  listing : (bs.flatMap fun b => List.range' b.1 (b.2 - b.1)) = List.range p
  even : ∀ b ∈ bs, ∀ b' ∈ bs, b.2 - b.1 ≤ (b'.2 - b'.1) + 1

/-- Variables `i` and `j` lie in the same block. -/
def SameBlock (bs : List (ℕ × ℕ)) (i j : ℕ) : Prop := ∃ b ∈ bs, (b.1 ≤ i ∧ i < b.2) ∧ (b.1 ≤ j ∧ j < b.2)

end Precise.Spec
