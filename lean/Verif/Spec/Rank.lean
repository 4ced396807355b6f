import Mathlib.Data.List.Basic
import Mathlib.Order.WithBot
import Mathlib.Data.Real.Basic

/-! # Specification: ranks -/

namespace Precise.Spec

/-- The rank of `k` in a table of scores (rank 1 = best): one more than the number of entries with a higher score, plus
the number of entries with the same score listed before it. -/
noncomputable def rankIn (s : List (String × WithBot ℝ)) (k : String) : ℕ :=
  1 + s.countP (fun e => decide ((s.lookup k).getD ⊥ < e.2))
    + (s.takeWhile fun e => decide (e.1 ≠ k)).countP (fun e => decide (e.2 = (s.lookup k).getD ⊥))

/-- The mean rank of `k` over a list of tables. -/
noncomputable def meanRank (tables : List (List (String × WithBot ℝ))) (k : String) : ℝ :=
  (tables.map fun s => (rankIn s k : ℝ)).sum / tables.length

end Precise.Spec
