import Mathlib.Data.List.Basic

/-!
# Specification: which rows a shared estimator may have used

Several threads `t : T` each have rows `rows t 0, rows t 1, …` to add.
-/

namespace Precise.Spec

variable {T V : Type}

/-- An observation that was used: whose it is, which of that thread's rows, and the vector the estimator consumed. -/
structure Used (T V : Type) where
  who : T
  index : ℕ
  value : V

/-- A list of observations takes rows of the threads, each at most once, and the rows of one thread in that thread's
order. -/
def InOrder (l : List (Used T V)) : Prop := l.Pairwise fun a b => a.who = b.who → a.index < b.index

/-- The vector consumed is the row itself. -/
def Used.IsRow (rows : T → List V) (e : Used T V) : Prop := (rows e.who)[e.index]? = some e.value

/-- The vector consumed is the row minus an earlier row of the same thread or any row of another thread. -/
def Used.IsDiff [Sub V] (rows : T → List V) (e : Used T V) : Prop :=
  ∃ x u j q, (rows e.who)[e.index]? = some x ∧ (rows u)[j]? = some q ∧ e.value = x - q ∧ (u = e.who → j < e.index)

/-- What `diff` asks for. -/
def Used.Ok [Sub V] (diff : Bool) (rows : T → List V) (e : Used T V) : Prop :=
  if diff then e.IsDiff rows else e.IsRow rows

end Precise.Spec
