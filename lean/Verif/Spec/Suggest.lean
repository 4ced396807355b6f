import Verif.Spec.Stats
import Verif.Spec.Matrix
import Mathlib.Data.Real.Basic

/-! # Looking at the same data window in another way -/

namespace Precise.Spec

variable {p : ℕ}

/-- The row `x` with its columns reordered by `σ`, some signs flipped (`ε i = ±1`) and the origin moved by `b`. -/
noncomputable def reface (ε : Fin p → ℝ) (σ : Equiv.Perm (Fin p)) (b : Fin p → ℝ) (x : Fin p → ℝ) : Fin p → ℝ := fun i => ε i * x (σ i) + b i

/-- The row in other units: every entry times `c`. -/
noncomputable def inUnits (c : ℝ) (x : Fin p → ℝ) : Fin p → ℝ := fun i => c * x i

/-- The window `rows` written down `k` times, one copy after the other. -/
def copies {α : Type} (k : ℕ) (rows : List α) : List α := (List.replicate k rows).flatten

/-- All rows are within 1e-6 of their mean (Euclidean distance). -/
def Tiny (rows : List (Fin p → ℝ)) : Prop := ∀ x ∈ rows, normSq (fun i => x i - meanOf rows i) ≤ 1 / 10 ^ 12

end Precise.Spec
