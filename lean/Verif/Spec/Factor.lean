import Verif.Spec.Recency
import Verif.Spec.Matrix
import Mathlib.Data.Matrix.Mul
import Mathlib.Analysis.Real.Sqrt

/-!
# Specification of the incremental principal components behind FactorCovariance (Weng, Zhang and Hwang's CCIPCA)

Component `j` is a vector `v j`: its direction is the principal direction and its length the eigenvalue estimate. Each new
deviation `u` is first deflated by the directions of the earlier components, then the component moves to
`(1 - w) v + w (d dᵀ) v̂`. A component that is still (numerically) zero is started at the deflated deviation, and the later
ones wait.
-/

open Matrix

namespace Precise.Spec

variable {ι : Type} [Fintype ι] [DecidableEq ι]

/-- Length of a vector. -/
noncomputable def len (v : ι → ℝ) : ℝ := Real.sqrt (v ⬝ᵥ v)

/-- Unit vector along `v`. -/
noncomputable def unitOf (v : ι → ℝ) : ι → ℝ := (len v)⁻¹ • v

/-- The deviation `u` with the directions of the first `j` components projected out one after the other. -/
noncomputable def deflated (v : ℕ → ι → ℝ) (u : ι → ℝ) : ℕ → ι → ℝ
  | 0 => u
  | j + 1 => deflated v u j - (unitOf (v j) ⬝ᵥ deflated v u j) • unitOf (v j)

open Classical in
/-- One CCIPCA step with weight `w`; `eps` separates started components from those still zero. -/
noncomputable def ccipcaStep (eps w : ℝ) (v : ℕ → ι → ℝ) (u : ι → ℝ) : ℕ → ι → ℝ := fun j =>
  if ∀ i < j, eps ≤ len (v i) then
    if eps ≤ len (v j) then (1 - w) • v j + w • (vecMulVec (deflated v u j) (deflated v u j) *ᵥ unitOf (v j))
    else deflated v u j
  else v j

/-- The components after the first `t` observations of `xs`, deviations taken from the running mean before each one. -/
noncomputable def ccipca (eps r : ℝ) (b : ℕ) (xs : List (ι → ℝ)) : ℕ → ℕ → ι → ℝ
  | 0 => fun _ => 0
  | t + 1 => ccipcaStep eps (if t + 1 ≤ b then 1 / ((t + 1 : ℕ) : ℝ) else r) (ccipca eps r b xs t) (innovation r b xs t)

open Classical in
/-- The covariance carried by the first `k` components: `Σ ‖v‖ v̂ v̂ᵀ` over those longer than `eps`. -/
noncomputable def factorSum (eps : ℝ) (k : ℕ) (v : ℕ → ι → ℝ) : Matrix ι ι ℝ :=
  ∑ j ∈ Finset.range k, if eps < len (v j) then len (v j) • vecMulVec (unitOf (v j)) (unitOf (v j)) else 0

end Precise.Spec
