import Verif.Model.Theory

/-!
# Specification for the Schur-likelihood theory: ordered blocks and the true predictive law

Only the index types `Pre p a` (variables before `a`) and `Blk p a s` (the `s` variables from `a` on) are shared with the model.
-/

open Matrix

namespace Precise.Spec

open Precise.Theory (Pre Blk)

/-- The blocks of an ordered partition as (start, size), from start `a` on. -/
def blocksFrom : ℕ → List ℕ → List (ℕ × ℕ)
  | _, [] => []
  | a, s :: rest => (a, s) :: blocksFrom (a + s) rest

variable {p : ℕ}

/-- The regression of block `(a, s)` on all earlier variables under covariance `T`. -/
noncomputable def regression (T : Matrix (Fin p) (Fin p) ℝ) (a s : ℕ) : Matrix (Blk p a s) (Pre p a) ℝ :=
  (Matrix.of fun i j => T i.1 j.1) * (Matrix.of fun i j : Pre p a => T i.1 j.1)⁻¹

/-- The conditional covariance of block `(a, s)` given all earlier variables (the Schur complement). -/
noncomputable def condCov (T : Matrix (Fin p) (Fin p) ℝ) (a s : ℕ) : Matrix (Blk p a s) (Blk p a s) ℝ :=
  (Matrix.of fun i j => T i.1 j.1) - regression T a s * Matrix.of fun i j => T i.1 j.1

/-- The damped conditional covariance: only the fraction `g` of the explained part is removed. -/
noncomputable def dampedCov (T : Matrix (Fin p) (Fin p) ℝ) (g : ℝ) (a s : ℕ) : Matrix (Blk p a s) (Blk p a s) ℝ :=
  (Matrix.of fun i j => T i.1 j.1) - g • (regression T a s * (Matrix.of fun (i : Blk p a s) (j : Pre p a) => T i.1 j.1)ᵀ)

/-- Every damped conditional covariance of the candidate is positive definite (else its score is `-inf`). -/
def Proper (M : Matrix (Fin p) (Fin p) ℝ) (g : ℝ) (sizes : List ℕ) : Prop := ∀ b ∈ blocksFrom 0 sizes, PD (dampedCov M g b.1 b.2)

/-- `E` is an expectation whose second and fourth moments are those of a centred Gaussian vector with covariance `T`. -/
structure GaussMoments {ι : Type} (E : ((ι → ℝ) → ℝ) →ₗ[ℝ] ℝ) (T : Matrix ι ι ℝ) : Prop where
  total : E (fun _ => 1) = 1
  second : ∀ i j, E (fun x => x i * x j) = T i j
  fourth : ∀ i j k l, E (fun x => x i * x j * (x k * x l)) = T i j * T k l + T i k * T j l + T i l * T j k

/-- All leading blocks on which some later block is conditioned are invertible. -/
def Conditionable (T : Matrix (Fin p) (Fin p) ℝ) (sizes : List ℕ) : Prop :=
  ∀ b ∈ blocksFrom 0 sizes, (Matrix.of fun i j : Pre p b.1 => T i.1 j.1).det ≠ 0

/-- `r` is the top squared canonical correlation of two blocks with covariance `[[S11, S12], [S12ᵀ, S22]]`: the largest squared
correlation between a linear combination of the first block and one of the second. -/
def TopCorr {α β : Type} [Fintype α] [Fintype β] (S11 : Matrix α α ℝ) (S12 : Matrix α β ℝ) (S22 : Matrix β β ℝ) (r : ℝ) : Prop :=
  (∀ u v, (u ⬝ᵥ S12 *ᵥ v) ^ 2 ≤ r * (quad S11 u * quad S22 v)) ∧
  ∃ u v, u ≠ 0 ∧ v ≠ 0 ∧ (u ⬝ᵥ S12 *ᵥ v) ^ 2 = r * (quad S11 u * quad S22 v)

end Precise.Spec
