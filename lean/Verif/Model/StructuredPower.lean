import Verif.Model.PowerTables
import Verif.Model.Spiked

/-!
# Model of the rest of `research/schur_godambe.py`: `_finite_sample_pair` and `structured_power_over_draws`

The draws of the random generator (signs, standard normals, training and test rows) are arguments. Contract: `gamma <= 1`, so that no
`np.linalg.solve` meets a singular matrix; at least one variable and one test row.
-/

open Matrix

namespace Precise.Power
open Precise Precise.Spec

variable {p : ℕ}

/-- `_make(err)` (`schur_godambe.py:199-205`): the matrix is not shuffled, and the error `|re - rho|` is not returned. -/
noncomputable def structMake (L : Lapack) (gs : ℕ) (rho sigCross err sign : ℝ) (n : Matrix (Fin p) (Fin p) ℝ) : Matrix (Fin p) (Fin p) ℝ :=
  let re := rho + sign * err                                                             -- line 200
  let c := within p gs re                                                                -- line 201
  let n := toSymmetric n                                                                 -- line 203
  projectPd L (Matrix.of fun i j => if i.1 / gs ≠ j.1 / gs then c i j + sigCross * n i j else c i j)   -- lines 204-205

/-- The draws of one turn of the loop (`schur_godambe.py:208-211`): signs are ±1. -/
structure StructTrial (p : ℕ) where
  signGood : ℝ
  nGood : Matrix (Fin p) (Fin p) ℝ
  signBad : ℝ
  nBad : Matrix (Fin p) (Fin p) ℝ
  X : List (Fin p → ℝ)

/-- `good` (`schur_godambe.py:209`). -/
noncomputable def StructTrial.good (L : Lapack) (gs : ℕ) (rho sigCross errGood : ℝ) (t : StructTrial p) : Matrix (Fin p) (Fin p) ℝ :=
  structMake L gs rho sigCross errGood t.signGood t.nGood

/-- `bad` (`schur_godambe.py:209`). -/
noncomputable def StructTrial.bad (L : Lapack) (gs : ℕ) (rho sigCross errBad : ℝ) (t : StructTrial p) : Matrix (Fin p) (Fin p) ℝ :=
  structMake L gs rho sigCross errBad t.signBad t.nBad

/-- `sg`, `sb` (`schur_godambe.py:213-216`): the score of one estimate. -/
noncomputable def schurScore (cov : Matrix (Fin p) (Fin p) ℝ) (sizes : List ℕ) (gamma : ℝ) (X : List (Fin p → ℝ)) : ℝ :=
  let WL := Theory.schurOperator cov sizes gamma;                                        -- lines 213-214
  -(1 / 2) * (WL.2 + (X.map fun x => quad WL.1 x).sum / (X.length : ℝ))                  -- lines 215-216

open Classical in
/-- `structured_power_over_draws` (`schur_godambe.py:178-218`) for `g` groups of `gs` variables. The mask check is `schurSizes`. -/
noncomputable def structuredPower (L : Lapack) (g gs : ℕ) (rho sigCross errGood errBad : ℝ) (gammas : List ℝ) (trials : List (StructTrial p)) :
    Except PyErr (List (ℝ × ℝ)) :=
  let sizes := List.replicate g gs                                                       -- line 188
  table gammas (fun t => gammas.mapM fun x =>                                            -- lines 207-212
    verdict x (.ok (schurScore (t.good L gs rho sigCross errGood) sizes x t.X)) (.ok (schurScore (t.bad L gs rho sigCross errBad) sizes x t.X)))
    trials                                                                               -- lines 217-218

end Precise.Power

namespace Precise.Theory
open Precise.Spec

variable {p : ℕ}

/-- `_finite_sample_pair(p, n_train, seed)` (`schur_godambe.py:123-135`) for the truth `Sig_t` and the training rows `X`: `A`, `B` and the
two divergences; `np.linalg.inv` raises on a singular estimate. -/
noncomputable def finiteSamplePair (truth : Matrix (Fin p) (Fin p) ℝ) (X : List (Fin p → ℝ)) :
    Except PyErr ((Matrix (Fin p) (Fin p) ℝ × Matrix (Fin p) (Fin p) ℝ) × (ℝ × ℝ)) :=
  open Classical in
  let S := npCov X                                                                       -- line 130
  let target : Matrix (Fin p) (Fin p) ℝ := (S.trace / p) • 1                             -- line 131
  let A := toSymmetric ((1 / 2 : ℝ) • S + (1 / 2 : ℝ) • target)                          -- lines 132, 134
  let B := toSymmetric ((93 / 100 : ℝ) • S + (7 / 100 : ℝ) • target)                     -- lines 133-134
  if A.det = 0 ∨ B.det = 0 then .error .linAlgError                                      -- line 118 in `_kl`
  else .ok ((A, B), (kl A truth, kl B truth))                                            -- line 135

end Precise.Theory
