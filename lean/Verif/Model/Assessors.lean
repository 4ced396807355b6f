import Verif.Model.Registry
import Verif.Model.Recommend
import Mathlib.Analysis.SpecialFunctions.Log.Basic
import Mathlib.Analysis.Real.Pi.Bounds

/-!
# Model of `precise/assessment/assessors.py`

A score is a `WithBot ℝ`: `⊥` is `-inf`. The test batch is a list of rows; the code takes means over it, so every
theorem asks for at least one row. Simplification: an empty mean (NaN in numpy) is 0 here.
-/

open Matrix

namespace Precise

/-- `_gaussian_loglik(cov, X)` (`assessment/assessors.py:19-23`). -/
noncomputable def gaussLoglik {ι : Type} [Fintype ι] [DecidableEq ι] (L : Lapack) (cov : Matrix ι ι ℝ) (X : List (ι → ℝ)) : WithBot ℝ :=
  let prec := tryInvert L cov                                                            -- line 20
  (Obj.logAbsDet prec).map fun logdet =>                                                 -- line 21
    (X.map fun x => (1/2) * logdet - (1/2) * Obj.mahaRow prec x                          -- lines 22-23
      - (1/2) * (Fintype.card ι : ℝ) * Real.log (2 * Real.pi)).sum / (X.length : ℝ)

/-- `LogLikelihood.score` (`assessment/assessors.py:32-33`). -/
noncomputable def logLikelihoodScore {p : ℕ} (L : Lapack) (cov : Matrix (Fin p) (Fin p) ℝ) (X : List (Fin p → ℝ)) : WithBot ℝ :=
  gaussLoglik L cov X

/-- `range(0, p, b)` for a positive step `b` (`assessment/assessors.py:51`): `0, b, 2b, …` while below `p`. -/
def pyRangeStep (p b : ℕ) : List ℕ := (List.range ((p + b - 1) / b)).map (· * b)

/-- The indices of `slice(s, e)` on an axis of length `p` (`assessment/assessors.py:52`). -/
abbrev SliceIx (p s e : ℕ) : Type := {i : Fin p // s ≤ i.1 ∧ i.1 < e}

/-- One turn of the loop of `BlockPseudoLikelihood.score` (`assessment/assessors.py:52-53`). -/
noncomputable def blockTerm {p : ℕ} (L : Lapack) (cov : Matrix (Fin p) (Fin p) ℝ) (X : List (Fin p → ℝ)) (b s : ℕ) : WithBot ℝ :=
  let e := min (s + b) p
  gaussLoglik (ι := SliceIx p s e) L (cov.submatrix Subtype.val Subtype.val) (X.map fun x i => x i.1)

/-- `BlockPseudoLikelihood(block_size).score` (`assessment/assessors.py:47-54`). A step of 0 makes `range` raise
ValueError; with a negative step the range is empty. -/
noncomputable def blockPseudoScore {p : ℕ} (L : Lapack) (blockSize : ℤ) (cov : Matrix (Fin p) (Fin p) ℝ) (X : List (Fin p → ℝ)) :
    Except PyErr (WithBot ℝ) :=
  if blockSize = 0 then .error .valueError
  else if blockSize < 0 then .ok 0
  else .ok ((pyRangeStep p blockSize.toNat).foldl (fun total s => total + blockTerm L cov X blockSize.toNat s) 0)

/-- `SchurLikelihood(gamma, n_blocks, interpolation).score` (`assessment/assessors.py:85-100`). `np.array_split` raises
ValueError when `min(n_blocks, p)` is not positive. -/
noncomputable def schurLikelihoodScore {p : ℕ} (L : Lapack) (gamma : ℝ) (nBlocks : ℤ) (interpolation : String)
    (cov : Matrix (Fin p) (Fin p) ℝ) (X : List (Fin p → ℝ)) : Except PyErr (WithBot ℝ) := do
  let nb ← schurNb? nBlocks p                                                            -- lines 88, 90
  let bid : Fin p → ℕ := fun i => blockId p nb i                                         -- lines 89-91
  let covGamma : Matrix (Fin p) (Fin p) ℝ :=
    if interpolation = "geodesic" then
      let blockDiag : Matrix (Fin p) (Fin p) ℝ := Matrix.of fun i j => if bid i ≠ bid j then 0 else cov i j  -- lines 94-95
      geodesicStep L (makePosDef L blockDiag) (makePosDef L cov) gamma                   -- line 96
    else dampCross bid gamma cov                                                         -- lines 98-99
  return gaussLoglik L (makePosDef L covGamma) X                                         -- line 100

/-- `SteinLoss.score` (`assessment/assessors.py:116-121`). `np.cov(X, rowvar=False, bias=True)` divides by n. Contract: at
least two rows or one variable (numpy versions disagree on the orientation of a single row). -/
noncomputable def steinScore {p : ℕ} (L : Lapack) (cov : Matrix (Fin p) (Fin p) ℝ) (X : List (Fin p → ℝ)) : WithBot ℝ :=
  let S := npCov X                                                                       -- line 118
  let M := tryInvert L cov * S                                                           -- line 119
  (Obj.logAbsDet M).map fun logdet => -(M.trace - logdet - (p : ℝ))                      -- lines 120-121

/-- `FrobeniusToTruth.score` (`assessment/assessors.py:134-137`). Contract: the truth is not the zero matrix. -/
noncomputable def frobeniusScore {p : ℕ} (cov truth : Matrix (Fin p) (Fin p) ℝ) : ℝ := -(frobNorm (cov - truth) / frobNorm truth)

/-- `w = try_invert(cov) @ ones; w / w.sum()` (`assessment/assessors.py:149-150`). -/
noncomputable def gmvWeights {p : ℕ} (L : Lapack) (cov : Matrix (Fin p) (Fin p) ℝ) : Fin p → ℝ :=
  let w := tryInvert L cov *ᵥ 1
  fun i => w i / ∑ j, w j

/-- `GMVVariance.score` (`assessment/assessors.py:147-151`). -/
noncomputable def gmvScore {p : ℕ} (L : Lapack) (cov : Matrix (Fin p) (Fin p) ℝ) (X : List (Fin p → ℝ)) : ℝ :=
  let w := gmvWeights L cov;
  -((X.map fun x => (∑ i, x i * w i) ^ 2).sum / (X.length : ℝ))

/-- `expected` of `VariogramScore.score` (`assessment/assessors.py:163-165`). -/
noncomputable def variogramExpected {p : ℕ} (cov : Matrix (Fin p) (Fin p) ℝ) : Matrix (Fin p) (Fin p) ℝ :=
  let cov := toSymmetric cov
  Matrix.of fun i j => Real.sqrt (max (cov i i + cov j j - 2 * cov i j) 0 * (2 / Real.pi))

/-- `VariogramScore.score` (`assessment/assessors.py:162-169`). -/
noncomputable def variogramScore {p : ℕ} (cov : Matrix (Fin p) (Fin p) ℝ) (X : List (Fin p → ℝ)) : ℝ :=
  let expected := variogramExpected cov;
  -((X.map fun x => ∑ i, ∑ j, (|x i - x j| - expected i j) ^ 2).sum / (X.length : ℝ))

end Precise
