import Verif.Model.Assessors

/-!
# Model of `research/metric_power.py`

The judges and the power experiment. What the random generator produces (truths, estimate pairs, test rows, directions, subspaces) is
an arbitrary input. `np.linalg.inv` / `solve` raise `LinAlgError` exactly on singular matrices. Means over no rows (NaN) are 0 here; the
theorems ask for at least one row.
-/

open Matrix

namespace Precise.Power
open Precise

variable {ι : Type} [Fintype ι] [DecidableEq ι] {p : ℕ}

/-- `_project_pd(m, floor_ratio)` (`metric_power.py:28-31`). `w.max()` needs at least one variable. -/
noncomputable def projectPd (L : Lapack) (m : Matrix ι ι ℝ) (floorRatio : ℝ := 1 / 1000) : Matrix ι ι ℝ :=
  let e := L.eigh (toSymmetric m)                                                        -- line 29
  let w := fun i => max (e.1 i) (floorRatio * ⨆ k, e.1 k)                                -- line 30
  eigRecompose e.2 w                                                                     -- line 31

/-- `_kl(true_cov, est_cov)` (`metric_power.py:42-48`); `+inf` for a singular truth. -/
noncomputable def kl (truth est : Matrix ι ι ℝ) : Except PyErr (WithTop ℝ) :=
  open Classical in
  if est.det = 0 then .error .linAlgError                                                -- line 45
  else .ok (if truth.det = 0 then ⊤ else
    (((1 / 2) * ((est⁻¹ * truth).trace - Fintype.card ι + Real.log |est.det| - Real.log |truth.det|) : ℝ) : WithTop ℝ))

/-- `_loglik(cov, X)` (`metric_power.py:52-56`). -/
noncomputable def loglik (cov : Matrix ι ι ℝ) (X : List (ι → ℝ)) : Except PyErr ℝ :=
  open Classical in
  if cov.det = 0 then .error .linAlgError                                                -- line 53
  else
    let prec := cov⁻¹
    let logdet := Real.log |prec.det|                                                    -- line 54
    .ok ((X.map fun x => (1 / 2) * logdet - (1 / 2) * Obj.mahaRow prec x).sum / (X.length : ℝ))

/-- `_frobenius(cov, X)` (`metric_power.py:59-61`). -/
noncomputable def frobenius (cov : Matrix (Fin p) (Fin p) ℝ) (X : List (Fin p → ℝ)) : ℝ := -frobNorm (cov - npCov X)

/-- `_stein(cov, X)` (`metric_power.py:64-68`); `-inf` when the sample covariance is singular. -/
noncomputable def stein (cov : Matrix (Fin p) (Fin p) ℝ) (X : List (Fin p → ℝ)) : Except PyErr (WithBot ℝ) :=
  open Classical in
  if cov.det = 0 then .error .linAlgError
  else
    let M := cov⁻¹ * npCov X                                                             -- lines 65-66
    .ok ((Obj.logAbsDet M).map fun logdet => -(M.trace - logdet - (p : ℝ)))              -- lines 67-68

/-- `_random_projection(cov, X, dirs)` (`metric_power.py:71-76`). Contract: every projected variance `d'cov d` is positive. The mean is
over all rows and all directions. -/
noncomputable def randomProjection (cov : Matrix ι ι ℝ) (X dirs : List (ι → ℝ)) : ℝ :=
  (X.map fun x => (dirs.map fun d =>
    let pv := (∑ i, ∑ j, d i * cov i j * d j);                                           -- line 72
    -(1 / 2) * Real.log pv - (1 / 2) * (∑ i, x i * d i) ^ 2 / pv).sum).sum               -- lines 73-75
    / ((X.length : ℝ) * (dirs.length : ℝ))                                               -- line 76

/-- `_min_variance(cov, X)` (`metric_power.py:79-83`). Contract: the weights do not sum to 0. -/
noncomputable def minVariance (cov : Matrix ι ι ℝ) (X : List (ι → ℝ)) : Except PyErr ℝ :=
  open Classical in
  if cov.det = 0 then .error .linAlgError                                                -- line 81
  else
    let w := cov⁻¹ *ᵥ 1
    let w := fun i => w i / ∑ j, w j                                                     -- line 82
    .ok (-((X.map fun x => (∑ i, x i * w i) ^ 2).sum / (X.length : ℝ)))                  -- line 83

/-- `_mahalanobis_cal(cov, X)` (`metric_power.py:86-89`). -/
noncomputable def mahalanobisCal (cov : Matrix ι ι ℝ) (X : List (ι → ℝ)) : Except PyErr ℝ :=
  open Classical in
  if cov.det = 0 then .error .linAlgError                                                -- line 87
  else .ok (-|(X.map fun x => Obj.mahaRow cov⁻¹ x).sum / (X.length : ℝ) - (Fintype.card ι : ℝ)|)  -- lines 88-89

/-- One turn of the loop of `_kproj_loglik` (`metric_power.py:167-172`): the log-likelihood of the projected rows. -/
noncomputable def kprojTerm {κ : Type} [Fintype κ] [DecidableEq κ] (cov : Matrix ι ι ℝ) (X : List (ι → ℝ)) (W : Matrix κ ι ℝ) : Except PyErr ℝ :=
  loglik (W * cov * Wᵀ) (X.map fun x => W *ᵥ x)

/-- `_kproj_loglik(cov, X, subspaces)` (`metric_power.py:163-173`): `total += …` over the subspaces, divided by their number. -/
noncomputable def kprojLoglik {κ : Type} [Fintype κ] [DecidableEq κ] (cov : Matrix ι ι ℝ) (X : List (ι → ℝ)) (subs : List (Matrix κ ι ℝ)) :
    Except PyErr ℝ := do
  let total ← subs.foldlM (fun total W => do return total + (← kprojTerm cov X W)) 0
  return total / (subs.length : ℝ)

/-- `_schur_loglik(cov, X, block_id, gamma)` (`metric_power.py:296-305`). -/
noncomputable def schurLoglik (L : Lapack) (cov : Matrix ι ι ℝ) (X : List (ι → ℝ)) (blockId : ι → ℕ) (gamma : ℝ) : Except PyErr ℝ :=
  loglik (projectPd L (Matrix.of fun i j => if blockId i ≠ blockId j then cov i j * gamma else cov i j)) X

/-- One turn of the loop of `block_pseudo_loglik` (`metric_power.py:376-382`). -/
noncomputable def pseudoTerm (L : Lapack) (cov : Matrix (Fin p) (Fin p) ℝ) (X : List (Fin p → ℝ)) (b s : ℕ) : Except PyErr ℝ :=
  open Classical in
  let e := min (s + b) p                                                                 -- line 376
  let c : Matrix (SliceIx p s e) (SliceIx p s e) ℝ := projectPd L (cov.submatrix Subtype.val Subtype.val)   -- line 377
  if c.det = 0 then .error .linAlgError                                                  -- line 381
  else .ok ((X.map fun x => -(1 / 2) * ((Fintype.card (SliceIx p s e) : ℝ) * Real.log (2 * Real.pi) + Real.log |c.det|
      + Obj.mahaRow c⁻¹ (fun i => x i.1))).sum / (X.length : ℝ))                         -- lines 378-382

/-- `block_pseudo_loglik(cov, X, block_size)` (`metric_power.py:362-383`) for a positive block size. -/
noncomputable def blockPseudoLoglik (L : Lapack) (cov : Matrix (Fin p) (Fin p) ℝ) (X : List (Fin p → ℝ)) (b : ℕ) : Except PyErr ℝ :=
  (pyRangeStep p b).foldlM (fun total s => do return total + (← pseudoTerm L cov X b s)) 0

/-! ### The experiment -/

/-- What one turn of the loop of `run` draws (`metric_power.py:112-124`): the truth, the two estimates, the directions and the pool of
test rows. -/
structure Trial (p : ℕ) where
  truth : Matrix (Fin p) (Fin p) ℝ
  good : Matrix (Fin p) (Fin p) ℝ
  bad : Matrix (Fin p) (Fin p) ℝ
  dirs : List (Fin p → ℝ)
  pool : List (Fin p → ℝ)

/-- A judge as `run` uses it (`metric_power.py:92-99,131`): scores are compared with `>`. -/
abbrev Judge (p : ℕ) : Type := Matrix (Fin p) (Fin p) ℝ → List (Fin p → ℝ) → List (Fin p → ℝ) → Except PyErr (WithBot ℝ)

/-- The six judges of `METRICS` (`metric_power.py:92-99`). -/
noncomputable def metrics (p : ℕ) : List (String × Judge p) :=
  [("loglik", fun cov X _ => Except.map (WithBot.some : ℝ → WithBot ℝ) (loglik cov X)),
   ("frobenius", fun cov X _ => .ok (frobenius cov X : ℝ)),
   ("stein", fun cov X _ => stein cov X),
   ("random_proj", fun cov X dirs => .ok (randomProjection cov X dirs : ℝ)),
   ("min_variance", fun cov X _ => Except.map (WithBot.some : ℝ → WithBot ℝ) (minVariance cov X)),
   ("maha_calib", fun cov X _ => Except.map (WithBot.some : ℝ → WithBot ℝ) (mahalanobisCal cov X))]

/-- The pair ordered by exact KL and the gap (`metric_power.py:116-119`). Contract: the truth is not singular (`inf - inf`). -/
noncomputable def ordered (t : Trial p) : Except PyErr ((Matrix (Fin p) (Fin p) ℝ × Matrix (Fin p) (Fin p) ℝ) × ℝ) := do
  let kg ← kl t.truth t.good
  let kb ← kl t.truth t.bad
  return (open Classical in if kg ≤ kb then (t.good, t.bad) else (t.bad, t.good), |kg.untopD 0 - kb.untopD 0|)

/-- One judge's column of `run` for one test size `n` (`metric_power.py:105-132`): the counts `correct[name][n]`, `counted[n]` after the
trials. -/
noncomputable def tally (fn : Judge p) (n : ℕ) (minGap : ℝ) : List (Trial p) → Except PyErr (ℕ × ℕ)
  | [] => .ok (0, 0)
  | t :: ts => do
    let (ab, gap) ← ordered t                                                            -- lines 114-119
    if gap < minGap then tally fn n minGap ts                                            -- lines 120-121
    else do
      let sa ← fn ab.1 (t.pool.take n) t.dirs                                            -- lines 127-131
      let sb ← fn ab.2 (t.pool.take n) t.dirs
      let (c, k) ← tally fn n minGap ts
      return (if sb < sa then c + 1 else c, k + 1)                                       -- lines 129, 131-132

/-- `power[m][n]` of `run` (`metric_power.py:134`): integer division by zero raises. -/
noncomputable def power (fn : Judge p) (n : ℕ) (minGap : ℝ) (trials : List (Trial p)) : Except PyErr ℝ := do
  let (c, k) ← tally fn n minGap trials
  if k = 0 then .error .zeroDivision else return (c : ℝ) / (k : ℝ)

end Precise.Power
