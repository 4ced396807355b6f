import Verif.Model.Assessors

/-!
# Model of calling an assessor through the common interface: `a.score(cov, X_test=..., true_cov=...)`

`X_test` and `true_cov` default to `None` (`assessment/base.py:28-35`).
-/

open Matrix

namespace Precise

/-- What a call of `score` gives: a number (`-inf` included), NaN, or an exception (`assessors.py:27-169`: the `score` methods). -/
inductive Outcome
  | num (s : WithBot ℝ)
  | nan
  | raised

/-- A computation that may raise (`assessors.py:27-169`). -/
def Outcome.ofExcept : Except PyErr (WithBot ℝ) → Outcome
  | .ok s => .num s
  | .error _ => .raised

/-- `a.score(cov, X_test=X, true_cov=truth)` of the registered instances (`assessment/registry.py:17-27`, default parameters
`assessment/assessors.py:44, 80`). A missing `X_test` raises in every judge that reads it: `einsum` of `None` (line 22),
`None[:, idx]` (line 53, not reached without variables), `np.cov(None)` (line 118), `None @ w` (line 151), `None - None`
(line 168). A missing `true_cov` becomes `np.asarray(None, dtype=float)`, which is NaN (line 136). -/
noncomputable def AssessorKind.score {p : ℕ} (L : Lapack) (a : AssessorKind) (cov : Matrix (Fin p) (Fin p) ℝ)
    (X : Option (List (Fin p → ℝ))) (truth : Option (Matrix (Fin p) (Fin p) ℝ)) : Outcome :=
  match a, X, truth with
  | .logLikelihood, some X, _ => .num (logLikelihoodScore L cov X)
  | .blockPseudoLikelihood, some X, _ => .ofExcept (blockPseudoScore L 10 cov X)
  | .blockPseudoLikelihood, none, _ => if p = 0 then .num 0 else .raised
  | .schurLikelihood, some X, _ => .ofExcept (schurLikelihoodScore L (1 / 2) 4 "linear" cov X)
  | .steinLoss, some X, _ => .num (steinScore L cov X)
  | .gmvVariance, some X, _ => .num (gmvScore L cov X : ℝ)
  | .variogramScore, some X, _ => .num (Precise.variogramScore cov X : ℝ)
  | .frobeniusToTruth, _, some t => .num (frobeniusScore cov t : ℝ)
  | .frobeniusToTruth, _, none => .nan
  | _, none, _ => .raised

end Precise
