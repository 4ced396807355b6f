import Verif.Model.Theory
import Verif.Model.Recommend

/-!
# Model of the training-draw experiments: `research/schur_spiked.py` and the draws part of `research/schur_godambe.py`

`none` is NaN. The random draws are arguments. Contract: at least two variables (`np.cov` of one column has no `shape[0]`).
-/

open Matrix

namespace Precise.Theory

open Precise.Spec

variable {p : ℕ}

open Classical in
/-- `_is_spd(M, tol=1e-9)` (`schur_likelihood_theory.py:207-208`). Contract: at least one variable. -/
noncomputable def isSpd (L : Lapack) (M : Matrix (Fin p) (Fin p) ℝ) : Bool :=
  decide (∀ i, 1 / 10 ^ 9 < (L.eigh (toSymmetric M)).1 i)

/-- One of the two matrices of `_estimates(S, alpha_a, alpha_b)` (`schur_spiked.py:29-35`). -/
noncomputable def shrinkIso (S : Matrix (Fin p) (Fin p) ℝ) (alpha : ℝ) : Matrix (Fin p) (Fin p) ℝ :=
  let target : Matrix (Fin p) (Fin p) ℝ := (S.trace / p) • 1                             -- line 32
  toSymmetric ((1 - alpha) • S + alpha • target)                                         -- lines 33-35

/-- `_score_gap(S, sizes, gamma, Sig_t, alpha_a, alpha_b)` (`schur_spiked.py:38-45`). -/
noncomputable def scoreGap (L : Lapack) (S : Matrix (Fin p) (Fin p) ℝ) (sizes : List ℕ) (gamma : ℝ) (truth : Matrix (Fin p) (Fin p) ℝ)
    (alphaA alphaB : ℝ) : Option ℝ :=
  let A := shrinkIso S alphaA                                                            -- line 40
  let B := shrinkIso S alphaB
  if isSpd L A && isSpd L B then some (snrMu A B truth sizes gamma) else none            -- lines 41-45

/-- `E` of `_grad_score_gap` (`schur_spiked.py:67-68`). -/
def symUnit (i j : Fin p) : Matrix (Fin p) (Fin p) ℝ := Matrix.of fun k l => if (k = i ∧ l = j) ∨ (k = j ∧ l = i) then 1 else 0

/-- A difference quotient of a function that may be NaN (`schur_spiked.py:69-71`). -/
noncomputable def quotient (D : Matrix (Fin p) (Fin p) ℝ → Option ℝ) (S : Matrix (Fin p) (Fin p) ℝ) (h : ℝ) (i j : Fin p) : Option ℝ :=
  match D (S + h • symUnit i j), D (S - h • symUnit i j) with                            -- lines 69-70
  | some dp, some dm => some ((dp - dm) / (2 * h))                                       -- line 71
  | _, _ => none

/-- The double loop of `_grad_score_gap` (`schur_spiked.py:64-72`) for a function `D` in place of `_score_gap`: the entries above
the diagonal are computed and copied below it. -/
noncomputable def gradMatrix (D : Matrix (Fin p) (Fin p) ℝ → Option ℝ) (S : Matrix (Fin p) (Fin p) ℝ) (h : ℝ) : Matrix (Fin p) (Fin p) (Option ℝ) :=
  Matrix.of fun i j => if i ≤ j then quotient D S h i j else quotient D S h j i

/-- `_grad_score_gap(S, sizes, gamma, Sig_t, alpha_a, alpha_b, h=1e-5)` (`schur_spiked.py:61-72`). -/
noncomputable def gradScoreGap (L : Lapack) (S : Matrix (Fin p) (Fin p) ℝ) (sizes : List ℕ) (gamma : ℝ) (truth : Matrix (Fin p) (Fin p) ℝ)
    (alphaA alphaB h : ℝ) : Matrix (Fin p) (Fin p) (Option ℝ) :=
  gradMatrix (fun S => scoreGap L S sizes gamma truth alphaA alphaB) S h

/-- `_cov_quadform(G, Sig, n)` (`schur_spiked.py:75-79`). -/
noncomputable def covQuadform (G Sig : Matrix (Fin p) (Fin p) ℝ) (n : ℝ) : ℝ := 2 / n * ((G * Sig) * (G * Sig)).trace

open Classical in
/-- `snr_delta(...)` (`schur_spiked.py:82-87`): `(mean, sd, snr)`; `⊤` is `np.inf`. A NaN entry of the gradient makes `var` NaN; then
`var > 0` is false and the last component is `inf`. -/
noncomputable def snrDelta (L : Lapack) (n : ℝ) (sizes : List ℕ) (gamma alphaA alphaB : ℝ) (truth : Matrix (Fin p) (Fin p) ℝ) :
    Option ℝ × Option ℝ × Option (WithTop ℝ) :=
  let mean := scoreGap L truth sizes gamma truth alphaA alphaB                           -- line 84
  let G := gradScoreGap L truth sizes gamma truth alphaA alphaB (1 / 10 ^ 5)             -- line 85
  let var := if ∀ i j, (G i j).isSome then some (covQuadform (Matrix.of fun i j => (G i j).getD 0) truth n) else none  -- line 86
  (mean, var.map Real.sqrt,
    match var with
    | some v => if 0 < v then mean.map fun m => ((m / Real.sqrt v : ℝ) : WithTop ℝ) else some ⊤  -- line 87
    | none => some ⊤)

/-- `np.mean` of a list of numbers; NaN for none (`schur_spiked.py:58`, `schur_godambe.py:172-175`). -/
noncomputable def mean? (v : List ℝ) : Option ℝ := if v = [] then none else some (v.sum / v.length)

/-- `np.std` of a list of numbers (division by the length); NaN for none (`schur_spiked.py:58`, `schur_godambe.py:172-173`). -/
noncomputable def std? (v : List ℝ) : Option ℝ := (mean? v).bind fun m => (mean? (v.map fun x => (x - m) ^ 2)).map Real.sqrt

open Classical in
/-- `(v.mean(), v.std(), v.mean()/v.std() if v.std() > 0 else inf)` (`schur_spiked.py:57-58`, `schur_godambe.py:172-173`). -/
noncomputable def summary (v : List ℝ) : Option ℝ × Option ℝ × Option (WithTop ℝ) :=
  (mean? v, std? v,
    match mean? v, std? v with
    | some m, some s => if 0 < s then some ((m / s : ℝ) : WithTop ℝ) else some ⊤
    | _, _ => some ⊤)

/-- `snr_montecarlo(...)` (`schur_spiked.py:48-58`) on the drawn samples: NaN gaps are left out. -/
noncomputable def snrDraws (L : Lapack) (draws : List (List (Fin p → ℝ))) (sizes : List ℕ) (gamma alphaA alphaB : ℝ)
    (truth : Matrix (Fin p) (Fin p) ℝ) : Option ℝ × Option ℝ × Option (WithTop ℝ) :=
  summary (draws.filterMap fun X => scoreGap L (npCov X) sizes gamma truth alphaA alphaB)

/-! ## `schur_godambe.py` -/

/-- `evals` of `_spiked` (`schur_godambe.py:96`). Contract: `n_spikes <= p`. -/
def spikedEvals (nSpikes : ℕ) (spike bulk : ℝ) : Fin p → ℝ := fun i => if i.1 < nSpikes then spike else bulk

/-- `_spiked(p, n_spikes, spike, bulk, seed)` (`schur_godambe.py:93-98`) with the orthogonal factor `Q` of the drawn matrix. -/
noncomputable def spikedTruth (Q : Matrix (Fin p) (Fin p) ℝ) (nSpikes : ℕ) (spike bulk : ℝ) : Matrix (Fin p) (Fin p) ℝ :=
  toSymmetric (Matrix.of (fun i j => Q i j * spikedEvals nSpikes spike bulk j) * Qᵀ)

/-- `V = Q[:, k:]`, `k = 3` (`schur_godambe.py:106-107`): the columns of `Q` that belong to the noise, here as a matrix with the
other columns zero, so `V G V.T` with a symmetric `G` indexed by all variables. -/
noncomputable def noiseP (Q G : Matrix (Fin p) (Fin p) ℝ) : Matrix (Fin p) (Fin p) ℝ :=
  let V : Matrix (Fin p) (Fin p) ℝ := Matrix.of fun i j => if 3 ≤ j.1 then Q i j else 0
  let G' := toSymmetric G                                                                -- line 109
  let P := V * G' * Vᵀ                                                                   -- line 110
  (1 / Real.sqrt (∑ i, ∑ j, P i j ^ 2)) • P                                              -- line 111

/-- The candidates of `_noise_subspace_pair` (`schur_godambe.py:112`). -/
noncomputable def noisePair (truth P : Matrix (Fin p) (Fin p) ℝ) (epsA epsB : ℝ) : Matrix (Fin p) (Fin p) ℝ × Matrix (Fin p) (Fin p) ℝ :=
  (truth + epsA • P, truth + epsB • P)

/-- `sizes = [4] * (p // 4)` (`schur_godambe.py:149`, `schur_spiked.py:93,111`). -/
def drawSizes (p : ℕ) : List ℕ := List.replicate (p / 4) 4

/-- `ridge` (`schur_godambe.py:151`). -/
noncomputable def ridge (truth : Matrix (Fin p) (Fin p) ℝ) : ℝ := 2 / 100 * truth.trace / p

/-- `B` of `discrimination_power_over_draws` (`schur_godambe.py:159-160`). -/
noncomputable def ridged (S truth : Matrix (Fin p) (Fin p) ℝ) : Matrix (Fin p) (Fin p) ℝ := toSymmetric (S + ridge truth • 1)

/-- The pair of one training draw (`schur_godambe.py:155-162`), skipped when one is not `_is_spd`. -/
noncomputable def drawPair (L : Lapack) (truth : Matrix (Fin p) (Fin p) ℝ) (X : List (Fin p → ℝ)) :
    Option (Matrix (Fin p) (Fin p) ℝ × Matrix (Fin p) (Fin p) ℝ) :=
  let A := shrinkIso (npCov X) (1 / 2)                                                   -- lines 157-158
  let B := ridged (npCov X) truth
  if isSpd L A && isSpd L B then some (A, B) else none                                   -- lines 161-162

/-- The entry for one `gamma` of `discrimination_power_over_draws` (`schur_godambe.py:138-175`) on the drawn samples. -/
structure DrawReport where
  mean : Option ℝ
  sd : Option ℝ
  snr : Option (WithTop ℝ)
  power : Option ℝ

open Classical in
/-- `out[g]` (`schur_godambe.py:170-174`). -/
noncomputable def drawReport (L : Lapack) (truth : Matrix (Fin p) (Fin p) ℝ) (sizes : List ℕ) (draws : List (List (Fin p → ℝ))) (gamma : ℝ) :
    DrawReport :=
  let d := (draws.filterMap (drawPair L truth)).map fun AB => snrMu AB.1 AB.2 truth sizes gamma  -- lines 165-168
  { mean := (summary d).1, sd := (summary d).2.1, snr := (summary d).2.2
    power := mean? (d.map fun x => if 0 < x then 1 else 0) }                             -- line 174

/-- `np.mean(klA), np.mean(klB)` (`schur_godambe.py:163-164,175`). -/
noncomputable def drawKl (L : Lapack) (truth : Matrix (Fin p) (Fin p) ℝ) (draws : List (List (Fin p → ℝ))) : Option ℝ × Option ℝ :=
  let ps := draws.filterMap (drawPair L truth)
  (mean? (ps.map fun AB => kl AB.1 truth), mean? (ps.map fun AB => kl AB.2 truth))

end Precise.Theory
