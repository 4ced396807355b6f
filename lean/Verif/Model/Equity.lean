import Verif.Model.Defaults
import Verif.Model.Assessors

/-!
# Model of `research/oos_equity.py`: the rolling study on real returns

A number that numpy may report as NaN is an `Option ℝ` with `none` for NaN. The array of returns is the list of its rows;
`train_len`, `test_len` and `step` are non-negative.
-/

namespace Precise.Oos

open Matrix

variable {p : ℕ}

/-- `_gmv_weights(cov)` (`oos_equity.py:36-38`). For a PSD `cov` the sum is zero only if every `w` is (C88), and then numpy
gives 0/0 = NaN. Simplification: for an indefinite `cov` whose `w` sums to zero without being zero numpy gives
infinities; here NaN as well. -/
noncomputable def gmvNum (L : Lapack) (cov : Matrix (Fin p) (Fin p) ℝ) : Option (Fin p → ℝ) :=
  let w := tryInvert L cov *ᵥ 1                                                          -- line 37
  if ∑ j, w j = 0 then none else some fun i => w i / ∑ j, w j                            -- line 38

/-- `float(np.mean((test @ w) ** 2))` (`oos_equity.py:59,66`); NaN without test rows. -/
noncomputable def realized (w : Option (Fin p → ℝ)) (test : List (Fin p → ℝ)) : Option ℝ :=
  match w with
  | none => none
  | some w => if test = [] then none else some ((test.map fun x => (x ⬝ᵥ w) ^ 2).sum / (test.length : ℝ))

/-- Python's `min` of a list of floats: the first element, replaced whenever a later one is smaller; comparisons with NaN are
false (used at `oos_equity.py:64`). -/
noncomputable def pyMin : List (Option ℝ) → Option ℝ
  | [] => none
  | x :: xs => xs.foldl (fun m y => match m, y with
      | some a, some b => if b < a then some b else some a
      | m, _ => m) x

/-- What one window adds to the lists of `rolling_oos` (`oos_equity.py:56-66`). -/
structure Roll where
  this : List (String × Option ℝ)
  pick : String
  recommended : Option ℝ
  oracle : Option ℝ
  equal : Option ℝ

/-- `R[a:b]` (`oos_equity.py:54-55`). -/
def slice (R : List (Fin p → ℝ)) (a b : ℕ) : List (Fin p → ℝ) := (R.take b).drop a

/-- The inner loop over the estimators (`oos_equity.py:56-60`): fitting errors propagate. -/
noncomputable def scoreAll (L : Lapack) (train test : List (Fin p → ℝ)) :
    List (String × (List (Call (Fin p) ℝ) → Except PyErr (Matrix (Fin p) (Fin p) ℝ))) → Except PyErr (List (String × Option ℝ))
  | [] => .ok []
  | (name, f) :: rest =>
    match f [.fit (.batch train)] with
    | .error e => .error e
    | .ok cov =>
      match scoreAll L train test rest with
      | .error e => .error e
      | .ok l => .ok ((name, realized (gmvNum L cov) test) :: l)

/-- The body of the loop of `rolling_oos` for the window starting at row `t` (`oos_equity.py:54-66`). -/
noncomputable def rollAt (L : Lapack) (R : List (Fin p → ℝ)) (trainLen testLen t : ℕ) : Except PyErr Roll :=
  let train := slice R t (t + trainLen)                                                  -- line 54
  let test := slice R (t + trainLen) (t + trainLen + testLen)                            -- line 55
  match scoreAll L train test (outOfBox L p) with                                        -- lines 56-60
  | .error e => .error e
  | .ok this =>
    let pick := topPick L train                                                           -- line 61
    match this.lookup pick with                                                          -- line 63
    | none => .error .keyError
    | some v =>
      .ok { this := this, pick := pick, recommended := v, oracle := pyMin (this.map Prod.snd),  -- line 64
            equal := realized (some fun _ => 1 / (p : ℝ)) test }                         -- lines 65-66

/-- The starting rows `range(0, T - train_len - test_len + 1, step)` (`oos_equity.py:53`); `step=0` is a ValueError. -/
def rollStarts (T trainLen testLen step : ℕ) : Except PyErr (List ℕ) :=
  if step = 0 then .error .valueError else .ok (pyRangeStep (T + 1 - trainLen - testLen) step)

/-- The loop over the windows (`oos_equity.py:53-66`). -/
noncomputable def rolls (L : Lapack) (R : List (Fin p → ℝ)) (trainLen testLen : ℕ) : List ℕ → Except PyErr (List Roll)
  | [] => .ok []
  | t :: ts =>
    match rollAt L R trainLen testLen t with
    | .error e => .error e
    | .ok r =>
      match rolls L R trainLen testLen ts with
      | .error e => .error e
      | .ok rs => .ok (r :: rs)

/-- Addition of floats; NaN if one of them is (used at `oos_equity.py:69`). -/
noncomputable def addNum : Option ℝ → Option ℝ → Option ℝ
  | some a, some b => some (a + b)
  | _, _ => none

/-- `np.mean(v)`: NaN for an empty list or if an element is NaN (`oos_equity.py:69`). -/
noncomputable def meanNum (v : List (Option ℝ)) : Option ℝ :=
  if v = [] then none else (v.foldr addNum (some 0)).map fun s => s / (v.length : ℝ)

/-- `annvol(v)` (`oos_equity.py:68-69`). -/
noncomputable def annvol (v : List (Option ℝ)) : Option ℝ := (meanNum v).map fun m => Real.sqrt (252 * m)

/-- `counts[rec] = counts.get(rec, 0) + 1` (`oos_equity.py:62`). -/
def bump : List (String × ℕ) → String → List (String × ℕ)
  | [], k => [(k, 1)]
  | (k', n) :: rest, k => if k' = k then (k', n + 1) :: rest else (k', n) :: bump rest k

/-- The result of `rolling_oos` (`oos_equity.py:71-72`). -/
structure Rolling where
  fixed : List (String × Option ℝ)
  recommender : Option ℝ
  oracle : Option ℝ
  equalWeight : Option ℝ
  counts : List (String × ℕ)

/-- `rolling_oos(returns, train_len, test_len, step)` (`oos_equity.py:41-72`). `per_roll[name]` (line 60) is the list of the
windows' `this[name]`. -/
noncomputable def rollingOos (L : Lapack) (R : List (Fin p → ℝ)) (trainLen testLen step : ℕ) : Except PyErr Rolling :=
  match rollStarts R.length trainLen testLen step with
  | .error e => .error e
  | .ok ts =>
    match rolls L R trainLen testLen ts with
    | .error e => .error e
    | .ok rs =>
      .ok { fixed := (outOfBox L p).map fun e => (e.1, annvol (rs.map fun r => (r.this.lookup e.1).getD none))
            recommender := annvol (rs.map Roll.recommended)
            oracle := annvol (rs.map Roll.oracle)
            equalWeight := annvol (rs.map Roll.equal)
            counts := (rs.map Roll.pick).foldl bump [] }

/-- `rec_rank` of `report` (`oos_equity.py:78`): `1 + sum(v < recommender for v in fixed.values())`; comparisons with NaN are
false. -/
noncomputable def recRank (r : Rolling) : ℕ :=
  1 + (r.fixed.filter fun e => match e.2, r.recommender with | some v, some x => decide (v < x) | _, _ => false).length

end Precise.Oos
