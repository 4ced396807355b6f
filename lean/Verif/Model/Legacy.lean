import Mathlib.Analysis.SpecialFunctions.Pow.Real
import Mathlib.Data.List.Sort
import Mathlib.Data.List.Dedup
import Verif.Model.Conventions
import Verif.Spec.Matrix

/-!
# Model of `research/legacy_skatervaluation`: Elo ratings, battles, managers and portfolio rankings

The files still import modules of the pre-1.0 package (`precise.skatervaluation...`); only the functions themselves are
modelled. Not modelled: reading and writing files, time stamps, printing, the data sources and the portfolio methods
(arbitrary functions here).
-/

open Matrix

namespace Precise.Legacy

/-! ## `battleutil/eloformulas.py` -/

/-- `elo_expected(d, f)` (`eloformulas.py:4-15`), for `f ≠ 0`. -/
noncomputable def eloExpected (d f : ℝ) : ℝ :=
  if d / f > 8 then 0                                                                    -- lines 10-11
  else if d / f < -8 then 1                                                              -- lines 12-13
  else 1 / (1 + (10 : ℝ) ^ (d / f))                                                      -- line 15

/-- `elo_change(white_elo, black_elo, points, k, f)` (`eloformulas.py:18-30`). -/
noncomputable def eloChange (white black points k f : ℝ) : ℝ × ℝ :=
  let d := black - white                                                                 -- line 27
  let w := points - eloExpected d f                                                      -- lines 28-29
  (k * w, -k * w)                                                                        -- line 30

/-! ## `battleutil/compilingeloratings.py` -/

/-- A contestant's name, or a key `winner>loser`: a string as its list of characters (`compilingeloratings.py:101`, `arrangingbattles.py:118`). -/
abbrev Name := List Char

/-- `s.split('>')` (`compilingeloratings.py:101,123`). -/
def splitGt : Name → List Name
  | [] => [[]]
  | c :: cs =>
    if c = '>' then [] :: splitGt cs
    else match splitGt cs with
      | [] => [[c]]
      | p :: ps => (c :: p) :: ps

/-- `i_name + '>' + j_name` (`arrangingbattles.py:118`). -/
def cmpName (i j : Name) : Name := i ++ '>' :: j

/-- A counter of results: keys in insertion order with their counts (`compilingeloratings.py:81`, `arrangingbattles.py:119`). -/
abbrev Wins := List (Name × ℝ)

/-- The first part of every key, then the second part of every key (`compilingeloratings.py:101`); a key without `>` has
no second part, which is an IndexError. -/
def secondParts : List Name → Except PyErr (List Name)
  | [] => .ok []
  | key :: ks => do
    match splitGt key with
    | _ :: b :: _ => return b :: (← secondParts ks)
    | _ => .error .indexError

/-- `contestants` (`compilingeloratings.py:101`): a set, so each name once. Simplification: the order of a Python set is
arbitrary; here it is the order of `dedup`. -/
def contestants (ctn : Wins) : Except PyErr (List Name) := do
  let second ← secondParts (ctn.map Prod.fst)
  return ((ctn.map fun kc => (splitGt kc.1).headD []) ++ second).dedup

/-- `remaining_battles` (`compilingeloratings.py:113`). -/
noncomputable def remaining (ctn : Wins) : Wins := ctn.filter fun kc => 1 ≤ kc.2

/-- `ctn[key] -= 1` (`compilingeloratings.py:125`). -/
noncomputable def useUp (ctn : Wins) (key : Name) : Wins := ctn.map fun kc => if kc.1 = key then (kc.1, kc.2 - 1) else kc

/-- Lines 124, 126, 127 of `compilingeloratings.py`: both changes are computed from the old ratings. -/
noncomputable def applyMatch (k : ℝ) (elo : Name → ℝ) (winner loser : Name) : Name → ℝ :=
  let ch := eloChange (elo winner) (elo loser) 1 k 400                                   -- line 124
  let elo := Function.update elo winner (elo winner + ch.1)                              -- line 126
  Function.update elo loser (elo loser + ch.2)                                           -- line 127

/-- The loop `compilingeloratings.py:109-127` with `fuel = n_limit - n_count` matches to go. `pick n` is what
`random.choices` draws when `n` matches are to go: all weights are positive, so any position of `remaining_battles`. -/
noncomputable def eloLoop (k : ℝ) (pick : ℕ → ℕ) : ℕ → Wins → (Name → ℝ) → Except PyErr (Wins × (Name → ℝ))
  | 0, ctn, elo => .ok (ctn, elo)
  | fuel + 1, ctn, elo =>
    match (remaining ctn)[pick fuel % (remaining ctn).length]? with
    | none => .ok (ctn, elo)                                                             -- nothing remains, line 115
    | some kc =>
      match splitGt kc.1 with
      | [winner, loser] => eloLoop k pick fuel (useUp ctn kc.1) (applyMatch k elo winner loser)
      | _ => .error .valueError                                                          -- line 123: wrong number to unpack

/-- `ELO_LIMIT` (`compilingeloratings.py:16`). -/
def ELO_LIMIT : ℕ := 50000

/-- `elo_from_win_counts(ctn, k=k)` (`compilingeloratings.py:81-128`) with no timing genre: the contestants, their ratings
and the caller's counter afterwards (it is changed in place at line 125). A `Counter` gives 0 for unknown names. -/
noncomputable def eloFromWinCounts (k : ℝ) (pick : ℕ → ℕ) (ctn : Wins) : Except PyErr (List Name × (Name → ℝ) × Wins) := do
  let cs ← contestants ctn
  let (after, elo) ← eloLoop k pick ELO_LIMIT ctn fun c => if c ∈ cs then 1500 else 0    -- line 102
  return (cs, elo, after)

/-! ## `battleutil/arrangingbattles.py` -/

/-- One entry of `valid` (`arrangingbattles.py:103`): the assessment (`none` is NaN) and the name. -/
abbrev Entry := Option ℝ × Name

/-- `mi[0] > mj[0] + atol` (`arrangingbattles.py:115`); a comparison with NaN is false. -/
def beats (atol : ℝ) (a b : Option ℝ) : Prop :=
  match a, b with
  | some x, some y => y + atol < x
  | _, _ => False

open Classical in
/-- The keys counted in one round (`arrangingbattles.py:112-119`), in order. -/
noncomputable def roundKeys (atol : ℝ) (valid : List Entry) : List Name :=
  (List.range valid.length).flatMap fun i => (List.range valid.length).filterMap fun j =>
    match valid[i]?, valid[j]? with
    | some mi, some mj => if j ≠ i ∧ beats atol mi.1 mj.1 then some (cmpName mi.2 mj.2) else none
    | _, _ => none

/-- `battles.update({key: 1.0})` (`arrangingbattles.py:119`). -/
noncomputable def countKey (battles : Wins) (key : Name) : Wins :=
  if key ∈ battles.map Prod.fst then battles.map fun kc => if kc.1 = key then (kc.1, kc.2 + 1) else kc
  else battles ++ [(key, 1)]

/-- One round (`arrangingbattles.py:112-119`). -/
noncomputable def battleRound (atol : ℝ) (battles : Wins) (valid : List Entry) : Wins :=
  (roundKeys atol valid).foldl countKey battles

/-- The rounds played so far (`arrangingbattles.py:69-119`), starting from `Counter()`. -/
noncomputable def battles (atol : ℝ) (rounds : List (List Entry)) : Wins := rounds.foldl (battleRound atol) []

/-! ## `managercomparisonutil/managerstats.py` -/

variable {S Y W : Type}

/-- A manager: `w, s = mgr(s=s, y=y, e=e)` (`managerstats.py:87,106`). -/
abbrev Manager (S Y W : Type) := S → Y → ℤ → W × S

/-- The burn-in loop (`managerstats.py:86-87`): the last portfolio (unbound if there was no row) and the state. -/
def burnIn (mgr : Manager S Y W) : List Y → Option W × S → Option W × S
  | [], ws => ws
  | y :: ys, ws => burnIn mgr ys ((mgr ws.2 y (-1)).1, (mgr ws.2 y (-1)).2)

/-- The evaluation loop (`managerstats.py:96-106`): the values passed to `var_update`. `w_prev = none` before the first
row; `w` unbound (no burn-in) is an UnboundLocalError at line 102, reported here as an IndexError. -/
def evalLoop (mgr : Manager S Y W) (metric : Y → W → ℝ) : List Y → Option W → Option W × S → Except PyErr (List ℝ)
  | [], _, _ => .ok []
  | y :: ys, wPrev, (w, s) =>
    match w with
    | none => .error .indexError
    | some w => do
      let rest ← evalLoop mgr metric ys (some w) ((mgr s y 1).1, (mgr s y 1).2)
      return (match wPrev with | none => rest | some v => metric y v :: rest)

/-- The returns `manager_stats(mgr, xs, n_burn)` summarizes (`managerstats.py:72-106`). `AssertionError` for too few rows
is reported as a ValueError. Simplification: `0 ≤ n_burn`. -/
def managerReturns (mgr : Manager S Y W) (metric : Y → W → ℝ) (s0 : S) (nBurn : ℕ) (xs : List Y) : Except PyErr (List ℝ) :=
  if xs.length ≤ nBurn then .error .valueError                                           -- line 80
  else evalLoop mgr metric (xs.drop nBurn) none (burnIn mgr (xs.take nBurn) (none, s0))

/-- `var_metric` (`managerstats.py:20-21`) for a row and a portfolio of the same length. -/
def varMetric {ι : Type} [Fintype ι] (y w : ι → ℝ) : ℝ := ∑ i, y i * w i

/-! ## `portfoliocomparisonutil/portcomparison.py` -/

variable {ι : Type}

/-- A row of the leaderboard: name, variance in sample, variance out of sample (`portcomparison.py:113`). -/
abbrev RankRow := String × ℝ × ℝ

/-- `portfolio_variance_rankings(cov_train, ports, cov_test, as_frame=False)` (`portcomparison.py:91-122`);
`portfolio_variance` is `w' cov w`. -/
noncomputable def varianceRankings [Fintype ι] (covTrain : Matrix ι ι ℝ) (ports : List (String × (Matrix ι ι ℝ → ι → ℝ)))
    (covTest : Option (Matrix ι ι ℝ)) : List RankRow :=
  let test := covTest.getD covTrain                                                      -- lines 101-102
  let rankings := ports.map fun p => (p.1, Spec.quad covTrain (p.2 covTrain), Spec.quad test (p.2 covTrain))
  rankings.insertionSort fun a b => a.2.2 ≤ b.2.2                                        -- line 114 (stable)

/-- `stock_portfolio_variance_rankings` and `rdps_etf_variance_rankings` (`portcomparison.py:39-60`) after the data were
drawn; `cov` is `np.cov(rows, rowvar=False)`. -/
noncomputable def stockRankings [Fintype ι] (cov : List (ι → ℝ) → Matrix ι ι ℝ)
    (ports : List (String × (Matrix ι ι ℝ → ι → ℝ))) (data : List (ι → ℝ)) (nObs : ℕ) : List RankRow :=
  let tObs := ⌊(3 / 4 : ℝ) * (nObs : ℝ)⌋₊                                                -- lines 45, 57
  let testCov := cov (data.take tObs)                                                    -- lines 46, 58
  let trainCov := cov (data.drop tObs)                                                   -- lines 47, 59
  varianceRankings trainCov ports (some testCov)

/-- The points of one race (`portcomparison.py:17`); `dict(points)` with distinct names. -/
def racePoints (rankings : List RankRow) : List (String × ℕ) :=
  rankings.zipIdx.map fun rk => (rk.1.1, rankings.length - rk.2)

/-- `points_race` (`portcomparison.py:13-20`): the total of each name over the races. -/
def raceTotal (races : List (List RankRow)) (name : String) : ℕ :=
  (races.map fun r => ((racePoints r).filter fun nk => nk.1 = name).map Prod.snd |>.sum).sum

end Precise.Legacy
