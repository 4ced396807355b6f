import Verif.Model.Conventions
import Mathlib.Data.Real.Basic
import Mathlib.Order.WithBot
import Mathlib.Data.List.MinMax
import Mathlib.Data.List.Basic

/-!
# Model of `research/oos.py`: ranks and leave-one-ensemble-out

A score is a number or `-inf` (`⊥`, which `_trial` also gives when an estimator raises); a NaN score, on which Python's
sort is meaningless, is not modelled. The random generator is an abstract state `G` threaded through the calls.
-/

namespace Precise.Oos

/-- `scores`: a dict from estimator names, in the order of `all_estimators()` (`oos.py:115-120`). -/
abbrev Scores := List (String × WithBot ℝ)

/-- `scores[k]` (`oos.py:101`). -/
noncomputable def getScore (s : Scores) (k : String) : WithBot ℝ := (s.lookup k).getD ⊥

/-- `sorted(scores, key=lambda k: -scores[k])` (`oos.py:101`): Python's sort is stable. -/
noncomputable def order (s : Scores) : List String :=
  (s.map Prod.fst).mergeSort fun a b => decide (getScore s b ≤ getScore s a)

/-- `_ranks(scores)` (`oos.py:99-102`). -/
noncomputable def ranks (s : Scores) : List (String × ℕ) := (order s).zipIdx.map fun e => (e.1, e.2 + 1)

/-- `accum[k].append(r)` on a `defaultdict(list)` (`oos.py:136`). -/
def push (acc : List (String × List ℕ)) (kr : String × ℕ) : List (String × List ℕ) :=
  match acc with
  | [] => [(kr.1, [kr.2])]
  | (k, rs) :: rest => if k = kr.1 then (k, rs ++ [kr.2]) :: rest else (k, rs) :: push rest kr

/-- The dict `accum` after the given trials (`oos.py:130-136`). -/
noncomputable def accumulate (trials : List Scores) : List (String × List ℕ) :=
  trials.foldl (fun acc s => (ranks s).foldl push acc) []

/-- `np.mean` of a non-empty list of ranks (`oos.py:137,158-159`). -/
noncomputable def meanNat (rs : List ℕ) : ℝ := (rs.sum : ℝ) / rs.length

/-- `min(accum, key=lambda k: np.mean(accum[k]))` (`oos.py:137`): the first minimum; ValueError on an empty dict. -/
noncomputable def bestFixedOf (trials : List Scores) : Except PyErr String :=
  match (accumulate trials).argmin (fun e => meanNat e.2) with
  | some e => .ok e.1
  | none => .error .valueError

variable {G : Type}

/-- The trials of the loop of `_best_fixed` (`oos.py:132-134`): draw an ensemble from the list, run a trial of it.
`pick` is `names[rng.integers(len(names))]`, `trial e` is `_trial(*ENSEMBLES[e], ...)`; both advance the generator. -/
def drawTrials (pick : List String → G → String × G) (trial : String → G → (Scores × String) × G) (ens : List String) :
    ℕ → G → List Scores × G
  | 0, g => ([], g)
  | n + 1, g =>
    let (e, g1) := pick ens g
    let (o, g2) := trial e g1
    let (rest, g3) := drawTrials pick trial ens n g2
    (o.1 :: rest, g3)

/-- `_best_fixed(...)` (`oos.py:128-137`). `rng.integers(0)` raises ValueError. -/
noncomputable def bestFixed (pick : List String → G → String × G) (trial : String → G → (Scores × String) × G)
    (ens : List String) (trials : ℕ) (g : G) : Except PyErr String × G :=
  if ens = [] ∧ trials ≠ 0 then (.error .valueError, g)
  else
    let r := drawTrials pick trial ens trials g
    (bestFixedOf r.1, r.2)

/-- The trials of the held-out ensemble (`oos.py:151-152`). -/
def heldTrials (trial : String → G → (Scores × String) × G) (held : String) : ℕ → G → List (Scores × String) × G
  | 0, g => ([], g)
  | n + 1, g =>
    let (o, g1) := trial held g
    let (rest, g2) := heldTrials trial held n g1
    (o :: rest, g2)

/-- One entry of the results (`oos.py:156-160`). -/
structure Result where
  bestFixed : String
  rankRecommender : ℝ
  rankBestFixed : ℝ

/-- `ranks[name]` (KeyError if absent), for every trial (`oos.py:153-155`). -/
noncomputable def lookupRanks (os : List (Scores × String)) (name : Scores × String → String) : Except PyErr (List ℕ) :=
  os.mapM fun o =>
    match (ranks o.1).lookup (name o) with
    | some r => .ok r
    | none => .error .keyError

/-- The body of the loop over held-out ensembles (`oos.py:146-160`). -/
noncomputable def holdOut (pick : List String → G → String × G) (trial : String → G → (Scores × String) × G)
    (names : List String) (trials : ℕ) (held : String) (g : G) : Except PyErr Result × G :=
  let (bf, g1) := bestFixed pick trial (names.filter fun e => e ≠ held) trials g
  match bf with
  | .error e => (.error e, g1)
  | .ok bf =>
    let (os, g2) := heldTrials trial held trials g1
    match lookupRanks os (fun o => o.2), lookupRanks os (fun _ => bf) with
    | .ok rec, .ok fix => (.ok { bestFixed := bf, rankRecommender := meanNat rec, rankBestFixed := meanNat fix }, g2)
    | _, _ => (.error .keyError, g2)

/-- The loop of `leave_one_ensemble_out(...)` over the ensembles still to hold out (`oos.py:140-161`; the loop of
`leave_one_family_out_trained`, `oos.py:219-236`, is the same with another recommender). -/
noncomputable def leaveOut (pick : List String → G → String × G) (trial : String → G → (Scores × String) × G)
    (names : List String) (trials : ℕ) : List String → G → Except PyErr (List (String × Result))
  | [], _ => .ok []
  | held :: rest, g =>
    let (r, g1) := holdOut pick trial names trials held g
    match r with
    | .error e => .error e
    | .ok r =>
      match leaveOut pick trial names trials rest g1 with
      | .error e => .error e
      | .ok rs => .ok ((held, r) :: rs)

/-- `leave_one_ensemble_out(...)` (`oos.py:140-161`). -/
noncomputable def leaveOneEnsembleOut (pick : List String → G → String × G) (trial : String → G → (Scores × String) × G)
    (names : List String) (trials : ℕ) (g : G) : Except PyErr (List (String × Result)) :=
  leaveOut pick trial names trials names g

end Precise.Oos
