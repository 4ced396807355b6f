import Verif.Model.Defaults
import Verif.Model.AssessorCall
import Verif.Model.Keyed

/-!
# Model of `research/bakeoff.py`: the bake-off

A score is a number or `-inf` (`⊥`); NaN scores are not modelled. The ground-truth matrices are in `Model/Ensembles`.
-/

namespace Precise.Oos

/-- One scenario `(name, train, test, true_cov)` (`bakeoff.py:78,83,88,96,100,107`); the number of variables may differ between
scenarios. -/
structure Scenario where
  name : String
  p : ℕ
  train : List (Fin p → ℝ)
  test : List (Fin p → ℝ)
  truth : Matrix (Fin p) (Fin p) ℝ

/-- `results[estimator][scenario]`: scores by assessor (`bakeoff.py:126,132`). -/
abbrev Cell := List (String × WithBot ℝ)

/-- `results` (`bakeoff.py:121`). -/
abbrev Results := List (String × List (String × Cell))

/-- A loop that stops at the first exception (used for the loops `bakeoff.py:122-132`). -/
def mapE {α β : Type} (f : α → Except PyErr β) : List α → Except PyErr (List β)
  | [] => .ok []
  | a :: l =>
    match f a with
    | .error e => .error e
    | .ok b =>
      match mapE f l with
      | .error e => .error e
      | .ok bs => .ok (b :: bs)

/-- `float(a.score(cov, X_test=test, true_cov=true_cov))`, or `-inf` if it raises (`bakeoff.py:128-131`). -/
noncomputable def judged (L : Lapack) (sc : Scenario) (cov : Matrix (Fin sc.p) (Fin sc.p) ℝ) (a : AssessorKind) : WithBot ℝ :=
  match a.score L cov (some sc.test) (some sc.truth) with
  | .num s => s
  | .nan => ⊥
  | .raised => ⊥

/-- The scores of one estimator on one scenario (`bakeoff.py:124-131`): fitting errors are not caught. -/
noncomputable def cell (L : Lapack) (sc : Scenario)
    (f : List (Call (Fin sc.p) ℝ) → Except PyErr (Matrix (Fin sc.p) (Fin sc.p) ℝ)) : Except PyErr Cell :=
  match f [.fit (.batch sc.train)] with                                                  -- line 124
  | .error e => .error e
  | .ok cov => .ok ((allAssessors.filter fun a => a.2.usable true true).map fun a => (a.1, judged L sc cov a.2))

/-- The loop over the estimators (`bakeoff.py:123-132`). -/
noncomputable def runScenario (L : Lapack) (sc : Scenario) : Except PyErr (List (String × Cell)) :=
  mapE (fun e => (cell L sc e.2).map fun c => (e.1, c)) (outOfBox L sc.p)

/-- `run()` on given scenarios (`bakeoff.py:114-133`). An exception ends the run, so what was stored before it is not visible. -/
noncomputable def runBakeoff (L : Lapack) (scs : List Scenario) : Except PyErr Results :=
  scs.foldl (fun acc sc =>
      match acc with
      | .error e => .error e
      | .ok results =>
        match runScenario L sc with
        | .error e => .error e
        | .ok row => .ok (results.map fun e => (e.1, dictSet e.2 sc.name ((row.lookup e.1).getD []))))  -- line 132
    (.ok (estimatorNames.map fun n => (n, [])))                                          -- line 121

/-- A finite score, `np.isfinite` (`bakeoff.py:137`). -/
noncomputable def finite? : WithBot ℝ → Option ℝ := WithBot.recBotCoe none some

/-- `_mean(results, name, assessor)` (`bakeoff.py:136-138`); `d` is `results[name]`. -/
noncomputable def meanScore (d : List (String × Cell)) (a : String) : WithBot ℝ :=
  let vals := d.filterMap fun m => (m.2.lookup a).bind finite?                           -- line 137
  if vals = [] then ⊥ else ((vals.sum / vals.length : ℝ) : WithBot ℝ)                    -- line 138

/-- `{nm: results[nm][key].get(primary, -inf)}` as used at `bakeoff.py:147,169`; KeyError if an estimator lacks the scenario. -/
noncomputable def table (results : Results) (primary key : String) : Except PyErr Scores :=
  mapE (fun e => match e.2.lookup key with
    | none => .error .keyError
    | some c => .ok (e.1, (c.lookup primary).getD ⊥)) results

/-- A line of the leaderboard (`bakeoff.py:159-160`). -/
structure BoardLine where
  name : String
  avgRank : ℝ
  primary : WithBot ℝ
  others : List (WithBot ℝ)

/-- `leaderboard(results, primary)` before formatting (`bakeoff.py:141-162`): the names of the secondary columns and the lines. -/
noncomputable def leaderboard (results : Results) (primary : String) : Except PyErr (List String × List BoardLine) :=
  match results with
  | [] => .error .stopIteration                                                          -- line 143
  | first :: _ =>
    match mapE (table results primary) (first.2.map Prod.fst) with                       -- lines 145-147
    | .error e => .error e
    | .ok ts =>
      let avg := fun nm : String => meanNat (ts.map fun t => ((ranks t).lookup nm).getD 0)   -- lines 148-150
      match first.2 with
      | [] => .error .indexError                                                         -- line 151
      | c :: _ =>
        let others := ((c.2.map Prod.fst).filter fun a => a ≠ primary).take 2            -- line 151
        .ok (others, ((results.map Prod.fst).mergeSort fun a b => decide (avg a ≤ avg b)).map fun nm =>  -- line 158
          { name := nm, avgRank := avg nm, primary := meanScore ((results.lookup nm).getD []) primary
            others := others.map (meanScore ((results.lookup nm).getD [])) })

/-- `per_scenario_winners(results, primary)` before formatting (`bakeoff.py:165-171`): `max` returns the first maximum. -/
noncomputable def winners (results : Results) (primary : String) : Except PyErr (List (String × String)) :=
  match results with
  | [] => .error .stopIteration                                                          -- line 166
  | first :: _ =>
    mapE (fun key => match table results primary key with
      | .error e => .error e
      | .ok t => match t.argmax Prod.snd with
        | some e => .ok (key, e.1)                                                       -- line 169
        | none => .error .valueError) (first.2.map Prod.fst)

end Precise.Oos
