import Verif.Model.Defaults
import Verif.Model.Rounding
import Mathlib.Data.List.MinMax
import Mathlib.Algebra.Order.Floor.Semiring

/-!
# Model of `research/train_recommender.py` and of the trained study in `research/oos.py:164-237`

The learner (scikit-learn's `DecisionTreeClassifier(max_depth=5, min_samples_leaf=10, random_state=0)`) is an arbitrary
function from the training table to the arrays of `clf.tree_` and `clf.classes_`; `Fits` lists what is assumed of it. The
random generator is an abstract state, as in `Model/Oos`. Numbers are exact; `round(v, 6)` is the nearest multiple of `10^-6`,
ties to even.
-/

namespace Precise.Oos

/-! ## The training table -/

/-- `_features(X)` (`train_recommender.py:24-27,31-33`), the features in the order of `FEATURES`. -/
noncomputable def featureList (f : Features) : List ℝ :=
  [f.pOverN, f.effectiveRank, f.sphericity, f.conditionNumber, f.meanAbsOffdiagCorr, f.avgExcessKurtosis, (f.p : ℝ)]

/-- `max(int(p * ratio), 10)` (`train_recommender.py:46`, `oos.py:181`), in exact arithmetic. -/
def trainSize (p : ℕ) (ratio : ℚ) : ℕ := max ⌊(p : ℚ) * ratio⌋₊ 10

/-- `names[int(np.argmax(scores))]` (`train_recommender.py:51`, `oos.py:191`): `np.argmax` is the first maximum. -/
noncomputable def bestName (s : Scores) : String := ((s.argmax Prod.snd).map Prod.fst).getD ""

/-- The sources of randomness, each advancing the generator (`train_recommender.py:44-48`, `oos.py:179-183`). -/
structure Draws (G : Type) where
  /-- `names[rng.integers(len(names))]` -/
  pick : List String → G → String × G
  /-- `int(rng.choice([15, 25, 40, 60]))` -/
  size : G → ℕ × G
  /-- `rng.choice([0.5, 0.8, 1.5, 3.0])` -/
  ratio : G → ℚ × G
  /-- `true = gen(p, rng)` of the named ensemble, then `_sample(true, n, ...)` and `_sample(true, m, ...)` -/
  rows : String → (p n m : ℕ) → G → (List (Fin p → ℝ) × List (Fin p → ℝ)) × G

/-- A judge: `assessor.score(cov, X_test=test)` for any number of variables (`train_recommender.py:49`, `oos.py:187`). -/
abbrev Judge := (p : ℕ) → Matrix (Fin p) (Fin p) ℝ → List (Fin p → ℝ) → Except PyErr (WithBot ℝ)

variable {G : Type}

/-- One training problem of `_train_recommender` (`oos.py:179-191`): its features and its label. -/
noncomputable def problem (L : Lapack) (D : Draws G) (assess : Judge) (ens : List String) (g : G) : (Features × String) × G :=
  let (e, g1) := D.pick ens g                                                          -- line 181
  let (p, g2) := D.size g1                                                             -- line 182
  let (r, g3) := D.ratio g2                                                            -- line 183
  let ((train, test), g4) := D.rows e p (trainSize p r) 400 g3                         -- lines 184-185
  ((covarianceFeatures L train, bestName (trialScores L (assess p) train test)), g4)   -- lines 186-193

/-- The loop of `_train_recommender` (`oos.py:178-191`). -/
noncomputable def trainingData (L : Lapack) (D : Draws G) (assess : Judge) (ens : List String) : ℕ → G → List (Features × String) × G
  | 0, g => ([], g)
  | n + 1, g =>
    let (x, g1) := problem L D assess ens g
    let (rest, g2) := trainingData L D assess ens n g1
    (x :: rest, g2)

/-- The scores of `generate` (`train_recommender.py:49`): as in a trial, but nothing is caught. -/
noncomputable def strictScores (L : Lapack) {p : ℕ} (assess : Matrix (Fin p) (Fin p) ℝ → List (Fin p → ℝ) → Except PyErr (WithBot ℝ))
    (train test : List (Fin p → ℝ)) : Except PyErr Scores :=
  (outOfBox L p).mapM fun e => do
    let cov ← e.2 [.fit (.batch train)]
    let s ← assess cov test
    pure (e.1, s)

/-- `generate(n_problems, seed)` (`train_recommender.py:36-52`); `ens` is `list(ENSEMBLES)`, `g` the seeded generator. -/
noncomputable def generate (L : Lapack) (D : Draws G) (assess : Judge) (ens : List String) : ℕ → G → Except PyErr (List (Features × String))
  | 0, _ => .ok []
  | n + 1, g =>
    let (e, g1) := D.pick ens g                                                        -- line 45
    let (p, g2) := D.size g1                                                           -- line 46
    let (r, g3) := D.ratio g2                                                          -- line 47
    let ((train, test), g4) := D.rows e p (trainSize p r) 400 g3                       -- lines 48-49
    match strictScores L (assess p) train test with                                    -- line 50
    | .error err => .error err
    | .ok scores =>
      match generate L D assess ens n g4 with
      | .error err => .error err
      | .ok rest => .ok ((covarianceFeatures L train, bestName scores) :: rest)        -- lines 51-52

/-- `X[:, j]` (`X.mean(0)`, `train_recommender.py:82`). -/
noncomputable def column (rows : List (List ℝ)) (j : ℕ) : List ℝ := rows.map fun r => r.getD j 0

/-- `np.mean` of a column (`train_recommender.py:82`). -/
noncomputable def colMean (v : List ℝ) : ℝ := v.sum / v.length

/-- `np.std` of a column (`train_recommender.py:82`). -/
noncomputable def colStd (v : List ℝ) : ℝ := Real.sqrt ((v.map fun x => (x - colMean v) ^ 2).sum / v.length)

/-- `mean, std = X.mean(0), X.std(0) + 1e-9` (`train_recommender.py:82`, `oos.py:193`). -/
noncomputable def scaling (rows : List (List ℝ)) : List (ℝ × ℝ) :=
  (List.range 7).map fun j => (colMean (column rows j), colStd (column rows j) + 1 / 10 ^ 9)

/-- `(x - mean) / std` (`train_recommender.py:83`, `oos.py:196,199`, `recommend.py:86`). -/
noncomputable def standardize (ms : List (ℝ × ℝ)) (x : List ℝ) : List ℝ := List.zipWith (fun x m => (x - m.1) / m.2) x ms

/-! ## Trees -/

/-- `clf.tree_` and `clf.classes_` of scikit-learn (`train_recommender.py:56,69-74`). -/
structure Tree where
  classes : List String
  feature : List ℤ
  threshold : List ℝ
  left : List ℤ
  right : List ℤ
  value : List (List ℝ)

open Classical in
/-- Walking the arrays of a tree from `node` (`recommend.py:88-90`; scikit-learn's `predict` takes the same branches, here
without its conversion to single precision). `none`: IndexError, or out of fuel. -/
noncomputable def walkTree (feature : List ℤ) (threshold : List ℝ) (left right : List ℤ) (xs : List ℝ) : ℕ → ℤ → Option ℤ
  | fuel, node =>
    (pyGet feature node).bind fun f =>
      if f = -2 then some node
      else match fuel with
        | 0 => none
        | fuel + 1 => (pyGet xs f).bind fun x => (pyGet threshold node).bind fun t =>
          (if x ≤ t then pyGet left node else pyGet right node).bind (walkTree feature threshold left right xs fuel)

/-- The leaf of a standardized row (`recommend.py:88-90`). -/
noncomputable def Tree.leaf (t : Tree) (xs : List ℝ) : Option ℤ := walkTree t.feature t.threshold t.left t.right xs t.feature.length 0

/-- `clf.predict(xs)`: the first class with the largest value at the leaf (`oos.py:200`). -/
noncomputable def Tree.predict (t : Tree) (xs : List ℝ) : Option String :=
  (t.leaf xs).bind fun l => (pyGet t.value l).bind fun v => ((t.classes.zip v).argmax Prod.snd).map Prod.fst

/-- The rows of the training table that fall into a leaf (`train_recommender.py:84`). -/
noncomputable def Tree.inLeaf (t : Tree) (data : List (List ℝ × String)) (l : ℕ) : List (List ℝ × String) :=
  open Classical in data.filter fun r => decide (t.leaf r.1 = some (l : ℤ))

/-- What is assumed of the fitted classifier. `norm = true`: scikit-learn 1.3 and later, whose `tree_.value` holds class
fractions; `norm = false`: before, class counts. Children stand behind their parent, and every leaf holds a training row
(`train_recommender.py:84`, `oos.py:195-196`). -/
structure Fits (norm : Bool) (t : Tree) (data : List (List ℝ × String)) : Prop where
  classes_nodup : t.classes.Nodup
  classes_mem : ∀ c, c ∈ t.classes ↔ c ∈ data.map Prod.snd
  root : 0 < t.feature.length
  node : ∀ i < t.feature.length,
    (t.feature[i]? = some (-2) ∧ t.inLeaf data i ≠ [] ∧
      t.value[i]? = some (t.classes.map fun c => (((t.inLeaf data i).map Prod.snd).count c : ℝ) / if norm then ((t.inLeaf data i).length : ℝ) else 1)) ∨
    (∃ (f l r : ℕ) (th : ℝ), t.feature[i]? = some (f : ℤ) ∧ f < 7 ∧ t.threshold[i]? = some th ∧ t.left[i]? = some (l : ℤ) ∧ t.right[i]? = some (r : ℤ) ∧
      i < l ∧ l < t.feature.length ∧ i < r ∧ r < t.feature.length)

/-! ## Export -/

/-- The contents of `precise/_recommender_model.py`. -/
structure Frozen where
  mean : List ℝ
  std : List ℝ
  classes : List String
  feature : List ℤ
  threshold : List ℝ
  left : List ℤ
  right : List ℤ
  value : List (List ℤ)

/-- `round(float(v), 6)` (`train_recommender.py:67-71`). -/
noncomputable def round6 (v : ℝ) : ℝ := (halfEven (v * 10 ^ 6) : ℝ) / 10 ^ 6

/-- `int(c)` of a float: truncation (`train_recommender.py:74`). -/
noncomputable def pyInt (c : ℝ) : ℤ := if 0 ≤ c then ⌊c⌋ else ⌈c⌉

/-- `export(clf, mean, std)` (`train_recommender.py:55-77`). -/
noncomputable def exportTree (t : Tree) (ms : List (ℝ × ℝ)) : Frozen :=
  { mean := ms.map fun m => round6 m.1
    std := ms.map fun m => round6 m.2
    classes := t.classes
    feature := t.feature
    threshold := t.threshold.map round6
    left := t.left
    right := t.right
    value := t.value.map fun node => node.map pyInt }

/-- `xs` (`recommend.py:85-86`) with any frozen model. -/
noncomputable def Frozen.standardized (M : Frozen) (f : Features) : List ℝ := standardize (M.mean.zip M.std) (featureList f)

/-- The loop `recommend.py:88-90` with any frozen model. -/
noncomputable def Frozen.leaf (M : Frozen) (f : Features) : Option ℤ :=
  walkTree M.feature M.threshold M.left M.right (M.standardized f) M.feature.length 0

/-- `weights.get(name, 0)` (`recommend.py:91-92,113`). -/
def Frozen.weight (M : Frozen) (counts : List ℤ) (name : String) : ℤ := ((M.classes.zip counts).lookup name).getD 0

/-- `ranked` of `suggest` (`recommend.py:107-114`) with any frozen model. -/
noncomputable def Frozen.ranked (M : Frozen) (f : Features) : Option (List String) :=
  (M.leaf f).bind fun l => (pyGet M.value l).map fun c => rankBy (M.weight c) f.score

/-- The frozen model that is shipped, `precise/_recommender_model.py`. -/
noncomputable def shipped : Frozen :=
  { mean := RecTree.meanT.map fun q : ℚ => (q : ℝ)
    std := RecTree.stdT.map fun q : ℚ => (q : ℝ)
    classes := RecTree.classesT
    feature := RecTree.featureT
    threshold := RecTree.thresholdT.map fun q : ℚ => (q : ℝ)
    left := RecTree.leftT
    right := RecTree.rightT
    value := RecTree.valueT }

/-! ## The trained study -/

/-- The table `_train_recommender` hands to the learner, standardized (`oos.py:192-196`). -/
noncomputable def trainingTable (data : List (Features × String)) : List (List ℝ × String) :=
  data.map fun d => (standardize (scaling (data.map fun d => featureList d.1)) (featureList d.1), d.2)

/-- `predict(window)` (`oos.py:198-200`), from the training problems. -/
noncomputable def predictor (L : Lapack) (learn : List (List ℝ × String) → Tree) (data : List (Features × String)) {p : ℕ}
    (window : List (Fin p → ℝ)) : String :=
  ((learn (trainingTable data)).predict
    (standardize (scaling (data.map fun d => featureList d.1)) (featureList (covarianceFeatures L window)))).getD ""

/-- The body of the loop of `leave_one_family_out_trained` (`oos.py:220-236`). `rng.integers(0)` raises ValueError, and so does
the learner on an empty table. -/
noncomputable def holdOutTrained (L : Lapack) (D : Draws G) (assess : Judge) (learn : List (List ℝ × String) → Tree) (p nTrain nTest : ℕ)
    (names : List String) (trials nProblems : ℕ) (held : String) (g : G) : Except PyErr Result × G :=
  let rest := names.filter fun e => e ≠ held                                            -- line 220
  if nProblems = 0 ∨ rest = [] then (.error .valueError, g)
  else
    let (data, g1) := trainingData L D assess rest nProblems g                          -- line 221
    let (bf, g2) := bestFixed D.pick (trialOf L (fun e => D.rows e p nTrain nTest) (assess p) none) rest trials g1   -- line 222
    match bf with
    | .error e => (.error e, g2)
    | .ok bf =>
      let (os, g3) := heldTrials (trialOf L (fun e => D.rows e p nTrain nTest) (assess p) (some (predictor L learn data))) held trials g2
      match lookupRanks os (fun o => o.2), lookupRanks os (fun _ => bf) with
      | .ok rec, .ok fix => (.ok { bestFixed := bf, rankRecommender := meanNat rec, rankBestFixed := meanNat fix }, g3)
      | _, _ => (.error .keyError, g3)

/-- The loop of `leave_one_family_out_trained(...)` over the families still to hold out (`oos.py:205-237`). -/
noncomputable def leaveOutTrained (L : Lapack) (D : Draws G) (assess : Judge) (learn : List (List ℝ × String) → Tree) (p nTrain nTest : ℕ)
    (names : List String) (trials nProblems : ℕ) : List String → G → Except PyErr (List (String × Result))
  | [], _ => .ok []
  | held :: rest, g =>
    let (r, g1) := holdOutTrained L D assess learn p nTrain nTest names trials nProblems held g
    match r with
    | .error e => .error e
    | .ok r =>
      match leaveOutTrained L D assess learn p nTrain nTest names trials nProblems rest g1 with
      | .error e => .error e
      | .ok rs => .ok ((held, r) :: rs)

end Precise.Oos
