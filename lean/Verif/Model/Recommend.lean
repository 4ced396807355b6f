import Verif.Model.RecommendTree
import Verif.Model.Registry

/-!
# Model of `precise/recommend.py`
-/

open Matrix

namespace Precise

/-- Python's `l[i]`: negative indices count from the end, `none` is IndexError (used at `recommend.py:89-91`). -/
def pyGet {α : Type} (l : List α) (i : ℤ) : Option α :=
  if 0 ≤ i then l[i.toNat]? else if -(l.length : ℤ) ≤ i then l[(l.length + i).toNat]? else none

/-- Python's `l[:k]` (`recommend.py:117`). -/
def pyTake {α : Type} (l : List α) (k : ℤ) : List α :=
  if 0 ≤ k then l.take k.toNat else l.take (l.length - (-k).toNat)

/-- Insertion behind all smaller elements, before everything else (auxiliary to `stableSort`; `recommend.py:111,116`). -/
def insertStable {α : Type} (lt : α → α → Bool) (a : α) : List α → List α
  | [] => [a]
  | b :: l => if lt b a then b :: insertStable lt a l else a :: b :: l

/-- Python's `sorted`, a stable sort (which of the stable sorting algorithms it is cannot be observed) (`recommend.py:111-116`). -/
def stableSort {α : Type} (lt : α → α → Bool) (l : List α) : List α := l.foldr (insertStable lt) []

/-! ## Features -/

/-- The dict returned by `covariance_features` (`recommend.py:47-56`). -/
structure Features where
  n : ℕ
  p : ℕ
  pOverN : ℝ
  effectiveRank : ℝ
  sphericity : ℝ
  conditionNumber : ℝ
  meanAbsOffdiagCorr : ℝ
  avgExcessKurtosis : ℝ

section
variable {p : ℕ}

/-- `rows.mean(axis=0)` (`recommend.py:44`). -/
noncomputable def npMean (rows : List (Fin p → ℝ)) : Fin p → ℝ := fun i => (rows.map fun x => x i).sum / (rows.length : ℝ)

/-- `np.cov(rows, rowvar=False, bias=True)` (`recommend.py:37`, `assessment/assessors.py:118`). -/
noncomputable def npCov (rows : List (Fin p → ℝ)) : Matrix (Fin p) (Fin p) ℝ :=
  Matrix.of fun i j => (rows.map fun x => (x i - npMean rows i) * (x j - npMean rows j)).sum / (rows.length : ℝ)

/-- The clipped eigenvalues (`recommend.py:38`); `eigvalsh` gives the eigenvalues `eigh` gives. -/
noncomputable def clippedEvals (L : Lapack) (rows : List (Fin p → ℝ)) : Fin p → ℝ := fun i => max ((L.eigh (npCov rows)).1 i) EPS

/-- `var` (`recommend.py:41`). -/
noncomputable def clippedVar (rows : List (Fin p → ℝ)) : Fin p → ℝ := fun i => max (npCov rows i i) EPS

/-- `covariance_features(X)` (`recommend.py:30-56`) on `n` rows of length `p`. Modelled for `n, p ≥ 1`; with no rows
numpy only produces NaN or raises. -/
noncomputable def covarianceFeatures (L : Lapack) (rows : List (Fin p → ℝ)) : Features :=
  let evals := clippedEvals L rows
  let total := ∑ i, evals i                                                              -- line 39
  let effRank := if 0 < total then total ^ 2 / ∑ i, evals i ^ 2 else 1                   -- line 40
  let var := clippedVar rows
  let corr := fun i j => npCov rows i j / Real.sqrt (var i * var j)                      -- line 42
  let meanAbs := if 1 < p then                                                           -- lines 43, 54
    (∑ i, ∑ j, if i = j then 0 else |corr i j|) / ((p : ℝ) * ((p : ℝ) - 1)) else 0
  let m4 := fun i => (rows.map fun x => (x i - npMean rows i) ^ 4).sum / (rows.length : ℝ)   -- line 45
  { n := rows.length
    p := p
    pOverN := (p : ℝ) / (rows.length : ℝ)
    effectiveRank := effRank
    sphericity := effRank / (p : ℝ)
    conditionNumber := (⨆ i, evals i) / ⨅ i, evals i
    meanAbsOffdiagCorr := meanAbs
    avgExcessKurtosis := (∑ i, (m4 i / (max (var i) EPS) ^ 2 - 3)) / (p : ℝ) }            -- line 46

end

/-! ## The heuristic -/

/-- `high_dim or ill_conditioned` (`recommend.py:62-63,66`). -/
def Features.hard (f : Features) : Prop := (1 / 4 < f.pOverN ∨ f.sphericity < 6 / 10) ∨ 50 < f.conditionNumber

/-- `heavy_tailed` (`recommend.py:64`). -/
def Features.heavy (f : Features) : Prop := 1 < f.avgExcessKurtosis

/-- `_scores(features)[name]` (`recommend.py:59-79`) as a function of the two tests; every name it adds to is
registered, so no KeyError. -/
def heuristicScore (hard heavy : Bool) (name : String) : ℚ :=
  (if hard then
      (if name ∈ ["FactorCovariance", "LedoitWolfCovariance", "OASCovariance", "ShrunkCovariance", "SchurCovariance"] then 2 else 0)
    else (if name ∈ ["EmpiricalCovariance", "EwaCovariance"] then 2 else 0))
  + (if heavy then (if name ∈ ["HuberCovariance", "TylerCovariance"] then 3 / 2 else 0) else 0)
  + (if name = "LedoitWolfCovariance" then 1 / 2 else 0)

open Classical in
/-- `_scores(features)[name]` (`recommend.py:59-79`). -/
noncomputable def Features.score (f : Features) (name : String) : ℚ := heuristicScore (decide f.hard) (decide f.heavy) name

/-! ## The tree -/

open RecTree

/-- `xs` (`recommend.py:85-86`), the standardized features in the order of `FEATURES` (`_recommender_model.py:6`). -/
noncomputable def Features.standardized (f : Features) : List ℝ :=
  List.zipWith (fun x ms => (x - (ms.1 : ℝ)) / (ms.2 : ℝ))
    [f.pOverN, f.effectiveRank, f.sphericity, f.conditionNumber, f.meanAbsOffdiagCorr, f.avgExcessKurtosis, (f.p : ℝ)]
    (meanT.zip stdT)

open Classical in
/-- The loop `recommend.py:88-90` from `node`, at most `fuel` steps. `none`: IndexError, or out of fuel. -/
noncomputable def walk (xs : List ℝ) : ℕ → ℤ → Option ℤ
  | fuel, node =>
    (pyGet featureT node).bind fun f =>
      if f = -2 then some node
      else match fuel with
        | 0 => none
        | fuel + 1 => (pyGet xs f).bind fun x => (pyGet thresholdT node).bind fun t =>
          (if x ≤ (t : ℝ) then pyGet leftT node else pyGet rightT node).bind (walk xs fuel)

/-- The leaf reached by the loop `recommend.py:88-90`; 47 steps (one per node) are never exhausted by C52. -/
noncomputable def Features.leaf (f : Features) : Option ℤ := walk f.standardized 47 0

/-- `{cls: counts[i] for i, cls in enumerate(CLASSES)}` then `weights.get(name, 0)` (`recommend.py:91-92,113`). -/
def weightIn (counts : List ℤ) (name : String) : ℤ := ((classesT.zip counts).lookup name).getD 0

/-- `VALUE[node]` for the leaf of `f`, `none` if the walk or the lookup raised (`recommend.py:82-92`). -/
noncomputable def Features.counts (f : Features) : Option (List ℤ) := f.leaf.bind fun l => pyGet valueT l

/-! ## The recommendation -/

/-- Sorting by `(-weight, -score)` (`recommend.py:111-114`). -/
def rankBy (weight : String → ℤ) (score : String → ℚ) : List String :=
  stableSort (fun a b => decide (weight b < weight a ∨ (weight a = weight b ∧ score b < score a))) estimatorNames

/-- `ranked` with the model present (`recommend.py:107-114`); `none` if the tree walk raised. -/
noncomputable def Features.ranked (f : Features) : Option (List String) :=
  f.counts.map fun c => rankBy (weightIn c) f.score

/-- `ranked` without the model (`recommend.py:116`). -/
noncomputable def Features.rankedHeuristic (f : Features) : List String :=
  stableSort (fun a b => decide (f.score b < f.score a)) estimatorNames

/-- `suggest(X, top)` (`recommend.py:95-117`), as class names. -/
noncomputable def suggest {p : ℕ} (L : Lapack) (rows : List (Fin p → ℝ)) (top : ℤ) : Option (List String) :=
  (covarianceFeatures L rows).ranked.map fun r => pyTake r top

end Precise
