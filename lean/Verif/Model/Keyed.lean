import Verif.Model.History
import Verif.Model.Linalg
import Mathlib.Data.List.Basic
import Mathlib.Logic.Function.Basic

/-!
# Model of `precise/keyed.py`

A dict is an association list in insertion order with distinct keys; a set of keys is compared by membership. The
wrapped estimator is a `Proto`: its class at every dimension and its parameters.
-/

open Matrix

namespace Precise

/-- What `_factory` captures (`keyed.py:34-40`): calling the factory gives a new unfitted estimator with the configured
parameters, whether a class with kwargs or an instance (cloned, `keyed.py:29-31`) was passed. The dimension is only
fixed by the data, so the class is given at every dimension `d`. -/
structure Proto where
  cls : (d : ℕ) → Cls (Fin d) ℝ
  par : (d : ℕ) → (cls d).Param

/-- `self._make()` (`keyed.py:37,40`). -/
def Proto.make (P : Proto) (d : ℕ) : Obj (P.cls d) := Obj.new (P.cls d) (P.par d)

variable {Key : Type} [DecidableEq Key]

/-- A keyed observation `{name: value}`; Python guarantees distinct keys (the argument of `update`, `keyed.py:134,226`). -/
structure KDict (Key : Type) where
  items : List (Key × ℝ)
  nodup : (items.map Prod.fst).Nodup

/-- `x.keys()` (`keyed.py:136,228`). -/
def KDict.keys (x : KDict Key) : List Key := x.items.map Prod.fst

/-- `x[k]` for a key in `x`, `none` for a missing key (`keyed.py:143-144,179`). -/
def KDict.get? (x : KDict Key) (k : Key) : Option ℝ := x.items.lookup k

/-- A matrix labelled by a list of keys: the pair `(matrix, keys)` returned by `cov_array` (`keyed.py:160-162,280`). -/
abbrev KeyedMat (Key : Type) := (ks : List Key) × Matrix (Fin ks.length) (Fin ks.length) ℝ

/-- The `keys` argument of `cov_array`: absent, a list (or any re-iterable), or a one-shot iterator (`keyed.py:155-162,257-258`). -/
inductive Query (Key : Type)
  | all
  | list (ks : List Key)
  | iter (ks : List Key)

/-! ## `FixedUniverse` -/

/-- The mutable part of a `FixedUniverse` (`keyed.py:129-132`): no universe yet, a universe given but no observation,
or live with the wrapped estimator and the last seen values. -/
inductive FixedState (P : Proto) (Key : Type)
  | noKeys
  | ready (ks : List Key)
  | live (ks : List Key) (est : Obj (P.cls ks.length)) (last : Fin ks.length → ℝ)

/-- A `FixedUniverse` instance (`keyed.py:125-132`). -/
structure FixedU (P : Proto) (Key : Type) where
  impute : String
  state : FixedState P Key

/-- `FixedUniverse(estimator, keys=keys, impute=impute)` (`keyed.py:125-132`). -/
def FixedU.new (P : Proto) (keys : Option (List Key)) (impute : String) : FixedU P Key :=
  { impute := impute, state := match keys with
    | none => .noKeys
    | some ks => .ready ks }

namespace FixedU

variable {P : Proto}

/-- `self.keys` (`keyed.py:129,135-136`). -/
def keys (U : FixedU P Key) : Option (List Key) :=
  match U.state with
  | .noKeys => none
  | .ready ks => some ks
  | .live ks _ _ => some ks

/-- The row `y` of `update` (`keyed.py:141-151`). -/
def fillRow (impute : String) (ks : List Key) (est : Obj (P.cls ks.length)) (last : Fin ks.length → ℝ) (x : KDict Key) :
    Fin ks.length → ℝ := fun i =>
  match x.get? (ks.get i) with
  | some v => v                                                                          -- lines 143-144
  | none =>
    if impute = "ffill" then last i                                                      -- lines 146-147
    else if impute = "mean" then                                                         -- lines 148-149
      if 0 < est.nSamples then (match est.location with | .ok m => m i | .error _ => 0) else last i
    else 0                                                                               -- line 151

/-- `self._last` after `update` (`keyed.py:145`). -/
def newLast (ks : List Key) (last : Fin ks.length → ℝ) (x : KDict Key) : Fin ks.length → ℝ := fun i =>
  (x.get? (ks.get i)).getD (last i)

/-- `update` with the estimator in place (`keyed.py:140-153`). -/
def updateLive (impute : String) (ks : List Key) (est : Obj (P.cls ks.length)) (last : Fin ks.length → ℝ) (x : KDict Key) :
    FixedState P Key :=
  .live ks (est.partialFit (.row (fillRow impute ks est last x))).1 (newLast ks last x)

/-- `update(x)` (`keyed.py:134-153`). -/
def update (U : FixedU P Key) (x : KDict Key) : FixedU P Key :=
  { U with state := match U.state with
    | .noKeys => updateLive U.impute x.keys (P.make x.keys.length) (fun _ => 0) x        -- lines 135-139
    | .ready ks => updateLive U.impute ks (P.make ks.length) (fun _ => 0) x              -- lines 137-139
    | .live ks est last => updateLive U.impute ks est last x }

/-- `learn_many(X)` (`keyed.py:56-59`). -/
def learnMany (U : FixedU P Key) (X : List (KDict Key)) : FixedU P Key := X.foldl update U

/-- `[self.keys.index(k) for k in keys]` (`keyed.py:161`); `list.index` finds the first occurrence and raises
ValueError when there is none. -/
def indices (ks : List Key) : List Key → Except PyErr (List (Fin ks.length))
  | [] => .ok []
  | k :: q =>
    if h : ks.idxOf k < ks.length then do
      let r ← indices ks q
      return ⟨ks.idxOf k, h⟩ :: r
    else .error .valueError

/-- `cov[np.ix_(idx, idx)]` labelled with `q` (`keyed.py:162`). The two lists have equal lengths. -/
noncomputable def subMatrix {n : ℕ} (cov : Matrix (Fin n) (Fin n) ℝ) (idx : List (Fin n)) (q : List Key) : KeyedMat Key :=
  ⟨q, Matrix.of fun a b => match idx[a.1]?, idx[b.1]? with
    | some i, some j => cov i j
    | _, _ => 0⟩

/-- `cov_array(keys)` (`keyed.py:155-162`). A one-shot iterator is exhausted by `list(keys)` at line 159, so lines
161-162 then see no keys. -/
noncomputable def covArray (U : FixedU P Key) (q : Query Key) : Except PyErr (KeyedMat Key) :=
  match U.state with
  | .live ks est _ => do
    let cov ← est.covariance                                                             -- line 158
    match q with
    | .all => return ⟨ks, cov⟩                                                           -- lines 159-160
    | .list q =>
      if q = ks then return ⟨ks, cov⟩
      else
        let idx ← indices ks q                                                           -- line 161
        return subMatrix cov idx q                                                       -- line 162
    | .iter q => if q = ks then return ⟨ks, cov⟩ else return subMatrix cov [] []
  | _ => .error .valueError                                                              -- lines 156-157

end FixedU

/-! ## Keyed output (`keyed.py:65-97`), shared by both adapters -/

/-- `np.fill_diagonal(cov_to_corrcoef(cov), 1.0)` (`keyed.py:70-71,90-91`). -/
noncomputable def corrUnitDiag {ι : Type} [DecidableEq ι] (cov : Matrix ι ι ℝ) : Matrix ι ι ℝ :=
  Matrix.of fun i j => if i = j then 1 else covToCorr cov i j

/-- Python dict assignment `d[k] = v`: replace in place, or append (used for `keyed.py:76-79`). -/
def dictSet {α : Type} (d : List (Key × α)) (k : Key) (v : α) : List (Key × α) :=
  if k ∈ d.map Prod.fst then d.map fun kv => if kv.1 = k then (k, v) else kv else d ++ [(k, v)]

/-- A dict comprehension `{k: f(i) for i, k in enumerate(keys)}` (`keyed.py:76-79`). -/
def dictComp {α : Type} (ks : List Key) (f : Fin ks.length → α) : List (Key × α) :=
  (List.finRange ks.length).foldl (fun d i => dictSet d (ks.get i) (f i)) []

/-- `_as_dict_of_dicts(matrix, keys)` (`keyed.py:74-79`). -/
def asDictOfDicts (m : KeyedMat Key) : List (Key × List (Key × ℝ)) :=
  dictComp m.1 fun i => dictComp m.1 fun j => m.2 i j

/-- The outputs every adapter derives from its `cov_array` (`keyed.py:65-97`); `arr keys` is `self.cov_array(keys)`. -/
structure KeyedOut (Key : Type) where
  arr : Query Key → Except PyErr (KeyedMat Key)

/-- `get_cov(keys)` (`keyed.py:65-66`). -/
def KeyedOut.getCov (A : KeyedOut Key) (q : Query Key) : Except PyErr (KeyedMat Key) := A.arr q

/-- `get_corr(keys)` (`keyed.py:68-72`); the labels are those of `cov_array`. -/
noncomputable def KeyedOut.getCorr (A : KeyedOut Key) (q : Query Key) : Except PyErr (KeyedMat Key) :=
  (A.arr q).map fun m => ⟨m.1, corrUnitDiag m.2⟩

/-- `covariance_` and its alias `covariance` (`keyed.py:82-85,95-97`). -/
def KeyedOut.covariance (A : KeyedOut Key) : Except PyErr (List (Key × List (Key × ℝ))) := (A.arr .all).map asDictOfDicts

/-- `correlation_` (`keyed.py:87-92`). -/
noncomputable def KeyedOut.correlation (A : KeyedOut Key) : Except PyErr (List (Key × List (Key × ℝ))) :=
  (A.arr .all).map fun m => asDictOfDicts ⟨m.1, corrUnitDiag m.2⟩

/-- The outputs of a `FixedUniverse` (`keyed.py:65-97` on `keyed.py:155-162`). -/
noncomputable def FixedU.out {P : Proto} (U : FixedU P Key) : KeyedOut Key := ⟨U.covArray⟩

/-! ## `DynamicUniverse` -/

/-- `_Universe` (`keyed.py:168-186`). -/
structure Universe (P : Proto) (Key : Type) where
  keys : List Key
  staleness : ℕ
  longevity : ℕ
  est : Obj (P.cls keys.length)

namespace Universe

variable {P : Proto}

/-- `_Universe(keys, factory)` (`keyed.py:171-176`). -/
def fresh (P : Proto) (ks : List Key) : Universe P Key := { keys := ks, staleness := 0, longevity := 0, est := P.make ks.length }

/-- `[x[k] for k in self.keys]` (`keyed.py:179`); only reached when all keys are present (line 231). -/
def row (u : Universe P Key) (x : KDict Key) : Fin u.keys.length → ℝ := fun i => (x.get? (u.keys.get i)).getD 0

/-- `update(x)` (`keyed.py:178-182`). -/
def update (u : Universe P Key) (x : KDict Key) : Universe P Key :=
  { u with est := (u.est.partialFit (.row (u.row x))).1, staleness := 0, longevity := u.longevity + 1 }

/-- `keys_set.issubset(x_keys)` (`keyed.py:231`). -/
def within (u : Universe P Key) (ks : List Key) : Bool := u.keys.all fun k => decide (k ∈ ks)

/-- `x_keys == u.keys_set` (`keyed.py:239`). -/
def sameKeys (u : Universe P Key) (ks : List Key) : Bool := u.within ks && ks.all fun k => decide (k ∈ u.keys)

/-- `running_cov` (`keyed.py:184-186`). -/
noncomputable def runningCov (u : Universe P Key) : Option (Matrix (Fin u.keys.length) (Fin u.keys.length) ℝ) :=
  if 0 < u.est.nSamples then u.est.covariance.toOption else none

end Universe

/-- A `DynamicUniverse` instance (`keyed.py:205-220`); `states` in insertion order. -/
structure DynU (P : Proto) (Key : Type) where
  maxUniverses : ℤ
  maxStaleness : ℤ
  states : List (ℕ × Universe P Key)
  x : Option (KDict Key)
  counter : ℕ

/-- First element that is minimal for a strict order: `sorted(l, key=...)[0]`; `sorted` is stable (used at `keyed.py:244-246,270`). -/
def firstMin {α : Type} (lt : α → α → Bool) : List α → Option α
  | [] => none
  | a :: l => some (l.foldl (fun b c => if lt c b then c else b) a)

namespace DynU

variable {P : Proto}

/-- `DynamicUniverse(estimator, max_universes=..., max_staleness=...)` (`keyed.py:205-220`). -/
def new (P : Proto) (maxUniverses maxStaleness : ℤ) : DynU P Key :=
  { maxUniverses := maxUniverses, maxStaleness := maxStaleness, states := [], x := none, counter := 0 }

/-- The victim order `(-staleness, longevity)` (`keyed.py:245`). -/
def evictLt (a b : ℕ × Universe P Key) : Bool :=
  decide (b.2.staleness < a.2.staleness ∨ (a.2.staleness = b.2.staleness ∧ a.2.longevity < b.2.longevity))

/-- The loop `keyed.py:230-234` for one universe. -/
def touch (x : KDict Key) (nu : ℕ × Universe P Key) : ℕ × Universe P Key :=
  if nu.2.within x.keys then (nu.1, nu.2.update x) else (nu.1, { nu.2 with staleness := nu.2.staleness + 1 })

/-- The universes that survive lines 230-237 (`keyed.py:230-237`). -/
def survivors (D : DynU P Key) (x : KDict Key) : List (ℕ × Universe P Key) :=
  (D.states.map (touch x)).filter fun nu => decide ((nu.2.staleness : ℤ) ≤ D.maxStaleness)

/-- `del self.states[victim]` (`keyed.py:247`); ids are unique. -/
def evict (l : List (ℕ × Universe P Key)) : List (ℕ × Universe P Key) :=
  match firstMin evictLt l with
  | none => l
  | some v => l.filter fun nu => decide (nu.1 ≠ v.1)

/-- `update(x)` (`keyed.py:226-248`). -/
def update (D : DynU P Key) (x : KDict Key) : DynU P Key :=
  let s := D.survivors x
  if s.any fun nu => nu.2.sameKeys x.keys then { D with x := some x, states := s }       -- line 239
  else
    let s' := s ++ [(D.counter, (Universe.fresh P x.keys).update x)]                     -- lines 240-242
    { D with
      x := some x
      counter := D.counter + 1
      states := if D.maxUniverses < (s'.length : ℤ) then evict s' else s' }              -- lines 243-247

/-- `learn_many(X)` (`keyed.py:56-59`). -/
def learnMany (D : DynU P Key) (X : List (KDict Key)) : DynU P Key := X.foldl update D

/-- `candidates` (`keyed.py:264-268`). -/
noncomputable def candidates (D : DynU P Key) (ki kj : Key) : List (ℕ × Universe P Key) :=
  D.states.filter fun nu => decide (ki ∈ nu.2.keys) && decide (kj ∈ nu.2.keys) && nu.2.runningCov.isSome

/-- The order `(longevity, -staleness)` of line 270; `max` returns the first maximal element (`keyed.py:270`). -/
def preferLt (a b : ℕ × Universe P Key) : Bool :=
  decide (b.2.longevity < a.2.longevity ∨ (a.2.longevity = b.2.longevity ∧ a.2.staleness < b.2.staleness))

/-- The value written for one pair (`keyed.py:269-274`), `none` without candidates. -/
noncomputable def pairValue (D : DynU P Key) (ki kj : Key) : Option ℝ :=
  (firstMin preferLt (D.candidates ki kj)).bind fun nu => nu.2.runningCov.bind fun cov =>
    if h : nu.2.keys.idxOf ki < nu.2.keys.length ∧ nu.2.keys.idxOf kj < nu.2.keys.length then
      some (cov ⟨_, h.1⟩ ⟨_, h.2⟩)
    else none

/-- `idx[k]` (`keyed.py:260`): a dict comprehension keeps the last position of a repeated key. -/
def lastIdx (ks : List Key) (k : Key) : ℕ := ks.length - 1 - ks.reverse.idxOf k

/-- `M` after one pair of the double loop (`keyed.py:262-274`); NaN is `none`. -/
noncomputable def writePair (D : DynU P Key) (ks : List Key) (M : ℕ → ℕ → Option ℝ) (ij : Key × Key) : ℕ → ℕ → Option ℝ :=
  match D.pairValue ij.1 ij.2 with
  | none => M
  | some v => fun a b =>
    if (a = lastIdx ks ij.1 ∧ b = lastIdx ks ij.2) ∨ (a = lastIdx ks ij.2 ∧ b = lastIdx ks ij.1) then some v else M a b

/-- The pairs visited: `for i, ki in enumerate(keys): for kj in keys[i:]` (`keyed.py:262-263`). -/
def pairs : List Key → List (Key × Key)
  | [] => []
  | k :: ks => (k :: ks).map (fun kj => (k, kj)) ++ pairs ks

/-- `M` with NaN for unknown pairs (`keyed.py:261-274`). -/
noncomputable def rawMatrix (D : DynU P Key) (ks : List Key) : ℕ → ℕ → Option ℝ :=
  (pairs ks).foldl (D.writePair ks) fun _ _ => none

/-- The known off-diagonal entries (`keyed.py:275`). -/
def offDiag (n : ℕ) (M : ℕ → ℕ → Option ℝ) : List ℝ :=
  ((List.range n).flatMap fun a => (List.range n).filterMap fun b => if a = b then none else M a b)

/-- `fill` (`keyed.py:275-278`): the mean of the known off-diagonal entries, 0 if there are none. -/
noncomputable def fillValue (n : ℕ) (M : ℕ → ℕ → Option ℝ) : ℝ :=
  if offDiag n M = [] then 0 else (offDiag n M).sum / ((offDiag n M).length : ℝ)

/-- `M` after line 279 (`keyed.py:261-279`). -/
noncomputable def assembled (D : DynU P Key) (ks : List Key) : Matrix (Fin ks.length) (Fin ks.length) ℝ :=
  Matrix.of fun a b => (D.rawMatrix ks a.1 b.1).getD (fillValue ks.length (D.rawMatrix ks))

/-- `_resolve_keys(keys)` (`keyed.py:250-255`); here `list(keys)` runs once, so an iterator is as good as a list. -/
def resolveKeys (D : DynU P Key) (q : Query Key) : Except PyErr (List Key) :=
  match q with
  | .list ks => .ok ks
  | .iter ks => .ok ks
  | .all => match D.x with
    | none => .error .valueError
    | some x => .ok x.keys

/-- `cov_array(keys)` (`keyed.py:257-280`). -/
noncomputable def covArray (L : Lapack) (D : DynU P Key) (q : Query Key) : Except PyErr (KeyedMat Key) := do
  let ks ← D.resolveKeys q
  return ⟨ks, nearestPosDef L (toSymmetric (D.assembled ks))⟩

/-- The outputs of a `DynamicUniverse` (`keyed.py:65-97`). -/
noncomputable def out (L : Lapack) (D : DynU P Key) : KeyedOut Key := ⟨D.covArray L⟩

end DynU

end Precise
