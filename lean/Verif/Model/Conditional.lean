import Verif.Model.History
import Verif.Model.Linalg

/-!
# Model of `precise/conditional.py`

`V` is the class of the volatility prototype (used on one series, index type `Fin 1`), `C` the class of the
correlation prototype, `Sk` the state type of a skater. A skater is any function of the observation and its state;
only `dists[0].mean` and `dists[0].std` of its answer are read.
-/

namespace Precise

variable {ι : Type}

/-- A skater: `f(y, state) -> (dists, state)`, `dists[0]` as the pair (mean, std) (`conditional.py:53-58`). -/
abbrev Skater (Sk : Type) := ℝ → Option Sk → (ℝ × ℝ) × Sk

/-- The `vol` argument (`conditional.py:118-119`): an estimator instance, a `from_skater` factory, or something else. -/
inductive VolArg (V : Cls (Fin 1) ℝ) (Sk : Type)
  | est (o : Obj V)
  | skater (f : Skater Sk)
  | other

/-- A per-series volatility model: `_PreciseVar` (`conditional.py:35-50`) or `_SkaterVar` (`conditional.py:53-78`). -/
inductive VolModel (V : Cls (Fin 1) ℝ) (Sk : Type)
  | precise (est : Obj V)
  | skater (f : Skater Sk) (state : Option Sk) (mean var : ℝ)

namespace VolModel

variable {V : Cls (Fin 1) ℝ} {Sk : Type}

/-- `push(y)` (`conditional.py:41-42`, `66-70`). -/
noncomputable def push : VolModel V Sk → ℝ → VolModel V Sk
  | .precise e, y => .precise (e.partialFit (.row fun _ => y)).1                         -- line 42
  | .skater f st _ _, y =>
    let a := f y st                                                                      -- line 67
    .skater f (some a.2) a.1.1 (a.1.2 ^ 2)                                               -- lines 69-70

/-- `mean` (`conditional.py:44-46`, `72-74`). The `.error` case is unreachable: `location_` raises only when
`n_samples_` is 0. -/
def mean : VolModel V Sk → ℝ
  | .precise e => if 0 < e.nSamples then (match e.location with | .ok m => m 0 | .error _ => 0) else 0
  | .skater _ _ m _ => m

/-- `variance` (`conditional.py:48-50`, `76-78`); the `.error` case is unreachable likewise. -/
noncomputable def variance : VolModel V Sk → ℝ
  | .precise e => if 0 < e.nSamples then (match e.covariance with | .ok c => c 0 0 | .error _ => 1) else 1
  | .skater _ _ _ v => v

end VolModel

/-- `_make_vol` (`conditional.py:125-131`): clone the instance, or call the factory (`81-88`, initial mean 0 and
variance 1 from `60-64`). -/
def makeVol {V : Cls (Fin 1) ℝ} {Sk : Type} : VolArg V Sk → Except PyErr (VolModel V Sk)
  | .est o => .ok (.precise o.clone)
  | .skater f => .ok (.skater f none 0 1)
  | .other => .error .typeError

/-- The fitted part of the object: `_vol_models`, `_corr_model` and `_state` (`conditional.py:138-140`). -/
structure CondState (V : Cls (Fin 1) ℝ) (Sk : Type) (C : Cls ι ℝ) where
  vols : ι → VolModel V Sk
  corrModel : Obj C
  nSamples : ℕ
  mean : ι → ℝ
  var : ι → ℝ

/-- A `ConditionalCovariance` instance (`conditional.py:118-123`). Simplification: the old sub-models that linger after
`fit` has cleared `_state` are not kept; line 135 replaces them before any use. -/
structure CondObj (V : Cls (Fin 1) ℝ) (Sk : Type) (C : Cls ι ℝ) where
  vol : VolArg V Sk
  corr : Obj C
  state : Option (CondState V Sk C)
  nFeatures : Option ℕ

namespace CondObj

variable {V : Cls (Fin 1) ℝ} {Sk : Type} {C : Cls ι ℝ}

/-- `ConditionalCovariance(vol, corr)` (`conditional.py:118-123`). -/
def new (vol : VolArg V Sk) (corr : Obj C) : CondObj V Sk C := { vol := vol, corr := corr, state := none, nFeatures := none }

/-- The state created for the first row (`conditional.py:136-140`). -/
def initState (o : CondObj V Sk C) (vm : VolModel V Sk) : CondState V Sk C :=
  { vols := fun _ => vm, corrModel := o.corr.clone, nSamples := 0, mean := fun _ => 0, var := fun _ => 1 }

/-- One row with the sub-models in place (`conditional.py:141-152`). -/
noncomputable def stepState [Fintype ι] (s : CondState V Sk C) (x : ι → ℝ) : CondState V Sk C :=
  let m : ι → ℝ := fun i => (s.vols i).mean                                              -- line 144
  let v : ι → ℝ := fun i => max (s.vols i).variance EPS                                  -- line 145
  let eps : ι → ℝ := fun i => (x i - m i) / Real.sqrt (v i)                              -- line 146
  let corrModel := (s.corrModel.partialFit (.row eps)).1                                 -- line 147
  let vols := fun i => (s.vols i).push (x i)                                             -- lines 148-149
  { vols := vols, corrModel := corrModel, nSamples := s.nSamples + 1                     -- line 152
    mean := fun i => (vols i).mean                                                       -- line 150
    var := fun i => max (vols i).variance EPS }                                          -- line 151

/-- One iteration of the loop of `partial_fit` (`conditional.py:134-152`). `_make_vol` raises a TypeError for a bad
`vol`, after `n_features_in_` was set. -/
noncomputable def stepRow [Fintype ι] (o : CondObj V Sk C) (x : ι → ℝ) : CondObj V Sk C × Except PyErr Unit :=
  match o.state with
  | some s => ({ o with state := some (stepState s x) }, .ok ())
  | none =>
    let o := { o with nFeatures := some (Fintype.card ι) }                               -- line 137
    match makeVol o.vol with                                                             -- line 138
    | .error e => (o, .error e)
    | .ok vm => ({ o with state := some (stepState (o.initState vm) x) }, .ok ())

/-- The loop of `partial_fit` (`conditional.py:134-152`), leaving at the first exception. -/
noncomputable def feedRows [Fintype ι] (o : CondObj V Sk C) : List (ι → ℝ) → CondObj V Sk C × Except PyErr Unit
  | [] => (o, .ok ())
  | x :: xs =>
    match o.stepRow x with
    | (o', .ok ()) => feedRows o' xs
    | (o', .error e) => (o', .error e)

/-- `partial_fit(X)` (`conditional.py:133-153`). -/
noncomputable def partialFit [Fintype ι] (o : CondObj V Sk C) (X : Input ι ℝ) : CondObj V Sk C × Except PyErr Unit :=
  match asRows X with
  | .error e => (o, .error e)
  | .ok rows => o.feedRows rows

/-- `fit(X)`, inherited (`base.py:65-72`). -/
noncomputable def fit [Fintype ι] (o : CondObj V Sk C) (X : Input ι ℝ) : CondObj V Sk C × Except PyErr Unit :=
  let o' : CondObj V Sk C := { o with state := none }
  match X with
  | .batch xs => partialFit o' (.batch xs)
  | _ => (o', .error .valueError)

/-- The object after one call (`base.py:50-72`, `conditional.py:133`). -/
noncomputable def call [Fintype ι] (o : CondObj V Sk C) : Call ι ℝ → CondObj V Sk C
  | .partialFit X => (o.partialFit X).1
  | .fit X => (o.fit X).1

/-- The object after a sequence of calls (`partial_fit` and `fit`, `conditional.py:133-153`, `base.py:65-72`). -/
noncomputable def run [Fintype ι] (o : CondObj V Sk C) (cs : List (Call ι ℝ)) : CondObj V Sk C := cs.foldl call o

/-- `_fitted_state()`, inherited (`base.py:74-80`). -/
def fittedState (o : CondObj V Sk C) : Except PyErr (CondState V Sk C) :=
  match o.state with
  | none => .error .notFitted
  | some s => if s.nSamples < 1 then .error .notFitted else .ok s

/-- `n_samples_`, inherited (`base.py:83-85`). -/
def nSamples (o : CondObj V Sk C) : ℕ :=
  match o.state with
  | none => 0
  | some s => s.nSamples

/-- `location_`, inherited (`base.py:87-89`). -/
def location (o : CondObj V Sk C) : Except PyErr (ι → ℝ) := o.fittedState.map CondState.mean

/-- `covariance_` (`base.py:91-94`) with `_state_to_cov` (`conditional.py:155-159`); `correlation_` of the correlation
model may itself raise NotFittedError. -/
noncomputable def covariance (o : CondObj V Sk C) : Except PyErr (Matrix ι ι ℝ) := do
  let s ← o.fittedState
  let R ← s.corrModel.correlation                                                        -- line 157
  let d : ι → ℝ := fun i => Real.sqrt (max (s.var i) EPS)                                -- line 158
  return toSymmetric (Matrix.of fun i j => R i j * (d i * d j))                          -- line 159

/-- `get_state()` and `set_state(...)` (`conditional.py:163-171`). -/
def getState (_ : CondObj V Sk C) : Except PyErr Unit := .error .notImplemented
/-- `set_state(state)` of `ConditionalCovariance` (`conditional.py:168-171`). -/
def setState (_ : CondObj V Sk C) : Except PyErr Unit := .error .notImplemented

/-- A sub-model of volatility after `pickle.loads(pickle.dumps(.))`: `_PreciseVar` is pickled by the default protocol, whose
attribute `est` goes through `__getstate__`/`__setstate__` of `base.py:163-176`; `_SkaterVar` keeps its attributes. -/
def pickleVol : VolModel V Sk → VolModel V Sk
  | .precise e => .precise (Obj.ofPickle e.toPickle)
  | .skater f st m v => .skater f st m v

/-- The `vol` argument after pickling (an estimator instance or a `_SkaterVarFactory`, `conditional.py:81-88`). -/
def pickleVolArg : VolArg V Sk → VolArg V Sk
  | .est o => .est (Obj.ofPickle o.toPickle)
  | .skater f => .skater f
  | .other => .other

/-- `pickle.loads(pickle.dumps(self))`: `__getstate__` returns `__dict__` and `__setstate__` restores it (`conditional.py:173-177`),
every attribute being pickled in turn. -/
def pickled [Fintype ι] (o : CondObj V Sk C) : CondObj V Sk C :=
  { vol := pickleVolArg o.vol
    corr := Obj.ofPickle o.corr.toPickle
    state := o.state.map fun s => { s with vols := fun i => pickleVol (s.vols i), corrModel := Obj.ofPickle s.corrModel.toPickle }
    nFeatures := o.nFeatures }

end CondObj

end Precise
