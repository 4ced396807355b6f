import Verif.Model.Conventions
import Mathlib.Data.Fintype.Card

/-!
# Model of `precise/base.py`: the object protocol of `BaseOnlineCovariance`

A Python estimator class is a record `Cls` of its constructor parameters and hooks; an instance is a record
`Obj`. The hooks receive the parameters because the methods read `self.r`, `self.c`, ... when they run.
-/

namespace Precise

variable {ι K : Type}

/-- A value in the state dict, or in the dict returned by `get_state`. `vec`, `mat`, `rows`, `mats` are
numpy arrays (1d, 2d square, `k × d`, `k × d × d`), `nanMat` is a square array whose entries are all NaN; the `l`-prefixed constructors are the nested
Python lists that `ndarray.tolist()` gives for them (`base.py:140-161`). -/
inductive PyVal (ι K : Type)
  | int (n : ℤ)
  | float (x : K)
  | vec (v : ι → K)
  | mat (m : Matrix ι ι K)
  | rows (v : List (ι → K))
  | mats (v : List (Matrix ι ι K))
  | nanMat
  | lvec (v : ι → K)
  | lmat (m : Matrix ι ι K)
  | lrows (v : List (ι → K))
  | lmats (v : List (Matrix ι ι K))
  | lnanMat

/-- `v.tolist() if isinstance(v, np.ndarray) else v` (`base.py:145`). -/
def PyVal.tolist : PyVal ι K → PyVal ι K
  | .vec v => .lvec v
  | .mat m => .lmat m
  | .rows v => .lrows v
  | .mats v => .lmats v
  | .nanMat => .lnanMat
  | v => v

/-- `np.array(v, dtype=float) if isinstance(v, list) else v` (`base.py:157`).
Simplification: an array with a zero-length axis loses its shape through `tolist`; the index type keeps it. -/
def PyVal.fromlist : PyVal ι K → PyVal ι K
  | .lvec v => .vec v
  | .lmat m => .mat m
  | .lrows v => .rows v
  | .lmats v => .mats v
  | .lnanMat => .nanMat
  | v => v

/-- A Python dict with string keys, in insertion order (`base.py:37-47,140-161`). -/
abbrev Dict (ι K : Type) := List (String × PyVal ι K)

/-- `{k: tolist(v) for k, v in d.items()}` — body of `get_state` (`base.py:144-147`). -/
def Dict.tolist (d : Dict ι K) : Dict ι K := d.map fun kv => (kv.1, kv.2.tolist)

/-- The loop of `set_state` (`base.py:155-157`). -/
def Dict.fromlist (d : Dict ι K) : Dict ι K := d.map fun kv => (kv.1, kv.2.fromlist)

/-- An estimator class: what a subclass of `BaseOnlineCovariance` supplies (`base.py:36-47`) plus its
serialization (`get_state`/`set_state`, `base.py:140-161`, overridden by `BlockCovariance`). -/
structure Cls (ι K : Type) where
  /-- constructor parameters (`self.r`, `self.diff`, ...) -/
  Param : Type
  /-- the state dict `self._state` -/
  State : Type
  /-- what `get_state` returns for a fitted estimator -/
  Dump : Type
  /-- `getattr(self, "diff", False)` (`base.py:52`) -/
  diff : Param → Bool
  /-- the parameters with the `diff` argument replaced (constructor call, or `set_params(diff=...)`) -/
  withDiff : Bool → Param → Param
  /-- `_init_state(n_dim)` -/
  initState : Param → State
  /-- `_update_state(state, x)` -/
  updateState : Param → State → (ι → K) → State
  /-- `state["n_samples"]` -/
  nSamples : State → ℕ
  /-- `_state_to_cov(state)` -/
  toCov : Param → State → Matrix ι ι K
  /-- `_state_to_mean(state)` -/
  toMean : Param → State → ι → K
  /-- `get_state` on a fitted estimator -/
  dump : State → Dump
  /-- the state that `set_state` installs -/
  load : Dump → State

/-- An instance of an estimator class: the attributes set in `base.py:31-34` plus the parameters. -/
structure Obj (C : Cls ι K) where
  params : C.Param
  state : Option C.State
  nFeatures : Option ℕ
  prevX : Option (ι → K)

namespace Obj

variable {C : Cls ι K}

/-- `Cls(**params)`: a new, unfitted instance (`base.py:31-34`). -/
def new (C : Cls ι K) (p : C.Param) : Obj C :=
  { params := p, state := none, nFeatures := none, prevX := none }

/-- `base.py:59-62`: lazily initialise, then update with one (possibly differenced) observation. -/
def feed [Fintype ι] (o : Obj C) (x : ι → K) : Obj C :=
  match o.state with
  | none =>
    { o with
      nFeatures := some (Fintype.card ι)
      state := some (C.updateState o.params (C.initState o.params) x) }
  | some s => { o with state := some (C.updateState o.params s x) }

/-- One iteration of the loop of `partial_fit` (`base.py:53-62`). -/
def stepRow [Fintype ι] [Sub K] (o : Obj C) (x : ι → K) : Obj C :=
  if C.diff o.params then
    match o.prevX with
    | none => { o with prevX := some x }                        -- base.py:55-57
    | some q => feed { o with prevX := some x } (x - q)         -- base.py:58
  else feed o x

/-- The rows loop of `partial_fit` (`base.py:53-62`). -/
def feedRows [Fintype ι] [Sub K] (o : Obj C) (xs : List (ι → K)) : Obj C :=
  xs.foldl stepRow o

/-- `partial_fit(X)` (`base.py:50-63`): the object afterwards and the outcome of the call. -/
def partialFit [Fintype ι] [Sub K] (o : Obj C) (X : Input ι K) : Obj C × Except PyErr Unit :=
  match asRows X with
  | .error e => (o, .error e)
  | .ok rows => (o.feedRows rows, .ok ())

/-- `fit(X)` (`base.py:65-72`). The reset precedes the rank check, as in the code. -/
def fit [Fintype ι] [Sub K] (o : Obj C) (X : Input ι K) : Obj C × Except PyErr Unit :=
  let o' : Obj C := { o with state := none, prevX := none }     -- base.py:67-68
  match X with
  | .batch xs => partialFit o' (.batch xs)                      -- base.py:72
  | _ => (o', .error .valueError)                               -- base.py:70-71

/-- `_fitted_state()` (`base.py:74-80`). -/
def fittedState (o : Obj C) : Except PyErr C.State :=
  match o.state with
  | none => .error .notFitted
  | some s => if C.nSamples s < 1 then .error .notFitted else .ok s

/-- `n_samples_` (`base.py:83-85`). -/
def nSamples (o : Obj C) : ℕ :=
  match o.state with
  | none => 0
  | some s => C.nSamples s

/-- `location_` (`base.py:87-89`). -/
def location (o : Obj C) : Except PyErr (ι → K) :=
  o.fittedState.map (C.toMean o.params)

end Obj

/-- `to_symmetric(a)` = `(a + a.T) / 2.0` (`_linalg.py:18-19`). -/
def toSymmetric [Add K] [Div K] [OfNat K 2] (a : Matrix ι ι K) : Matrix ι ι K :=
  Matrix.of fun i j => (a i j + a j i) / 2

namespace Obj

variable {C : Cls ι K}

/-- `covariance_` (`base.py:91-94`). -/
def covariance [Add K] [Div K] [OfNat K 2] (o : Obj C) : Except PyErr (Matrix ι ι K) :=
  o.fittedState.map fun s => toSymmetric (C.toCov o.params s)

/-- `set_params(**params)` (`base.py:134-137`), as a change of the parameter record.
Simplification: setting a name that is not a parameter only adds an attribute nothing reads. -/
def setParams (o : Obj C) (p : C.Param) : Obj C := { o with params := p }

/-- `_clone` (`keyed.py:29-31`, `conditional.py:31-32`): `type(est)(**est.get_params())`. -/
def clone (o : Obj C) : Obj C := new C o.params

/-- `get_state()` (`base.py:140-147`): `None` when unfitted. -/
def getState (o : Obj C) : Option C.Dump := o.state.map C.dump

/-- `set_state(state)` (`base.py:149-161`). `_prev_x` is not touched, as in the code;
`restored["n_dim"]` is the dimension. -/
def setState [Fintype ι] (o : Obj C) (d : Option C.Dump) : Obj C :=
  match d with
  | none => { o with state := none, nFeatures := none }
  | some d => { o with state := some (C.load d), nFeatures := some (Fintype.card ι) }

/-- What `pickle` stores (`__getstate__`, `base.py:163-169`). -/
structure Pickle (C : Cls ι K) where
  params : C.Param
  state : Option C.Dump
  nFeatures : Option ℕ
  prevX : Option (ι → K)

/-- `__getstate__` (`base.py:163-169`). -/
def toPickle (o : Obj C) : Pickle C :=
  { params := o.params, state := o.getState, nFeatures := o.nFeatures, prevX := o.prevX }

/-- `__setstate__` (`base.py:171-176`): re-run the constructor, then restore. -/
def ofPickle [Fintype ι] (d : Pickle C) : Obj C :=
  let o := (new C d.params).setState d.state                    -- base.py:172-173
  { o with nFeatures := d.nFeatures, prevX := d.prevX }         -- base.py:174-176

end Obj

end Precise
