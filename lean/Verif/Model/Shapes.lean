import Verif.Model.State

/-!
# Arrays with run-time lengths: `_state.py` and the `partial_fit` loop without a fixed dimension

In the other model files an observation is a function on a fixed index type. Here a numpy vector is a list, a
matrix is a list of rows, lengths are whatever the caller passes, and the elementwise operators follow numpy's
broadcasting rule. `Props/Shapes.lean` proves that on rows of the right length this model is the typed one.
-/

namespace Precise.Shapes

variable {K : Type}

/-- A binary numpy operation along one axis (contract of numpy, general broadcasting rules): equal lengths go
entry by entry, a side of length 1 is repeated, anything else is a ValueError.
Lengths are compared first because numpy checks shapes before computing (the operators of `_state.py:39-42,74-76`). -/
def bcast {α β γ : Type} (f : α → β → Except PyErr γ) (a : List α) (b : List β) : Except PyErr (List γ) :=
  if a.length = b.length then (a.zip b).mapM fun p => f p.1 p.2
  else match a, b with
    | [u], b => b.mapM fun v => f u v
    | a, [v] => a.mapM fun u => f u v
    | _, _ => .error .valueError

/-- A numpy ufunc on two 1d arrays (`_state.py:39-41,74-75`). -/
def vec2 (f : K → K → K) (a b : List K) : Except PyErr (List K) := bcast (fun u v => .ok (f u v)) a b

/-- A numpy ufunc on two 2d arrays (`_state.py:42,76`). -/
def mat2 (f : K → K → K) (a b : List (List K)) : Except PyErr (List (List K)) := bcast (vec2 f) a b

/-- `np.outer(u, v)` of two 1d arrays (`_state.py:42,76`). -/
def outerL [Mul K] (u v : List K) : List (List K) := u.map fun a => v.map fun b => a * b

/-- The state dict of `emp_init`/`emp_update` (`_state.py:22-43`), with the key `n_dim`. -/
structure EmpL (K : Type) where
  nDim : ℕ
  nSamples : ℕ
  mean : List K
  cov : List (List K)

/-- `emp_init(n_dim)` (`_state.py:22-29`). -/
def empInitL [Zero K] (n : ℕ) : EmpL K :=
  { nDim := n, nSamples := 0, mean := List.replicate n 0, cov := List.replicate n (List.replicate n 0) }

/-- `emp_update(s, x)` (`_state.py:32-43`), line by line. -/
def empUpdateL [Field K] (s : EmpL K) (x : List K) : Except PyErr (EmpL K) := do
  let count := s.nSamples + 1                                                              -- line 38
  let deltaPrev ← vec2 (· - ·) x s.mean                                                    -- line 39
  let mean ← vec2 (· + ·) s.mean (deltaPrev.map (· / (count : K)))                         -- line 40
  let xm ← vec2 (· - ·) x mean
  let weightedDelta := xm.map (· / (count : K))                                            -- line 41
  let cov ← mat2 (· + ·) (s.cov.map fun row => row.map fun c => c * ((count - 1 : ℕ) : K) / (count : K))
    (outerL deltaPrev weightedDelta)                                                       -- line 42
  return { nDim := s.nDim, nSamples := count, mean := mean, cov := cov }                   -- line 43

/-- The state dict of `ewa_init`/`ewa_update` (`_state.py:55-84`). -/
structure EwaL (K : Type) extends EmpL K where
  r : K
  nBurn : ℕ

/-- `ewa_init(n_dim, r)` (`_state.py:55-59`); raises ZeroDivisionError at `r = 0`. -/
def ewaInitL [Field K] [LinearOrder K] [FloorRing K] (r : K) (n : ℕ) : Except PyErr (EwaL K) := do
  let nb ← ewaBurnN? r
  return { toEmpL := empInitL n, r := r, nBurn := nb }

/-- The branch of `ewa_update` after the burn-in (`_state.py:73-84`). -/
def ewaBlendL [Field K] (s : EwaL K) (x : List K) : Except PyErr (EwaL K) := do
  let r := s.r
  let delta ← vec2 (· - ·) x s.mean                                                        -- line 74
  let mean ← vec2 (· + ·) (s.mean.map fun m => (1 - r) * m) (x.map fun a => r * a)         -- line 75
  let cov ← mat2 (· + ·) (s.cov.map fun row => row.map fun c => (1 - r) * c)
    ((outerL delta delta).map fun row => row.map fun c => r * c)                           -- line 76
  return { nDim := s.nDim, nSamples := s.nSamples + 1, mean := mean, cov := cov, r := r, nBurn := s.nBurn }

/-- `ewa_update(s, x)` (`_state.py:62-84`). -/
def ewaUpdateL [Field K] (s : EwaL K) (x : List K) : Except PyErr (EwaL K) :=
  if s.nSamples < s.nBurn then do                                                          -- line 68
    let out ← empUpdateL s.toEmpL x                                                        -- line 69
    return { toEmpL := out, r := s.r, nBurn := s.nBurn }                                   -- lines 70-72
  else ewaBlendL s x

/-- An estimator class whose hooks see run-time lengths and may raise (`base.py:36-47`). -/
structure ClsL (K : Type) where
  Param : Type
  State : Type
  diff : Param → Bool
  initState : Param → ℕ → Except PyErr State
  updateState : Param → State → List K → Except PyErr State
  nSamples : State → ℕ
  toCov : State → List (List K)
  toMean : State → List K

/-- An instance (`base.py:31-34`). -/
structure ObjL (C : ClsL K) where
  params : C.Param
  state : Option C.State
  nFeatures : Option ℕ
  prevX : Option (List K)

/-- The argument of `partial_fit`/`fit`: nested lists or an array. A ragged list is rejected by
`np.asarray(X, dtype=float)` (`_conventions.py:20`). -/
inductive InputL (K : Type)
  | row (x : List K)
  | batch (xs : List (List K))
  | other (ndim : ℕ)

/-- All rows have one length (what `np.asarray` asks of a batch, `_conventions.py:20-25`, `base.py:69`). -/
def rect (xs : List (List K)) : Bool :=
  match xs with
  | [] => true
  | x :: t => t.all fun y => y.length == x.length

/-- `as_rows` (`_conventions.py:13-25`). -/
def asRowsL : InputL K → Except PyErr (List (List K))
  | .row x => .ok [x]
  | .batch xs => if rect xs then .ok xs else .error .valueError
  | .other _ => .error .valueError

namespace ObjL

variable {C : ClsL K}

/-- `Cls(**params)` (`base.py:31-34`). -/
def new (C : ClsL K) (p : C.Param) : ObjL C := { params := p, state := none, nFeatures := none, prevX := none }

/-- The assignment `self._state = self._update_state(self._state, x)` (`base.py:62`): when the update raises,
nothing is assigned. -/
def update (o : ObjL C) (s : C.State) (x : List K) : ObjL C × Except PyErr Unit :=
  match C.updateState o.params s x with
  | .error e => (o, .error e)
  | .ok s' => ({ o with state := some s' }, .ok ())

/-- `base.py:59-62`. `n_features_in_` is assigned before `_init_state` runs. -/
def feed (o : ObjL C) (x : List K) : ObjL C × Except PyErr Unit :=
  match o.state with
  | some s => o.update s x
  | none =>
    let o1 : ObjL C := { o with nFeatures := some x.length }                               -- line 60
    match C.initState o.params x.length with
    | .error e => (o1, .error e)
    | .ok s => ({ o1 with state := some s } : ObjL C).update s x                           -- lines 61-62

/-- One iteration of the loop (`base.py:53-62`). In `x, self._prev_x = x - self._prev_x, x` the right side is
evaluated first: if the subtraction raises, `_prev_x` keeps its value. -/
def stepRow [Sub K] (o : ObjL C) (x : List K) : ObjL C × Except PyErr Unit :=
  if C.diff o.params then
    match o.prevX with
    | none => ({ o with prevX := some x }, .ok ())                                         -- lines 55-57
    | some q =>
      match vec2 (· - ·) x q with                                                          -- line 58
      | .error e => (o, .error e)
      | .ok dx => feed { o with prevX := some x } dx
  else feed o x

/-- The rows loop; the first exception ends it (`base.py:53-62`). -/
def feedRows [Sub K] (o : ObjL C) : List (List K) → ObjL C × Except PyErr Unit
  | [] => (o, .ok ())
  | x :: xs =>
    match stepRow o x with
    | (o', .error e) => (o', .error e)
    | (o', .ok ()) => feedRows o' xs

/-- `partial_fit(X)` (`base.py:50-63`). -/
def partialFit [Sub K] (o : ObjL C) (X : InputL K) : ObjL C × Except PyErr Unit :=
  match asRowsL X with
  | .error e => (o, .error e)
  | .ok rows => o.feedRows rows

/-- `fit(X)` (`base.py:65-72`); a ragged list already raises in `np.asarray` (line 69), after the reset. -/
def fit [Sub K] (o : ObjL C) (X : InputL K) : ObjL C × Except PyErr Unit :=
  let o' : ObjL C := { o with state := none, prevX := none }
  match X with
  | .batch xs => o'.partialFit (.batch xs)
  | _ => (o', .error .valueError)

/-- `_fitted_state()` (`base.py:74-80`). -/
def fittedState (o : ObjL C) : Except PyErr C.State :=
  match o.state with
  | none => .error .notFitted
  | some s => if C.nSamples s < 1 then .error .notFitted else .ok s

/-- `n_samples_` (`base.py:83-85`). -/
def nSamples (o : ObjL C) : ℕ :=
  match o.state with
  | none => 0
  | some s => C.nSamples s

/-- `location_` (`base.py:87-89`). -/
def location (o : ObjL C) : Except PyErr (List K) := o.fittedState.map C.toMean

/-- `a.T` of a 2d array without empty axes (`_linalg.py:19`). -/
def transposeL [Zero K] (a : List (List K)) : List (List K) :=
  (List.range (a.headD []).length).map fun j => a.map fun row => row.getD j 0

/-- `covariance_` (`base.py:91-94`, `_linalg.py:18-19`): `(a + a.T) / 2`. -/
def covariance [Field K] (o : ObjL C) : Except PyErr (List (List K)) := do
  let s ← o.fittedState
  let sum ← mat2 (· + ·) (C.toCov s) (transposeL (C.toCov s))
  return sum.map fun row => row.map (· / 2)

end ObjL

/-- A mutating call with run-time lengths (`base.py:50-72`). -/
inductive CallL (K : Type)
  | partialFit (X : InputL K)
  | fit (X : InputL K)

/-- The object after one call and the call's outcome (`base.py:50-72`). -/
def ObjL.call [Sub K] {C : ClsL K} (o : ObjL C) : CallL K → ObjL C × Except PyErr Unit
  | .partialFit X => o.partialFit X
  | .fit X => o.fit X

/-- The object after a sequence of calls (the user catches the exceptions) (`base.py:50-72`). -/
def ObjL.run [Sub K] {C : ClsL K} (o : ObjL C) (cs : List (CallL K)) : ObjL C := cs.foldl (fun o c => (o.call c).1) o

/-- `EmpiricalCovariance` (`empirical.py:16-31`). -/
def empiricalL (K : Type) [Field K] : ClsL K where
  Param := Bool
  State := EmpL K
  diff := id
  initState _ n := .ok (empInitL n)
  updateState _ := empUpdateL
  nSamples := EmpL.nSamples
  toCov := EmpL.cov
  toMean := EmpL.mean

/-- `EwaCovariance` (`ewa.py:15-32`). -/
def ewaL (K : Type) [Field K] [LinearOrder K] [FloorRing K] : ClsL K where
  Param := RParam K
  State := EwaL K
  diff := RParam.diff
  initState p n := ewaInitL p.r n
  updateState _ := ewaUpdateL
  nSamples s := s.nSamples
  toCov s := s.cov
  toMean s := s.mean

end Precise.Shapes
