import Verif.Model.Base

/-!
# Several threads calling `partial_fit` (and `fit`) on one estimator

`partial_fit` (`base.py:50-63`) reads and writes the attributes `_prev_x`, `n_features_in_` and `_state` of a shared
object, and holds no lock. A thread may be suspended between any two of these accesses. The model cuts the loop body at
every access to `self`; whatever lies between two accesses uses only local variables, so cutting there as well would add
no behaviour. This relies on the hooks `_init_state` and `_update_state` returning a new dict and leaving their argument
alone, which holds for the 17 positional classes (`ConditionalCovariance` overrides `partial_fit` and updates its
sub-models in place: not covered).
-/

namespace Precise.Threads

variable {ι K : Type}

/-- What one thread has to do, item by item: the loop body of `partial_fit` for one row, or the reset at the start of
`fit` (`base.py:67-68`). A `fit(X)` is a reset followed by the rows of `X`; consecutive calls are concatenated, since
between two calls nothing is read or written. -/
inductive Act (ι K : Type)
  | row (x : ι → K)
  | reset

/-- Where a thread is in the loop body, with the values of its local variables. -/
inductive Pc (C : Cls ι K)
  /-- at the head of the loop, `base.py:53` (or between two calls) -/
  | top
  /-- about to evaluate `self._prev_x is None`, `base.py:55` -/
  | askPrev (x : ι → K)
  /-- about to run `self._prev_x = x; continue`, `base.py:56-57` -/
  | setPrev (x : ι → K)
  /-- about to evaluate `x - self._prev_x`, `base.py:58` -/
  | readPrev (x : ι → K)
  /-- `d = x - self._prev_x` evaluated, about to store `self._prev_x = x`, `base.py:58` -/
  | writePrev (x d : ι → K)
  /-- about to evaluate `self._state is None`, `base.py:59` -/
  | ask (x : ι → K)
  /-- about to store `self.n_features_in_`, `base.py:60` -/
  | setFeatures (x : ι → K)
  /-- about to store `self._state = self._init_state(len(x))`, `base.py:61` -/
  | setInit (x : ι → K)
  /-- about to read `self._state` as the argument of `_update_state`, `base.py:62` -/
  | load (x : ι → K)
  /-- `_update_state` has returned `s`, about to store it, `base.py:62` -/
  | store (s : C.State)
  /-- about to store `self._state = None` in `fit`, `base.py:67` -/
  | resetState
  /-- about to store `self._prev_x = None` in `fit`, `base.py:68` -/
  | resetPrev
  /-- the call raised (a `TypeError`: `None` used as a state dict or as an array) -/
  | raised

/-- A thread: its work, the position of the item it is working on, and where it is (the threads execute `base.py:50-72`). -/
structure Thread (C : Cls ι K) where
  script : List (Act ι K)
  next : ℕ
  pc : Pc C

variable {C : Cls ι K}

/-- The item at the current position is finished (`base.py:53`: the `for` fetches the next row). -/
def Thread.finish (t : Thread C) : Thread C := { t with next := t.next + 1, pc := .top }

/-- One access of a thread to the shared object (`base.py:50-72`); `o` is the object at that moment. The parameters
are not modified, so `use_diff` (`base.py:52`) is the object's. -/
def stepThread [Fintype ι] [Sub K] (o : Obj C) (t : Thread C) : Obj C × Thread C :=
  match t.pc with
  | .top =>
    match t.script[t.next]? with
    | none => (o, t)
    | some (.row x) => (o, { t with pc := if C.diff o.params then .askPrev x else .ask x })
    | some .reset => (o, { t with pc := .resetState })
  | .askPrev x =>
    match o.prevX with
    | none => (o, { t with pc := .setPrev x })
    | some _ => (o, { t with pc := .readPrev x })
  | .setPrev x => ({ o with prevX := some x }, t.finish)
  | .readPrev x =>
    match o.prevX with
    | none => (o, { t with pc := .raised })
    | some q => (o, { t with pc := .writePrev x (x - q) })
  | .writePrev x d => ({ o with prevX := some x }, { t with pc := .ask d })
  | .ask x =>
    match o.state with
    | none => (o, { t with pc := .setFeatures x })
    | some _ => (o, { t with pc := .load x })
  | .setFeatures x => ({ o with nFeatures := some (Fintype.card ι) }, { t with pc := .setInit x })
  | .setInit x => ({ o with state := some (C.initState o.params) }, { t with pc := .load x })
  | .load x =>
    match o.state with
    | none => (o, { t with pc := .raised })
    | some s => (o, { t with pc := .store (C.updateState o.params s x) })
  | .store s => ({ o with state := some s }, t.finish)
  | .resetState => ({ o with state := none }, { t with pc := .resetPrev })
  | .resetPrev => ({ o with prevX := none }, t.finish)
  | .raised => (o, t)

/-- The shared estimator and its threads (`base.py:31-34` is what they share). -/
structure Sys (C : Cls ι K) (T : Type) where
  obj : Obj C
  threads : T → Thread C

variable {T : Type} [DecidableEq T]

/-- Thread `t` makes its next access to the estimator, the others stand still (`base.py:50-72`). -/
def Sys.step [Fintype ι] [Sub K] (s : Sys C T) (t : T) : Sys C T :=
  let r := stepThread s.obj (s.threads t)
  { obj := r.1, threads := Function.update s.threads t r.2 }

/-- A schedule names, access by access, the thread that moves (accesses of `base.py:50-72`). -/
def Sys.run [Fintype ι] [Sub K] (s : Sys C T) (sched : List T) : Sys C T := sched.foldl Sys.step s

/-- Threads about to start their work on an estimator `o` (`base.py:31-34`). -/
def start (o : Obj C) (work : T → List (Act ι K)) : Sys C T :=
  { obj := o, threads := fun t => { script := work t, next := 0, pc := .top } }

/-- `partial_fit` on some rows (`base.py:53`). -/
def feeding (rows : T → List (ι → K)) (t : T) : List (Act ι K) := (rows t).map .row

/-- `fit` on some rows (`base.py:65-72`). -/
def fitting (rows : List (ι → K)) : List (Act ι K) := .reset :: rows.map .row

/-- The same threads when each holds one common lock (`with lock: est.partial_fit(x)`): a thread that finds the lock
taken waits, a thread that returns to the head of the loop has released it. Not in the repository: this is how a user
would protect the calls (user code around `base.py:50-72`). -/
structure Locked (C : Cls ι K) (T : Type) where
  sys : Sys C T
  holder : Option T

/-- Is the thread between two items? (between two calls of `base.py:50,65`). -/
def Pc.idle : Pc C → Bool
  | .top => true
  | _ => false

/-- One access under the lock (accesses of `base.py:50-72`). -/
def Locked.step [Fintype ι] [Sub K] (l : Locked C T) (t : T) : Locked C T :=
  if l.holder = none ∨ l.holder = some t then
    let s := l.sys.step t
    { sys := s, holder := if (s.threads t).pc.idle then none else some t }
  else l

/-- A schedule under the lock (accesses of `base.py:50-72`). -/
def Locked.run [Fintype ι] [Sub K] (l : Locked C T) (sched : List T) : Locked C T := sched.foldl Locked.step l

/-- `_fitted_state()` (`base.py:74-80`) as a reader thread runs it: `self._state` is read three times, and the three
values need not be the same. -/
def fittedState (C : Cls ι K) (first second third : Option C.State) : Except PyErr (Option C.State) :=
  match first with
  | none => .error .notFitted                                           -- `self._state is None`
  | some _ =>
    match second with
    | none => .error .typeError                                         -- `None.get` (an AttributeError)
    | some s => if C.nSamples s < 1 then .error .notFitted else .ok third   -- `return self._state`

end Precise.Threads
