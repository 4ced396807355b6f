import Verif.Model.State

/-!
# Which arrays an estimator shares with its caller (`base.py:50-63`, `base.py:87-89`, `_conventions.py:20-24`)

In the other model files an array is a value. Here the caller's float64 arrays are objects with an identity:
`np.asarray(X, dtype=float)` returns the caller's array itself (`_conventions.py:20`), `arr[np.newaxis, :]` and the
rows of a 2d array are views of it, and `self._prev_x = x` (`base.py:56,58`) keeps such a view. Every other use of `x`
in the package is arithmetic that makes a new array (all `_update_state` hooks), so only `_prev_x` aliases.
`location_` is `np.asarray(state["mean"])` (`base.py:89`): the state's own array, not a copy.

Simplifications: the caller writes whole rows; a list (or an array of another dtype) is copied by `np.asarray`.
`covariance_`, `correlation_`, `precision_`, `get_state` build new arrays and lists, so writing to what they return
is not an operation here. `BlockCovariance.location_` is a new array (`block_covariance.py:86-90`) and
`ConditionalCovariance` has its own `partial_fit`; they are outside this file.
-/

namespace Precise.Heap

open Precise

variable {ι K : Type}

/-- What `_prev_x` refers to: row `i` of the caller's array number `a`, or an array only the estimator holds (`base.py:34,53-58`). -/
inductive Ref (ι K : Type)
  | view (a i : ℕ)
  | own (x : ι → K)

/-- What a caller does. Arrays are numbered in the order they are created (`base.py:50-72,88-89`). -/
inductive Op (ι K : Type)
  /-- `arr = np.array(rows)`: a new float64 array, 1d arrays being one row -/
  | alloc (rows : List (ι → K))
  /-- `arr_a[i] = x`, in place -/
  | write (a i : ℕ) (x : ι → K)
  /-- `est.partial_fit(arr_a)` -/
  | pass (a : ℕ)
  /-- `est.partial_fit([[...], ...])` with Python lists -/
  | passList (rows : List (ι → K))
  /-- `loc[:] = x`, where `loc` is the array `est.location_` returned after the `k`-th state update -/
  | writeLoc (k : ℕ) (x : ι → K)

/-- The caller's arrays, by number (the `X` of `base.py:50,65`). -/
abbrev Arrays (ι K : Type) := List (List (ι → K))

/-- The current contents of row `i` of array `a` (`base.py:53`: `as_rows` gives views of the caller's array). -/
def Arrays.row [Zero K] (h : Arrays ι K) (a i : ℕ) : ι → K := ((h[a]?.getD [])[i]?).getD fun _ => 0

/-- In-place assignment to a row (the caller's array, seen through `base.py:56,58`). -/
def Arrays.write (h : Arrays ι K) (a i : ℕ) (x : ι → K) : Arrays ι K := h.set a ((h[a]?.getD []).set i x)

/-- What `x` is when it is read (`base.py:58`). -/
def Ref.read [Zero K] (h : Arrays ι K) : Ref ι K → ι → K
  | .view a i => h.row a i
  | .own x => x

/-- The caller's arrays and the estimator. `updates` counts the state dicts made so far: it names the array that
`location_` returns (`base.py:31-34,50-72`). -/
structure World (C : Cls ι K) where
  arrays : Arrays ι K
  params : C.Param
  state : Option C.State
  nFeatures : Option ℕ
  prevX : Option (Ref ι K)
  updates : ℕ

variable {C : Cls ι K}

/-- A new estimator and no arrays (`base.py:31-34`). -/
def World.new (C : Cls ι K) (p : C.Param) : World C :=
  { arrays := [], params := p, state := none, nFeatures := none, prevX := none, updates := 0 }

/-- `base.py:59-62`: the update makes a new state dict with new arrays. -/
def World.feed [Fintype ι] (w : World C) (x : ι → K) : World C :=
  match w.state with
  | none =>
    { w with
      nFeatures := some (Fintype.card ι)
      state := some (C.updateState w.params (C.initState w.params) x)
      updates := w.updates + 1 }
  | some s => { w with state := some (C.updateState w.params s x), updates := w.updates + 1 }

/-- One iteration of the loop of `partial_fit` (`base.py:53-62`), `x` being the view `r`. -/
def World.stepRef [Fintype ι] [Zero K] [Sub K] (w : World C) (r : Ref ι K) : World C :=
  if C.diff w.params then
    match w.prevX with
    | none => { w with prevX := some r }                                             -- lines 55-57
    | some q => World.feed { w with prevX := some r } (r.read w.arrays - q.read w.arrays)   -- line 58
  else w.feed (r.read w.arrays)

variable [Fintype ι] [Zero K] [Sub K]

/-- One operation of the caller. `setMean` is in-place assignment to the state's mean array (`base.py:50-72,88-89`). -/
def World.op (setMean : C.State → (ι → K) → C.State) (w : World C) : Op ι K → World C
  | .alloc rows => { w with arrays := w.arrays ++ [rows] }
  | .write a i x => { w with arrays := w.arrays.write a i x }
  | .pass a => ((List.range (w.arrays[a]?.getD []).length).map fun i => Ref.view a i).foldl World.stepRef w
  | .passList rows => (rows.map Ref.own).foldl World.stepRef w
  | .writeLoc k x => if k = w.updates then { w with state := w.state.map (setMean · x) } else w

/-- A sequence of operations (`base.py:50-72`). -/
def World.run (setMean : C.State → (ι → K) → C.State) (w : World C) (ops : List (Op ι K)) : World C :=
  ops.foldl (World.op setMean) w

/-- The estimator's attributes, as an object of the value model; `_prev_x` is read now (`base.py:31-34`). -/
def World.obj (w : World C) : Obj C :=
  { params := w.params, state := w.state, nFeatures := w.nFeatures, prevX := w.prevX.map (Ref.read w.arrays) }

end Precise.Heap
