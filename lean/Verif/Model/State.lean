import Verif.Model.Base
import Mathlib.Algebra.Order.Floor.Defs
import Mathlib.Algebra.Order.Field.Basic
import Mathlib.Data.Matrix.Mul

/-!
# Model of `precise/_state.py`: the incremental update functions

A state dict becomes a record. `n_dim` is the size of the index type `ι`.
The update functions ask only for the operations they use, so the same definitions run over a field (exact
arithmetic, most theorems) and over the rounded numbers of `Model/Rounding` (C75).
-/

namespace Precise

variable {ι K : Type}

/-- `np.outer(u, v)` (used at `_state.py:42,76`). -/
def outer [Mul K] (u v : ι → K) : Matrix ι ι K := Matrix.of fun i j => u i * v j

/-- The keys `n_samples`, `mean`, `cov` of the state dict (`_state.py:8-12`). -/
structure EmpState (ι K : Type) where
  nSamples : ℕ
  mean : ι → K
  cov : Matrix ι ι K

/-- `emp_init(n_dim)` (`_state.py:22-29`). -/
def empInit [Zero K] : EmpState ι K := { nSamples := 0, mean := fun _ => 0, cov := 0 }

/-- `emp_update(s, x)` (`_state.py:32-43`): one Welford step. -/
def empUpdate [Add K] [Sub K] [Mul K] [Div K] [NatCast K] (s : EmpState ι K) (x : ι → K) : EmpState ι K :=
  let count : ℕ := s.nSamples + 1                                            -- line 38
  let deltaPrev : ι → K := fun i => x i - s.mean i                           -- line 39
  let mean : ι → K := fun i => s.mean i + deltaPrev i / (count : K)          -- line 40
  let weightedDelta : ι → K := fun i => (x i - mean i) / (count : K)         -- line 41
  { nSamples := count
    mean := mean
    cov := Matrix.of fun i j =>                                              -- line 42
      s.cov i j * ((count - 1 : ℕ) : K) / (count : K) + deltaPrev i * weightedDelta j }

/-- `ewa_burn_n(r)` for `r ≠ 0` (`_state.py:46-52`): `int(min(250, max(5, ceil(1/r))))`. -/
def ewaBurnN [Field K] [LinearOrder K] [FloorRing K] (r : K) : ℕ :=
  (min 250 (max 5 ⌈1 / r⌉)).toNat

/-- `ewa_burn_n(r)` with its error: `1.0 / r` raises ZeroDivisionError at `r = 0` (`_state.py:52`). -/
def ewaBurnN? [Field K] [LinearOrder K] [FloorRing K] (r : K) : Except PyErr ℕ :=
  if r = 0 then .error .zeroDivision else .ok (ewaBurnN r)

/-- State of the EWA family: `emp_init` plus the keys `r`, `n_burn` (`_state.py:55-59`). -/
structure EwaState (ι K : Type) extends EmpState ι K where
  r : K
  nBurn : ℕ

/-- `ewa_init(n_dim, r)` (`_state.py:55-59`). Contract: `r ≠ 0` (otherwise the call raises, `ewaBurnN?`). -/
def ewaInit [Field K] [LinearOrder K] [FloorRing K] (r : K) : EwaState ι K :=
  { toEmpState := empInit, r := r, nBurn := ewaBurnN r }

/-- `out = emp_update(s, x)` with the extra keys copied over (`_state.py:69-71`, and the same lines in
`huber.py:38-39`, `geodesic.py:42-44`, `ledoitwolf.py:36-37`, `adaptive.py:45-48`, `schur_ledoit_wolf.py:61-62`). -/
def ewaBurnStep [Add K] [Sub K] [Mul K] [Div K] [NatCast K] (s : EwaState ι K) (x : ι → K) : EwaState ι K :=
  { s with toEmpState := empUpdate s.toEmpState x }

/-- The blend used after the burn-in, with rate `r` (`_state.py:74-84`): the mean and the scatter about the
previous mean decay with rate `r`. -/
def ewaBlend [Add K] [Sub K] [Mul K] [One K] (r : K) (s : EmpState ι K) (x : ι → K) : EmpState ι K :=
  let delta : ι → K := fun i => x i - s.mean i                               -- line 74
  { nSamples := s.nSamples + 1                                               -- line 79
    mean := fun i => (1 - r) * s.mean i + r * x i                            -- line 75
    cov := (1 - r) • s.cov + r • outer delta delta }                         -- line 76

/-- `ewa_update(s, x)` (`_state.py:62-84`). -/
def ewaUpdate [Add K] [Sub K] [Mul K] [Div K] [One K] [NatCast K] (s : EwaState ι K) (x : ι → K) : EwaState ι K :=
  if s.nSamples < s.nBurn then ewaBurnStep s x                               -- lines 68-72
  else { s with toEmpState := ewaBlend s.r s.toEmpState x }                  -- lines 73-84

/-! Serialization of the shared state dicts (`base.py:140-161` applied to the dicts above). -/

/-- The state dict of `emp_init`/`emp_update` (`_state.py:24-29,43`). -/
def EmpState.asDict [Fintype ι] (s : EmpState ι K) : Dict ι K :=
  [("n_dim", .int (Fintype.card ι)), ("n_samples", .int s.nSamples), ("mean", .vec s.mean), ("cov", .mat s.cov)]

/-- The state dict of `ewa_init`/`ewa_update` (`_state.py:57-58,77-84`). -/
def EwaState.asDict [Fintype ι] (s : EwaState ι K) : Dict ι K :=
  s.toEmpState.asDict ++ [("r", .float s.r), ("n_burn", .int s.nBurn)]

/-- Reading the keys of a dict; a missing key (KeyError in the code) reads as a default (`base.py:155-158`, read at `_state.py:38`). -/
def Dict.nat (d : Dict ι K) (k : String) : ℕ :=
  match d.lookup k with
  | some (.int n) => n.toNat
  | _ => 0
/-- The value of a key that is a float, 0 if missing (`base.py:155-158`, read at `_state.py:73`). -/
def Dict.float [Zero K] (d : Dict ι K) (k : String) : K :=
  match d.lookup k with
  | some (.float x) => x
  | _ => 0
/-- The value of a key that is a vector, 0 if missing (`base.py:155-158`, read at `_state.py:39`). -/
def Dict.vec [Zero K] (d : Dict ι K) (k : String) : ι → K :=
  match d.lookup k with
  | some (.vec v) => v
  | _ => fun _ => 0
/-- The value of a key that is a square array, 0 if missing (`base.py:155-158`, read at `_state.py:42`). -/
def Dict.mat [Zero K] (d : Dict ι K) (k : String) : Matrix ι ι K :=
  match d.lookup k with
  | some (.mat m) => m
  | _ => 0

/-- The value of a key that is a list of vectors (`base.py:155-158`). -/
def Dict.rows (d : Dict ι K) (k : String) : List (ι → K) :=
  match d.lookup k with
  | some (.rows v) => v
  | _ => []
/-- The value of a key that is a list of matrices (`base.py:155-158`). -/
def Dict.mats (d : Dict ι K) (k : String) : List (Matrix ι ι K) :=
  match d.lookup k with
  | some (.mats v) => v
  | _ => []
/-- A square array that may be all NaN (`none`) (`base.py:155-158`). -/
def Dict.matNan (d : Dict ι K) (k : String) : Option (Matrix ι ι K) :=
  match d.lookup k with
  | some (.mat m) => some m
  | _ => none

/-- The state of `emp_update` read from a dict with the keys of `_state.py:43` (`base.py:149-161`). -/
def EmpState.ofDict [Zero K] (d : Dict ι K) : EmpState ι K :=
  { nSamples := d.nat "n_samples", mean := d.vec "mean", cov := d.mat "cov" }

/-- The state of `ewa_update` read from a dict with the keys of `_state.py:77-84` (`base.py:149-161`). -/
def EwaState.ofDict [Zero K] (d : Dict ι K) : EwaState ι K :=
  { toEmpState := EmpState.ofDict d, r := d.float "r", nBurn := d.nat "n_burn" }

/-- Parameters of the classes with constructor `(r, diff)` (`ewa.py:23-26`, `ledoitwolf.py:24-27`). -/
structure RParam (K : Type) where
  r : K
  diff : Bool

/-- `EmpiricalCovariance` (`empirical.py:16-31`). Its only parameter is `diff`. -/
def empiricalCls (ι K : Type) [Fintype ι] [Zero K] [Add K] [Sub K] [Mul K] [Div K] [NatCast K] : Cls ι K where
  Param := Bool
  State := EmpState ι K
  Dump := Dict ι K
  diff := id
  withDiff b _ := b
  initState _ := empInit
  updateState _ := empUpdate
  nSamples := EmpState.nSamples
  toCov _ := EmpState.cov
  toMean _ := EmpState.mean
  dump s := s.asDict.tolist
  load d := EmpState.ofDict d.fromlist

/-- `EwaCovariance` (`ewa.py:15-32`). -/
def ewaCls (ι K : Type) [Fintype ι] [Field K] [LinearOrder K] [FloorRing K] : Cls ι K where
  Param := RParam K
  State := EwaState ι K
  Dump := Dict ι K
  diff := RParam.diff
  withDiff b p := { p with diff := b }
  initState p := ewaInit p.r
  updateState _ := ewaUpdate
  nSamples s := s.nSamples
  toCov _ s := s.cov
  toMean _ s := s.mean
  dump s := s.asDict.tolist
  load d := EwaState.ofDict d.fromlist

end Precise
