import Verif.Model.State
import Verif.Model.Estimators
import Mathlib.Data.Real.Basic
import Mathlib.Analysis.Real.Sqrt
import Mathlib.Data.Int.Log
import Mathlib.Algebra.Order.Floor.Ring

/-!
# Rounded arithmetic for the update functions of `_state.py` and `diagonal.py`

`Rounding` lists what is assumed of the rounding of a floating-point format: correct rounding (monotone, fixes the
numbers of the format, commutes with negation), relative error `u` in the normal range (`|x| ≥ tiny`), absolute error
`u * tiny` below it (gradual underflow), exact small differences (Sterbenz/Hauser), exact small integers.
Overflow is not modelled (the exponent is unbounded above), nor are NaN and signed zeros.
`Lemmas/Rounding` proves that the binary format with `p` bits and smallest exponent `emin`, rounding to nearest with
ties to even (IEEE double: `p = 53`, `emin = -1074`), is an instance.

`Fl R` is the type of the numbers of the format, with rounded `+ - * /`. The update functions are *the same
definitions* as in the exact model (`empUpdate`, `ewaUpdate`, `diagUpdate`), instantiated at `Fl R`: numpy evaluates the
elementwise operations of those lines one by one, each rounded.
-/

namespace Precise

/-- IEEE 754 rounding of one operation, as performed by the operators of `_state.py:38-42,74-76`. -/
structure Rounding where
  /-- the rounding function -/
  rnd : ℝ → ℝ
  /-- unit roundoff -/
  u : ℝ
  /-- smallest normal number -/
  tiny : ℝ
  /-- integers up to this one are numbers of the format -/
  maxInt : ℕ
  u_nonneg : 0 ≤ u
  u_le : u ≤ 1 / 8
  tiny_nonneg : 0 ≤ tiny
  mono : Monotone rnd
  idem : ∀ x, rnd (rnd x) = rnd x
  neg : ∀ x, rnd (-x) = - rnd x
  err : ∀ x, tiny ≤ |x| → |rnd x - x| ≤ u * |x|
  err_tiny : ∀ x, |x| ≤ tiny → |rnd x - x| ≤ u * tiny
  sub_exact : ∀ x y, rnd x = x → rnd y = y → |x - y| ≤ 2 * tiny → rnd (x - y) = x - y
  int_exact : ∀ n : ℕ, n ≤ maxInt → rnd n = n
  maxInt_ge : 250 ≤ maxInt
  tiny_le : tiny ≤ 1

/-- The numbers of the format (the floats of `_state.py:32-84`). -/
def Fl (R : Rounding) : Type := { x : ℝ // R.rnd x = x }

namespace Fl

variable {R : Rounding}

/-- The real number denoted (of a float of `_state.py:32-84`). -/
def val (x : Fl R) : ℝ := x.1

/-- Rounding a real number into the format (the result of an operator of `_state.py:38-42,74-76`). -/
def of (R : Rounding) (x : ℝ) : Fl R := ⟨R.rnd x, R.idem x⟩

/-! IEEE 754: each operation returns the rounding of the exact result; a Python int is rounded when it meets a float. -/

/-! The operators of `_state.py:38-42,74-76` on floats: each rounds the exact result. -/

instance : Zero (Fl R) := ⟨⟨0, by have := R.int_exact 0 (Nat.zero_le _); simpa using this⟩⟩
instance : One (Fl R) := ⟨⟨1, by have := R.int_exact 1 (by have := R.maxInt_ge; omega); simpa using this⟩⟩
instance : OfNat (Fl R) 2 := ⟨⟨2, by have := R.int_exact 2 (by have := R.maxInt_ge; omega); simpa using this⟩⟩
instance : NatCast (Fl R) := ⟨fun n => of R n⟩
instance : Neg (Fl R) := ⟨fun x => ⟨-x.1, by rw [R.neg, x.2]⟩⟩
instance : Add (Fl R) := ⟨fun x y => of R (x.val + y.val)⟩
instance : Sub (Fl R) := ⟨fun x y => of R (x.val - y.val)⟩
instance : Mul (Fl R) := ⟨fun x y => of R (x.val * y.val)⟩
noncomputable instance : Div (Fl R) := ⟨fun x y => of R (x.val / y.val)⟩
instance : LE (Fl R) := ⟨fun x y => x.val ≤ y.val⟩
instance : LT (Fl R) := ⟨fun x y => x.val < y.val⟩

end Fl

variable {ι : Type}

/-- `ewa_burn_n(r)` in floats (`_state.py:46-52`): the quotient is rounded, the ceiling is exact. -/
noncomputable def ewaBurnNFl {R : Rounding} (r : Fl R) : ℕ := (min 250 (max 5 ⌈(1 / r).val⌉)).toNat

/-- `EwaCovariance` in floats (`ewa.py:15-32`, `_state.py:55-84`). -/
noncomputable def ewaFlCls (R : Rounding) (ι : Type) [Fintype ι] : Cls ι (Fl R) where
  Param := RParam (Fl R)
  State := EwaState ι (Fl R)
  Dump := Dict ι (Fl R)
  diff := RParam.diff
  withDiff b p := { p with diff := b }
  initState p := { toEmpState := empInit, r := p.r, nBurn := ewaBurnNFl p.r }
  updateState _ := ewaUpdate
  nSamples s := s.nSamples
  toCov _ s := s.cov
  toMean _ s := s.mean
  dump s := s.asDict.tolist
  load d := EwaState.ofDict d.fromlist

/-- `DiagonalCovariance` in floats (`diagonal.py:16-61`). -/
noncomputable def diagonalFlCls (R : Rounding) (ι : Type) [Fintype ι] [DecidableEq ι] : Cls ι (Fl R) where
  Param := RParam (Fl R)
  State := DiagState ι (Fl R)
  Dump := Dict ι (Fl R)
  diff := RParam.diff
  withDiff b p := { p with diff := b }
  initState p := { nSamples := 0, mean := fun _ => 0, var := fun _ => 0, r := p.r, nBurn := ewaBurnNFl p.r }
  updateState _ := diagUpdate
  nSamples s := s.nSamples
  toCov _ s := Matrix.diagonal s.var                                         -- diagonal.py:58
  toMean _ s := s.mean                                                       -- diagonal.py:61
  dump s := s.asDict.tolist
  load d := DiagState.ofDict d.fromlist

/-- `np.sqrt` of a non-negative number of the format: IEEE 754 prescribes the rounding of the exact root (used at `_linalg.py:25`). -/
noncomputable def Fl.sqrt {R : Rounding} (x : Fl R) : Fl R := Fl.of R (Real.sqrt x.val)

/-- `cov_to_corrcoef(a)` in floats (`_linalg.py:22-26`), `EPS = 1e-12` being the nearest number of the format (`_linalg.py:15`). -/
noncomputable def covToCorrFl {R : Rounding} (a : Matrix ι ι (Fl R)) : Matrix ι ι (Fl R) :=
  Matrix.of fun i j => a i j / (Fl.sqrt (a j j * a i i) + Fl.of R (1 / 10 ^ 12))

/-- `correlation_` in floats (`base.py:96-98`). -/
noncomputable def Obj.correlationFl {R : Rounding} {C : Cls ι (Fl R)} (o : Obj C) : Except PyErr (Matrix ι ι (Fl R)) :=
  o.covariance.map covToCorrFl

/-! The binary format with `p` bits and smallest exponent `emin`, round to nearest, ties to even (IEEE 754). -/

/-- Round to the nearest integer, ties to even
(IEEE 754, for the operators of `_state.py:38-42,74-76`; also `round` at `train_recommender.py:67-71`). -/
noncomputable def halfEven (x : ℝ) : ℤ :=
  if Int.fract x < 1 / 2 then ⌊x⌋
  else if 1 / 2 < Int.fract x then ⌊x⌋ + 1
  else if ⌊x⌋ % 2 = 0 then ⌊x⌋ else ⌊x⌋ + 1

/-- Exponent of the last place of `x` (IEEE 754, for the operators of `_state.py:38-42,74-76`). -/
noncomputable def ulpExp (p : ℕ) (emin : ℤ) (x : ℝ) : ℤ := max (Int.log 2 |x| - p + 1) emin

/-- Round to nearest, ties to even, with `p` bits and smallest exponent `emin` (IEEE 754, for the operators of `_state.py:38-42,74-76`). -/
noncomputable def ieeeRnd (p : ℕ) (emin : ℤ) (x : ℝ) : ℝ :=
  halfEven (x / (2 : ℝ) ^ ulpExp p emin x) * (2 : ℝ) ^ ulpExp p emin x

end Precise
