import Verif.Model.State
import Verif.Model.Estimators

/-!
# Numbers with infinities and NaN for the update functions of `_state.py` and `diagonal.py`

`partial_fit` accepts `inf` and NaN (`base.py:50-66` has no finiteness check). `Ext K` has the special values of IEEE 754 and
its rules for `+ - * /`; the finite numbers are exact (rounding, and overflow of finite numbers, are not part of this model).
The update functions are *the same definitions* as in the exact model, instantiated at `Ext K`.
-/

namespace Precise

/-- A number, an infinity or NaN (the floats of `_state.py:32-84`). -/
inductive Ext (K : Type)
  | num (x : K)
  | pinf
  | ninf
  | nan

namespace Ext

variable {K : Type}

/-- Unary minus (IEEE 754), as used by the operators of `_state.py:39,41,74`. -/
def neg [Neg K] : Ext K → Ext K
  | num x => num (-x)
  | pinf => ninf
  | ninf => pinf
  | nan => nan

/-- `+` (IEEE 754): infinities of opposite sign give NaN (`_state.py:40,42,75,76`). -/
def add [Add K] : Ext K → Ext K → Ext K
  | num x, num y => num (x + y)
  | nan, _ => nan
  | _, nan => nan
  | pinf, ninf => nan
  | ninf, pinf => nan
  | pinf, _ => pinf
  | _, pinf => pinf
  | ninf, _ => ninf
  | _, ninf => ninf

/-- An infinity times a number: the sign rule, NaN for zero (the products of `_state.py:42,75,76`). -/
def scale [Zero K] [LinearOrder K] (x : K) : Ext K := if 0 < x then pinf else if x < 0 then ninf else nan

/-- `*` (IEEE 754) (`_state.py:42,75,76`, `diagonal.py:41`). -/
def mul [Zero K] [Mul K] [Neg K] [LinearOrder K] : Ext K → Ext K → Ext K
  | num x, num y => num (x * y)
  | nan, _ => nan
  | _, nan => nan
  | pinf, num y => scale y
  | num x, pinf => scale x
  | ninf, num y => neg (scale y)
  | num x, ninf => neg (scale x)
  | pinf, pinf => pinf
  | ninf, ninf => pinf
  | pinf, ninf => ninf
  | ninf, pinf => ninf

/-- `/` (IEEE 754) (`_state.py:40-42`). The divisors of the modelled code are positive numbers; a zero divisor gives the
infinity with the sign of the dividend (no signed zeros here). -/
def div [Zero K] [Div K] [Neg K] [LinearOrder K] : Ext K → Ext K → Ext K
  | nan, _ => nan
  | _, nan => nan
  | num x, num y => if y = 0 then scale x else num (x / y)
  | num _, pinf => num 0
  | num _, ninf => num 0
  | pinf, num y => if y < 0 then ninf else pinf
  | ninf, num y => if y < 0 then pinf else ninf
  | pinf, pinf => nan
  | pinf, ninf => nan
  | ninf, pinf => nan
  | ninf, ninf => nan

/-! The operators of `_state.py:38-42,74-76` on such numbers. -/

instance [Zero K] : Zero (Ext K) := ⟨num 0⟩
instance [One K] : One (Ext K) := ⟨num 1⟩
instance [NatCast K] : NatCast (Ext K) := ⟨fun n => num n⟩
instance [NatCast K] : OfNat (Ext K) 2 := ⟨num ((2 : ℕ) : K)⟩
instance [Add K] : Add (Ext K) := ⟨add⟩
instance [Add K] [Neg K] : Sub (Ext K) := ⟨fun a b => add a (neg b)⟩
instance [Zero K] [Mul K] [Neg K] [LinearOrder K] : Mul (Ext K) := ⟨mul⟩
instance [Zero K] [Div K] [Neg K] [LinearOrder K] : Div (Ext K) := ⟨div⟩

end Ext

variable {ι : Type}

/-- `EwaCovariance` fed numbers, infinities or NaN (`ewa.py:15-32`, `_state.py:55-84`). The rate is a number. -/
noncomputable def ewaExtCls (ι K : Type) [Fintype ι] [Field K] [LinearOrder K] [FloorRing K] : Cls ι (Ext K) where
  Param := RParam K
  State := EwaState ι (Ext K)
  Dump := Dict ι (Ext K)
  diff := RParam.diff
  withDiff b p := { p with diff := b }
  initState p := { toEmpState := empInit, r := .num p.r, nBurn := ewaBurnN p.r }
  updateState _ := ewaUpdate
  nSamples s := s.nSamples
  toCov _ s := s.cov
  toMean _ s := s.mean
  dump s := s.asDict.tolist
  load d := EwaState.ofDict d.fromlist

/-- `DiagonalCovariance` fed numbers, infinities or NaN (`diagonal.py:16-61`). -/
noncomputable def diagonalExtCls (ι K : Type) [Fintype ι] [DecidableEq ι] [Field K] [LinearOrder K] [FloorRing K] :
    Cls ι (Ext K) where
  Param := RParam K
  State := DiagState ι (Ext K)
  Dump := Dict ι (Ext K)
  diff := RParam.diff
  withDiff b p := { p with diff := b }
  initState p := { nSamples := 0, mean := fun _ => 0, var := fun _ => 0, r := .num p.r, nBurn := ewaBurnN p.r }
  updateState _ := diagUpdate
  nSamples s := s.nSamples
  toCov _ s := Matrix.diagonal s.var                                         -- diagonal.py:58
  toMean _ s := s.mean                                                       -- diagonal.py:61
  dump s := s.asDict.tolist
  load d := DiagState.ofDict d.fromlist

end Precise
