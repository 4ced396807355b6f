import Verif.Model.State
import Verif.Model.Estimators

/-!
# Numbers with NaN for the update functions of `_state.py` and `diagonal.py`

`partial_fit` accepts NaN (`base.py:50-66` has no finiteness check). A quiet NaN absorbs `+ - * /` (IEEE 754), so the
update functions are *the same definitions* as in the exact model, instantiated at `Nan K`. The numbers themselves are
exact (rounding is C75/C76). A zero divisor, which numpy turns into an infinity or NaN, is NaN here; the modelled updates
divide by the number of observations and by 2 only.
-/

namespace Precise

/-- A number or NaN (the floats of `_state.py:32-84` when a caller passes NaN). -/
inductive Nan (K : Type)
  | num (x : K)
  | nan

namespace Nan

variable {K : Type}

/-- A binary operation that NaN absorbs (the operators of `_state.py:38-42,74-76`). -/
def lift₂ (f : K → K → K) : Nan K → Nan K → Nan K
  | num x, num y => num (f x y)
  | _, _ => nan

/-! The operators of `_state.py:38-42,74-76` on such numbers. -/

instance [Zero K] : Zero (Nan K) := ⟨num 0⟩
instance [One K] : One (Nan K) := ⟨num 1⟩
instance [NatCast K] : NatCast (Nan K) := ⟨fun n => num n⟩
instance [NatCast K] : OfNat (Nan K) 2 := ⟨num ((2 : ℕ) : K)⟩
instance [Add K] : Add (Nan K) := ⟨lift₂ (· + ·)⟩
instance [Sub K] : Sub (Nan K) := ⟨lift₂ (· - ·)⟩
instance [Mul K] : Mul (Nan K) := ⟨lift₂ (· * ·)⟩
open Classical in
noncomputable instance [Zero K] [Div K] : Div (Nan K) :=
  ⟨fun a b => if b = num 0 then nan else lift₂ (· / ·) a b⟩

end Nan

variable {ι : Type}

/-- `EwaCovariance` fed numbers or NaN (`ewa.py:15-32`, `_state.py:55-84`). The rate is a number. -/
noncomputable def ewaNanCls (ι K : Type) [Fintype ι] [Field K] [LinearOrder K] [FloorRing K] : Cls ι (Nan K) where
  Param := RParam K
  State := EwaState ι (Nan K)
  Dump := Dict ι (Nan K)
  diff := RParam.diff
  withDiff b p := { p with diff := b }
  initState p := { toEmpState := empInit, r := .num p.r, nBurn := ewaBurnN p.r }
  updateState _ := ewaUpdate
  nSamples s := s.nSamples
  toCov _ s := s.cov
  toMean _ s := s.mean
  dump s := s.asDict.tolist
  load d := EwaState.ofDict d.fromlist

/-- `DiagonalCovariance` fed numbers or NaN (`diagonal.py:16-61`). -/
noncomputable def diagonalNanCls (ι K : Type) [Fintype ι] [DecidableEq ι] [Field K] [LinearOrder K] [FloorRing K] :
    Cls ι (Nan K) where
  Param := RParam K
  State := DiagState ι (Nan K)
  Dump := Dict ι (Nan K)
  diff := RParam.diff
  withDiff b p := { p with diff := b }
  initState p := { nSamples := 0, mean := fun _ => 0, var := fun _ => 0, r := .num p.r, nBurn := ewaBurnN p.r }
  updateState _ := diagUpdate
  nSamples s := s.nSamples
  toCov _ s := Matrix.diagonal s.var                                         -- diagonal.py:58
  toMean _ s := s.mean                                                       -- diagonal.py:61
  dump s := s.asDict.tolist
  load d := DiagState.ofDict d.fromlist

end Precise
