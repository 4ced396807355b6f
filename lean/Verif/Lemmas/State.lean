import Verif.Lemmas.Base
import Verif.Model.State
import Mathlib.Data.Rat.Floor

/-! Basic lemmas about the empirical and EWA states: counting and serialization. -/

set_option linter.all false

namespace Precise

variable {ι K : Type}

@[simp] theorem empUpdate_n [Field K] (s : EmpState ι K) (x : ι → K) :
    (empUpdate s x).nSamples = s.nSamples + 1 := rfl

@[simp] theorem ewaUpdate_n [Field K] (s : EwaState ι K) (x : ι → K) :
    (ewaUpdate s x).nSamples = s.nSamples + 1 := by
  unfold ewaUpdate; split <;> rfl

@[simp] theorem ewaUpdate_r [Field K] (s : EwaState ι K) (x : ι → K) : (ewaUpdate s x).r = s.r := by
  unfold ewaUpdate; split <;> rfl

@[simp] theorem ewaUpdate_nBurn [Field K] (s : EwaState ι K) (x : ι → K) : (ewaUpdate s x).nBurn = s.nBurn := by
  unfold ewaUpdate; split <;> rfl

theorem EmpState.load_dump [Fintype ι] [Zero K] (s : EmpState ι K) :
    EmpState.ofDict (Dict.fromlist (Dict.tolist s.asDict)) = s := by
  cases s
  simp [EmpState.ofDict, EmpState.asDict, Dict.fromlist, Dict.tolist, Dict.nat, Dict.vec, Dict.mat,
    PyVal.tolist, PyVal.fromlist, List.lookup]

theorem EwaState.load_dump [Fintype ι] [Zero K] (s : EwaState ι K) :
    EwaState.ofDict (Dict.fromlist (Dict.tolist s.asDict)) = s := by
  obtain ⟨⟨n, m, c⟩, r, b⟩ := s
  simp [EwaState.ofDict, EwaState.asDict, EmpState.ofDict, EmpState.asDict, Dict.fromlist, Dict.tolist,
    Dict.nat, Dict.vec, Dict.mat, Dict.float, PyVal.tolist, PyVal.fromlist, List.lookup]

theorem empirical_lawful (ι K : Type) [Fintype ι] [Zero K] [Add K] [Sub K] [Mul K] [Div K] [NatCast K] :
    Lawful (empiricalCls ι K) where
  n_init _ := rfl
  n_update _ _ _ := rfl
  load_dump s _ := EmpState.load_dump s
  diff_withDiff _ _ := rfl
  init_withDiff _ _ := rfl
  update_withDiff _ _ := rfl
  toCov_withDiff _ _ := rfl
  toMean_withDiff _ _ := rfl

theorem ewa_lawful (ι K : Type) [Fintype ι] [Field K] [LinearOrder K] [FloorRing K] : Lawful (ewaCls ι K) where
  n_init _ := rfl
  n_update _ s x := ewaUpdate_n s x
  load_dump s _ := EwaState.load_dump s
  diff_withDiff _ _ := rfl
  init_withDiff _ _ := rfl
  update_withDiff _ _ := rfl
  toCov_withDiff _ _ := rfl
  toMean_withDiff _ _ := rfl

end Precise
