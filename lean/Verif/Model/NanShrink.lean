import Verif.Model.Nan
import Mathlib.Analysis.SpecialFunctions.Pow.Real

/-!
# The shrinkage estimators and DCC fed numbers or NaN

`ledoitwolf.py`, `oas.py`, `shrunk.py`, `dcc.py` line by line over `Nan ℝ`, with Python's and numpy's treatment of NaN: arithmetic absorbs
it (also `nan * 0`), every comparison with it is false, `min`/`max` keep their first argument unless the second compares
smaller/larger, `np.clip`, `np.maximum`, `np.sqrt`, `np.sum`, `np.trace` and `np.mean` propagate it. A zero divisor is NaN (`Model/Nan`); the divisors
here are positive or NaN.
-/

namespace Precise

namespace Nan

/-- `a <= b` on floats: false if either is NaN (used for `ledoitwolf.py:62`, `oas.py:40,46`). -/
def le : Nan ℝ → Nan ℝ → Prop
  | num x, num y => x ≤ y
  | _, _ => False

/-- `a < b` on floats: false if either is NaN (used for `ledoitwolf.py:62`, `oas.py:40,46`). -/
def lt : Nan ℝ → Nan ℝ → Prop
  | num x, num y => x < y
  | _, _ => False

open Classical in
/-- Python's `min(a, b)` (`ledoitwolf.py:62`, `oas.py:40,46`). -/
noncomputable def pyMin (a b : Nan ℝ) : Nan ℝ := if lt b a then b else a

open Classical in
/-- Python's `max(a, b)` (`ledoitwolf.py:62`, `oas.py:40,46`). -/
noncomputable def pyMax (a b : Nan ℝ) : Nan ℝ := if lt a b then b else a

/-- A numpy function that maps NaN to NaN (`np.sqrt`, `np.clip(·, a, b)`, `np.maximum(·, c)`) (`dcc.py:41-78`, `shrunk.py:47-59`). -/
def map (f : ℝ → ℝ) : Nan ℝ → Nan ℝ
  | num x => num (f x)
  | nan => nan

/-- The number, 0 for NaN (auxiliary to `sum`; `ledoitwolf.py:34-64`). -/
def val : Nan ℝ → ℝ
  | num x => x
  | nan => 0

open Classical in
/-- `np.sum`: NaN if some term is (`ledoitwolf.py:34-64`, `oas.py:36-47`). -/
noncomputable def sum {ι : Type} [Fintype ι] (f : ι → Nan ℝ) : Nan ℝ :=
  if ∃ i, f i = nan then nan else num (∑ i, (f i).val)

/-- `np.eye(p)` (`ledoitwolf.py:54-64`, `dcc.py:35`). -/
def eye {ι : Type} [DecidableEq ι] (i j : ι) : Nan ℝ := if i = j then num 1 else num 0

end Nan

open Nan

variable {ι : Type} [Fintype ι] [DecidableEq ι]

/-- `LedoitWolfCovariance._update_state` (`ledoitwolf.py:34-52`). -/
noncomputable def lwNanUpdate (s : LWState ι (Nan ℝ)) (x : ι → Nan ℝ) : LWState ι (Nan ℝ) :=
  if s.nSamples < s.nBurn then { s with toEwaState := ewaBurnStep s.toEwaState x }       -- lines 35-38
  else
    let r := s.r
    let delta : ι → Nan ℝ := fun i => x i - s.mean i                                     -- line 41
    let scatter := outer delta delta                                                     -- line 42
    let q := (Nan.sum fun i => Nan.sum fun j => (scatter i j - s.cov i j) * (scatter i j - s.cov i j)) / (Fintype.card ι : Nan ℝ)   -- line 43
    { toEwaState := { s.toEwaState with toEmpState := ewaBlend r s.toEmpState x }        -- lines 45-50
      piBar := (1 - r) * s.piBar + r * q }                                               -- line 51

open Classical in
/-- `LedoitWolfCovariance._state_to_cov` (`ledoitwolf.py:54-64`). -/
noncomputable def lwNanCov (s : LWState ι (Nan ℝ)) : Matrix ι ι (Nan ℝ) :=
  let S := s.cov
  let p : Nan ℝ := (Fintype.card ι : Nan ℝ)
  let mu := (Nan.sum fun i => S i i) / p                                                 -- line 57
  let d2 := (Nan.sum fun i => Nan.sum fun j => (S i j - mu * eye i j) * (S i j - mu * eye i j)) / p   -- line 58
  if le d2 (num 0) ∨ le s.piBar (num 0) then S                                           -- lines 59-60
  else
    let b2 := pyMin (s.piBar * s.r) d2                                                   -- line 62
    let intensity := (b2 / d2).map fun x => min (max x 0) 1                              -- line 63
    Matrix.of fun i j => (1 - intensity) * S i j + intensity * mu * eye i j              -- line 64

/-- `LedoitWolfCovariance` fed numbers or NaN (`ledoitwolf.py:17-64`). -/
noncomputable def lwNanCls (ι : Type) [Fintype ι] [DecidableEq ι] : Cls ι (Nan ℝ) where
  Param := RParam ℝ
  State := LWState ι (Nan ℝ)
  Dump := Dict ι (Nan ℝ)
  diff := RParam.diff
  withDiff b p := { p with diff := b }
  initState p := { toEwaState := { toEmpState := empInit, r := .num p.r, nBurn := ewaBurnN p.r }, piBar := 0 }   -- lines 29-32
  updateState _ := lwNanUpdate
  nSamples s := s.nSamples
  toCov _ := lwNanCov
  toMean _ s := s.mean
  dump s := s.asDict.tolist
  load d := LWState.ofDict d.fromlist

open Classical in
/-- `OASCovariance._state_to_cov` (`oas.py:36-47`). -/
noncomputable def oasNanCov (s : EwaState ι (Nan ℝ)) : Matrix ι ι (Nan ℝ) :=
  let S := s.cov
  let p : Nan ℝ := (Fintype.card ι : Nan ℝ)
  let n := pyMax (1 / s.r) 2                                                             -- line 40
  let tr := Nan.sum fun i => S i i                                                       -- line 41
  let tr2 := Nan.sum fun i => Nan.sum fun j => S i j * S j i                             -- line 42
  let mu := tr / p                                                                       -- line 43
  let nm := (1 - 2 / p) * tr2 + tr * tr                                                  -- line 44
  let den := (n + 1 - 2 / p) * (tr2 - tr * tr / p)                                       -- line 45
  let rho := if le den (num 0) then num 1 else pyMin (pyMax (nm / den) (num 0)) (num 1)  -- line 46
  Matrix.of fun i j => (1 - rho) * S i j + rho * mu * eye i j                            -- line 47

/-- `OASCovariance` fed numbers or NaN (`oas.py:18-47`). -/
noncomputable def oasNanCls (ι : Type) [Fintype ι] [DecidableEq ι] : Cls ι (Nan ℝ) where
  Param := RParam ℝ
  State := EwaState ι (Nan ℝ)
  Dump := Dict ι (Nan ℝ)
  diff := RParam.diff
  withDiff b p := { p with diff := b }
  initState p := { toEmpState := empInit, r := .num p.r, nBurn := ewaBurnN p.r }
  updateState _ := ewaUpdate
  nSamples s := s.nSamples
  toCov _ := oasNanCov
  toMean _ s := s.mean
  dump s := s.asDict.tolist
  load d := EwaState.ofDict d.fromlist

/-- `rbar` (`shrunk.py:53-56`): the mean off-diagonal entry of the standardized matrix; 0 when there is none. -/
noncomputable def shrunkNanRbar (S : Matrix ι ι (Nan ℝ)) (d : ι → Nan ℝ) : Nan ℝ :=
  if Fintype.card ι * (Fintype.card ι - 1) = 0 then num 0
  else (Nan.sum fun i => Nan.sum fun j => if i = j then num 0 else S i j / (d i * d j)) / num ((Fintype.card ι : ℝ) * ((Fintype.card ι : ℝ) - 1))

/-- `ShrunkCovariance._state_to_cov` (`shrunk.py:47-59`). -/
noncomputable def shrunkNanCov (pr : ShrunkParam) (s : EwaState ι (Nan ℝ)) : Matrix ι ι (Nan ℝ) :=
  let S := s.cov
  let target : Matrix ι ι (Nan ℝ) :=
    if pr.target = "identity" then
      Matrix.of fun i j => (Nan.sum fun i => S i i) / (Fintype.card ι : Nan ℝ) * eye i j             -- lines 50-51
    else
      let d : ι → Nan ℝ := fun i => (S i i).map fun v => Real.sqrt (max v EPS)           -- line 53
      let rbar := shrunkNanRbar S d                                                      -- lines 54-56
      Matrix.of fun i j => if i = j then S i i else rbar * (d i * d j)                   -- lines 57-58
  Matrix.of fun i j => (1 - num pr.delta) * S i j + num pr.delta * target i j            -- line 59

/-- `ShrunkCovariance` fed numbers or NaN (`shrunk.py:19-59`). -/
noncomputable def shrunkNanCls (ι : Type) [Fintype ι] [DecidableEq ι] : Cls ι (Nan ℝ) where
  Param := ShrunkParam
  State := EwaState ι (Nan ℝ)
  Dump := Dict ι (Nan ℝ)
  diff := ShrunkParam.diff
  withDiff b p := { p with diff := b }
  initState p := { toEmpState := empInit, r := .num p.r, nBurn := ewaBurnN p.r }
  updateState _ := ewaUpdate
  nSamples s := s.nSamples
  toCov := shrunkNanCov
  toMean _ s := s.mean
  dump s := s.asDict.tolist
  load d := EwaState.ofDict d.fromlist

/-- State dict of `DCCCovariance` (`dcc.py:32-39`), the rates being numbers. -/
structure DCCNanState (ι : Type) where
  nSamples : ℕ
  mean : ι → Nan ℝ
  h : ι → Nan ℝ
  Q : Matrix ι ι (Nan ℝ)
  r : ℝ
  volR : ℝ
  nBurn : ℕ

/-- `DCCCovariance._init_state` (`dcc.py:32-39`). -/
noncomputable def dccNanInit (p : DCCParam) : DCCNanState ι :=
  { nSamples := 0, mean := fun _ => 0, h := fun _ => num 1, Q := Matrix.of fun i j => eye i j, r := p.r, volR := p.volR.getD p.r
    nBurn := ewaBurnN (min p.r (p.volR.getD p.r)) }

/-- `DCCCovariance._update_state` (`dcc.py:41-70`). -/
noncomputable def dccNanUpdate (s : DCCNanState ι) (x : ι → Nan ℝ) : DCCNanState ι :=
  let n : ℕ := s.nSamples + 1                                                            -- line 43
  let dev : ι → Nan ℝ := fun i => x i - s.mean i                                         -- line 45
  let mean : ι → Nan ℝ :=
    if n ≤ s.nBurn then fun i => s.mean i + dev i / (n : Nan ℝ)                          -- line 48
    else fun i => num (1 - s.volR) * s.mean i + num s.volR * x i                         -- line 51
  let h : ι → Nan ℝ :=
    if n ≤ s.nBurn then fun i => s.h i + (dev i * dev i - s.h i) / (n : Nan ℝ)           -- line 49
    else fun i => num (1 - s.volR) * s.h i + num s.volR * (dev i * dev i)                -- line 52
  let eps : ι → Nan ℝ := fun i => dev i / (h i).map fun v => Real.sqrt (max v EPS)       -- line 54
  let Q : Matrix ι ι (Nan ℝ) :=
    if n ≤ s.nBurn then Matrix.of fun i j => s.Q i j + (eps i * eps j - s.Q i j) / (n : Nan ℝ)   -- line 57
    else Matrix.of fun i j => num (1 - s.r) * s.Q i j + num s.r * (eps i * eps j)        -- line 59
  { s with nSamples := n, mean := mean, h := h, Q := Q }

/-- `DCCCovariance._state_to_cov` (`dcc.py:72-78`). -/
noncomputable def dccNanCov (s : DCCNanState ι) : Matrix ι ι (Nan ℝ) :=
  let qInv : ι → Nan ℝ := fun i => num 1 / (s.Q i i).map fun v => Real.sqrt (max v EPS)  -- line 75
  let d : ι → Nan ℝ := fun i => (s.h i).map fun v => Real.sqrt (max v EPS)               -- line 77
  Matrix.of fun i j => s.Q i j * (qInv i * qInv j) * (d i * d j)                         -- lines 76, 78

/-- `DCCCovariance` fed numbers or NaN (`dcc.py:18-78`). Simplification: the dump is the state itself (the keys are those of C63). -/
noncomputable def dccNanCls (ι : Type) [Fintype ι] [DecidableEq ι] : Cls ι (Nan ℝ) where
  Param := DCCParam
  State := DCCNanState ι
  Dump := DCCNanState ι
  diff := DCCParam.diff
  withDiff b p := { p with diff := b }
  initState := dccNanInit
  updateState _ := dccNanUpdate
  nSamples s := s.nSamples
  toCov _ := dccNanCov
  toMean _ s := s.mean
  dump s := s
  load s := s

end Precise
