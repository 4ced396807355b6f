import Verif.Model.State
import Verif.Model.Linalg

/-!
# Model of the estimator classes without blocks

`diagonal.py`, `ledoitwolf.py`, `oas.py`, `shrunk.py`, `partialmoments.py`, `huber.py`, `adaptive.py`, `tyler.py`,
`geodesic.py`, `dcc.py`, `factor.py`. `n_dim` is `Fintype.card ι`. Literals such as `1e-12` are the exact decimals.
-/

open Matrix

namespace Precise

variable {ι K : Type}

/-! ## `diagonal.py` -/

/-- State dict of `DiagonalCovariance` (`diagonal.py:29-36`). -/
structure DiagState (ι K : Type) where
  nSamples : ℕ
  mean : ι → K
  var : ι → K
  r : K
  nBurn : ℕ

/-- `DiagonalCovariance._init_state` (`diagonal.py:28-36`). -/
def diagInit [Field K] [LinearOrder K] [FloorRing K] (r : K) : DiagState ι K :=
  { nSamples := 0, mean := fun _ => 0, var := fun _ => 0, r := r, nBurn := ewaBurnN r }

/-- `DiagonalCovariance._update_state` (`diagonal.py:38-55`). -/
def diagUpdate [Add K] [Sub K] [Mul K] [Div K] [One K] [NatCast K] (s : DiagState ι K) (x : ι → K) : DiagState ι K :=
  let n : ℕ := s.nSamples + 1                                                -- line 39
  let dev : ι → K := fun i => x i - s.mean i                                 -- line 40
  let sq : ι → K := fun i => dev i * dev i                                   -- line 41
  if n ≤ s.nBurn then
    { s with
      nSamples := n
      mean := fun i => s.mean i + dev i / (n : K)                            -- line 43
      var := fun i => s.var i + (sq i - s.var i) / (n : K) }                 -- line 44
  else
    { s with
      nSamples := n
      mean := fun i => (1 - s.r) * s.mean i + s.r * x i                      -- line 46
      var := fun i => (1 - s.r) * s.var i + s.r * sq i }                     -- line 47

/-- The state dict as `get_state` gives it: the keys of `diagonal.py:28-36,48-55`; `base.py:140-161`: `get_state` writes the dict, `set_state` reads it. -/
def DiagState.asDict [Fintype ι] (s : DiagState ι K) : Dict ι K :=
  [("n_dim", .int (Fintype.card ι)), ("n_samples", .int s.nSamples), ("mean", .vec s.mean), ("var", .vec s.var),
   ("r", .float s.r), ("n_burn", .int s.nBurn)]

/-- The state read back from such a dict (`diagonal.py:28-36,48-55`; `base.py:149-161`). -/
def DiagState.ofDict [Zero K] (d : Dict ι K) : DiagState ι K :=
  { nSamples := d.nat "n_samples", mean := d.vec "mean", var := d.vec "var", r := d.float "r", nBurn := d.nat "n_burn" }

/-- `DiagonalCovariance` (`diagonal.py:16-61`). -/
def diagonalCls (ι K : Type) [Fintype ι] [DecidableEq ι] [Field K] [LinearOrder K] [FloorRing K] : Cls ι K where
  Param := RParam K
  State := DiagState ι K
  Dump := Dict ι K
  diff := RParam.diff
  withDiff b p := { p with diff := b }
  initState p := diagInit p.r
  updateState _ := diagUpdate
  nSamples s := s.nSamples
  toCov _ s := Matrix.diagonal s.var                                         -- line 58
  toMean _ s := s.mean                                                       -- line 61
  dump s := s.asDict.tolist
  load d := DiagState.ofDict d.fromlist

/-! ## `ledoitwolf.py` -/

/-- State dict of `LedoitWolfCovariance` (`ledoitwolf.py:30-31`). -/
structure LWState (ι K : Type) extends EwaState ι K where
  piBar : K

/-- `LedoitWolfCovariance._update_state` (`ledoitwolf.py:34-52`). -/
def lwUpdate [Fintype ι] [Field K] (s : LWState ι K) (x : ι → K) : LWState ι K :=
  if s.nSamples < s.nBurn then { s with toEwaState := ewaBurnStep s.toEwaState x }       -- lines 35-38
  else
    let r := s.r
    let delta : ι → K := fun i => x i - s.mean i                                         -- line 41
    let scatter := outer delta delta                                                     -- line 42
    let q := (∑ i, ∑ j, (scatter i j - s.cov i j) ^ 2) / (Fintype.card ι : K)            -- line 43
    { toEwaState := { s.toEwaState with toEmpState := ewaBlend r s.toEmpState x }        -- lines 45-50
      piBar := (1 - r) * s.piBar + r * q }                                               -- line 51

/-- `LedoitWolfCovariance._state_to_cov` (`ledoitwolf.py:54-64`). -/
def lwCov [Fintype ι] [DecidableEq ι] [Field K] [LinearOrder K] (s : LWState ι K) : Matrix ι ι K :=
  let S := s.cov
  let p : K := (Fintype.card ι : K)
  let mu := S.trace / p                                                                  -- line 57
  let d2 := (∑ i, ∑ j, (S i j - (mu • (1 : Matrix ι ι K)) i j) ^ 2) / p                  -- line 58
  if d2 ≤ 0 ∨ s.piBar ≤ 0 then S                                                         -- lines 59-60
  else
    let b2 := min (s.piBar * s.r) d2                                                     -- line 62
    let intensity := min (max (b2 / d2) 0) 1                                             -- line 63
    (1 - intensity) • S + (intensity * mu) • 1                                           -- line 64

/-- The state dict as `get_state` gives it: the keys of `ledoitwolf.py:29-32,44-52`; `base.py:140-161`: `get_state` writes the dict, `set_state` reads it. -/
def LWState.asDict [Fintype ι] (s : LWState ι K) : Dict ι K := s.toEwaState.asDict ++ [("pi_bar", .float s.piBar)]
/-- The state read back from such a dict (`ledoitwolf.py:29-32,44-52`; `base.py:149-161`). -/
def LWState.ofDict [Zero K] (d : Dict ι K) : LWState ι K :=
  { toEwaState := EwaState.ofDict d, piBar := d.float "pi_bar" }

/-- `LedoitWolfCovariance` (`ledoitwolf.py:17-64`). -/
def ledoitWolfCls (ι K : Type) [Fintype ι] [DecidableEq ι] [Field K] [LinearOrder K] [FloorRing K] : Cls ι K where
  Param := RParam K
  State := LWState ι K
  Dump := Dict ι K
  diff := RParam.diff
  withDiff b p := { p with diff := b }
  initState p := { toEwaState := ewaInit p.r, piBar := 0 }                               -- lines 29-32
  updateState _ := lwUpdate
  nSamples s := s.nSamples
  toCov _ := lwCov
  toMean _ s := s.mean
  dump s := s.asDict.tolist
  load d := LWState.ofDict d.fromlist

/-! ## `oas.py` -/

/-- `OASCovariance._state_to_cov` (`oas.py:36-47`). -/
def oasCov [Fintype ι] [DecidableEq ι] [Field K] [LinearOrder K] (s : EwaState ι K) : Matrix ι ι K :=
  let S := s.cov
  let p : K := (Fintype.card ι : K)
  let n : K := max (1 / s.r) 2                                                           -- line 40
  let tr := S.trace                                                                      -- line 41
  let tr2 := (S * S).trace                                                               -- line 42
  let mu := tr / p                                                                       -- line 43
  let num := (1 - 2 / p) * tr2 + tr * tr                                                 -- line 44
  let den := (n + 1 - 2 / p) * (tr2 - tr * tr / p)                                       -- line 45
  let rho := if den ≤ 0 then 1 else min (max (num / den) 0) 1                            -- line 46
  (1 - rho) • S + (rho * mu) • 1                                                         -- line 47

/-- `OASCovariance` (`oas.py:18-47`). -/
def oasCls (ι K : Type) [Fintype ι] [DecidableEq ι] [Field K] [LinearOrder K] [FloorRing K] : Cls ι K where
  Param := RParam K
  State := EwaState ι K
  Dump := Dict ι K
  diff := RParam.diff
  withDiff b p := { p with diff := b }
  initState p := ewaInit p.r
  updateState _ := ewaUpdate
  nSamples s := s.nSamples
  toCov _ := oasCov
  toMean _ s := s.mean
  dump s := s.asDict.tolist
  load d := EwaState.ofDict d.fromlist

/-! ## `shrunk.py` -/

/-- Parameters of `ShrunkCovariance` (`shrunk.py:28-39`). -/
structure ShrunkParam where
  r : ℝ
  delta : ℝ
  target : String
  diff : Bool

/-- `rbar` (`shrunk.py:53-56`): the mean off-diagonal entry of the standardized matrix; 0 when there is none. -/
noncomputable def shrunkRbar [Fintype ι] [DecidableEq ι] (S : Matrix ι ι ℝ) (d : ι → ℝ) : ℝ :=
  if Fintype.card ι * (Fintype.card ι - 1) = 0 then 0
  else (∑ i, ∑ j, if i = j then 0 else S i j / (d i * d j)) / ((Fintype.card ι : ℝ) * ((Fintype.card ι : ℝ) - 1))

/-- `ShrunkCovariance._state_to_cov` (`shrunk.py:47-59`). -/
noncomputable def shrunkCov [Fintype ι] [DecidableEq ι] (pr : ShrunkParam) (s : EwaState ι ℝ) : Matrix ι ι ℝ :=
  let S := s.cov
  let target : Matrix ι ι ℝ :=
    if pr.target = "identity" then (S.trace / (Fintype.card ι : ℝ)) • 1                  -- lines 50-51
    else
      let d : ι → ℝ := fun i => Real.sqrt (max (S i i) EPS)                              -- line 53
      let rbar := shrunkRbar S d                                                         -- lines 54-56
      Matrix.of fun i j => if i = j then S i i else rbar * (d i * d j)                   -- lines 57-58
  (1 - pr.delta) • S + pr.delta • target                                                 -- line 59

/-- `ShrunkCovariance` (`shrunk.py:19-59`). -/
noncomputable def shrunkCls (ι : Type) [Fintype ι] [DecidableEq ι] : Cls ι ℝ where
  Param := ShrunkParam
  State := EwaState ι ℝ
  Dump := Dict ι ℝ
  diff := ShrunkParam.diff
  withDiff b p := { p with diff := b }
  initState p := ewaInit p.r
  updateState _ := ewaUpdate
  nSamples s := s.nSamples
  toCov := shrunkCov
  toMean _ s := s.mean
  dump s := s.asDict.tolist
  load d := EwaState.ofDict d.fromlist

/-! ## `partialmoments.py` -/

/-- State dict of `PartialMomentsCovariance` (`partialmoments.py:35-42`). -/
structure PMState (ι : Type) where
  nSamples : ℕ
  mean : ι → ℝ
  quadrants : Fin 4 → Matrix ι ι ℝ
  r : ℝ
  nBurn : ℕ

/-- `_QUADRANTS` (`partialmoments.py:18`). -/
def quadrantSigns : Fin 4 → ℝ × ℝ := ![(1, 1), (-1, 1), (1, -1), (-1, -1)]

/-- `np.clip(centered * sign, 0, None) * sign` (`partialmoments.py:56-57`). -/
def pmLeg (sign : ℝ) (c : ι → ℝ) : ι → ℝ := fun i => max (c i * sign) 0 * sign

/-- `PartialMomentsCovariance._init_state` (`partialmoments.py:33-42`). -/
noncomputable def pmInit (r : ℝ) : PMState ι :=
  { nSamples := 0, mean := fun _ => 0, quadrants := fun _ => 0, r := r, nBurn := ewaBurnN r }

/-- `PartialMomentsCovariance._update_state` (`partialmoments.py:44-71`). -/
noncomputable def pmUpdate (s : PMState ι) (x : ι → ℝ) : PMState ι :=
  let count : ℕ := s.nSamples + 1                                                        -- line 45
  let mean : ι → ℝ :=
    if count ≤ s.nBurn then fun i => s.mean i + (x i - s.mean i) / (count : ℝ)           -- line 48
    else fun i => (1 - s.r) * s.mean i + s.r * x i                                       -- line 50
  let centered : ι → ℝ := fun i => x i - s.mean i                                        -- line 51
  { s with
    nSamples := count
    mean := mean
    quadrants := fun q =>
      let scatter := outer (pmLeg (quadrantSigns q).1 centered) (pmLeg (quadrantSigns q).2 centered)   -- line 58
      if count ≤ s.nBurn then s.quadrants q + (1 / (count : ℝ)) • (scatter - s.quadrants q)            -- line 60
      else (1 - s.r) • s.quadrants q + s.r • scatter }                                                 -- line 62

/-- `PartialMomentsCovariance._state_to_cov` (`partialmoments.py:73-75`). -/
noncomputable def pmCov [Fintype ι] [DecidableEq ι] (L : Lapack) (s : PMState ι) : Matrix ι ι ℝ :=
  nearestPosDef L (toSymmetric (∑ q, s.quadrants q))

/-- The state dict as `get_state` gives it: the keys of `partialmoments.py:33-42,64-71`; `base.py:140-161`: `get_state` writes the dict, `set_state` reads it. -/
def PMState.asDict [Fintype ι] (s : PMState ι) : Dict ι ℝ :=
  [("n_dim", .int (Fintype.card ι)), ("n_samples", .int s.nSamples), ("mean", .vec s.mean),
   ("quadrants", .mats (List.ofFn s.quadrants)), ("r", .float s.r), ("n_burn", .int s.nBurn)]

/-- The state read back from such a dict (`partialmoments.py:33-42,64-71`; `base.py:149-161`). -/
def PMState.ofDict (d : Dict ι ℝ) : PMState ι :=
  { nSamples := d.nat "n_samples", mean := d.vec "mean", quadrants := fun q => (d.mats "quadrants").getD q 0
    r := d.float "r", nBurn := d.nat "n_burn" }

/-- `PartialMomentsCovariance` (`partialmoments.py:21-75`). -/
noncomputable def partialMomentsCls (L : Lapack) (ι : Type) [Fintype ι] [DecidableEq ι] : Cls ι ℝ where
  Param := RParam ℝ
  State := PMState ι
  Dump := Dict ι ℝ
  diff := RParam.diff
  withDiff b p := { p with diff := b }
  initState p := pmInit p.r
  updateState _ := pmUpdate
  nSamples s := s.nSamples
  toCov _ := pmCov L
  toMean _ s := s.mean
  dump s := s.asDict.tolist
  load d := PMState.ofDict d.fromlist

/-! ## `huber.py` -/

/-- Parameters of `HuberCovariance` (`huber.py:27-31`). -/
structure HuberParam where
  r : ℝ
  c : ℝ
  diff : Bool

/-- The Huber weight (`huber.py:45-47`). -/
noncomputable def huberWeight [Fintype ι] [DecidableEq ι] (L : Lapack) (c : ℝ) (cov : Matrix ι ι ℝ) (delta : ι → ℝ) : ℝ :=
  let maha2 := Spec.quad (tryInvert L cov) delta                                         -- line 45
  let threshold := c ^ 2 * (Fintype.card ι : ℝ)                                          -- line 46
  if maha2 ≤ threshold then 1 else Real.sqrt (threshold / maha2)                         -- line 47

/-- `HuberCovariance._update_state` (`huber.py:36-56`). -/
noncomputable def huberUpdate [Fintype ι] [DecidableEq ι] (L : Lapack) (pr : HuberParam) (s : EwaState ι ℝ) (x : ι → ℝ) :
    EwaState ι ℝ :=
  if s.nSamples < s.nBurn then ewaBurnStep s x                                           -- lines 37-40
  else
    let delta : ι → ℝ := fun i => x i - s.mean i                                         -- line 43
    let w := huberWeight L pr.c s.cov delta
    let weighted : ι → ℝ := fun i => w * delta i                                         -- line 48
    { s with
      nSamples := s.nSamples + 1
      mean := fun i => s.mean i + s.r * weighted i                                       -- line 52
      cov := (1 - s.r) • s.cov + s.r • outer weighted weighted }                         -- line 53

/-- `HuberCovariance` (`huber.py:18-56`). -/
noncomputable def huberCls (L : Lapack) (ι : Type) [Fintype ι] [DecidableEq ι] : Cls ι ℝ where
  Param := HuberParam
  State := EwaState ι ℝ
  Dump := Dict ι ℝ
  diff := HuberParam.diff
  withDiff b p := { p with diff := b }
  initState p := ewaInit p.r
  updateState := huberUpdate L
  nSamples s := s.nSamples
  toCov _ s := s.cov
  toMean _ s := s.mean
  dump s := s.asDict.tolist
  load d := EwaState.ofDict d.fromlist

/-! ## `adaptive.py` -/

/-- Parameters of `AdaptiveEwaCovariance` (`adaptive.py:26-30`). -/
structure AdaParam where
  r : ℝ
  maxR : ℝ
  diff : Bool

/-- State dict of `AdaptiveEwaCovariance` (`adaptive.py:37-41`). -/
structure AdaState (ι : Type) extends EwaState ι ℝ where
  maxR : ℝ
  sbar : ℝ

/-- The smoothed surprise after an observation with innovation `dev` (`adaptive.py:51-56`), `_DETECT = 0.1`. -/
noncomputable def adaSbar [Fintype ι] [DecidableEq ι] (L : Lapack) (s : AdaState ι) (dev : ι → ℝ) : ℝ :=
  let maha2 := Spec.quad (tryInvert L s.cov) dev                                         -- line 54
  let ratio := if 0 < Fintype.card ι then maha2 / (Fintype.card ι : ℝ) else 1            -- line 55
  (1 - 1 / 10) * s.sbar + (1 / 10) * ratio                                               -- line 56

/-- `r_eff` (`adaptive.py:57`). -/
noncomputable def adaRate [Fintype ι] [DecidableEq ι] (L : Lapack) (s : AdaState ι) (dev : ι → ℝ) : ℝ :=
  min (max (s.r * adaSbar L s dev) s.r) s.maxR

/-- `AdaptiveEwaCovariance._update_state` (`adaptive.py:43-67`). -/
noncomputable def adaUpdate [Fintype ι] [DecidableEq ι] (L : Lapack) (s : AdaState ι) (x : ι → ℝ) : AdaState ι :=
  if s.nSamples < s.nBurn then { s with toEwaState := ewaBurnStep s.toEwaState x }       -- lines 44-49
  else
    let dev : ι → ℝ := fun i => x i - s.mean i                                           -- line 52
    { s with
      toEwaState := { s.toEwaState with toEmpState := ewaBlend (adaRate L s dev) s.toEmpState x }   -- lines 59-64
      sbar := adaSbar L s dev }

/-- The state dict as `get_state` gives it: the keys of `adaptive.py:37-41,58-67`; `base.py:140-161`: `get_state` writes the dict, `set_state` reads it. -/
def AdaState.asDict [Fintype ι] (s : AdaState ι) : Dict ι ℝ :=
  s.toEwaState.asDict ++ [("max_r", .float s.maxR), ("sbar", .float s.sbar)]
/-- The state read back from such a dict (`adaptive.py:37-41,58-67`; `base.py:149-161`). -/
def AdaState.ofDict (d : Dict ι ℝ) : AdaState ι :=
  { toEwaState := EwaState.ofDict d, maxR := d.float "max_r", sbar := d.float "sbar" }

/-- `AdaptiveEwaCovariance` (`adaptive.py:18-67`). -/
noncomputable def adaptiveCls (L : Lapack) (ι : Type) [Fintype ι] [DecidableEq ι] : Cls ι ℝ where
  Param := AdaParam
  State := AdaState ι
  Dump := Dict ι ℝ
  diff := AdaParam.diff
  withDiff b p := { p with diff := b }
  initState p := { toEwaState := ewaInit p.r, maxR := p.maxR, sbar := 1 }                -- lines 37-41
  updateState _ := adaUpdate L
  nSamples s := s.nSamples
  toCov _ s := s.cov
  toMean _ s := s.mean
  dump s := s.asDict.tolist
  load d := AdaState.ofDict d.fromlist

/-! ## `tyler.py` -/

/-- State dict of `TylerCovariance` (`tyler.py:34-41`). `shape = none` means that every entry of `C` is NaN. -/
structure TylerState (ι : Type) where
  nSamples : ℕ
  mean : ι → ℝ
  shape : Option (Matrix ι ι ℝ)
  r : ℝ
  nBurn : ℕ

open Classical in
/-- Lines 53-56 of `TylerCovariance._update_state` (`tyler.py`): the new shape matrix. `p * C / np.trace(C)` with
`np.trace(C) == 0` is 0/0: all NaN (`none`; `C` is PSD, so it is then the zero matrix). -/
noncomputable def tylerShape [Fintype ι] [DecidableEq ι] (L : Lapack) (lr : ℝ) (C : Matrix ι ι ℝ) (dev : ι → ℝ) :
    Option (Matrix ι ι ℝ) :=
  let p : ℝ := (Fintype.card ι : ℝ)
  let q := max (Spec.quad (tryInvert L C) dev) EPS                                       -- line 54
  let C := (1 - lr) • C + (lr * p / q) • outer dev dev                                   -- line 55
  if C.trace = 0 then none else some ((p / C.trace) • C)                                 -- line 56

/-- `TylerCovariance._update_state` (`tyler.py:43-59`). NaN entries stay NaN. -/
noncomputable def tylerUpdate [Fintype ι] [DecidableEq ι] (L : Lapack) (s : TylerState ι) (x : ι → ℝ) : TylerState ι :=
  let n : ℕ := s.nSamples + 1                                                            -- line 45
  let lr : ℝ := if n ≤ s.nBurn then 1 / (n : ℝ) else s.r                                 -- lines 47, 50
  let mean : ι → ℝ :=
    if n ≤ s.nBurn then fun i => s.mean i + (x i - s.mean i) / (n : ℝ)                   -- line 48
    else fun i => (1 - s.r) * s.mean i + s.r * x i                                       -- line 51
  let dev : ι → ℝ := fun i => x i - s.mean i                                             -- line 52
  { s with nSamples := n, mean := mean, shape := s.shape.bind fun C => tylerShape L lr C dev }

/-- The state dict as `get_state` gives it: the keys of `tyler.py:33-41,57-59`; `base.py:140-161`: `get_state` writes the dict, `set_state` reads it. -/
def TylerState.asDict [Fintype ι] (s : TylerState ι) : Dict ι ℝ :=
  [("n_dim", .int (Fintype.card ι)), ("n_samples", .int s.nSamples), ("mean", .vec s.mean),
   ("C", match s.shape with | some m => .mat m | none => .nanMat), ("r", .float s.r), ("n_burn", .int s.nBurn)]
/-- The state read back from such a dict (`tyler.py:33-41,57-59`; `base.py:149-161`). -/
def TylerState.ofDict (d : Dict ι ℝ) : TylerState ι :=
  { nSamples := d.nat "n_samples", mean := d.vec "mean", shape := d.matNan "C", r := d.float "r", nBurn := d.nat "n_burn" }

/-- `TylerCovariance` (`tyler.py:21-65`). Simplification: when the shape is NaN, so is `covariance_`; a matrix
of reals cannot say so and `toCov` is 0 there. Theorems about Tyler's `covariance_` assume the shape is not NaN. -/
noncomputable def tylerCls (L : Lapack) (ι : Type) [Fintype ι] [DecidableEq ι] : Cls ι ℝ where
  Param := RParam ℝ
  State := TylerState ι
  Dump := Dict ι ℝ
  diff := RParam.diff
  withDiff b p := { p with diff := b }
  initState p := { nSamples := 0, mean := fun _ => 0, shape := some 1, r := p.r, nBurn := ewaBurnN p.r }  -- lines 33-41
  updateState _ := tylerUpdate L
  nSamples s := s.nSamples
  toCov _ s := (s.shape.map covToCorr).getD 0                                            -- line 62
  toMean _ s := s.mean
  dump s := s.asDict.tolist
  load d := TylerState.ofDict d.fromlist

/-! ## `geodesic.py` -/

/-- `GeodesicEwaCovariance._update_state` (`geodesic.py:39-58`). -/
noncomputable def geodesicUpdate [Fintype ι] [DecidableEq ι] (L : Lapack) (s : EwaState ι ℝ) (x : ι → ℝ) : EwaState ι ℝ :=
  if s.nSamples < s.nBurn then ewaBurnStep s x                                           -- lines 41-45
  else
    let delta : ι → ℝ := fun i => x i - s.mean i                                         -- line 47
    { s with
      nSamples := s.nSamples + 1
      mean := fun i => (1 - s.r) * s.mean i + s.r * x i                                  -- line 48
      cov := geodesicStep L s.cov (outer delta delta) s.r }                              -- lines 49-50

/-- `GeodesicEwaCovariance` (`geodesic.py:24-58`). -/
noncomputable def geodesicCls (L : Lapack) (ι : Type) [Fintype ι] [DecidableEq ι] : Cls ι ℝ where
  Param := RParam ℝ
  State := EwaState ι ℝ
  Dump := Dict ι ℝ
  diff := RParam.diff
  withDiff b p := { p with diff := b }
  initState p := ewaInit p.r
  updateState _ := geodesicUpdate L
  nSamples s := s.nSamples
  toCov _ s := s.cov
  toMean _ s := s.mean
  dump s := s.asDict.tolist
  load d := EwaState.ofDict d.fromlist

/-! ## `dcc.py` -/

/-- Parameters of `DCCCovariance` (`dcc.py:26-30`); `volR = none` is Python's `None`. -/
structure DCCParam where
  r : ℝ
  volR : Option ℝ
  diff : Bool

/-- State dict of `DCCCovariance` (`dcc.py:32-39`). Simplification: the unused key `cov` of `emp_init` is left out. -/
structure DCCState (ι : Type) where
  nSamples : ℕ
  mean : ι → ℝ
  h : ι → ℝ
  Q : Matrix ι ι ℝ
  r : ℝ
  volR : ℝ
  nBurn : ℕ

/-- `DCCCovariance._init_state` (`dcc.py:32-39`). -/
noncomputable def dccInit [DecidableEq ι] (p : DCCParam) : DCCState ι :=
  { nSamples := 0, mean := fun _ => 0, h := fun _ => 1, Q := 1, r := p.r, volR := p.volR.getD p.r
    nBurn := ewaBurnN (min p.r (p.volR.getD p.r)) }

/-- `DCCCovariance._update_state` (`dcc.py:41-70`). -/
noncomputable def dccUpdate (s : DCCState ι) (x : ι → ℝ) : DCCState ι :=
  let n : ℕ := s.nSamples + 1                                                            -- line 43
  let dev : ι → ℝ := fun i => x i - s.mean i                                             -- line 45
  let mean : ι → ℝ :=
    if n ≤ s.nBurn then fun i => s.mean i + dev i / (n : ℝ)                              -- line 48
    else fun i => (1 - s.volR) * s.mean i + s.volR * x i                                 -- line 51
  let h : ι → ℝ :=
    if n ≤ s.nBurn then fun i => s.h i + (dev i * dev i - s.h i) / (n : ℝ)               -- line 49
    else fun i => (1 - s.volR) * s.h i + s.volR * (dev i * dev i)                        -- line 52
  let eps : ι → ℝ := fun i => dev i / Real.sqrt (max (h i) EPS)                          -- line 54
  let Q : Matrix ι ι ℝ :=
    if n ≤ s.nBurn then s.Q + (1 / (n : ℝ)) • (outer eps eps - s.Q)                      -- line 57
    else (1 - s.r) • s.Q + s.r • outer eps eps                                           -- line 59
  { s with nSamples := n, mean := mean, h := h, Q := Q }

/-- `DCCCovariance._state_to_cov` (`dcc.py:72-78`). -/
noncomputable def dccCov (s : DCCState ι) : Matrix ι ι ℝ :=
  let qInv : ι → ℝ := fun i => 1 / Real.sqrt (max (s.Q i i) EPS)                         -- line 75
  let d : ι → ℝ := fun i => Real.sqrt (max (s.h i) EPS)                                  -- line 77
  Matrix.of fun i j => s.Q i j * (qInv i * qInv j) * (d i * d j)                         -- lines 76, 78

/-- The state dict as `get_state` gives it: the keys of `dcc.py:32-39,61-70`; `base.py:140-161`: `get_state` writes the dict, `set_state` reads it. -/
def DCCState.asDict [Fintype ι] (s : DCCState ι) : Dict ι ℝ :=
  [("n_dim", .int (Fintype.card ι)), ("n_samples", .int s.nSamples), ("mean", .vec s.mean), ("h", .vec s.h),
   ("Q", .mat s.Q), ("r", .float s.r), ("vol_r", .float s.volR), ("n_burn", .int s.nBurn)]
/-- The state read back from such a dict (`dcc.py:32-39,61-70`; `base.py:149-161`). -/
def DCCState.ofDict (d : Dict ι ℝ) : DCCState ι :=
  { nSamples := d.nat "n_samples", mean := d.vec "mean", h := d.vec "h", Q := d.mat "Q", r := d.float "r"
    volR := d.float "vol_r", nBurn := d.nat "n_burn" }

/-- `DCCCovariance` (`dcc.py:18-78`). -/
noncomputable def dccCls (ι : Type) [Fintype ι] [DecidableEq ι] : Cls ι ℝ where
  Param := DCCParam
  State := DCCState ι
  Dump := Dict ι ℝ
  diff := DCCParam.diff
  withDiff b p := { p with diff := b }
  initState := dccInit
  updateState _ := dccUpdate
  nSamples s := s.nSamples
  toCov _ := dccCov
  toMean _ s := s.mean
  dump s := s.asDict.tolist
  load d := DCCState.ofDict d.fromlist

/-! ## `factor.py` -/

/-- Parameters of `FactorCovariance` (`factor.py:25-29`); a negative `k` raises in `np.zeros`. -/
structure FactorParam where
  k : ℕ
  r : ℝ
  diff : Bool

/-- State dict of `FactorCovariance` (`factor.py:33-42`); `V` is the list of its rows. -/
structure FactorState (ι : Type) where
  nSamples : ℕ
  mean : ι → ℝ
  var : ι → ℝ
  V : List (ι → ℝ)
  k : ℕ
  r : ℝ
  nBurn : ℕ

/-- `np.linalg.norm(v)` of a vector (`factor.py:63,89`). -/
noncomputable def vecNorm [Fintype ι] (v : ι → ℝ) : ℝ := Real.sqrt (Spec.normSq v)

/-- `FactorCovariance._init_state` (`factor.py:31-42`). -/
noncomputable def factorInit [Fintype ι] (p : FactorParam) : FactorState ι :=
  let k := min p.k (Fintype.card ι)
  { nSamples := 0, mean := fun _ => 0, var := fun _ => 0, V := List.replicate k 0, k := k, r := p.r, nBurn := k + 1 }

/-- The CCIPCA loop (`factor.py:62-70`) over the rows of `V`, with the deflated residual `u`. -/
noncomputable def factorLoop [Fintype ι] (lr : ℝ) : List (ι → ℝ) → (ι → ℝ) → List (ι → ℝ)
  | [], _ => []
  | v :: vs, u =>
    let norm := vecNorm v                                                                -- line 63
    if norm < EPS then u :: vs                                                           -- lines 64-66
    else
      let vhat : ι → ℝ := fun i => v i / norm                                            -- line 67
      let proj := ∑ i, u i * vhat i                                                      -- line 68
      (fun i => (1 - lr) * v i + lr * proj * u i)                                        -- line 69
        :: factorLoop lr vs (fun i => u i - proj * vhat i)                               -- line 70

/-- `FactorCovariance._update_state` (`factor.py:44-81`). -/
noncomputable def factorUpdate [Fintype ι] (s : FactorState ι) (x : ι → ℝ) : FactorState ι :=
  let n : ℕ := s.nSamples + 1                                                            -- line 45
  let dev : ι → ℝ := fun i => x i - s.mean i                                             -- line 48
  let lr : ℝ := if n ≤ s.nBurn then 1 / (n : ℝ) else s.r                                 -- lines 52, 56
  { s with
    nSamples := n
    mean :=
      if n ≤ s.nBurn then fun i => s.mean i + (x i - s.mean i) / (n : ℝ)                 -- line 53
      else fun i => (1 - s.r) * s.mean i + s.r * x i                                     -- line 57
    var :=
      if n ≤ s.nBurn then fun i => s.var i + (dev i * dev i - s.var i) / (n : ℝ)         -- line 54
      else fun i => (1 - s.r) * s.var i + s.r * (dev i * dev i)                          -- line 58
    V := factorLoop lr s.V dev }                                                         -- lines 60-70

/-- The rows of `V` that count (`factor.py:90`). -/
noncomputable def factorActive [Fintype ι] (V : List (ι → ℝ)) : List (ι → ℝ) :=
  open Classical in V.filter fun v => decide (EPS < vecNorm v)

/-- `factor` (`factor.py:86-91`). -/
noncomputable def factorPart [Fintype ι] (V : List (ι → ℝ)) : Matrix ι ι ℝ :=
  ((factorActive V).map fun v => (1 / vecNorm v) • outer v v).sum

/-- `captured` (`factor.py:87,92`). -/
noncomputable def factorCaptured [Fintype ι] (V : List (ι → ℝ)) : ι → ℝ :=
  fun i => ((factorActive V).map fun v => vecNorm v * (v i / vecNorm v) ^ 2).sum

/-- `FactorCovariance._state_to_cov` (`factor.py:83-95`). -/
noncomputable def factorCov [Fintype ι] [DecidableEq ι] (s : FactorState ι) : Matrix ι ι ℝ :=
  factorPart s.V + diagonal fun i => max (s.var i - factorCaptured s.V i) 0              -- lines 94-95

/-- The state dict as `get_state` gives it: the keys of `factor.py:31-42,72-81`; `base.py:140-161`: `get_state` writes the dict, `set_state` reads it. -/
def FactorState.asDict [Fintype ι] (s : FactorState ι) : Dict ι ℝ :=
  [("n_dim", .int (Fintype.card ι)), ("n_samples", .int s.nSamples), ("mean", .vec s.mean), ("var", .vec s.var),
   ("V", .rows s.V), ("k", .int s.k), ("r", .float s.r), ("n_burn", .int s.nBurn)]
/-- The state read back from such a dict (`factor.py:31-42,72-81`; `base.py:149-161`). -/
def FactorState.ofDict (d : Dict ι ℝ) : FactorState ι :=
  { nSamples := d.nat "n_samples", mean := d.vec "mean", var := d.vec "var", V := d.rows "V", k := d.nat "k"
    r := d.float "r", nBurn := d.nat "n_burn" }

/-- `FactorCovariance` (`factor.py:17-95`). -/
noncomputable def factorCls (ι : Type) [Fintype ι] [DecidableEq ι] : Cls ι ℝ where
  Param := FactorParam
  State := FactorState ι
  Dump := Dict ι ℝ
  diff := FactorParam.diff
  withDiff b p := { p with diff := b }
  initState := factorInit
  updateState _ := factorUpdate
  nSamples s := s.nSamples
  toCov _ := factorCov
  toMean _ s := s.mean
  dump s := s.asDict.tolist
  load d := FactorState.ofDict d.fromlist

end Precise
