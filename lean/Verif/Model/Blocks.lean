import Verif.Model.Estimators
import Mathlib.Data.Fintype.Sets

/-!
# Model of the block-structured estimators

`block_covariance.py`, `schurcov.py`, `schur_ledoit_wolf.py`, `schur_conditional.py`. The variables are `Fin p`.
-/

open Matrix

namespace Precise

/-! ## Contiguous blocks: `np.array_split(np.arange(p), nb)` -/

/-- The piece sizes of `np.array_split` on `p` items and `nb ≥ 1` pieces: the first `p % nb` pieces get one more
(numpy, used at `block_covariance.py:42`, `schurcov.py:52`, `schur_ledoit_wolf.py:48`, `schur_conditional.py:48,53`). -/
def splitSizes (p nb : ℕ) : List ℕ := List.replicate (p % nb) (p / nb + 1) ++ List.replicate (nb - p % nb) (p / nb)

/-- Running sum: the division points of `np.array_split`
(used at `block_covariance.py:42`, `schur_conditional.py:48,53`, `schur_ledoit_wolf.py:48`, `schurcov.py:52`). -/
def divPoints (p nb : ℕ) : List ℕ := (splitSizes p nb).scanl (· + ·) 0

/-- `[(int(idx[0]), int(idx[-1]) + 1) for idx in np.array_split(np.arange(p), nb)]` (`block_covariance.py:42`,
`schur_conditional.py:48`). -/
def slices (p nb : ℕ) : List (ℕ × ℕ) := (divPoints p nb).zip (divPoints p nb).tail

/-- `for bi, idx in enumerate(...): block_id[idx] = bi` (`schurcov.py:51-53`, `schur_ledoit_wolf.py:47-49`,
`schur_conditional.py:52-54`), for variable `i`. -/
def blockId (p nb : ℕ) (i : ℕ) : ℕ :=
  ((slices p nb).zipIdx).foldl (fun acc s => if s.1.1 ≤ i ∧ i < s.1.2 then s.2 else acc) 0

/-- `min(max(1, self.n_blocks), p)` (`block_covariance.py:41`, `schur_conditional.py:47,51`). -/
def nbClamped (n : ℤ) (p : ℕ) : ℕ := (min (max 1 n) p).toNat

/-- `min(self.n_blocks, p)` (`schurcov.py:50`, `schur_ledoit_wolf.py:46`). `np.array_split` raises ValueError when
it is not positive; `schurNb?` has the error. -/
def schurNb (n : ℤ) (p : ℕ) : ℕ := (min n p).toNat

/-- `schurNb` with the error of `np.array_split` (`schurcov.py:50-52`). -/
def schurNb? (n : ℤ) (p : ℕ) : Except PyErr ℕ := if min n p ≤ 0 then .error .valueError else .ok (schurNb n p)

/-- The variables of block `k`: `range(a, b)` (`block_covariance.py:42`). -/
abbrev BlockIx (p nb k : ℕ) : Type :=
  {i : Fin p // ((slices p nb).getD k (0, 0)).1 ≤ i.1 ∧ i.1 < ((slices p nb).getD k (0, 0)).2}

/-- Parameters of `BlockCovariance`, `SchurLedoitWolfCovariance`, `SchurConditionalCovariance` (`block_covariance.py:34-38`,
`schur_ledoit_wolf.py:38-43`, `schur_conditional.py:39-44`). -/
structure BlockParam where
  r : ℝ
  nBlocks : ℤ
  diff : Bool

/-! ## `block_covariance.py` -/

/-- State dict of `BlockCovariance` (`block_covariance.py:46-53`). The key `slices` is `slices p nb`; the sub-state of
block `k` is indexed by the variables of the block. -/
structure BlockState (p : ℕ) where
  nSamples : ℕ
  r : ℝ
  nBurn : ℕ
  nb : ℕ
  subs : (k : Fin nb) → EwaState (BlockIx p nb k) ℝ

/-- `BlockCovariance._init_state` (`block_covariance.py:44-53`). -/
noncomputable def blockInit (p : ℕ) (pr : BlockParam) : BlockState p :=
  { nSamples := 0, r := pr.r, nBurn := ewaBurnN pr.r, nb := nbClamped pr.nBlocks p, subs := fun _ => ewaInit pr.r }

/-- `BlockCovariance._update_state` (`block_covariance.py:55-61`). -/
noncomputable def blockUpdate {p : ℕ} (s : BlockState p) (x : Fin p → ℝ) : BlockState p :=
  { s with nSamples := s.nSamples + 1, subs := fun k => ewaUpdate (s.subs k) (fun i => x i.1) }

/-- The loop `for ...: out[a:b, a:b] = f(sub)` on a zero matrix (`block_covariance.py:69-72, 81-84`). -/
noncomputable def blockAssemble {p nb : ℕ} (f : (k : Fin nb) → Matrix (BlockIx p nb k) (BlockIx p nb k) ℝ) :
    Matrix (Fin p) (Fin p) ℝ :=
  (List.finRange nb).foldl (fun out (k : Fin nb) => Matrix.of fun i j =>
    if h : (((slices p nb).getD k (0, 0)).1 ≤ i.1 ∧ i.1 < ((slices p nb).getD k (0, 0)).2) ∧
      (((slices p nb).getD k (0, 0)).1 ≤ j.1 ∧ j.1 < ((slices p nb).getD k (0, 0)).2)
    then f k ⟨i, h.1⟩ ⟨j, h.2⟩ else out i j) 0

/-- The loop `for ...: m[a:b] = f(sub)` on a zero vector (`block_covariance.py:86-90`). -/
noncomputable def blockAssembleVec {p nb : ℕ} (f : (k : Fin nb) → BlockIx p nb k → ℝ) : Fin p → ℝ :=
  (List.finRange nb).foldl (fun out (k : Fin nb) => fun i =>
    if h : ((slices p nb).getD k (0, 0)).1 ≤ i.1 ∧ i.1 < ((slices p nb).getD k (0, 0)).2
    then f k ⟨i, h⟩ else out i) 0

/-- `_pd_block` (`block_covariance.py:63-65`). -/
noncomputable def pdBlock {ι : Type} [Fintype ι] [DecidableEq ι] (L : Lapack) (sub : EwaState ι ℝ) : Matrix ι ι ℝ :=
  makePosDef L (toSymmetric sub.cov)

/-- `BlockCovariance._state_to_cov` (`block_covariance.py:67-72`). -/
noncomputable def blockCov {p : ℕ} (L : Lapack) (s : BlockState p) : Matrix (Fin p) (Fin p) ℝ :=
  blockAssemble fun k => pdBlock L (s.subs k)

/-- `BlockCovariance.precision_` on a fitted state (`block_covariance.py:74-84`). -/
noncomputable def blockPrec {p : ℕ} (L : Lapack) (s : BlockState p) : Matrix (Fin p) (Fin p) ℝ :=
  blockAssemble fun k => (pdBlock L (s.subs k))⁻¹

/-- What `BlockCovariance.get_state` returns (`block_covariance.py:94-106`); `slices` is `slices p nb`. -/
structure BlockDump (p : ℕ) where
  nSamples : ℕ
  r : ℝ
  nBurn : ℕ
  nb : ℕ
  blockMeans : (k : Fin nb) → BlockIx p nb k → ℝ
  blockCovs : (k : Fin nb) → Matrix (BlockIx p nb k) (BlockIx p nb k) ℝ

/-- `BlockCovariance` (`block_covariance.py:26-123`). -/
noncomputable def blockCls (L : Lapack) (p : ℕ) : Cls (Fin p) ℝ where
  Param := BlockParam
  State := BlockState p
  Dump := BlockDump p
  diff := BlockParam.diff
  withDiff b pr := { pr with diff := b }
  initState := blockInit p
  updateState _ := blockUpdate
  nSamples s := s.nSamples
  toCov _ := blockCov L
  toMean _ s := blockAssembleVec fun k => (s.subs k).mean                                -- lines 86-90
  dump s := { nSamples := s.nSamples, r := s.r, nBurn := s.nBurn, nb := s.nb             -- lines 98-106
              blockMeans := fun k => (s.subs k).mean, blockCovs := fun k => (s.subs k).cov }
  load d := { nSamples := d.nSamples, r := d.r, nBurn := d.nBurn, nb := d.nb             -- lines 113-122
              subs := fun k => { nSamples := d.nSamples, mean := d.blockMeans k, cov := d.blockCovs k, r := d.r, nBurn := d.nBurn } }

/-- `BlockCovariance.precision_` (`block_covariance.py:74-84`), which overrides the base class. -/
noncomputable def blockPrecision {p : ℕ} (L : Lapack) (o : Obj (blockCls L p)) : Except PyErr (Matrix (Fin p) (Fin p) ℝ) :=
  o.fittedState.map (blockPrec L)

/-! ## `schurcov.py` -/

/-- `out[cross] *= gamma` where `cross` are the pairs in different blocks (`schurcov.py:54,60`,
`schur_ledoit_wolf.py:50,87`; with `gamma = 0` also `block_diag[cross] = 0.0`, `schurcov.py:57`). -/
def dampCross {ι K : Type} [Mul K] (bid : ι → ℕ) (gamma : K) (a : Matrix ι ι K) : Matrix ι ι K :=
  Matrix.of fun i j => if bid i ≠ bid j then a i j * gamma else a i j

/-- Parameters of `SchurCovariance` (`schurcov.py:32-39`). -/
structure SchurParam where
  r : ℝ
  nBlocks : ℤ
  gamma : ℝ
  interpolation : String
  diff : Bool

/-- `SchurCovariance._state_to_cov` (`schurcov.py:47-61`). Contract: `1 ≤ n_blocks` (otherwise it raises, `schurNb?`). -/
noncomputable def schurCov {p : ℕ} (L : Lapack) (pr : SchurParam) (s : EwaState (Fin p) ℝ) : Matrix (Fin p) (Fin p) ℝ :=
  let cov := s.cov
  let bid : Fin p → ℕ := fun i => blockId p (schurNb pr.nBlocks p) i                     -- lines 50-53
  if pr.interpolation = "geodesic" then
    let blockDiag : Matrix (Fin p) (Fin p) ℝ := Matrix.of fun i j => if bid i ≠ bid j then 0 else cov i j  -- lines 56-57
    geodesicStep L (makePosDef L blockDiag) (makePosDef L cov) pr.gamma                  -- line 58
  else makePosDef L (toSymmetric (dampCross bid pr.gamma cov))                           -- lines 59-61

/-- `SchurCovariance` (`schurcov.py:20-61`). -/
noncomputable def schurCls (L : Lapack) (p : ℕ) : Cls (Fin p) ℝ where
  Param := SchurParam
  State := EwaState (Fin p) ℝ
  Dump := Dict (Fin p) ℝ
  diff := SchurParam.diff
  withDiff b pr := { pr with diff := b }
  initState pr := ewaInit pr.r
  updateState _ := ewaUpdate
  nSamples s := s.nSamples
  toCov := schurCov L
  toMean _ s := s.mean
  dump s := s.asDict.tolist
  load d := EwaState.ofDict d.fromlist

/-! ## `schur_ledoit_wolf.py` -/

/-- State dict of `SchurLedoitWolfCovariance` (`schur_ledoit_wolf.py:52-57`). -/
structure SLWState (ι : Type) extends EwaState ι ℝ where
  piCross : ℝ

/-- `np.sum(m[cross])` (`schur_ledoit_wolf.py:68,82`). -/
noncomputable def sumCross {ι : Type} [Fintype ι] (bid : ι → ℕ) (m : Matrix ι ι ℝ) : ℝ :=
  ∑ i, ∑ j, if bid i ≠ bid j then m i j else 0

/-- `SchurLedoitWolfCovariance._update_state` (`schur_ledoit_wolf.py:59-77`). -/
noncomputable def slwUpdate {p : ℕ} (pr : BlockParam) (s : SLWState (Fin p)) (x : Fin p → ℝ) : SLWState (Fin p) :=
  if s.nSamples < s.nBurn then { s with toEwaState := ewaBurnStep s.toEwaState x }       -- lines 60-63
  else
    let bid : Fin p → ℕ := fun i => blockId p (schurNb pr.nBlocks p) i                   -- line 65
    let delta : Fin p → ℝ := fun i => x i - s.mean i                                     -- line 66
    let q := sumCross bid (Matrix.of fun i j => (outer delta delta i j - s.cov i j) ^ 2) -- lines 67-68
    { toEwaState := { s.toEwaState with toEmpState := ewaBlend s.r s.toEmpState x }      -- lines 70-75
      piCross := (1 - s.r) * s.piCross + s.r * q }                                       -- line 76

/-- `gamma` (`schur_ledoit_wolf.py:80-85`): the value of `gamma_` after `covariance_` has been read. -/
noncomputable def slwGamma {p : ℕ} (pr : BlockParam) (s : SLWState (Fin p)) : ℝ :=
  let bid : Fin p → ℕ := fun i => blockId p (schurNb pr.nBlocks p) i
  let m2 := sumCross bid (Matrix.of fun i j => s.cov i j ^ 2)                            -- line 82
  let b2 := s.piCross * s.r                                                              -- line 83
  if 0 < m2 then min (max (1 - b2 / m2) 0) 1 else 1                                      -- line 84

/-- `SchurLedoitWolfCovariance._state_to_cov` (`schur_ledoit_wolf.py:79-88`). Contract: `1 ≤ n_blocks`. -/
noncomputable def slwCov {p : ℕ} (L : Lapack) (pr : BlockParam) (s : SLWState (Fin p)) : Matrix (Fin p) (Fin p) ℝ :=
  let bid : Fin p → ℕ := fun i => blockId p (schurNb pr.nBlocks p) i
  makePosDef L (toSymmetric (dampCross bid (slwGamma pr s) s.cov))                       -- lines 86-88

/-- The state dict as `get_state` gives it: the keys of `schur_ledoit_wolf.py:52-57,69-77`; `base.py:140-161`: `get_state` writes the dict, `set_state` reads it. -/
def SLWState.asDict {ι : Type} [Fintype ι] (s : SLWState ι) : Dict ι ℝ := s.toEwaState.asDict ++ [("pi_cross", .float s.piCross)]
/-- The state read back from such a dict (`schur_ledoit_wolf.py:52-57,69-77`; `base.py:149-161`). -/
def SLWState.ofDict {ι : Type} (d : Dict ι ℝ) : SLWState ι := { toEwaState := EwaState.ofDict d, piCross := d.float "pi_cross" }

/-- `SchurLedoitWolfCovariance` (`schur_ledoit_wolf.py:28-88`). -/
noncomputable def schurLWCls (L : Lapack) (p : ℕ) : Cls (Fin p) ℝ where
  Param := BlockParam
  State := SLWState (Fin p)
  Dump := Dict (Fin p) ℝ
  diff := BlockParam.diff
  withDiff b pr := { pr with diff := b }
  initState pr := { toEwaState := ewaInit pr.r, piCross := 0 }                           -- lines 52-57
  updateState := slwUpdate
  nSamples s := s.nSamples
  toCov := slwCov L
  toMean _ s := s.mean
  dump s := s.asDict.tolist
  load d := SLWState.ofDict d.fromlist

/-- `gamma_` of a fitted SchurLedoitWolfCovariance, as set by the last read of `covariance_` on this state
(`schur_ledoit_wolf.py:85`). -/
noncomputable def slwGammaAttr {p : ℕ} (L : Lapack) (o : Obj (schurLWCls L p)) : Except PyErr ℝ :=
  o.fittedState.map (slwGamma o.params)

/-! ## `schur_conditional.py` -/

/-- `_n_eff` (`schur_conditional.py:63-66`). -/
noncomputable def scNEff {ι : Type} (s : EwaState ι ℝ) : ℝ := max 2 (min (s.nSamples : ℝ) ((2 - s.r) / s.r))

open Classical in
/-- `_gamma_star(R, n_eff)` (`schur_conditional.py:68-79`). -/
noncomputable def scGamma {ι : Type} [Fintype ι] (bid : ι → ℕ) (R : Matrix ι ι ℝ) (nEff : ℝ) : ℝ :=
  if ∀ i j, bid i = bid j then 1                                                         -- lines 74-75
  else
    let num := sumCross bid (Matrix.of fun i j => max (R i j ^ 2 - (1 + R i j ^ 2) / nEff) 0)   -- lines 76-77
    let den := sumCross bid (Matrix.of fun i j => R i j ^ 2)                             -- line 78
    if 0 < den then min (max (num / den) 0) 1 else 0                                     -- line 79

/-- The variables before block `k` (`pa, pb = 0, ak`, `schur_conditional.py:96`). -/
abbrev PrevIx (p nb k : ℕ) : Type := {i : Fin p // i.1 < ((slices p nb).getD k (0, 0)).1}

/-- The matrix of the hedge regression of block `k` (`schur_conditional.py:97-102`). -/
noncomputable def scSystem {p : ℕ} (nb k : ℕ) (R : Matrix (Fin p) (Fin p) ℝ) (nEff : ℝ) : Matrix (PrevIx p nb k) (PrevIx p nb k) ℝ :=
  let Rcc : Matrix (PrevIx p nb k) (PrevIx p nb k) ℝ := R.submatrix Subtype.val Subtype.val        -- line 97
  let ridge := min (max ((((slices p nb).getD k (0, 0)).1 : ℝ) / nEff) 0) (9 / 10)       -- line 98
  ((1 - ridge) • Rcc + ridge • diagonal (fun i => Rcc i i)) + (1 / 10 ^ 10 : ℝ) • 1      -- lines 99, 102

/-- One iteration of the reassembly loop (`schur_conditional.py:94-109`). `np.linalg.solve` is the inverse times the
right-hand side; it raises LinAlgError when the matrix is singular (`scSolvable`). -/
noncomputable def scStep {p : ℕ} (L : Lapack) (nb : ℕ) (R : Matrix (Fin p) (Fin p) ℝ) (nEff gamma : ℝ)
    (Rg : Matrix (Fin p) (Fin p) ℝ) (k : ℕ) : Matrix (Fin p) (Fin p) ℝ :=
  let Rck : Matrix (PrevIx p nb k) (BlockIx p nb k) ℝ := R.submatrix Subtype.val Subtype.val     -- line 100
  let Rkk : Matrix (BlockIx p nb k) (BlockIx p nb k) ℝ := R.submatrix Subtype.val Subtype.val    -- line 101
  let b := (scSystem nb k R nEff)⁻¹ * Rck                                                -- line 102
  let S := makePosDef L (toSymmetric (Rkk - Rckᵀ * b))                                   -- line 103
  let bg := gamma • b                                                                    -- line 104
  let Sg := (1 - gamma) • Rkk + gamma • S                                                -- line 105
  let Rprev : Matrix (PrevIx p nb k) (PrevIx p nb k) ℝ := Rg.submatrix Subtype.val Subtype.val   -- line 106
  let low := bgᵀ * Rprev                                                                 -- line 107
  let new := Sg + bgᵀ * Rprev * bg                                                       -- line 109
  Matrix.of fun i j =>
    if hi : ((slices p nb).getD k (0, 0)).1 ≤ i.1 ∧ i.1 < ((slices p nb).getD k (0, 0)).2 then
      if hj : ((slices p nb).getD k (0, 0)).1 ≤ j.1 ∧ j.1 < ((slices p nb).getD k (0, 0)).2 then new ⟨i, hi⟩ ⟨j, hj⟩
      else if hj : j.1 < ((slices p nb).getD k (0, 0)).1 then low ⟨i, hi⟩ ⟨j, hj⟩ else Rg i j
    else if hj : ((slices p nb).getD k (0, 0)).1 ≤ j.1 ∧ j.1 < ((slices p nb).getD k (0, 0)).2 then
      if hi : i.1 < ((slices p nb).getD k (0, 0)).1 then low ⟨j, hj⟩ ⟨i, hi⟩ else Rg i j    -- line 108
    else Rg i j

/-- `Rg` after the loop (`schur_conditional.py:91-109`). -/
noncomputable def scReassemble {p : ℕ} (L : Lapack) (nb : ℕ) (R : Matrix (Fin p) (Fin p) ℝ) (nEff gamma : ℝ) :
    Matrix (Fin p) (Fin p) ℝ :=
  let Rg0 : Matrix (Fin p) (Fin p) ℝ := Matrix.of fun i j =>                             -- lines 91-93
    if i.1 < ((slices p nb).getD 0 (0, 0)).2 ∧ j.1 < ((slices p nb).getD 0 (0, 0)).2 then R i j else 0
  ((List.range (nb - 1)).map (· + 1)).foldl (scStep L nb R nEff gamma) Rg0               -- lines 94-109

/-- `gamma_` (`schur_conditional.py:87-89`), once `covariance_` has been read. -/
noncomputable def scGammaOf {p : ℕ} (pr : BlockParam) (s : EwaState (Fin p) ℝ) : ℝ :=
  scGamma (fun i : Fin p => blockId p (nbClamped pr.nBlocks p) i) (covToCorr s.cov) (scNEff s)

/-- `SchurConditionalCovariance._state_to_cov` (`schur_conditional.py:81-111`) when no `solve` raises. -/
noncomputable def scCov {p : ℕ} (L : Lapack) (pr : BlockParam) (s : EwaState (Fin p) ℝ) : Matrix (Fin p) (Fin p) ℝ :=
  let d : Fin p → ℝ := fun i => Real.sqrt (max (s.cov i i) EPS)                          -- line 85
  let Rg := scReassemble L (nbClamped pr.nBlocks p) (covToCorr s.cov) (scNEff s) (scGammaOf pr s)
  Matrix.of fun i j => (makePosDef L (toSymmetric Rg)) i j * (d i * d j)                   -- lines 110-111

/-- No hedge regression is singular (`schur_conditional.py:102` does not raise). -/
def scSolvable {p : ℕ} (pr : BlockParam) (s : EwaState (Fin p) ℝ) : Prop :=
  ∀ k, 1 ≤ k → k < nbClamped pr.nBlocks p → (scSystem (nbClamped pr.nBlocks p) k (covToCorr s.cov) (scNEff s)).det ≠ 0

/-- `SchurConditionalCovariance` (`schur_conditional.py:28-111`). Contract for `covariance_`: `scSolvable`. -/
noncomputable def schurCondCls (L : Lapack) (p : ℕ) : Cls (Fin p) ℝ where
  Param := BlockParam
  State := EwaState (Fin p) ℝ
  Dump := Dict (Fin p) ℝ
  diff := BlockParam.diff
  withDiff b pr := { pr with diff := b }
  initState pr := ewaInit pr.r
  updateState _ := ewaUpdate
  nSamples s := s.nSamples
  toCov := scCov L
  toMean _ s := s.mean
  dump s := s.asDict.tolist
  load d := EwaState.ofDict d.fromlist

open Classical in
/-- `covariance_` of SchurConditionalCovariance with the LinAlgError of `np.linalg.solve` (`base.py:91-94`,
`schur_conditional.py:81-111`). -/
noncomputable def scCovariance? {p : ℕ} (L : Lapack) (o : Obj (schurCondCls L p)) : Except PyErr (Matrix (Fin p) (Fin p) ℝ) :=
  match o.fittedState with
  | .error e => .error e
  | .ok s => if scSolvable o.params s then .ok (toSymmetric (scCov L o.params s)) else .error .linAlgError

/-- `gamma_` of a fitted SchurConditionalCovariance, as set by the last read of `covariance_` on this state
(`schur_conditional.py:89`). -/
noncomputable def scGammaAttr {p : ℕ} (L : Lapack) (o : Obj (schurCondCls L p)) : Except PyErr ℝ :=
  o.fittedState.map (scGammaOf o.params)

end Precise
