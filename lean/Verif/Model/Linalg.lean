import Verif.Model.Base
import Verif.Spec.Matrix
import Mathlib.Analysis.SpecialFunctions.Pow.Real
import Mathlib.LinearAlgebra.Matrix.NonsingularInverse

/-!
# Model of `precise/_linalg.py`

The `numpy.linalg` routines are a record `Lapack` of functions with the contract numpy documents for
them; every theorem quantifies over all such records.
-/

open Matrix

namespace Precise

variable {ι : Type}

/-- The numpy.linalg routines the package calls, with their contract in exact arithmetic.
`eigh`, `svd`, `pinv` are only ever called on symmetric matrices (`_linalg.py:44,63,84,102,108`), so nothing is
assumed of them elsewhere. No order of the eigenvalues is assumed. -/
structure Lapack where
  /-- `np.linalg.eigh(a)`: eigenvalues and the matrix whose columns are eigenvectors -/
  eigh : {ι : Type} → [Fintype ι] → [DecidableEq ι] → Matrix ι ι ℝ → (ι → ℝ) × Matrix ι ι ℝ
  /-- `np.linalg.svd(a)`: `u`, `s`, `vt` -/
  svd : {ι : Type} → [Fintype ι] → [DecidableEq ι] → Matrix ι ι ℝ → Matrix ι ι ℝ × (ι → ℝ) × Matrix ι ι ℝ
  /-- `np.linalg.pinv(a)` -/
  pinv : {ι : Type} → [Fintype ι] → [DecidableEq ι] → Matrix ι ι ℝ → Matrix ι ι ℝ
  /-- `np.spacing(x)`: the distance to the next float -/
  spacing : ℝ → ℝ
  eigh_orth : ∀ {ι : Type} [Fintype ι] [DecidableEq ι] (a : Matrix ι ι ℝ), Spec.Symm a →
    (eigh a).2ᵀ * (eigh a).2 = 1
  eigh_eq : ∀ {ι : Type} [Fintype ι] [DecidableEq ι] (a : Matrix ι ι ℝ), Spec.Symm a →
    a = (eigh a).2 * diagonal (eigh a).1 * (eigh a).2ᵀ
  svd_orth_u : ∀ {ι : Type} [Fintype ι] [DecidableEq ι] (a : Matrix ι ι ℝ), Spec.Symm a →
    (svd a).1ᵀ * (svd a).1 = 1
  svd_orth_v : ∀ {ι : Type} [Fintype ι] [DecidableEq ι] (a : Matrix ι ι ℝ), Spec.Symm a →
    (svd a).2.2ᵀ * (svd a).2.2 = 1
  svd_nonneg : ∀ {ι : Type} [Fintype ι] [DecidableEq ι] (a : Matrix ι ι ℝ), Spec.Symm a →
    ∀ i, 0 ≤ (svd a).2.1 i
  svd_eq : ∀ {ι : Type} [Fintype ι] [DecidableEq ι] (a : Matrix ι ι ℝ), Spec.Symm a →
    a = (svd a).1 * diagonal (svd a).2.1 * (svd a).2.2
  pinv_spec : ∀ {ι : Type} [Fintype ι] [DecidableEq ι] (a : Matrix ι ι ℝ), Spec.Symm a →
    Spec.IsPinv a (pinv a)
  spacing_pos : ∀ x, 0 < spacing x

/-- `EPS = 1e-12` (`_linalg.py:15`, and the literal `1e-12` in `tyler.py:54`, `conditional.py:145`, `dcc.py:54`, `factor.py:64`, ...). -/
noncomputable def EPS : ℝ := 1 / 10 ^ 12

/-- `cov_to_corrcoef(a)` (`_linalg.py:22-26`). Simplification: `np.sqrt` of a negative product (NaN in
numpy) is 0 here; covariance matrices have non-negative diagonals. -/
noncomputable def covToCorr (a : Matrix ι ι ℝ) : Matrix ι ι ℝ :=
  Matrix.of fun i j => a i j / (Real.sqrt (a j j * a i i) + EPS)

/-- `is_positive_def(a)` (`_linalg.py:29-35`): Cholesky succeeds iff the symmetric matrix is positive-definite. -/
def isPositiveDef [Fintype ι] (a : Matrix ι ι ℝ) : Prop := Spec.PD a

/-- `(evecs * evals) @ evecs.T` (`_linalg.py:65,104,105,110`). -/
def eigRecompose [Fintype ι] (v : Matrix ι ι ℝ) (w : ι → ℝ) : Matrix ι ι ℝ :=
  (Matrix.of fun i j => v i j * w j) * vᵀ

/-- `make_pos_def(a, eps)` (`_linalg.py:60-65`). -/
noncomputable def makePosDef [Fintype ι] [DecidableEq ι] (L : Lapack) (a : Matrix ι ι ℝ)
    (eps : ℝ := 1 / 10 ^ 8) : Matrix ι ι ℝ :=
  let a := toSymmetric a                                        -- line 62
  let e := L.eigh a                                             -- line 63
  let evals := fun i => max (e.1 i) eps                         -- line 64
  toSymmetric (eigRecompose e.2 evals)                          -- line 65

/-- Frobenius norm `np.linalg.norm(a)` (`_linalg.py:50`). -/
noncomputable def frobNorm [Fintype ι] (a : Matrix ι ι ℝ) : ℝ := Real.sqrt (∑ i, ∑ j, a i j * a i j)

/-- `np.min(np.real(np.linalg.eigvals(a)))` (`_linalg.py:54`); `a` is symmetric there, so these are the
eigenvalues `eigh` returns. -/
noncomputable def minEig [Fintype ι] [DecidableEq ι] (L : Lapack) (a : Matrix ι ι ℝ) : ℝ := ⨅ i, (L.eigh a).1 i

open Classical in
/-- The while loop of `nearest_pos_def` (`_linalg.py:53-56`), with fuel; `none` when the fuel runs out. -/
noncomputable def npdLoop [Fintype ι] [DecidableEq ι] (L : Lapack) (spacing : ℝ) :
    (fuel : ℕ) → (k : ℕ) → Matrix ι ι ℝ → Option (Matrix ι ι ℝ)
  | 0, _, _ => none
  | fuel + 1, k, a3 =>
    if isPositiveDef a3 then some a3
    else npdLoop L spacing fuel (k + 1) (a3 + (-minEig L a3 * (k : ℝ) ^ 2 + spacing) • 1)

/-- `a3` at `_linalg.py:43-46`. -/
noncomputable def npdStart [Fintype ι] [DecidableEq ι] (L : Lapack) (a : Matrix ι ι ℝ) : Matrix ι ι ℝ :=
  let b := toSymmetric a                                                    -- line 43
  let f := L.svd b                                                          -- line 44
  let H := f.2.2ᵀ * diagonal f.2.1 * f.2.2                                  -- line 45
  toSymmetric ((1 / 2 : ℝ) • (b + H))                                       -- line 46

open Classical in
/-- Lines 47-57 of `nearest_pos_def` (`_linalg.py`) for whatever matrix `a3` the lines before produced. -/
noncomputable def npdFinish [Fintype ι] [DecidableEq ι] (L : Lapack) (fuel : ℕ) (spacing : ℝ) (a3 : Matrix ι ι ℝ) :
    Option (Matrix ι ι ℝ) :=
  if isPositiveDef a3 then some a3                                          -- lines 47-48
  else npdLoop L spacing fuel 1 a3                                          -- lines 51-57

/-- `nearest_pos_def(a)` (`_linalg.py:38-57`) with `fuel` iterations allowed (`none`: still looping). -/
noncomputable def nearestPosDef? [Fintype ι] [DecidableEq ι] (L : Lapack) (fuel : ℕ) (a : Matrix ι ι ℝ) :
    Option (Matrix ι ι ℝ) :=
  npdFinish L fuel (L.spacing (frobNorm a)) (npdStart L a)                  -- lines 43-46, 50

/-- `nearest_pos_def(a)`: the value returned. Two loop tests suffice (theorem `C49_terminates`); the
default is never used (`_linalg.py:38-57`). -/
noncomputable def nearestPosDef [Fintype ι] [DecidableEq ι] (L : Lapack) (a : Matrix ι ι ℝ) : Matrix ι ι ℝ :=
  (nearestPosDef? L 2 a).getD a

/-- `affine_shrink(a, phi, lmbd)` (`_linalg.py:68-75`). -/
noncomputable def affineShrink [Fintype ι] [DecidableEq ι] (phi lmbd : ℝ) (a : Matrix ι ι ℝ) : Matrix ι ι ℝ :=
  let b : Matrix ι ι ℝ := Matrix.of fun i j => if i = j then a i j * phi else a i j
  let mu := (∑ i, b i i) / (Fintype.card ι : ℝ)
  (1 - lmbd) • b + (lmbd * mu) • 1

open Classical in
/-- `try_invert(a)` (`_linalg.py:78-86`): `np.linalg.inv` raises iff the matrix is singular; then `pinv`.
Simplification: the last fallback (pinv's SVD not converging) does not occur in exact arithmetic. -/
noncomputable def tryInvert [Fintype ι] [DecidableEq ι] (L : Lapack) (a : Matrix ι ι ℝ) : Matrix ι ι ℝ :=
  if a.det = 0 then L.pinv a else a⁻¹

open Classical in
/-- `try_invert(a, phi, lmbd)` with its last fallback (`_linalg.py:78-86`): `svdConverges` says whether the SVD inside
`np.linalg.pinv` converges (numpy raises LinAlgError when it does not). -/
noncomputable def tryInvert? [Fintype ι] [DecidableEq ι] (L : Lapack) (svdConverges : Matrix ι ι ℝ → Prop) (phi lmbd : ℝ)
    (a : Matrix ι ι ℝ) : Except PyErr (Matrix ι ι ℝ) :=
  if a.det ≠ 0 then .ok a⁻¹                                                             -- line 81
  else if svdConverges a then .ok (L.pinv a)                                            -- line 84
  else if (affineShrink phi lmbd a).det = 0 then .error .linAlgError                    -- line 86
  else .ok (affineShrink phi lmbd a)⁻¹

/-- `geodesic_step(start, end, gamma)` (`_linalg.py:89-112`). -/
noncomputable def geodesicStep [Fintype ι] [DecidableEq ι] (L : Lapack) (start end_ : Matrix ι ι ℝ) (gamma : ℝ) :
    Matrix ι ι ℝ :=
  let start := makePosDef L start                                                       -- line 99
  let end_ := makePosDef L end_                                                         -- line 100
  let es := L.eigh start                                                                -- line 102
  let evalsS := fun i => max (es.1 i) EPS                                               -- line 103
  let startSqrt := eigRecompose es.2 (fun i => Real.sqrt (evalsS i))                    -- line 104
  let startInvSqrt := eigRecompose es.2 (fun i => 1 / Real.sqrt (evalsS i))             -- line 105
  let middle := toSymmetric (startInvSqrt * end_ * startInvSqrt)                        -- line 107
  let em := L.eigh middle                                                               -- line 108
  let evalsM := fun i => max (em.1 i) 0 ^ gamma                                         -- line 109
  let middlePower := eigRecompose em.2 evalsM                                           -- line 110
  toSymmetric (startSqrt * middlePower * startSqrt)                                     -- line 112

/-! ## Fitted attributes and scoring built on `_linalg.py` (`base.py:96-123`) -/

namespace Obj

variable {C : Cls ι ℝ}

/-- `correlation_` (`base.py:96-98`). -/
noncomputable def correlation (o : Obj C) : Except PyErr (Matrix ι ι ℝ) := o.covariance.map covToCorr

/-- `precision_` (`base.py:100-102`). -/
noncomputable def precision [Fintype ι] [DecidableEq ι] (L : Lapack) (o : Obj C) : Except PyErr (Matrix ι ι ℝ) :=
  o.covariance.map (tryInvert L)

/-- `np.einsum("ij,jk,ik->i", centered, prec, centered)` for one row (`base.py:113`). -/
def mahaRow [Fintype ι] (prec : Matrix ι ι ℝ) (c : ι → ℝ) : ℝ := ∑ j, ∑ k, c j * prec j k * c k

/-- `mahalanobis(X)` (`base.py:108-113`). -/
noncomputable def mahalanobis [Fintype ι] [DecidableEq ι] (L : Lapack) (o : Obj C) (X : Input ι ℝ) :
    Except PyErr (List ℝ) := do
  let rows ← asRows X
  let prec ← o.precision L
  let loc ← o.location
  return rows.map fun x => mahaRow prec (x - loc)

/-- `_, logdet = np.linalg.slogdet(m)` (`base.py:119`): `log |det m|`, `-inf` (`⊥`) for a singular matrix. -/
noncomputable def logAbsDet [Fintype ι] [DecidableEq ι] (m : Matrix ι ι ℝ) : WithBot ℝ :=
  open Classical in if m.det = 0 then ⊥ else (Real.log |m.det| : ℝ)

/-- `score(X)` (`base.py:115-123`). `⊥` is `-inf`. Simplification: the mean over zero rows (NaN with a
warning in numpy) is 0/0 = 0 here. -/
noncomputable def score [Fintype ι] [DecidableEq ι] (L : Lapack) (o : Obj C) (X : Input ι ℝ) :
    Except PyErr (WithBot ℝ) := do
  let rows ← asRows X
  let prec ← o.precision L
  let quad ← o.mahalanobis L (.batch rows)
  return (logAbsDet prec).map fun logdet =>
    (quad.map fun q => (1/2) * logdet - (1/2) * q
      - (1/2) * (Fintype.card ι : ℝ) * Real.log (2 * Real.pi)).sum / (quad.length : ℝ)

end Obj

end Precise
