import Mathlib.Data.Matrix.Mul
import Mathlib.Data.Real.Sqrt
import Mathlib.LinearAlgebra.Matrix.Defs

/-!
# The ground-truth generators of `research/oos.py` and `research/bakeoff.py`

The draws of the random generator are arguments.
-/

namespace Precise.Oos

open Matrix

/-- `_equicorr(p, rng)` (`oos.py:40-43`, `rho = 0.6`) and `_equicorrelation(n, rho)` (`bakeoff.py:35-38`). -/
def equicorr (p : ℕ) (rho : ℝ) : Matrix (Fin p) (Fin p) ℝ := Matrix.of fun i j => if i = j then 1 else rho

/-- `_one_factor(p, rng)` (`oos.py:46-48`, `bakeoff.py:41-43`): `b` is drawn from [0.5, 1.5), `d` from [0.2, 1). -/
def oneFactor {p : ℕ} (b d : Fin p → ℝ) : Matrix (Fin p) (Fin p) ℝ := Matrix.vecMulVec b b + Matrix.diagonal d

/-- `_three_factor(p, rng)` (`oos.py:51-53`, `bakeoff.py:46-48`): `B` is standard normal, `d` from [0.2, 1). -/
def threeFactor {p : ℕ} (B : Matrix (Fin p) (Fin 3) ℝ) (d : Fin p → ℝ) : Matrix (Fin p) (Fin p) ℝ := B * Bᵀ + Matrix.diagonal d

/-- `_ar1(p, rng)` (`oos.py:56-58`, `rho = 0.7`) and `_ar1_toeplitz(n, rho)` (`bakeoff.py:51-53`): `rho ** |i - j|`. -/
def ar1 (p : ℕ) (rho : ℝ) : Matrix (Fin p) (Fin p) ℝ := Matrix.of fun i j => rho ^ ((i : ℤ) - (j : ℤ)).natAbs

/-- `spikes` of `_spiked` (`oos.py:62`): three draws `s` from [8, 15), then 0.4. -/
noncomputable def spikes {p : ℕ} (s : Fin 3 → ℝ) : Fin p → ℝ := fun i => if h : (i : ℕ) < 3 then s ⟨i, h⟩ else 2 / 5

/-- `_spiked(p, rng)` (`oos.py:61-64`): `(Q * spikes) @ Q.T` with the orthogonal factor `Q` of a QR decomposition.
`p >= 3`, otherwise `np.full` raises. -/
noncomputable def spiked {p : ℕ} (Q : Matrix (Fin p) (Fin p) ℝ) (s : Fin 3 → ℝ) : Matrix (Fin p) (Fin p) ℝ :=
  Matrix.of (fun i j => Q i j * spikes s j) * Qᵀ

/-- `_diag_hetero(p, rng)` (`oos.py:67-68`): `d` is drawn from [0.1, 5). -/
def diagHetero {p : ℕ} (d : Fin p → ℝ) : Matrix (Fin p) (Fin p) ℝ := Matrix.diagonal d

/-- The covariance of the normal draws inside `_sample(..., heavy=True)` (`oos.py:94`, `bakeoff.py:62`):
`cov * (df - 2) / df`. -/
noncomputable def heavyInner {p : ℕ} (df : ℝ) (cov : Matrix (Fin p) (Fin p) ℝ) : Matrix (Fin p) (Fin p) ℝ :=
  Matrix.of fun i j => cov i j * (df - 2) / df

/-- One row of `_sample(..., heavy=True)` (`oos.py:95`, `bakeoff.py:63`): the normal draw `z` and the chi-square draw `w`. -/
noncomputable def heavyRow {p : ℕ} (df : ℝ) (z : Fin p → ℝ) (w : ℝ) : Fin p → ℝ := fun i => z i * Real.sqrt (df / w)

end Precise.Oos
