import Verif.Model.Theory
import Mathlib.Data.List.MinMax

/-!
# Model of the simulation in `research/schur_gamma_star.py`

Not modelled: `report`, which prints. The random generator is a stream of standard normal numbers: `rng.normal(0.0, sigma, n)` is
`sigma` times the next `n` of them. `np.sqrt` and division are exact.
-/

set_option linter.all false

namespace Precise.Theory

/-- `_ab_s_from(rho2, s=1.0)` (`schur_gamma_star.py:39-42`): `(a, b, s)`. -/
noncomputable def abSFrom (rho2 : ℝ) (s : ℝ := 1) : ℝ × ℝ × ℝ :=
  let e := rho2 / (1 - rho2) * s
  (1, Real.sqrt e, s)

/-- The `2 n` standard normal numbers one simulated sample is made of: those for `x1` and those for the noise
(`schur_gamma_star.py:49-50`). -/
abbrev Draw (n : ℕ) := (Fin n → ℝ) × (Fin n → ℝ)

/-- The least-squares slope of one simulated sample (`schur_gamma_star.py:49-51`). -/
noncomputable def bHat {n : ℕ} (a b s : ℝ) (d : Draw n) : ℝ :=
  let x1 : Fin n → ℝ := fun i => Real.sqrt a * d.1 i
  let x2 : Fin n → ℝ := fun i => b * x1 i + Real.sqrt s * d.2 i
  (∑ i, x1 i * x2 i) / ∑ i, x1 i * x1 i

/-- `residual_R(gamma, a, b, s, n, n_draws, rng)` on the samples `draws` (`schur_gamma_star.py:45-53`). -/
noncomputable def residualR {n : ℕ} (gamma a b s : ℝ) (draws : List (Draw n)) : ℝ :=
  (draws.map fun d => residual gamma a b s (bHat a b s d)).sum / draws.length

/-- `np.linspace(0.0, 1.0, 51)` (`schur_gamma_star.py:60`). -/
noncomputable def gammaGrid : List ℝ := (List.range 51).map fun k : ℕ => (k : ℝ) / 50

/-- `empirical_gamma_star(rho2, n, n_draws, seed)` (`schur_gamma_star.py:56-62`): the first grid point with the smallest simulated
residual. One generator serves all grid points in turn, `n_draws` samples each. `n_draws ≥ 1`. -/
noncomputable def empiricalGammaStar {n : ℕ} (rho2 : ℝ) (nDraws : ℕ) (stream : ℕ → Draw n) : ℝ :=
  let (a, b, s) := abSFrom rho2
  let Rs : ℕ → ℝ := fun k => residualR (gammaGrid.getD k 0) a b s ((List.range nDraws).map fun j => stream (k * nDraws + j))
  gammaGrid.getD (((List.range 51).argmin Rs).getD 0) 0

end Precise.Theory
