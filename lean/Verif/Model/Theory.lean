import Verif.Model.Linalg

/-!
# Model of the paper's theory scripts: `research/schur_likelihood_theory.py`, `research/schur_gamma_star.py`,
# and the operator of `research/schur_godambe.py`

These scripts compute the closed forms of the Schur-likelihood paper; `tests/test_schur_likelihood_theory.py` checks them at
a few parameter values. Exact arithmetic; `np.linalg.inv`/`solve` are the inverse (they raise LinAlgError on a singular
matrix, which the theorems exclude by hypothesis).
-/

open Matrix

namespace Precise.Theory

open Precise.Spec

/-! ## The scalar two-block model (`schur_likelihood_theory.py`) -/

/-- `schur_loglik_population(a, b_star, s_star, gamma, A, C, D)` (`schur_likelihood_theory.py:34-46`); `⊥` is `-inf`.
Simplification: `A == 0` (ZeroDivisionError for Python floats, line 37) gives `⊥`. -/
noncomputable def schurLoglikPopulation (a bStar sStar gamma A C D : ℝ) : WithBot ℝ :=
  let beta := gamma * C / A                                                              -- line 37
  let Sg := D - gamma * C * C / A                                                        -- line 38
  if A ≤ 0 ∨ Sg ≤ 0 then ⊥                                                               -- lines 39-40
  else
    let t1 := -(1 / 2) * (Real.log A + a / A)                                            -- line 42
    let resid := (bStar - beta) ^ 2 * a + sStar                                          -- line 44
    let t2 := -(1 / 2) * (Real.log Sg + resid / Sg)                                      -- line 45
    ((t1 + t2 : ℝ) : WithBot ℝ)                                                          -- line 46

/-- `closed_form_maximizer(a, b_star, s_star, gamma)` (`schur_likelihood_theory.py:49-53`). Contract: `gamma ≠ 0`. -/
noncomputable def closedFormMaximizer (a bStar sStar gamma : ℝ) : ℝ × ℝ × ℝ :=
  (a, bStar * a / gamma, sStar + bStar ^ 2 * a / gamma)

/-- `spd_threshold_holds(a, b_star, s_star, gamma)` (`schur_likelihood_theory.py:56-59`). -/
def spdThresholdHolds (a bStar sStar gamma : ℝ) : Prop := gamma ^ 2 * sStar > (1 - gamma) * (bStar ^ 2 * a)

/-- `_solve_spd_threshold(rho2)` (`schur_likelihood_theory.py:113-116`). Contract: `rho2 ≠ 1` (0/0 otherwise). -/
noncomputable def solveSpdThreshold (rho2 : ℝ) : ℝ :=
  let A := 1 - rho2
  let B := rho2
  let C := -rho2
  (-B + Real.sqrt (B * B - 4 * A * C)) / (2 * A)

/-! ## The general model: ordered blocks -/

/-- The variables of the block that starts at `a` and has `s` members: `rows` (`schur_likelihood_theory.py:134-139`). -/
abbrev Blk (p a s : ℕ) : Type := {i : Fin p // a ≤ i.1 ∧ i.1 < a + s}

/-- The variables of the earlier blocks: `prev` (`schur_likelihood_theory.py:149, 167`). -/
abbrev Pre (p a : ℕ) : Type := {i : Fin p // i.1 < a}

variable {p : ℕ}

/-- `_sub(M, rows, cols)` (`schur_likelihood_theory.py:142-143`). -/
abbrev sub {α β : Type} (M : Matrix (Fin p) (Fin p) ℝ) (f : α → Fin p) (g : β → Fin p) : Matrix α β ℝ := M.submatrix f g

/-- `M[prev, prev]` (`schur_likelihood_theory.py:182`). -/
abbrev subWW (M : Matrix (Fin p) (Fin p) ℝ) (a : ℕ) : Matrix (Pre p a) (Pre p a) ℝ := sub M Subtype.val Subtype.val
/-- `M[rows, prev]` (`schur_likelihood_theory.py:183`). -/
abbrev subKW (M : Matrix (Fin p) (Fin p) ℝ) (a s : ℕ) : Matrix (Blk p a s) (Pre p a) ℝ := sub M Subtype.val Subtype.val
/-- `M[rows, rows]` (`schur_likelihood_theory.py:184`). -/
abbrev subKK (M : Matrix (Fin p) (Fin p) ℝ) (a s : ℕ) : Matrix (Blk p a s) (Blk p a s) ℝ := sub M Subtype.val Subtype.val

/-- `Gk` and `Sg` of a candidate for one block (`schur_likelihood_theory.py:151-158`; `schur_godambe.py:55-63` has `Gk` without
the factor `gamma`). The first block has no earlier variables and takes the branch `if not prev`. -/
noncomputable def effG (cand : Matrix (Fin p) (Fin p) ℝ) (gamma : ℝ) (a s : ℕ) : Matrix (Blk p a s) (Pre p a) ℝ :=
  gamma • (subKW cand a s * (subWW cand a)⁻¹)                                            -- line 157

/-- `Sg` of a candidate for one block (`schur_likelihood_theory.py:151-158`). -/
noncomputable def dampS (cand : Matrix (Fin p) (Fin p) ℝ) (gamma : ℝ) (a s : ℕ) : Matrix (Blk p a s) (Blk p a s) ℝ :=
  if a = 0 then subKK cand a s                                                           -- line 152
  else subKK cand a s - gamma • (subKW cand a s * ((subWW cand a)⁻¹ * (subKW cand a s)ᵀ)) -- line 158

/-- `Mk` (`schur_likelihood_theory.py:153, 159-162`). -/
noncomputable def residM (truth cand : Matrix (Fin p) (Fin p) ℝ) (gamma : ℝ) (a s : ℕ) : Matrix (Blk p a s) (Blk p a s) ℝ :=
  if a = 0 then subKK truth a s
  else
    let G := effG cand gamma a s
    subKK truth a s - G * (subKW truth a s)ᵀ - subKW truth a s * Gᵀ + G * subWW truth a * Gᵀ

open Classical in
/-- One pass of the loop of `expected_schur_loglik` (`schur_likelihood_theory.py:150-166`). -/
noncomputable def blockTerm (L : Lapack) (truth cand : Matrix (Fin p) (Fin p) ℝ) (gamma : ℝ) (a s : ℕ) : WithBot ℝ :=
  let Sg := dampS cand gamma a s
  let evals := (L.eigh (toSymmetric Sg)).1                                               -- line 163
  if ∃ i, evals i ≤ 0 then ⊥                                                             -- lines 164-165
  else ((-(1 / 2) * (∑ i, Real.log (evals i) + (Sg⁻¹ * residM truth cand gamma a s).trace) : ℝ) : WithBot ℝ)  -- line 166

/-- The loop of `expected_schur_loglik` (`schur_likelihood_theory.py:149-168`) from the block starting at `a` on. Contract:
positive sizes. Simplification: the early return of `-inf` is `⊥ + _ = ⊥`. -/
noncomputable def loglikFrom (L : Lapack) (truth cand : Matrix (Fin p) (Fin p) ℝ) (gamma : ℝ) : ℕ → List ℕ → WithBot ℝ
  | _, [] => 0
  | a, s :: rest => blockTerm L truth cand gamma a s + loglikFrom L truth cand gamma (a + s) rest

/-- `expected_schur_loglik(Sig_true, Sig_cand, sizes, gamma)` (`schur_likelihood_theory.py:146-168`). -/
noncomputable def expectedSchurLoglik (L : Lapack) (truth cand : Matrix (Fin p) (Fin p) ℝ) (sizes : List ℕ) (gamma : ℝ) : WithBot ℝ :=
  loglikFrom L truth cand gamma 0 sizes

/-- One pass of the loop of `closed_form_general` (`schur_likelihood_theory.py:178-194`). -/
noncomputable def closedStep (truth : Matrix (Fin p) (Fin p) ℝ) (gamma : ℝ) (a s : ℕ) (Sig : Matrix (Fin p) (Fin p) ℝ) :
    Matrix (Fin p) (Fin p) ℝ :=
  let B := subKW truth a s * (subWW truth a)⁻¹                                           -- line 185
  let S := subKK truth a s - B * (subKW truth a s)ᵀ                                      -- line 186
  let cWW := subWW Sig a                                                                 -- line 187
  let G := gamma⁻¹ • B                                                                   -- line 188
  let cKW := G * cWW                                                                     -- line 189
  let cKK := S + gamma • (G * cWW * Gᵀ)                                                  -- line 190
  Matrix.of fun i j =>
    if hi : a ≤ i.1 ∧ i.1 < a + s then
      if hj : a ≤ j.1 ∧ j.1 < a + s then
        (if a = 0 then truth i j else cKK ⟨i, hi⟩ ⟨j, hj⟩)                               -- lines 179-180, 193
      else if hj : j.1 < a then cKW ⟨i, hi⟩ ⟨j, hj⟩ else Sig i j                         -- line 191
    else if hj : a ≤ j.1 ∧ j.1 < a + s then
      (if hi : i.1 < a then cKW ⟨j, hj⟩ ⟨i, hi⟩ else Sig i j)                            -- line 192
    else Sig i j

/-- The loop of `closed_form_general` from the block starting at `a` on (`schur_likelihood_theory.py:177-193`). -/
noncomputable def closedFrom (truth : Matrix (Fin p) (Fin p) ℝ) (gamma : ℝ) : ℕ → List ℕ → Matrix (Fin p) (Fin p) ℝ → Matrix (Fin p) (Fin p) ℝ
  | _, [], Sig => Sig
  | a, s :: rest, Sig => closedFrom truth gamma (a + s) rest (closedStep truth gamma a s Sig)

/-- `closed_form_general(Sig_true, sizes, gamma)` (`schur_likelihood_theory.py:171-195`). Contract: `gamma ≠ 0`. -/
noncomputable def closedFormGeneral (truth : Matrix (Fin p) (Fin p) ℝ) (sizes : List ℕ) (gamma : ℝ) : Matrix (Fin p) (Fin p) ℝ :=
  toSymmetric (closedFrom truth gamma 0 sizes 0)

/-- The matrix whose eigenvalues `canonical_corr2(Sig, p1)` reports after symmetrizing (`schur_likelihood_theory.py:198-204`),
for two blocks given as matrices. -/
noncomputable def canonM {α β : Type} [Fintype α] [DecidableEq α] [Fintype β] [DecidableEq β]
    (S11 : Matrix α α ℝ) (S12 : Matrix α β ℝ) (S22 : Matrix β β ℝ) : Matrix α α ℝ :=
  (S11⁻¹ * S12) * (S22⁻¹ * S12ᵀ)                                                         -- line 203

/-- `canonical_corr2(Sig, p1)` (`schur_likelihood_theory.py:198-204`) as a family: the clipped eigenvalues of the symmetric part.
Simplification: not sorted; element `[0]` of the Python result is the largest of them. -/
noncomputable def canonicalCorr2 (L : Lapack) {α β : Type} [Fintype α] [DecidableEq α] [Fintype β] [DecidableEq β]
    (S11 : Matrix α α ℝ) (S12 : Matrix α β ℝ) (S22 : Matrix β β ℝ) : α → ℝ :=
  fun i => min (max ((L.eigh (toSymmetric (canonM S11 S12 S22))).1 i) 0) 1               -- line 204

/-! ## `schur_godambe.py` -/

/-- The row operator `T` of one block: `x ↦ x_K - gamma G x_W` (`schur_godambe.py:52-59`). -/
noncomputable def blockT (cand : Matrix (Fin p) (Fin p) ℝ) (gamma : ℝ) (a s : ℕ) : Matrix (Blk p a s) (Fin p) ℝ :=
  Matrix.of fun k j =>
    if hj : j.1 < a then -(gamma * (subKW cand a s * (subWW cand a)⁻¹) k ⟨j, hj⟩)         -- line 59
    else if k.1 = j then 1 else 0                                                        -- line 54

/-- The loop of `schur_operator(Sig, sizes, gamma)` (`schur_godambe.py:50-66`): `(W, Ld)`. -/
noncomputable def operatorFrom (cand : Matrix (Fin p) (Fin p) ℝ) (gamma : ℝ) : ℕ → List ℕ → Matrix (Fin p) (Fin p) ℝ × ℝ
  | _, [] => (0, 0)
  | a, s :: rest =>
    let T := blockT cand gamma a s
    let Sg := toSymmetric (dampS cand gamma a s)                                         -- lines 60-63
    let r := operatorFrom cand gamma (a + s) rest
    (Tᵀ * (Sg⁻¹ * T) + r.1, Real.log |Sg.det| + r.2)                                     -- lines 64-65

/-- `schur_operator(Sig, sizes, gamma)` (`schur_godambe.py:45-67`). -/
noncomputable def schurOperator (cand : Matrix (Fin p) (Fin p) ℝ) (sizes : List ℕ) (gamma : ℝ) : Matrix (Fin p) (Fin p) ℝ × ℝ :=
  (toSymmetric (operatorFrom cand gamma 0 sizes).1, (operatorFrom cand gamma 0 sizes).2)

/-- `mu` of `snr` (`schur_godambe.py:75`); also the score gap of `discrimination_power_over_draws` (`:168`) and of
`schur_spiked.py:45`. -/
noncomputable def snrMu (A B truth : Matrix (Fin p) (Fin p) ℝ) (sizes : List ℕ) (gamma : ℝ) : ℝ :=
  -(1 / 2) * (((schurOperator A sizes gamma).2 - (schurOperator B sizes gamma).2) +
    (((schurOperator A sizes gamma).1 - (schurOperator B sizes gamma).1) * truth).trace)

/-- `var` of `snr` (`schur_godambe.py:76-77`). -/
noncomputable def snrVar (A B truth : Matrix (Fin p) (Fin p) ℝ) (sizes : List ℕ) (gamma : ℝ) : ℝ :=
  let M := ((schurOperator A sizes gamma).1 - (schurOperator B sizes gamma).1) * truth
  1 / 2 * (M * M).trace

open Classical in
/-- `snr(Sig_A, Sig_B, Sig_t, sizes, gamma)` (`schur_godambe.py:70-78`); `⊤` is `np.inf`. -/
noncomputable def snr (A B truth : Matrix (Fin p) (Fin p) ℝ) (sizes : List ℕ) (gamma : ℝ) : WithTop ℝ :=
  let var := snrVar A B truth sizes gamma
  if 0 < var then ((snrMu A B truth sizes gamma / Real.sqrt var : ℝ) : WithTop ℝ) else ⊤

/-- `d` of `snr_montecarlo` (`schur_godambe.py:81-89`) for one observation `x`: the score of `A` minus the score of `B`. -/
noncomputable def gap (A B : Matrix (Fin p) (Fin p) ℝ) (sizes : List ℕ) (gamma : ℝ) (x : Fin p → ℝ) : ℝ :=
  let WA := schurOperator A sizes gamma;                                                 -- line 85
  let WB := schurOperator B sizes gamma;                                                 -- line 86
  -(1 / 2) * ((WA.2 - WB.2) + (quad WA.1 x - quad WB.1 x))                               -- lines 87-89

/-- `_kl(Sig_hat, Sig_t)` (`schur_godambe.py:115-120`). Simplification: `slogdet(x)[1]` is `log |det x|`. -/
noncomputable def kl {ι : Type} [Fintype ι] [DecidableEq ι] (hat truth : Matrix ι ι ℝ) : ℝ :=
  1 / 2 * ((hat⁻¹ * truth).trace - Fintype.card ι + Real.log |hat.det| - Real.log |truth.det|)

/-! ## `schur_gamma_star.py` -/

/-- `gamma_star(n, rho2)` (`schur_gamma_star.py:34-36`). -/
noncomputable def gammaStar (n rho2 : ℝ) : ℝ := (n - 2) * rho2 / ((n - 2) * rho2 + (1 - rho2))

/-- The test predictive residual for one estimate `bHat` (`schur_gamma_star.py:52`). -/
def residual (gamma a b s bHat : ℝ) : ℝ := (b - gamma * bHat) ^ 2 * a + s

end Precise.Theory
