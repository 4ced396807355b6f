import Verif.Model.Spiked

/-!
# Model of the numerical checks of the theory scripts

`_numerical_argmax`, `_local_search_confirms` and `_random_spd` of `research/schur_likelihood_theory.py`, and `snr_montecarlo` of
`research/schur_godambe.py`. Random numbers are arguments: lists of standard normal numbers (triples, matrices) in the order in which
the generator produces them, or the drawn rows. The number of iterations (20000, 4000, `n`) is the length of the list.
-/

set_option linter.all false

open Matrix

namespace Precise.Theory

open Precise.Spec

variable {p : ℕ}

open Classical in
/-- One iteration of `_numerical_argmax` (`schur_likelihood_theory.py:69-77`): the pair is `(best, best_val)`. -/
noncomputable def argmaxStep (a bStar sStar gamma : ℝ) (st : (ℝ × ℝ × ℝ) × WithBot ℝ) (z : ℝ × ℝ × ℝ) : (ℝ × ℝ × ℝ) × WithBot ℝ :=
  let m := closedFormMaximizer a bStar sStar gamma
  let scale : ℝ := 1 / 2                                                                 -- line 68
  let A := m.1 * Real.exp (scale * z.1)                                                  -- line 70
  let C := m.2.1 + scale * |m.2.1 + 1 / 10 ^ 6| * z.2.1                                  -- line 71
  let D := m.2.2 * Real.exp (scale * z.2.2)                                              -- line 72
  if A * D - C * C ≤ 0 then st                                                           -- lines 73-74
  else
    let val := schurLoglikPopulation a bStar sStar gamma A C D                           -- line 75
    if st.2 < val then ((A, C, D), val) else st                                          -- lines 76-77

/-- `_numerical_argmax(a, b_star, s_star, gamma, seed)` (`schur_likelihood_theory.py:62-78`). -/
noncomputable def numericalArgmax (a bStar sStar gamma : ℝ) (draws : List (ℝ × ℝ × ℝ)) : (ℝ × ℝ × ℝ) × WithBot ℝ :=
  let m := closedFormMaximizer a bStar sStar gamma
  draws.foldl (argmaxStep a bStar sStar gamma) (m, schurLoglikPopulation a bStar sStar gamma m.1 m.2.1 m.2.2)   -- lines 65-67

open Classical in
/-- The entry `argmax ok` of the table that `report` prints (`schur_likelihood_theory.py:98-101`): `none` is `"-"`, `true` is `"yes"`. -/
noncomputable def argmaxOk (a bStar sStar gamma : ℝ) (draws : List (ℝ × ℝ × ℝ)) : Option Bool :=
  let m := closedFormMaximizer a bStar sStar gamma
  if spdThresholdHolds a bStar sStar gamma then
    let n := (numericalArgmax a bStar sStar gamma draws).1
    some (decide (|n.1 - m.1| < 1 / 20 ∧ |n.2.1 - m.2.1| < 1 / 10 ∧ |n.2.2 - m.2.2| < 1 / 10))
  else none

/-- `_random_spd(p, rng)` on the drawn matrix (`schur_likelihood_theory.py:232-234`). -/
def randomSpd (A : Matrix (Fin p) (Fin p) ℝ) : Matrix (Fin p) (Fin p) ℝ := A * Aᵀ + (p : ℝ) • 1

/-- What `_local_search_confirms` returns: `None`, a number, or `inf`/`nan` (when a log-likelihood involved is `-inf`)
(`schur_likelihood_theory.py:211-229`). -/
inductive Confirmed where
  | none
  | gain (d : ℝ)
  | notFinite

open Classical in
/-- One iteration of `_local_search_confirms` (`schur_likelihood_theory.py:220-228`) on the drawn matrix `Z`. -/
noncomputable def confirmStep (L : Lapack) (truth : Matrix (Fin p) (Fin p) ℝ) (sizes : List ℕ) (gamma : ℝ) (Sig0 : Matrix (Fin p) (Fin p) ℝ)
    (best : WithBot ℝ) (Z : Matrix (Fin p) (Fin p) ℝ) : WithBot ℝ :=
  let E := (1 / 50 : ℝ) • Z                                                              -- line 221
  let cand := Sig0 + (E + Eᵀ)                                                            -- lines 222-223
  if isSpd L cand then
    let v := expectedSchurLoglik L truth cand sizes gamma                                -- line 226
    if best < v then v else best                                                         -- lines 227-228
  else best                                                                              -- lines 224-225

/-- `_local_search_confirms(Sig_true, sizes, gamma, seed, iters)` (`schur_likelihood_theory.py:211-229`). -/
noncomputable def localSearchConfirms (L : Lapack) (truth : Matrix (Fin p) (Fin p) ℝ) (sizes : List ℕ) (gamma : ℝ)
    (draws : List (Matrix (Fin p) (Fin p) ℝ)) : Confirmed :=
  let Sig0 := closedFormGeneral truth sizes gamma                                        -- line 214
  if isSpd L Sig0 then
    let base := expectedSchurLoglik L truth Sig0 sizes gamma                             -- line 217
    match draws.foldl (confirmStep L truth sizes gamma Sig0) base, base with             -- lines 219-228
    | some best, some base => .gain (best - base)                                        -- line 229
    | _, _ => .notFinite
  else .none                                                                             -- lines 215-216

open Classical in
/-- `snr_montecarlo(Sig_A, Sig_B, Sig_t, sizes, gamma, n, seed)` (`schur_godambe.py:81-90`) on the drawn rows; `none` is NaN. The last
line divides two numpy floats: `x / 0` is `inf`, `-inf` or, for `x = 0`, NaN. -/
noncomputable def snrMonteCarlo (A B : Matrix (Fin p) (Fin p) ℝ) (sizes : List ℕ) (gamma : ℝ) (rows : List (Fin p → ℝ)) : Option EReal :=
  let d := rows.map (gap A B sizes gamma)                                                -- lines 85-89
  match mean? d, std? d with
  | some m, some s =>
    if s ≠ 0 then some ((m / s : ℝ) : EReal) else if m = 0 then Option.none else if 0 < m then some ⊤ else some ⊥   -- line 90
  | _, _ => Option.none

end Precise.Theory
