import Verif.Model.Theory
import Mathlib.Analysis.SpecialFunctions.Log.Basic
import Mathlib.Tactic

/-!
# C68: the scalar two-block model of the Schur-likelihood paper
-/

set_option linter.all false

namespace Precise.Theory

/-- `log x + m/x` is smallest exactly at `x = m`. -/
theorem logdiv_min {x m : ℝ} (hx : 0 < x) (hm : 0 < m) : Real.log m + 1 ≤ Real.log x + m / x ∧ (Real.log x + m / x = Real.log m + 1 → x = m) := by
  have e : Real.log (m / x) = Real.log m - Real.log x := Real.log_div hm.ne' hx.ne'
  have hp : 0 < m / x := div_pos hm hx
  refine ⟨by have := Real.log_le_sub_one_of_pos hp; linarith, fun h => ?_⟩
  by_contra hne
  have h1 : m / x ≠ 1 := fun h => hne (by field_simp at h; linarith)
  have := Real.log_lt_sub_one_of_pos hp h1
  linarith

theorem half_logdiv {x m m' : ℝ} (hx : 0 < x) (hm : 0 < m) (h : m ≤ m') : Real.log m + 1 ≤ Real.log x + m' / x := by
  have := (logdiv_min hx hm).1
  have := div_le_div_of_nonneg_right h hx.le
  linarith

theorem loglik_of {a b s g A C D : ℝ} (h : ¬ (A ≤ 0 ∨ D - g * C * C / A ≤ 0)) : schurLoglikPopulation a b s g A C D =
    ((-(1 / 2) * (Real.log A + a / A) + -(1 / 2) * (Real.log (D - g * C * C / A) + ((b - g * C / A) ^ 2 * a + s) / (D - g * C * C / A)) : ℝ) : WithBot ℝ) := by
  unfold schurLoglikPopulation
  simp only []
  rw [if_neg h]

/-- C68: for every coupling `gamma ≠ 0` the closed form recovers the true predictive law (coefficient and conditional variance). -/
theorem C68_recovers_law (a b s gamma : ℝ) (ha : 0 < a) (hg : gamma ≠ 0) :
    let (A, C, D) := closedFormMaximizer a b s gamma
    gamma * C / A = b ∧ D - gamma * C * C / A = s := by
  simp only [closedFormMaximizer]
  constructor
  · field_simp
  · field_simp; ring

/-- C68: in covariance coordinates the closed form is inflated: the cross term is the true one divided by `gamma`, the second
variance is the true one plus `b² a (1/gamma - 1)`. -/
theorem C68_inflation (a b s gamma : ℝ) (hg : gamma ≠ 0) :
    closedFormMaximizer a b s gamma = (a, (b * a) / gamma, (b ^ 2 * a + s) + b ^ 2 * a * (1 / gamma - 1)) := by
  simp only [closedFormMaximizer, Prod.mk.injEq, true_and]
  field_simp; ring

/-- C68: the closed form attains `-(log a + log s + 2)/2` … -/
theorem C68_value (a b s gamma : ℝ) (ha : 0 < a) (hs : 0 < s) (hg : gamma ≠ 0) :
    let m := closedFormMaximizer a b s gamma
    schurLoglikPopulation a b s gamma m.1 m.2.1 m.2.2 = ((-(1 / 2) * (Real.log a + Real.log s + 2) : ℝ) : WithBot ℝ) := by
  have h := C68_recovers_law a b s gamma ha hg
  intro m
  change gamma * m.2.1 / m.1 = b ∧ m.2.2 - gamma * m.2.1 * m.2.1 / m.1 = s at h
  have hA : m.1 = a := rfl
  rw [loglik_of (by rw [h.2, hA]; push Not; exact ⟨ha, hs⟩), h.1, h.2, hA]
  congr 1
  simp [div_self ha.ne', div_self hs.ne']
  ring

/-- C68: … and every other candidate covariance, positive-definite or not, scores strictly less. -/
theorem C68_unique_maximizer (a b s gamma A C D : ℝ) (ha : 0 < a) (hs : 0 < s) (hg : gamma ≠ 0) :
    let m := closedFormMaximizer a b s gamma
    (A, C, D) ≠ m → schurLoglikPopulation a b s gamma A C D < schurLoglikPopulation a b s gamma m.1 m.2.1 m.2.2 := by
  intro m hne
  rw [C68_value a b s gamma ha hs hg]
  by_cases h : A ≤ 0 ∨ D - gamma * C * C / A ≤ 0
  · unfold schurLoglikPopulation
    simp only []
    rw [if_pos h]
    exact WithBot.bot_lt_coe _
  rw [loglik_of h, WithBot.coe_lt_coe]
  push Not at h
  obtain ⟨hA, hS⟩ := h
  have h1 := logdiv_min hA ha
  have hr : s ≤ (b - gamma * C / A) ^ 2 * a + s := by have : 0 ≤ (b - gamma * C / A) ^ 2 * a := by positivity
                                                      linarith
  have hr0 : 0 < (b - gamma * C / A) ^ 2 * a + s := by linarith
  have h2 := logdiv_min hS hs
  have h3 := div_le_div_of_nonneg_right hr hS.le
  by_contra hcon
  push Not at hcon
  have e1 : A = a := h1.2 (by linarith)
  have e2 : D - gamma * C * C / A = s := h2.2 (by linarith)
  have e3 : ((b - gamma * C / A) ^ 2 * a + s) / (D - gamma * C * C / A) = s / (D - gamma * C * C / A) := by linarith
  have e4 : (b - gamma * C / A) ^ 2 * a + s = s := by
    have := congrArg (· * (D - gamma * C * C / A)) e3
    simpa [div_mul_cancel₀ _ hS.ne'] using this
  have e5 : b - gamma * C / A = 0 := by
    have : (b - gamma * C / A) ^ 2 * a = 0 := by linarith
    rcases mul_eq_zero.1 this with h | h
    · exact pow_eq_zero_iff (two_ne_zero) |>.1 h
    · exact absurd h ha.ne'
  apply hne
  subst e1
  have eC : C = b * A / gamma := by field_simp at e5 ⊢; linarith
  have eD : D = s + b ^ 2 * A / gamma := by
    rw [eC] at e2
    rw [← e2]
    field_simp
    ring
  show (A, C, D) = (A, b * A / gamma, s + b ^ 2 * A / gamma)
  rw [← eC, ← eD]

/-- C68: at `gamma = 1` (the ordinary Gaussian likelihood) the closed form is the truth, so the truth is the only maximizer. -/
theorem C68_gamma_one (a b s : ℝ) : closedFormMaximizer a b s 1 = (a, b * a, b ^ 2 * a + s) := by
  simp [closedFormMaximizer, add_comm]

/-- C68: for `gamma ≠ 0, 1` and a real coupling `b ≠ 0` the rule is improper: the true covariance scores strictly less than the
closed form. -/
theorem C68_improper (a b s gamma : ℝ) (ha : 0 < a) (hs : 0 < s) (hg : gamma ≠ 0) (h1 : gamma ≠ 1) (hb : b ≠ 0) :
    let m := closedFormMaximizer a b s gamma
    schurLoglikPopulation a b s gamma a (b * a) (b ^ 2 * a + s) < schurLoglikPopulation a b s gamma m.1 m.2.1 m.2.2 := by
  refine C68_unique_maximizer a b s gamma a (b * a) (b ^ 2 * a + s) ha hs hg ?_
  intro h
  have := congrArg (fun t => t.2.1) h
  simp only [closedFormMaximizer] at this
  have h2 : gamma = 1 := by field_simp at this; linarith
  exact h1 h2

/-- C68: at `gamma = 0` the cross term does not matter, and the diagonal of the truth maximizes whatever the cross term is. -/
theorem C68_gamma_zero (a b s A C D : ℝ) (ha : 0 < a) (hs : 0 < s) (C' : ℝ) :
    schurLoglikPopulation a b s 0 A C D ≤ schurLoglikPopulation a b s 0 a C' (b ^ 2 * a + s) := by
  have ht : 0 < b ^ 2 * a + s := by positivity
  by_cases h : A ≤ 0 ∨ D - 0 * C * C / A ≤ 0
  · unfold schurLoglikPopulation
    simp only []
    rw [if_pos h]
    exact bot_le
  rw [loglik_of h, loglik_of (by push Not; exact ⟨ha, by simpa using ht⟩), WithBot.coe_le_coe]
  push Not at h
  simp only [zero_mul, zero_div, sub_zero] at h ⊢
  have h1 := (logdiv_min h.1 ha).1
  have h2 := (logdiv_min h.2 ht).1
  rw [div_self ha.ne', div_self ht.ne']
  linarith

/-- C68: `spd_threshold_holds` says exactly when the closed form is positive-definite … -/
theorem C68_spd_iff (a b s gamma : ℝ) (ha : 0 < a) (hg : gamma ≠ 0) :
    let (A, C, D) := closedFormMaximizer a b s gamma
    spdThresholdHolds a b s gamma ↔ 0 < A ∧ 0 < A * D - C * C := by
  simp only [closedFormMaximizer, spdThresholdHolds]
  have e : a * (s + b ^ 2 * a / gamma) - b * a / gamma * (b * a / gamma) = (a / gamma ^ 2) * (gamma ^ 2 * s - (1 - gamma) * (b ^ 2 * a)) := by
    field_simp; ring
  rw [e]
  have hp : 0 < a / gamma ^ 2 := by positivity
  rw [mul_pos_iff_of_pos_left hp]
  constructor
  · intro h; exact ⟨ha, by linarith⟩
  · rintro ⟨-, h⟩; linarith

/-- C68: … and that depends on the truth only through the coupling `rho² = b² a / (b² a + s)`. -/
theorem C68_spd_rho2 (a b s gamma : ℝ) (ha : 0 < a) (hs : 0 < s) :
    spdThresholdHolds a b s gamma ↔ gamma ^ 2 * (1 - b ^ 2 * a / (b ^ 2 * a + s)) > (1 - gamma) * (b ^ 2 * a / (b ^ 2 * a + s)) := by
  have ht : 0 < b ^ 2 * a + s := by positivity
  have e : 1 - b ^ 2 * a / (b ^ 2 * a + s) = s / (b ^ 2 * a + s) := by field_simp; ring
  rw [e, spdThresholdHolds, ← mul_div_assoc, ← mul_div_assoc]
  exact (div_lt_div_iff_of_pos_right ht).symm

theorem disc_nonneg {r : ℝ} (h0 : 0 ≤ r) (h1 : r ≤ 1) : 0 ≤ r * r - 4 * (1 - r) * (-r) := by nlinarith

theorem solve_facts {r : ℝ} (h0 : 0 < r) (h1 : r < 1) :
    let g := solveSpdThreshold r
    0 < g ∧ g < 1 ∧ g ^ 2 * (1 - r) = (1 - g) * r := by
  intro g
  set q := Real.sqrt (r * r - 4 * (1 - r) * (-r)) with hq
  have hq2 : q * q = r * r - 4 * (1 - r) * (-r) := Real.mul_self_sqrt (disc_nonneg h0.le h1.le)
  have hq0 : 0 ≤ q := Real.sqrt_nonneg _
  have hd : 0 < 2 * (1 - r) := by linarith
  have hg : g = (-r + q) / (2 * (1 - r)) := rfl
  have hgm : g * (2 * (1 - r)) = -r + q := by rw [hg]; exact div_mul_cancel₀ _ hd.ne'
  have hqr : r < q := by nlinarith
  have hq1 : q < 2 - r := by nlinarith
  have g0 : 0 < g := by rw [hg]; exact div_pos (by linarith) hd
  have g1 : g < 1 := by rw [hg, div_lt_one hd]; linarith
  refine ⟨g0, g1, ?_⟩
  have hq' : q = g * (2 * (1 - r)) + r := by linarith
  rw [hq'] at hq2
  have : (4 * (1 - r)) * (g ^ 2 * (1 - r) - (1 - g) * r) = 0 := by nlinarith
  rcases mul_eq_zero.1 this with h | h <;> linarith

/-- C68: for `0 < rho² < 1` the threshold of `_solve_spd_threshold` lies strictly between 0 and 1, and a positive `gamma` passes
the test exactly when it exceeds it. -/
theorem C68_threshold (r gamma : ℝ) (h0 : 0 < r) (h1 : r < 1) (hg : 0 < gamma) :
    0 < solveSpdThreshold r ∧ solveSpdThreshold r < 1 ∧
      (gamma ^ 2 * (1 - r) > (1 - gamma) * r ↔ solveSpdThreshold r < gamma) := by
  obtain ⟨g0, g1, e⟩ := solve_facts h0 h1
  set g := solveSpdThreshold r
  refine ⟨g0, g1, ?_⟩
  have key : gamma ^ 2 * (1 - r) - (1 - gamma) * r = (gamma - g) * ((gamma + g) * (1 - r) + r) := by nlinarith
  have hp : 0 < (gamma + g) * (1 - r) + r := by have : 0 < (gamma + g) * (1 - r) := mul_pos (by linarith) (by linarith)
                                                linarith
  constructor
  · intro h
    have : 0 < (gamma - g) * ((gamma + g) * (1 - r) + r) := by linarith
    have := (pos_iff_pos_of_mul_pos this).2 hp
    linarith
  · intro h
    have : 0 < (gamma - g) * ((gamma + g) * (1 - r) + r) := mul_pos (by linarith) hp
    linarith

/-- C68: the threshold grows strictly with the coupling … -/
theorem C68_threshold_mono (r r' : ℝ) (h0 : 0 < r) (h : r < r') (h1 : r' < 1) : solveSpdThreshold r < solveSpdThreshold r' := by
  obtain ⟨g0, g1, e⟩ := solve_facts (h0.trans h) h1
  obtain ⟨-, -, hi⟩ := C68_threshold r (solveSpdThreshold r') h0 (h.trans h1) g0
  apply hi.1
  nlinarith [sq_nonneg (solveSpdThreshold r')]

/-- C68: … and tends to 1 as `rho² → 1`: it is at least `1 - (1 - rho²)/rho²`. -/
theorem C68_threshold_to_one (r : ℝ) (h0 : 0 < r) (h1 : r < 1) : 1 - (1 - r) / r ≤ solveSpdThreshold r := by
  obtain ⟨g0, g1, e⟩ := solve_facts h0 h1
  set g := solveSpdThreshold r
  have : 1 - g = g ^ 2 * ((1 - r) / r) := by field_simp; linarith
  have h2 : 0 ≤ (1 - r) / r := div_nonneg (by linarith) h0.le
  have : g ^ 2 ≤ 1 := by nlinarith
  nlinarith

/-- C68: the whole chain for a positive `gamma` and a real coupling: the closed form is positive-definite exactly when `gamma`
exceeds the threshold of the true `rho²`. -/
theorem C68_closed_form_spd (a b s gamma : ℝ) (ha : 0 < a) (hs : 0 < s) (hb : b ≠ 0) (hg : 0 < gamma) :
    let (A, C, D) := closedFormMaximizer a b s gamma
    (0 < A ∧ 0 < A * D - C * C) ↔ solveSpdThreshold (b ^ 2 * a / (b ^ 2 * a + s)) < gamma := by
  have hE : 0 < b ^ 2 * a := by positivity
  have h := C68_spd_iff a b s gamma ha hg.ne'
  simp only at h ⊢
  rw [← h, C68_spd_rho2 a b s gamma ha hs]
  refine (C68_threshold _ gamma (by positivity) ?_ hg).2.2
  rw [div_lt_one (by positivity)]; linarith

-- the values of the paper: a = 1, b = 0.8, s = 0.5
example : closedFormMaximizer 1 (4/5) (1/2) (1/2) = (1, 8/5, 89/50) := by norm_num [closedFormMaximizer]
-- not positive-definite for gamma = 1/2, positive-definite for gamma = 9/10
example : ¬ spdThresholdHolds 1 (4/5) (1/2) (1/2) ∧ spdThresholdHolds 1 (4/5) (1/2) (9/10) := by
  constructor <;> norm_num [spdThresholdHolds]
-- a third candidate scores less than the closed form
example : schurLoglikPopulation 1 (4/5) (1/2) (1/2) 2 0 1 < schurLoglikPopulation 1 (4/5) (1/2) (1/2) 1 (8/5) (89/50) := by
  have h := C68_unique_maximizer 1 (4/5) (1/2) (1/2) 2 0 1 (by norm_num) (by norm_num) (by norm_num)
  have e : closedFormMaximizer 1 (4/5) (1/2) (1/2) = (1, 8/5, 89/50) := by norm_num [closedFormMaximizer]
  rw [e] at h
  exact h (by simp)
-- the threshold at rho² = 1/2 is (√5 - 1)/2
example : solveSpdThreshold (1/2) = (Real.sqrt 5 - 1) / 2 := by
  unfold solveSpdThreshold
  simp only []
  have : (1/2 * (1/2) - 4 * (1 - 1/2) * (-(1/2)) : ℝ) = 5 / 4 := by norm_num
  rw [this, Real.sqrt_div (by norm_num), show (4:ℝ) = 2 ^ 2 by norm_num, Real.sqrt_sq (by norm_num)]
  ring

end Precise.Theory
