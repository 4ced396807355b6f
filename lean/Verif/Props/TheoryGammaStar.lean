import Verif.Model.Theory
import Mathlib.MeasureTheory.Integral.Bochner.Basic
import Mathlib.MeasureTheory.Function.L1Space.Integrable
import Mathlib.Tactic
import Mathlib.Probability.Moments.Variance
import Mathlib.Topology.Algebra.Order.Field

/-!
# C71: `gamma_star` is the best coupling, and what it depends on
-/

set_option linter.all false

open MeasureTheory

namespace Precise.Theory

variable {Ω : Type} [MeasurableSpace Ω] (μ : Measure Ω) [IsProbabilityMeasure μ]

/-- The expected test residual of coupling `gamma` when the estimate has mean `b` and second moment `b² + V`. -/
theorem C71_risk (gamma a b s V : ℝ) (bHat : Ω → ℝ) (h1 : Integrable bHat μ) (h2 : Integrable (fun ω => bHat ω ^ 2) μ)
    (hm : ∫ ω, bHat ω ∂μ = b) (hv : ∫ ω, bHat ω ^ 2 ∂μ = b ^ 2 + V) :
    ∫ ω, residual gamma a b s (bHat ω) ∂μ = a * ((1 - gamma) ^ 2 * b ^ 2 + gamma ^ 2 * V) + s := by
  have e : (fun ω => residual gamma a b s (bHat ω)) = fun ω => (b ^ 2 * a + s) + ((-(2 * b * gamma * a)) * bHat ω + (gamma ^ 2 * a) * bHat ω ^ 2) := by
    funext ω; unfold residual; ring
  have i1 : Integrable (fun ω => (-(2 * b * gamma * a)) * bHat ω) μ := h1.const_mul _
  have i2 : Integrable (fun ω => (gamma ^ 2 * a) * bHat ω ^ 2) μ := h2.const_mul _
  rw [e, integral_add (integrable_const _) (show Integrable (fun ω => (-(2 * b * gamma * a)) * bHat ω + (gamma ^ 2 * a) * bHat ω ^ 2) μ from i1.add i2),
    integral_add i1 i2, integral_const_mul, integral_const_mul, hm, hv]
  simp
  ring

/-- C71: for `n > 2` observations, whatever the law of the estimate `b̂`, as long as it is unbiased with the variance
`s / (a (n - 2))` of least squares on a Gaussian regressor, `gamma_star(n, rho²)` has strictly the smallest expected residual of
all real couplings. -/
theorem C71_unique_minimizer (gamma a b s n : ℝ) (bHat : Ω → ℝ) (ha : 0 < a) (hs : 0 < s) (hn : 2 < n)
    (h1 : Integrable bHat μ) (h2 : Integrable (fun ω => bHat ω ^ 2) μ)
    (hm : ∫ ω, bHat ω ∂μ = b) (hv : ∫ ω, bHat ω ^ 2 ∂μ = b ^ 2 + s / (a * (n - 2))) :
    let g := gammaStar n (b ^ 2 * a / (b ^ 2 * a + s))
    gamma ≠ g → ∫ ω, residual g a b s (bHat ω) ∂μ < ∫ ω, residual gamma a b s (bHat ω) ∂μ := by
  intro g hne
  rw [C71_risk μ gamma a b s _ bHat h1 h2 hm hv, C71_risk μ g a b s _ bHat h1 h2 hm hv]
  set V := s / (a * (n - 2)) with hV
  have hn' : 0 < n - 2 := by linarith
  have hVp : 0 < V := by positivity
  have ht : 0 < b ^ 2 * a + s := by positivity
  have hden : 0 < b ^ 2 + V := by positivity
  have hg : g = b ^ 2 / (b ^ 2 + V) := by
    show gammaStar n (b ^ 2 * a / (b ^ 2 * a + s)) = _
    unfold gammaStar
    have e1 : 1 - b ^ 2 * a / (b ^ 2 * a + s) = s / (b ^ 2 * a + s) := by field_simp; ring
    have hs' : s = V * (a * (n - 2)) := by rw [hV]; field_simp
    rw [e1, ← mul_div_assoc, ← add_div, div_div_div_cancel_right₀ ht.ne']
    rw [hs', show (n - 2) * (b ^ 2 * a) = b ^ 2 * (a * (n - 2)) by ring, ← add_mul]
    exact mul_div_mul_right _ _ (by positivity)
  have hk : g * (b ^ 2 + V) = b ^ 2 := by rw [hg]; field_simp
  have key : (a * ((1 - gamma) ^ 2 * b ^ 2 + gamma ^ 2 * V) + s) - (a * ((1 - g) ^ 2 * b ^ 2 + g ^ 2 * V) + s) =
      a * (b ^ 2 + V) * (gamma - g) ^ 2 := by
    have : b ^ 2 = g * (b ^ 2 + V) := hk.symm
    have h3 : (1 - gamma) ^ 2 * b ^ 2 + gamma ^ 2 * V - ((1 - g) ^ 2 * b ^ 2 + g ^ 2 * V) =
        (b ^ 2 + V) * (gamma ^ 2 - g ^ 2) - 2 * b ^ 2 * (gamma - g) := by ring
    have h4 : 2 * b ^ 2 * (gamma - g) = 2 * (g * (b ^ 2 + V)) * (gamma - g) := by rw [hk]
    rw [h4] at h3
    linear_combination a * h3
  have : 0 < a * (b ^ 2 + V) * (gamma - g) ^ 2 := by
    have : 0 < (gamma - g) ^ 2 := by have := sub_ne_zero.2 hne; positivity
    positivity
  linarith

/-- C71: it is a weight … -/
theorem C71_range (n r : ℝ) (hn : 2 < n) (h0 : 0 ≤ r) (h1 : r ≤ 1) : 0 ≤ gammaStar n r ∧ gammaStar n r ≤ 1 := by
  unfold gammaStar
  have hA : 0 ≤ (n - 2) * r := mul_nonneg (by linarith) h0
  constructor
  · exact div_nonneg hA (by linarith)
  · exact div_le_one_of_le₀ (by linarith) (by linarith)

/-- C71: … 0 without coupling and 1 with perfect coupling … -/
theorem C71_ends (n : ℝ) (hn : 2 < n) : gammaStar n 0 = 0 ∧ gammaStar n 1 = 1 := by
  unfold gammaStar
  have : n - 2 ≠ 0 := by linarith
  constructor
  · simp
  · simp [this]

/-- C71: … strictly increasing in the number of observations … -/
theorem C71_mono_n (n n' r : ℝ) (hn : 2 < n) (h : n < n') (h0 : 0 < r) (h1 : r < 1) : gammaStar n r < gammaStar n' r := by
  unfold gammaStar
  have e : ∀ m : ℝ, 2 < m → 0 < (m - 2) * r + (1 - r) := fun m hm => by
    have : 0 < (m - 2) * r := mul_pos (by linarith) h0
    linarith
  rw [div_lt_div_iff₀ (e n hn) (e n' (by linarith))]
  nlinarith [mul_pos (mul_pos h0 (by linarith : 0 < 1 - r)) (by linarith : 0 < n' - n)]

/-- C71: … and in the coupling … -/
theorem C71_mono_rho (n r r' : ℝ) (hn : 2 < n) (h0 : 0 ≤ r) (h : r < r') (h1 : r' ≤ 1) : gammaStar n r < gammaStar n r' := by
  unfold gammaStar
  have hn' : 0 < n - 2 := by linarith
  have e1 : 0 < (n - 2) * r + (1 - r) := by nlinarith
  have e2 : 0 < (n - 2) * r' + (1 - r') := by nlinarith
  rw [div_lt_div_iff₀ e1 e2]
  nlinarith

/-- C71: … and tends to full trust as the sample grows. -/
theorem C71_limit (r : ℝ) (h0 : 0 < r) (h1 : r ≤ 1) : Filter.Tendsto (fun n : ℝ => gammaStar n r) Filter.atTop (nhds 1) := by
  have hk : Filter.Tendsto (fun n : ℝ => (n - 2) * r + (1 - r)) Filter.atTop Filter.atTop := by
    apply Filter.tendsto_atTop_add_const_right
    exact (Filter.tendsto_atTop_add_const_right _ (-2) Filter.tendsto_id).atTop_mul_const h0
  have h2 : Filter.Tendsto (fun n : ℝ => 1 - (1 - r) / ((n - 2) * r + (1 - r))) Filter.atTop (nhds (1 - 0)) :=
    tendsto_const_nhds.sub (hk.const_div_atTop _)
  rw [sub_zero] at h2
  refine h2.congr' ?_
  filter_upwards [Filter.eventually_gt_atTop 2] with n hn
  have hA : 0 < (n - 2) * r := mul_pos (by linarith) h0
  have : (n - 2) * r + (1 - r) ≠ 0 := by linarith
  unfold gammaStar
  rw [eq_div_iff this, sub_mul, div_mul_cancel₀ _ this]
  ring

/-- A two-point estimate meets the hypotheses of C71_unique_minimizer: `b̂ = b ± √V` with equal chances. -/
example (gamma : ℝ) (hne : gamma ≠ gammaStar 4 (1 * 1 / (1 * 1 + 2))) :
    ∃ (μ : Measure ℝ) (_ : IsProbabilityMeasure μ),
      ∫ x, residual (gammaStar 4 (1 ^ 2 * 1 / (1 ^ 2 * 1 + 2))) 1 1 2 x ∂μ < ∫ x, residual gamma 1 1 2 x ∂μ := by
  let μ : Measure ℝ := (1 / 2 : ENNReal) • Measure.dirac 2 + (1 / 2 : ENNReal) • Measure.dirac 0
  have hp : IsProbabilityMeasure μ := ⟨by simp [μ, ENNReal.inv_two_add_inv_two]⟩
  have hi : ∀ f : ℝ → ℝ, Measurable f → Integrable f μ := fun f hf =>
    ((integrable_dirac (by simp [enorm])).smul_measure (by simp)).add_measure
      ((integrable_dirac (by simp [enorm])).smul_measure (by simp))
  have hI : ∀ f : ℝ → ℝ, Measurable f → ∫ x, f x ∂μ = 1 / 2 * f 2 + 1 / 2 * f 0 := fun f hf => by
    rw [integral_add_measure ((integrable_dirac (by simp [enorm])).smul_measure (by simp))
      ((integrable_dirac (by simp [enorm])).smul_measure (by simp)), integral_smul_measure, integral_smul_measure,
      integral_dirac, integral_dirac]
    simp
  refine ⟨μ, hp, ?_⟩
  refine C71_unique_minimizer μ gamma 1 1 2 4 id one_pos two_pos (by norm_num) (hi _ measurable_id) (hi _ (by fun_prop)) ?_ ?_ ?_
  · rw [hI id measurable_id]; norm_num
  · simp only [id]; rw [hI (fun x => x ^ 2) (by fun_prop)]; norm_num
  · simpa using hne

end Precise.Theory
