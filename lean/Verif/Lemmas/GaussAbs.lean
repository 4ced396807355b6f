import Mathlib.Probability.Distributions.Gaussian.Real
import Mathlib.MeasureTheory.Integral.Gamma

/-! The first absolute moment of a centred normal variable: `E|Z| = sqrt(2 v / π)`. -/

set_option linter.all false

open MeasureTheory ProbabilityTheory Real
open scoped NNReal

namespace Precise

theorem gauss_half (v : ℝ) (hv : 0 < v) : ∫ x in Set.Ioi (0:ℝ), x * exp (-(2 * v)⁻¹ * x ^ 2) = v := by
  have h := integral_rpow_mul_exp_neg_mul_rpow (p := 2) (q := 1) (b := (2 * v)⁻¹) (by norm_num) (by norm_num) (by positivity)
  norm_num at h
  have e : ∀ x : ℝ, x * rexp (-(2 * v)⁻¹ * x ^ 2) = x * rexp (-(v⁻¹ * (1 / 2) * x ^ 2)) := fun x => by
    congr 2; field_simp
  simp only [e]
  rw [h, Real.rpow_neg_one]
  field_simp

theorem gauss_abs (v : ℝ≥0) : ∫ x, |x| ∂gaussianReal 0 v = Real.sqrt (v * (2 / π)) := by
  by_cases hv : v = 0
  · subst hv; simp
  have hv' : (0:ℝ) < v := lt_of_le_of_ne v.2 (fun h => hv (NNReal.coe_eq_zero.1 h.symm))
  rw [integral_gaussianReal_eq_integral_smul hv]
  have e : ∀ x : ℝ, gaussianPDFReal 0 v x • |x| = (fun y => (√(2 * π * v))⁻¹ * (y * exp (-(2 * (v:ℝ))⁻¹ * y ^ 2))) |x| := by
    intro x
    simp only [gaussianPDFReal_def, sub_zero, smul_eq_mul, sq_abs]
    rw [show -x ^ 2 / (2 * (v:ℝ)) = -(2 * (v:ℝ))⁻¹ * x ^ 2 by field_simp]
    ring
  simp only [e]
  rw [integral_comp_abs (f := fun y => (√(2 * π * v))⁻¹ * (y * exp (-(2 * (v:ℝ))⁻¹ * y ^ 2))), integral_const_mul, gauss_half v hv']
  rw [eq_comm, Real.sqrt_eq_iff_mul_self_eq (by positivity) (by positivity)]
  have hs : √(2 * π * v) * √(2 * π * v) = 2 * π * v := Real.mul_self_sqrt (by positivity)
  have hne : √(2 * π * v) ≠ 0 := by positivity
  have : 2 * ((√(2 * π * v))⁻¹ * v) * (2 * ((√(2 * π * v))⁻¹ * v)) = 4 * v ^ 2 * (√(2 * π * v) * √(2 * π * v))⁻¹ := by
    rw [mul_inv]; ring
  rw [this, hs]
  field_simp
  norm_num

theorem gauss_sq (v : ℝ≥0) : ∫ x, x ^ 2 ∂gaussianReal 0 v = v := by
  have h := variance_fun_id_gaussianReal (μ := 0) (v := v)
  rw [variance_eq_integral (by fun_prop), integral_id_gaussianReal] at h
  simpa using h

theorem gauss_int_sq (v : ℝ≥0) : Integrable (fun x : ℝ => x ^ 2) (gaussianReal 0 v) :=
  (memLp_id_gaussianReal (μ := 0) (v := v) 2).integrable_sq

theorem gauss_int_abs (v : ℝ≥0) : Integrable (fun x : ℝ => |x|) (gaussianReal 0 v) :=
  ((memLp_id_gaussianReal (μ := 0) (v := v) 1).integrable (by simp)).abs

/-- mean squared deviation of `|Z|` from a number -/
theorem gauss_dev (v : ℝ≥0) (e : ℝ) :
    Integrable (fun t : ℝ => (|t| - e) ^ 2) (gaussianReal 0 v) ∧
    ∫ t, (|t| - e) ^ 2 ∂gaussianReal 0 v = v * (1 - 2 / π) + (Real.sqrt (v * (2 / π)) - e) ^ 2 := by
  have hg : ∀ t : ℝ, (|t| - e) ^ 2 = (t ^ 2 - 2 * e * |t|) + e ^ 2 := fun t => by rw [sub_sq, sq_abs]; ring
  simp only [hg]
  have i1 := gauss_int_sq v
  have i2 : Integrable (fun t : ℝ => 2 * e * |t|) (gaussianReal 0 v) := (gauss_int_abs v).const_mul _
  have i3 : Integrable (fun t : ℝ => t ^ 2 - 2 * e * |t|) (gaussianReal 0 v) := i1.sub i2
  refine ⟨i3.add (integrable_const _), ?_⟩
  rw [integral_add i3 (integrable_const _), integral_sub i1 i2, integral_const_mul, gauss_sq, gauss_abs]
  have hs := Real.sq_sqrt (show 0 ≤ (v:ℝ) * (2 / π) by positivity)
  rw [sub_sq, hs]
  simp
  ring

theorem integral_sum_sum {Ω : Type} [MeasurableSpace Ω] (μ : Measure Ω) {p : ℕ} (f : Fin p → Fin p → Ω → ℝ) (v : Fin p → Fin p → ℝ)
    (h : ∀ i j, Integrable (f i j) μ ∧ ∫ x, f i j x ∂μ = v i j) : ∫ x, ∑ i, ∑ j, f i j x ∂μ = ∑ i, ∑ j, v i j := by
  rw [integral_finsetSum _ fun i _ => integrable_finsetSum _ fun j _ => (h i j).1]
  refine Finset.sum_congr rfl fun i _ => ?_
  rw [integral_finsetSum _ fun j _ => (h i j).1]
  exact Finset.sum_congr rfl fun j _ => (h i j).2

end Precise
