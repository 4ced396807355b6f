import Mathlib.Probability.Distributions.Gaussian.Real
import Mathlib.Analysis.SpecialFunctions.Gaussian.GaussianIntegral
import Mathlib.Analysis.SpecialFunctions.ImproperIntegrals
import Mathlib.Analysis.SpecialFunctions.NonIntegrable
import Mathlib.MeasureTheory.Integral.Pi
import Mathlib.MeasureTheory.Integral.Prod
import Mathlib.Tactic

/-!
# The inverse of a chi-square variable, and the noise of a regression on Gaussian data

`E[1/|z|²] = 1/(n-2)` for a standard normal vector `z` of length `n ≥ 3` (infinite for `n ≤ 2`), by writing `1/|z|²` as
`∫ exp(-t|z|²) dt` and integrating over `z` first.
-/

set_option linter.all false

open MeasureTheory ProbabilityTheory Real
open scoped ENNReal

namespace Precise.Ols

/-- A standard normal vector. -/
noncomputable abbrev std (n : ℕ) : Measure (Fin n → ℝ) := Measure.pi fun _ => gaussianReal 0 1

theorem exp_sq (t : ℝ) (ht : 0 ≤ t) : ∫ x, exp (-t * x ^ 2) ∂gaussianReal 0 1 = (1 + 2 * t) ^ (-(1 / 2) : ℝ) := by
  rw [integral_gaussianReal_eq_integral_smul one_ne_zero]
  have e : ∀ x : ℝ, gaussianPDFReal 0 1 x • exp (-t * x ^ 2) = (√(2 * π))⁻¹ * exp (-(t + 1 / 2) * x ^ 2) := by
    intro x
    rw [gaussianPDFReal, smul_eq_mul, mul_assoc, ← exp_add]
    simp only [NNReal.coe_one, mul_one, sub_zero]
    congr 2
    ring
  simp_rw [e]
  rw [integral_const_mul, integral_gaussian, ← sqrt_inv, ← sqrt_mul (by positivity), Real.rpow_neg (by linarith), ← Real.sqrt_eq_rpow, ← sqrt_inv]
  congr 1
  have := Real.pi_pos.ne'
  field_simp
  ring

theorem exp_normSq (n : ℕ) (t : ℝ) (ht : 0 ≤ t) :
    ∫⁻ z, ENNReal.ofReal (exp (-t * ∑ i, z i ^ 2)) ∂std n = ENNReal.ofReal ((1 + 2 * t) ^ (-(n / 2 : ℝ))) := by
  have hb : ∀ z : Fin n → ℝ, exp (-t * ∑ i, z i ^ 2) ≤ 1 := fun z => by
    rw [Real.exp_le_one_iff]
    have : 0 ≤ ∑ i, z i ^ 2 := Finset.sum_nonneg fun i _ => sq_nonneg _
    nlinarith
  have hi : Integrable (fun z : Fin n → ℝ => exp (-t * ∑ i, z i ^ 2)) (std n) :=
    Integrable.of_bound (Measurable.aestronglyMeasurable (by fun_prop)) 1 (Filter.Eventually.of_forall fun z => by
      rw [Real.norm_eq_abs, abs_of_pos (exp_pos _)]; exact hb z)
  rw [← ofReal_integral_eq_lintegral_ofReal hi (Filter.Eventually.of_forall fun z => (exp_pos _).le)]
  congr 1
  have e : ∀ z : Fin n → ℝ, exp (-t * ∑ i, z i ^ 2) = ∏ i, exp (-t * z i ^ 2) := fun z => by
    rw [← exp_sum, Finset.mul_sum]
  simp_rw [e]
  rw [integral_fintype_prod_eq_pow (fun x => exp (-t * x ^ 2)), exp_sq t ht, ← Real.rpow_natCast, ← Real.rpow_mul (by linarith)]
  congr 1
  simp
  ring

theorem inv_of_exp (c : ℝ) (hc : 0 < c) : ∫⁻ t in Set.Ioi (0 : ℝ), ENNReal.ofReal (exp (-t * c)) = ENNReal.ofReal (1 / c) := by
  have h := integral_exp_mul_Ioi (a := -c) (by linarith) 0
  have hi := integrableOn_exp_mul_Ioi (a := -c) (by linarith) 0
  have e : ∀ t : ℝ, exp (-t * c) = exp (-c * t) := fun t => by ring_nf
  simp_rw [e]
  rw [← ofReal_integral_eq_lintegral_ofReal hi (Filter.Eventually.of_forall fun z => (exp_pos _).le), h]
  congr 1
  simp

theorem tail_integral (n : ℕ) (hn : 3 ≤ n) :
    ∫⁻ t in Set.Ioi (0 : ℝ), ENNReal.ofReal ((1 + 2 * t) ^ (-(n / 2 : ℝ))) = ENNReal.ofReal (1 / (n - 2)) := by
  have hn' : (3 : ℝ) ≤ n := by exact_mod_cast hn
  have hd : ∀ t ∈ Set.Ici (0 : ℝ), HasDerivAt (fun t : ℝ => -((1 + 2 * t) ^ (1 - n / 2 : ℝ)) / (n - 2)) ((1 + 2 * t) ^ (-(n / 2 : ℝ))) t := by
    intro t ht
    have h1 : HasDerivAt (fun t : ℝ => 1 + 2 * t) 2 t := by
      simpa using ((hasDerivAt_id t).const_mul 2).const_add 1
    have h2 := h1.rpow_const (p := (1 - n / 2 : ℝ)) (Or.inl (by have : (0 : ℝ) ≤ t := ht; positivity))
    have h3 := (h2.neg).div_const ((n : ℝ) - 2)
    have he : -(2 * (1 - n / 2 : ℝ) * (1 + 2 * t) ^ ((1 - n / 2 : ℝ) - 1)) / ((n : ℝ) - 2) = (1 + 2 * t) ^ (-(n / 2 : ℝ)) := ?_
    · rw [← he]; exact h3
    rw [show (1 - n / 2 : ℝ) - 1 = -(n / 2 : ℝ) by ring]
    have : (n : ℝ) - 2 ≠ 0 := by linarith
    field_simp
    ring
  have hp : ∀ t ∈ Set.Ioi (0 : ℝ), 0 ≤ (1 + 2 * t) ^ (-(n / 2 : ℝ)) := fun t ht =>
    Real.rpow_nonneg (by have : (0 : ℝ) < t := ht; linarith) _
  have hl : Filter.Tendsto (fun t : ℝ => -((1 + 2 * t) ^ (1 - n / 2 : ℝ)) / (n - 2)) Filter.atTop (nhds 0) := by
    have h1 : Filter.Tendsto (fun t : ℝ => 1 + 2 * t) Filter.atTop Filter.atTop :=
      Filter.tendsto_atTop_add_const_left _ _ (Filter.Tendsto.const_mul_atTop (by norm_num) Filter.tendsto_id)
    have h2 := (tendsto_rpow_neg_atTop (y := (n / 2 - 1 : ℝ)) (by linarith)).comp h1
    have h3 := (h2.neg).div_const ((n : ℝ) - 2)
    simp only [neg_zero, zero_div] at h3
    refine h3.congr fun t => ?_
    simp only [Function.comp]
    rw [show -(n / 2 - 1 : ℝ) = 1 - n / 2 by ring]
  have hi := integrableOn_Ioi_deriv_of_nonneg' hd hp hl
  have hv := integral_Ioi_of_hasDerivAt_of_nonneg' hd hp hl
  rw [← ofReal_integral_eq_lintegral_ofReal hi ((ae_restrict_iff' measurableSet_Ioi).2 (Filter.Eventually.of_forall hp)), hv]
  congr 1
  simp
  ring

theorem tail_infinite (n : ℕ) (hn : n ≤ 2) :
    ∫⁻ t in Set.Ioi (0 : ℝ), ENNReal.ofReal ((1 + 2 * t) ^ (-(n / 2 : ℝ))) = ∞ := by
  by_contra hne
  have hn' : (n : ℝ) ≤ 2 := by exact_mod_cast hn
  have hm : AEStronglyMeasurable (fun t : ℝ => (1 + 2 * t) ^ (-(n / 2 : ℝ))) (volume.restrict (Set.Ioi 0)) := by
    apply Measurable.aestronglyMeasurable; fun_prop
  have hi : IntegrableOn (fun t : ℝ => (1 + 2 * t) ^ (-(n / 2 : ℝ))) (Set.Ioi 0) := by
    refine ⟨hm, ?_⟩
    rw [hasFiniteIntegral_iff_ofReal ((ae_restrict_iff' measurableSet_Ioi).2 (Filter.Eventually.of_forall fun t ht =>
      Real.rpow_nonneg (by have : (0 : ℝ) < t := ht; linarith) _))]
    exact lt_top_iff_ne_top.2 hne
  have hi1 : IntegrableOn (fun t : ℝ => 3 * (1 + 2 * t) ^ (-(n / 2 : ℝ))) (Set.Ioi 1) :=
    (hi.mono_set (Set.Ioi_subset_Ioi zero_le_one)).const_mul 3
  refine not_integrableOn_Ioi_inv (a := 1) (hi1.mono' (by fun_prop) ?_)
  rw [ae_restrict_iff' measurableSet_Ioi]
  refine Filter.Eventually.of_forall fun t ht => ?_
  have h1 : (1 : ℝ) < t := ht
  rw [Real.norm_eq_abs, abs_of_pos (by positivity)]
  have h2 : (1 + 2 * t) ^ (-1 : ℝ) ≤ (1 + 2 * t) ^ (-(n / 2 : ℝ)) := Real.rpow_le_rpow_of_exponent_le (by linarith) (by linarith)
  have h3 : t⁻¹ ≤ 3 * (1 + 2 * t) ^ (-1 : ℝ) := by
    rw [Real.rpow_neg_one, ← div_eq_mul_inv, inv_eq_one_div, div_le_div_iff₀ (by linarith) (by linarith)]
    linarith
  linarith

/-- A standard normal vector of positive length is almost never zero. -/
theorem ae_ne_zero (n : ℕ) (hn : 1 ≤ n) : ∀ᵐ z ∂std n, 0 < ∑ i, z i ^ 2 := by
  have h : ∀ᵐ z ∂std n, z ⟨0, hn⟩ ≠ 0 := by
    have hq : Measure.QuasiMeasurePreserving (Function.eval (⟨0, hn⟩ : Fin n)) (std n) (gaussianReal 0 1) :=
      Measure.quasiMeasurePreserving_eval _ _
    have := nullSingletonClass_gaussianReal (μ := 0) (v := 1) one_ne_zero
    refine hq.ae (p := fun x => x ≠ 0) ?_
    rw [ae_iff]
    simp
  filter_upwards [h] with z hz
  exact lt_of_lt_of_le (by positivity : 0 < z ⟨0, hn⟩ ^ 2) (Finset.single_le_sum (f := fun i => z i ^ 2) (fun i _ => sq_nonneg _) (Finset.mem_univ _))

theorem inv_normSq_swap (n : ℕ) (hn : 1 ≤ n) :
    ∫⁻ z, ENNReal.ofReal (1 / ∑ i, z i ^ 2) ∂std n = ∫⁻ t in Set.Ioi (0 : ℝ), ENNReal.ofReal ((1 + 2 * t) ^ (-(n / 2 : ℝ))) := by
  have h1 : ∫⁻ z, ENNReal.ofReal (1 / ∑ i, z i ^ 2) ∂std n
      = ∫⁻ z, (∫⁻ t in Set.Ioi (0 : ℝ), ENNReal.ofReal (exp (-t * ∑ i, z i ^ 2))) ∂std n := by
    refine lintegral_congr_ae ?_
    filter_upwards [ae_ne_zero n hn] with z hz
    rw [inv_of_exp _ hz]
  rw [h1, lintegral_lintegral_swap (by apply Measurable.aemeasurable; fun_prop)]
  refine setLIntegral_congr_fun measurableSet_Ioi fun t ht => ?_
  exact exp_normSq n t (le_of_lt ht)

/-- `E[1/|z|²] = 1/(n-2)` for `n ≥ 3`. -/
theorem inv_normSq (n : ℕ) (hn : 3 ≤ n) : ∫⁻ z, ENNReal.ofReal (1 / ∑ i, z i ^ 2) ∂std n = ENNReal.ofReal (1 / (n - 2)) := by
  rw [inv_normSq_swap n (by omega), tail_integral n hn]

/-- … and infinite for `n = 1, 2`. -/
theorem inv_normSq_infinite (n : ℕ) (h1 : 1 ≤ n) (hn : n ≤ 2) : ∫⁻ z, ENNReal.ofReal (1 / ∑ i, z i ^ 2) ∂std n = ∞ := by
  rw [inv_normSq_swap n h1, tail_infinite n hn]

/-! ## The regression noise -/

theorem coord_memLp (n : ℕ) (i : Fin n) : MemLp (fun z : Fin n → ℝ => z i) 2 (std n) :=
  (memLp_id_gaussianReal (μ := 0) (v := 1) 2).comp_measurePreserving (measurePreserving_eval (fun _ : Fin n => gaussianReal 0 1) i)

theorem coord_mean (n : ℕ) (i : Fin n) : ∫ z : Fin n → ℝ, z i ∂std n = 0 := by
  have := integral_comp_eval (μ := fun _ : Fin n => gaussianReal 0 1) (i := i) (f := fun x : ℝ => x) (by fun_prop)
  rw [this, integral_id_gaussianReal]

theorem coord_var (n : ℕ) (i : Fin n) : Var[fun z : Fin n → ℝ => z i; std n] = 1 := by
  have hmp := measurePreserving_eval (fun _ : Fin n => gaussianReal 0 1) i
  have h := variance_map (μ := std n) (X := fun x : ℝ => x) (Y := Function.eval i) (by fun_prop) (measurable_pi_apply i).aemeasurable
  rw [hmp.map_eq, variance_fun_id_gaussianReal] at h
  rw [show (fun z : Fin n → ℝ => z i) = (fun x : ℝ => x) ∘ Function.eval i from rfl, ← h]
  simp

theorem dot_memLp (n : ℕ) (w : Fin n → ℝ) : MemLp (fun z : Fin n → ℝ => ∑ i, w i * z i) 2 (std n) :=
  memLp_finsetSum _ fun i _ => (coord_memLp n i).const_mul (w i)

theorem dot_mean (n : ℕ) (w : Fin n → ℝ) : ∫ z : Fin n → ℝ, ∑ i, w i * z i ∂std n = 0 := by
  rw [integral_finsetSum _ fun i _ => ((coord_memLp n i).integrable one_le_two).const_mul (w i)]
  simp [integral_const_mul, coord_mean]

theorem dot_second (n : ℕ) (w : Fin n → ℝ) : ∫ z : Fin n → ℝ, (∑ i, w i * z i) ^ 2 ∂std n = ∑ i, w i ^ 2 := by
  have hind : iIndepFun (fun (i : Fin n) (z : Fin n → ℝ) => w i * z i) (std n) :=
    iIndepFun_pi (μ := fun _ : Fin n => gaussianReal 0 1) (X := fun i x => w i * x) (by fun_prop)
  have hv := IndepFun.variance_sum (μ := std n) (X := fun (i : Fin n) (z : Fin n → ℝ) => w i * z i) (s := Finset.univ)
    (fun i _ => (coord_memLp n i).const_mul (w i)) (fun i _ j _ hij => hind.indepFun hij)
  have e : (∑ i, fun z : Fin n → ℝ => w i * z i) = fun z => ∑ i, w i * z i := by ext z; simp
  rw [e] at hv
  have h0 := variance_of_integral_eq_zero (μ := std n) (X := fun z : Fin n → ℝ => ∑ i, w i * z i) (Measurable.aemeasurable (by fun_prop)) (dot_mean n w)
  rw [← h0, hv]
  refine Finset.sum_congr rfl fun i _ => ?_
  rw [variance_const_mul, coord_var, mul_one]

theorem dot_second_lintegral (n : ℕ) (w : Fin n → ℝ) :
    ∫⁻ z : Fin n → ℝ, ENNReal.ofReal ((∑ i, w i * z i) ^ 2) ∂std n = ENNReal.ofReal (∑ i, w i ^ 2) := by
  rw [← ofReal_integral_eq_lintegral_ofReal (dot_memLp n w).integrable_sq (Filter.Eventually.of_forall fun z => sq_nonneg _), dot_second]

/-- The noise of a least-squares slope with unit variances: `(z·e)/(z·z)`. -/
noncomputable def noise {n : ℕ} (d : (Fin n → ℝ) × (Fin n → ℝ)) : ℝ := (∑ i, d.1 i * d.2 i) / ∑ i, d.1 i ^ 2

theorem measurable_noise (n : ℕ) : Measurable (noise (n := n)) := by
  unfold noise; fun_prop

theorem noise_sq (n : ℕ) (hn : 1 ≤ n) :
    ∫⁻ d, ENNReal.ofReal (noise d ^ 2) ∂((std n).prod (std n)) = ∫⁻ z, ENNReal.ofReal (1 / ∑ i, z i ^ 2) ∂std n := by
  have hm : Measurable fun d : (Fin n → ℝ) × (Fin n → ℝ) => ENNReal.ofReal (noise d ^ 2) :=
    ((measurable_noise n).pow_const 2).ennreal_ofReal
  rw [lintegral_prod _ hm.aemeasurable]
  refine lintegral_congr_ae ?_
  filter_upwards [ae_ne_zero n hn] with z hz
  have e : ∀ y : Fin n → ℝ, ENNReal.ofReal (noise (z, y) ^ 2) = ENNReal.ofReal (1 / (∑ i, z i ^ 2) ^ 2) * ENNReal.ofReal ((∑ i, z i * y i) ^ 2) := by
    intro y
    rw [← ENNReal.ofReal_mul (by positivity), noise, div_pow]
    congr 1
    ring
  simp_rw [e]
  rw [lintegral_const_mul _ (by fun_prop), dot_second_lintegral, ← ENNReal.ofReal_mul (by positivity)]
  congr 1
  field_simp

theorem noise_memLp (n : ℕ) (hn : 3 ≤ n) : MemLp (noise (n := n)) 2 ((std n).prod (std n)) := by
  rw [memLp_two_iff_integrable_sq (measurable_noise n).aestronglyMeasurable]
  refine ⟨((measurable_noise n).pow_const 2).aestronglyMeasurable, ?_⟩
  rw [hasFiniteIntegral_iff_ofReal (Filter.Eventually.of_forall fun d => sq_nonneg _), noise_sq n (by omega), inv_normSq n hn]
  exact ENNReal.ofReal_lt_top

theorem noise_second (n : ℕ) (hn : 3 ≤ n) : ∫ d, noise d ^ 2 ∂((std n).prod (std n)) = 1 / ((n : ℝ) - 2) := by
  have hn' : (3 : ℝ) ≤ n := by exact_mod_cast hn
  rw [integral_eq_lintegral_of_nonneg_ae (Filter.Eventually.of_forall fun d => sq_nonneg _)
    ((measurable_noise n).pow_const 2).aestronglyMeasurable, noise_sq n (by omega), inv_normSq n hn, ENNReal.toReal_ofReal]
  exact div_nonneg zero_le_one (by linarith)

theorem noise_mean (n : ℕ) (hn : 3 ≤ n) : ∫ d, noise d ∂((std n).prod (std n)) = 0 := by
  rw [integral_prod _ ((noise_memLp n hn).integrable one_le_two)]
  have e : ∀ z : Fin n → ℝ, ∫ y, noise (z, y) ∂std n = 0 := fun z => by
    unfold noise
    simp only []
    rw [integral_div, dot_mean, zero_div]
  simp [e]

theorem noise_infinite (n : ℕ) (h1 : 1 ≤ n) (hn : n ≤ 2) : ¬ Integrable (fun d => noise (n := n) d ^ 2) ((std n).prod (std n)) := by
  intro h
  have h2 := h.2
  rw [hasFiniteIntegral_iff_ofReal (Filter.Eventually.of_forall fun d => sq_nonneg _), noise_sq n h1, inv_normSq_infinite n h1 hn] at h2
  exact lt_irrefl _ h2

end Precise.Ols
