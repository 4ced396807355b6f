import Verif.Props.AssessOther
import Verif.Lemmas.GaussAbs
import Mathlib.Probability.Distributions.Gaussian.Multivariate
import Mathlib.Probability.Distributions.Gaussian.Fernique

/-!
# C56, C58, C59: the scoring rules are proper in expectation

A test row drawn from the normal distribution `N(0, S)` (Mathlib's `multivariateGaussian`): the expected score is highest at
the true covariance `S`.
-/

set_option linter.all false

open Matrix MeasureTheory ProbabilityTheory

namespace Precise

open Spec Obj

variable {p : ℕ} (L : Lapack)

/-- Expected value, over a test row drawn from `N(0, S)`, of a score of that row. -/
noncomputable def expectedScore (S : Matrix (Fin p) (Fin p) ℝ) (score : List (Fin p → ℝ) → ℝ) : ℝ :=
  ∫ x, score [x.ofLp] ∂(multivariateGaussian (0 : EuclideanSpace ℝ (Fin p)) S)

theorem Spec.PSD.posSemidef {S : Matrix (Fin p) (Fin p) ℝ} (h : PSD S) : S.PosSemidef :=
  .of_dotProduct_mulVec_nonneg (by ext i j; simpa using (h.1 j i)) fun x => by simpa [quad] using h.2 x

variable {S : Matrix (Fin p) (Fin p) ℝ}

theorem int_coord (i : Fin p) (q : ENNReal) (hq : q ≠ ⊤) :
    MemLp (fun x : EuclideanSpace ℝ (Fin p) => x i) q (multivariateGaussian 0 S) :=
  IsGaussian.memLp_dual _ (EuclideanSpace.proj i) q hq

theorem mean_coord (i : Fin p) : ∫ x : EuclideanSpace ℝ (Fin p), x i ∂(multivariateGaussian 0 S) = 0 := by
  have := ContinuousLinearMap.integral_comp_comm (EuclideanSpace.proj (𝕜 := ℝ) i)
    (IsGaussian.integrable_fun_id (μ := multivariateGaussian (0 : EuclideanSpace ℝ (Fin p)) S))
  rw [integral_id_multivariateGaussian] at this
  simpa using this

theorem int_prod (i j : Fin p) : Integrable (fun x : EuclideanSpace ℝ (Fin p) => x i * x j) (multivariateGaussian 0 S) :=
  (int_coord i 2 (by simp)).integrable_mul (int_coord j 2 (by simp))

theorem moment_coord (hS : PSD S) (i j : Fin p) :
    ∫ x : EuclideanSpace ℝ (Fin p), x i * x j ∂(multivariateGaussian 0 S) = S i j := by
  have := covariance_eval_multivariateGaussian (μ := (0 : EuclideanSpace ℝ (Fin p))) hS.posSemidef i j
  rw [covariance_eq_sub (int_coord i 2 (by simp)) (int_coord j 2 (by simp)), mean_coord, mean_coord] at this
  simpa using this

theorem expected_quad (hS : PSD S) (P : Matrix (Fin p) (Fin p) ℝ) :
    Integrable (fun x : EuclideanSpace ℝ (Fin p) => quad P x.ofLp) (multivariateGaussian 0 S) ∧
    ∫ x : EuclideanSpace ℝ (Fin p), quad P x.ofLp ∂(multivariateGaussian 0 S) = ∑ i, ∑ j, P i j * S i j := by
  have e : ∀ x : EuclideanSpace ℝ (Fin p), quad P x.ofLp = ∑ i, ∑ j, P i j * (x i * x j) := fun x => by
    rw [quad_expand]; exact Finset.sum_congr rfl fun i _ => Finset.sum_congr rfl fun j _ => by ring
  simp only [e]
  have h1 : ∀ i j, Integrable (fun x : EuclideanSpace ℝ (Fin p) => P i j * (x i * x j)) (multivariateGaussian 0 S) :=
    fun i j => (int_prod i j).const_mul _
  refine ⟨integrable_finsetSum _ fun i _ => integrable_finsetSum _ fun j _ => h1 i j, ?_⟩
  rw [integral_finsetSum _ fun i _ => integrable_finsetSum _ fun j _ => h1 i j]
  refine Finset.sum_congr rfl fun i _ => ?_
  rw [integral_finsetSum _ fun j _ => h1 i j]
  refine Finset.sum_congr rfl fun j _ => ?_
  rw [integral_const_mul, moment_coord hS]

/-- C56: LogLikelihood is strictly proper. For a test row from `N(0, S)` with `S` positive-definite, the expected score of
a positive-definite estimate is at most that of `S`, with equality only for `S` itself. -/
theorem C56_loglik_strictly_proper (hS : PD S) (c : Matrix (Fin p) (Fin p) ℝ) (hc : PD c) :
    expectedScore S (fun X => (logLikelihoodScore L c X).unbotD 0) ≤ expectedScore S (fun X => (logLikelihoodScore L S X).unbotD 0) ∧
    (expectedScore S (fun X => (logLikelihoodScore L c X).unbotD 0) = expectedScore S (fun X => (logLikelihoodScore L S X).unbotD 0) →
      c = S) := by
  have key : ∀ c : Matrix (Fin p) (Fin p) ℝ, PD c → expectedScore S (fun X => (logLikelihoodScore L c X).unbotD 0)
      = -(1/2) * (c⁻¹ * S).trace - (1/2) * (p * Real.log (2 * Real.pi) + Real.log c.det) := by
    intro c hc
    unfold expectedScore
    have e : ∀ x : EuclideanSpace ℝ (Fin p), (logLikelihoodScore L c [x.ofLp]).unbotD 0
        = -(1/2) * quad c⁻¹ x.ofLp - (1/2) * (p * Real.log (2 * Real.pi) + Real.log c.det) := by
      intro x
      rw [(C56_loglik_value L c _).1 hc, WithBot.unbotD_coe]
      unfold meanLogLik
      simp only [List.map_cons, List.map_nil, List.sum_cons, List.sum_nil, List.length_cons, List.length_nil]
      rw [log_gaussDensity 0 hc, sub_zero, Fintype.card_fin]
      norm_num
    simp only [e]
    obtain ⟨hi, hq⟩ := expected_quad hS.psd c⁻¹
    rw [integral_sub (hi.const_mul _) (integrable_const _), integral_const_mul, hq, integral_const]
    rw [probReal_univ, one_smul]
    congr 2
    simp only [trace, diag_apply, mul_apply]
    exact Finset.sum_congr rfl fun i _ => Finset.sum_congr rfl fun j _ => by rw [hS.1 j i]
  have hu : IsUnit S.det := isUnit_iff_ne_zero.2 hS.det_pos.ne'
  have huc : IsUnit c.det := isUnit_iff_ne_zero.2 hc.det_pos.ne'
  have hst := stein hc.inv hS
  have hlog : Real.log c⁻¹.det = -Real.log c.det := by rw [det_nonsing_inv, Ring.inverse_eq_inv', Real.log_inv]
  rw [hlog, Fintype.card_fin] at hst
  rw [key c hc, key S hS, nonsing_inv_mul _ hu, trace_one, Fintype.card_fin]
  refine ⟨by linarith [hst.1], fun heq => ?_⟩
  have := congrArg (fun z => z⁻¹) (hst.2 (by linarith [hst.1]))
  simpa [nonsing_inv_nonsing_inv _ hu, nonsing_inv_nonsing_inv _ huc] using this

/-- C58: GMVVariance is proper (not strictly): for a test row from `N(0, S)`, no positive-definite estimate has a
higher expected score than `S`. -/
theorem C58_gmv_proper (hp : 1 ≤ p) (hS : PD S) (c : Matrix (Fin p) (Fin p) ℝ) (hc : PD c) :
    expectedScore S (gmvScore L c) ≤ expectedScore S (gmvScore L S) := by
  have key : ∀ c : Matrix (Fin p) (Fin p) ℝ, expectedScore S (gmvScore L c) = -quad S (gmvWeights L c) := by
    intro c
    unfold expectedScore
    have e : ∀ x : EuclideanSpace ℝ (Fin p), gmvScore L c [x.ofLp] = -quad (outer (gmvWeights L c) (gmvWeights L c)) x.ofLp := by
      intro x
      rw [quad_outer]
      unfold gmvScore
      simp only [List.map_cons, List.map_nil, List.sum_cons, List.sum_nil, List.length_cons, List.length_nil, dotProduct]
      norm_num
      rw [pow_two]
      congr 1 <;> exact Finset.sum_congr rfl fun i _ => by ring
    simp only [e]
    rw [integral_neg, (expected_quad hS.psd _).2, quad_expand]
    congr 1
    exact Finset.sum_congr rfl fun i _ => Finset.sum_congr rfl fun j _ => by simp [outer]; ring
  rw [key, key]
  have := (gmv_optimal L hS hp (gmvWeights L c) (gmv_cov_mul L hc hp).2.1).1
  linarith

/-- the difference of two coordinates is normal with variance `S i i + S j j - 2 S i j` -/
theorem diff_law (hS : PSD S) (i j : Fin p) :
    (multivariateGaussian (0 : EuclideanSpace ℝ (Fin p)) S).map (fun x => x i - x j)
      = gaussianReal 0 (S i i + S j j - 2 * S i j).toNNReal := by
  have h := IsGaussian.map_eq_gaussianReal (μ := multivariateGaussian (0 : EuclideanSpace ℝ (Fin p)) S)
    (EuclideanSpace.proj (𝕜 := ℝ) i - EuclideanSpace.proj (𝕜 := ℝ) j)
  have hf : (⇑(EuclideanSpace.proj (𝕜 := ℝ) i - EuclideanSpace.proj (𝕜 := ℝ) j) : EuclideanSpace ℝ (Fin p) → ℝ) = fun x => x i - x j := rfl
  rw [hf] at h
  rw [h]
  have hint : ∀ i : Fin p, Integrable (fun x : EuclideanSpace ℝ (Fin p) => x i) (multivariateGaussian 0 S) :=
    fun i => (int_coord i 1 (by simp)).integrable le_rfl
  congr 1
  · rw [integral_sub (hint i) (hint j), mean_coord, mean_coord, sub_zero]
  · congr 1
    rw [variance_fun_sub (int_coord i 2 (by simp)) (int_coord j 2 (by simp)), variance_eval_multivariateGaussian hS.posSemidef,
      variance_eval_multivariateGaussian hS.posSemidef, covariance_eval_multivariateGaussian hS.posSemidef]
    ring

theorem expected_absdiff (hS : PSD S) (i j : Fin p) (e : ℝ) :
    Integrable (fun x : EuclideanSpace ℝ (Fin p) => (|x i - x j| - e) ^ 2) (multivariateGaussian 0 S) ∧
    ∫ x : EuclideanSpace ℝ (Fin p), (|x i - x j| - e) ^ 2 ∂(multivariateGaussian 0 S)
      = (max (S i i + S j j - 2 * S i j) 0) * (1 - 2 / Real.pi) + (variogramExpected S i j - e) ^ 2 := by
  set v := (S i i + S j j - 2 * S i j).toNNReal with hv
  have hvr : (v : ℝ) = max (S i i + S j j - 2 * S i j) 0 := by rw [hv, Real.coe_toNNReal']
  have hm : Measurable (fun x : EuclideanSpace ℝ (Fin p) => x i - x j) := by fun_prop
  have hae : AEMeasurable (fun x : EuclideanSpace ℝ (Fin p) => x i - x j) (multivariateGaussian 0 S) := hm.aemeasurable
  obtain ⟨hint, hval⟩ := gauss_dev v e
  have hcont : Continuous fun t : ℝ => (|t| - e) ^ 2 := by fun_prop
  have hlaw := diff_law hS i j
  rw [← hv] at hlaw
  constructor
  · have := (integrable_map_measure (μ := multivariateGaussian (0 : EuclideanSpace ℝ (Fin p)) S) (g := fun t : ℝ => (|t| - e) ^ 2)
      hcont.aestronglyMeasurable hae).1 (by rw [hlaw]; exact hint)
    exact this
  · have h1 := integral_map (μ := multivariateGaussian (0 : EuclideanSpace ℝ (Fin p)) S) hae (f := fun t : ℝ => (|t| - e) ^ 2)
      hcont.aestronglyMeasurable
    rw [variogramExpected_of_symm hS.1, ← hvr, ← hval, ← hlaw]
    exact h1.symm

/-- C59: VariogramScore is proper: for a test row from `N(0, S)` no estimate has a higher expected score than `S`; a
positive semi-definite estimate has the same expected score exactly when it gives every pairwise difference the same variance. -/
theorem C59_variogram_proper (hS : PSD S) (c : Matrix (Fin p) (Fin p) ℝ) :
    expectedScore S (variogramScore c) ≤ expectedScore S (variogramScore S) ∧
    (PSD c → (expectedScore S (variogramScore c) = expectedScore S (variogramScore S) ↔
      ∀ i j, c i i + c j j - 2 * c i j = S i i + S j j - 2 * S i j)) := by
  have key : ∀ c : Matrix (Fin p) (Fin p) ℝ, expectedScore S (variogramScore c)
      = -(∑ i, ∑ j, ((max (S i i + S j j - 2 * S i j) 0) * (1 - 2 / Real.pi) + (variogramExpected S i j - variogramExpected c i j) ^ 2)) := by
    intro c
    unfold expectedScore
    have e : ∀ x : EuclideanSpace ℝ (Fin p), variogramScore c [x.ofLp] = -∑ i, ∑ j, (|x i - x j| - variogramExpected c i j) ^ 2 := by
      intro x
      unfold variogramScore
      simp
    simp only [e]
    rw [integral_neg]
    congr 1
    exact integral_sum_sum (multivariateGaussian (0 : EuclideanSpace ℝ (Fin p)) S) (fun i j x => (|x i - x j| - variogramExpected c i j) ^ 2) _
      fun i j => expected_absdiff hS i j _
  rw [key, key]
  simp only [sub_self, Finset.sum_add_distrib]
  have hnn : 0 ≤ ∑ i, ∑ j, (variogramExpected S i j - variogramExpected c i j) ^ 2 :=
    Finset.sum_nonneg fun i _ => Finset.sum_nonneg fun j _ => sq_nonneg _
  have hzero : ∑ i : Fin p, ∑ j : Fin p, (0:ℝ) ^ 2 = 0 := by simp
  have hpi : (0:ℝ) < 2 / Real.pi := by positivity
  rw [hzero]
  refine ⟨by linarith, fun hc => ⟨fun heq i j => ?_, fun heq => ?_⟩⟩
  · have dv : ∀ {a : Matrix (Fin p) (Fin p) ℝ}, PSD a → ∀ i j, 0 ≤ a i i + a j j - 2 * a i j := by
      intro a ha i j
      have := ha.2 (Pi.single i 1 - Pi.single j 1)
      have e : quad a (Pi.single i 1 - Pi.single j 1) = a i i + a j j - 2 * a i j := by
        unfold quad
        rw [mulVec_sub, sub_dotProduct, dotProduct_sub, dotProduct_sub]
        simp only [single_one_dotProduct, mulVec_single_one, Matrix.col_apply]
        rw [ha.1 j i]; ring
      rwa [e] at this
    have h0 : ∑ i, ∑ j, (variogramExpected S i j - variogramExpected c i j) ^ 2 = 0 := by linarith
    have h1 := (Finset.sum_eq_zero_iff_of_nonneg fun i _ => Finset.sum_nonneg fun j _ => sq_nonneg _).1 h0 i (Finset.mem_univ i)
    have h2 := (Finset.sum_eq_zero_iff_of_nonneg fun j _ => sq_nonneg _).1 h1 j (Finset.mem_univ j)
    have h3 : variogramExpected S i j = variogramExpected c i j := sub_eq_zero.1 (pow_eq_zero_iff (two_ne_zero) |>.1 h2)
    rw [variogramExpected_of_symm hS.1, variogramExpected_of_symm hc.1, Real.sqrt_inj (by positivity) (by positivity)] at h3
    have h4 := mul_right_cancel₀ hpi.ne' h3
    rw [max_eq_left (dv hS i j), max_eq_left (dv hc i j)] at h4
    exact h4.symm
  · have : ∀ i j, variogramExpected S i j = variogramExpected c i j := fun i j => by
      rw [variogramExpected_of_symm hS.1, variogramExpected_of_symm hc.1, heq]
    simp only [this, sub_self]
    rw [hzero]

-- the hypotheses hold for a correlated pair as truth and the identity as estimate
example : PD (!![2, 1; 1, 1] : Matrix (Fin 2) (Fin 2) ℝ) ∧ PD (1 : Matrix (Fin 2) (Fin 2) ℝ) :=
  ⟨demo_minEig.pd (fun i j => by fin_cases i <;> fin_cases j <;> rfl) (by positivity), pd_one⟩

end Precise
