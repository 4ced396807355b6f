import Verif.Props.Assessors

/-!
# C58, C59: minimum-variance, Frobenius and variogram assessors
-/

set_option linter.all false

open Matrix

namespace Precise

open Spec Obj

variable {p : ℕ} (L : Lapack)

/-! ### GMVVariance -/

theorem tryInvert_smul {c : Matrix (Fin p) (Fin p) ℝ} (hs : Symm c) {k : ℝ} (hk : k ≠ 0) :
    tryInvert L (k • c) = k⁻¹ • tryInvert L c := by
  refine IsPinv.unique (tryInvert_pinv L (hs.smul k)) ?_
  obtain ⟨h1, h2, h3, h4⟩ := tryInvert_pinv L hs
  have e : ∀ a b : Matrix (Fin p) (Fin p) ℝ, (k • a) * (k⁻¹ • b) = a * b := fun a b => by
    rw [smul_mul_smul_comm, mul_inv_cancel₀ hk, one_smul]
  have e' : ∀ a b : Matrix (Fin p) (Fin p) ℝ, (k⁻¹ • a) * (k • b) = a * b := fun a b => by
    rw [smul_mul_smul_comm, inv_mul_cancel₀ hk, one_smul]
  refine ⟨?_, ?_, ?_, ?_⟩
  · rw [e, Matrix.mul_smul, h1]
  · rw [e', Matrix.mul_smul, h2]
  · rw [e]; exact h3
  · rw [e']; exact h4

theorem gmv_cov_mul {c : Matrix (Fin p) (Fin p) ℝ} (h : PD c) (hp : 1 ≤ p) :
    0 < ∑ j, (c⁻¹ *ᵥ 1) j ∧ ∑ i, gmvWeights L c i = 1 ∧ c *ᵥ gmvWeights L c = fun _ => 1 / ∑ j, (c⁻¹ *ᵥ 1) j := by
  have hne : (1 : Fin p → ℝ) ≠ 0 := fun h0 => one_ne_zero (congrFun h0 ⟨0, by omega⟩)
  have hs : 0 < ∑ j, (c⁻¹ *ᵥ 1) j := by
    have := h.inv.2 1 hne
    simpa [quad, one_dotProduct] using this
  refine ⟨hs, ?_, ?_⟩
  · unfold gmvWeights
    simp only [tryInvert_of_pd L h]
    rw [← Finset.sum_div, div_self hs.ne']
  · have : gmvWeights L c = (1 / ∑ j, (c⁻¹ *ᵥ 1) j) • (c⁻¹ *ᵥ 1) := by
      ext i
      simp only [gmvWeights, tryInvert_of_pd L h, Pi.smul_apply, smul_eq_mul]
      ring
    rw [this, mulVec_smul, mulVec_mulVec, mul_nonsing_inv _ (isUnit_iff_ne_zero.2 h.det_pos.ne'), one_mulVec]
    ext i
    simp

/-- The weights minimize the variance among all weights that sum to one, uniquely. -/
theorem gmv_optimal {c : Matrix (Fin p) (Fin p) ℝ} (h : PD c) (hp : 1 ≤ p) (v : Fin p → ℝ) (hv : ∑ i, v i = 1) :
    quad c (gmvWeights L c) ≤ quad c v ∧ (quad c v = quad c (gmvWeights L c) → v = gmvWeights L c) := by
  obtain ⟨hs, hw, hcw⟩ := gmv_cov_mul L h hp
  set w := gmvWeights L c
  have hx : w ⬝ᵥ c *ᵥ (v - w) = 0 := by
    rw [dotProduct_mulVec, ← mulVec_transpose, h.1.transpose, hcw]
    simp only [dotProduct, Pi.sub_apply, ← Finset.mul_sum, Finset.sum_sub_distrib, hv, hw, sub_self, mul_zero]
  have e : quad c v = quad c w + quad c (v - w) := by
    have := quad_add_vec h.1 w (v - w) 1
    rw [one_smul, add_sub_cancel, hx] at this
    linarith
  refine ⟨by linarith [h.psd.2 (v - w)], fun heq => ?_⟩
  by_contra hne
  have := h.2 (v - w) (sub_ne_zero.2 hne)
  linarith

/-- C58: for a positive-definite estimate GMVVariance is minus the mean squared return of the portfolio `w` with the
least variance under the estimate among all portfolios with weights summing to one (there is exactly one). -/
theorem C58_minimum_variance (hp : 1 ≤ p) (c : Matrix (Fin p) (Fin p) ℝ) (h : PD c) (X : List (Fin p → ℝ)) :
    ∃ w : Fin p → ℝ, ∑ i, w i = 1 ∧ (∀ v : Fin p → ℝ, ∑ i, v i = 1 → quad c w ≤ quad c v) ∧
      (∀ v : Fin p → ℝ, ∑ i, v i = 1 → quad c v ≤ quad c w → v = w) ∧
      gmvScore L c X = -((X.map fun x => (x ⬝ᵥ w) * (x ⬝ᵥ w)).sum / X.length) := by
  refine ⟨gmvWeights L c, (gmv_cov_mul L h hp).2.1, fun v hv => (gmv_optimal L h hp v hv).1, fun v hv hle =>
    (gmv_optimal L h hp v hv).2 (le_antisymm hle (gmv_optimal L h hp v hv).1), ?_⟩
  unfold gmvScore
  simp only [pow_two]
  rfl

theorem gmvScore_eq (c : Matrix (Fin p) (Fin p) ℝ) (X : List (Fin p → ℝ)) :
    gmvScore L c X = -quad (secondMoment X) (gmvWeights L c) := by rw [quad_secondMoment]; rfl

/-- C58: the score is never positive, and does not change when the estimate is multiplied by any non-zero constant
(symmetric estimates, singular ones included). -/
theorem C58_scale (c : Matrix (Fin p) (Fin p) ℝ) (X : List (Fin p → ℝ)) :
    gmvScore L c X ≤ 0 ∧ (Symm c → ∀ k : ℝ, k ≠ 0 → gmvScore L (k • c) X = gmvScore L c X) := by
  refine ⟨?_, fun hs k hk => ?_⟩
  · rw [gmvScore_eq]
    linarith [(psd_secondMoment X).2 (gmvWeights L c)]
  · rw [gmvScore_eq, gmvScore_eq]
    congr 2
    ext i
    simp only [gmvWeights, tryInvert_smul L hs hk, smul_mulVec, Pi.smul_apply, smul_eq_mul, ← Finset.mul_sum]
    exact mul_div_mul_left _ _ (inv_ne_zero hk)

/-- C58: no positive-definite estimate scores better than the second-moment matrix of the test rows. -/
theorem C58_best (hp : 1 ≤ p) (X : List (Fin p → ℝ)) (hpd : PD (secondMoment X)) (c : Matrix (Fin p) (Fin p) ℝ) (h : PD c) :
    gmvScore L c X ≤ gmvScore L (secondMoment X) X := by
  rw [gmvScore_eq, gmvScore_eq]
  have := (gmv_optimal L hpd hp (gmvWeights L c) (gmv_cov_mul L h hp).2.1).1
  linarith

/-! ### FrobeniusToTruth -/

theorem frobNorm_nonneg (a : Matrix (Fin p) (Fin p) ℝ) : 0 ≤ frobNorm a := Real.sqrt_nonneg _

theorem frobNorm_eq_zero (a : Matrix (Fin p) (Fin p) ℝ) : frobNorm a = 0 ↔ a = 0 := by
  have h0 : ∀ i ∈ (Finset.univ : Finset (Fin p)), 0 ≤ ∑ j, a i j * a i j := fun i _ => Finset.sum_nonneg fun j _ => mul_self_nonneg _
  unfold frobNorm
  rw [Real.sqrt_eq_zero (Finset.sum_nonneg h0), Finset.sum_eq_zero_iff_of_nonneg h0]
  constructor
  · intro h
    ext i j
    have := (Finset.sum_eq_zero_iff_of_nonneg (fun j _ => mul_self_nonneg (a i j))).1 (h i (Finset.mem_univ i)) j (Finset.mem_univ j)
    exact mul_self_eq_zero.1 this
  · rintro rfl i _
    simp

theorem frobNorm_smul (k : ℝ) (a : Matrix (Fin p) (Fin p) ℝ) : frobNorm (k • a) = |k| * frobNorm a := by
  unfold frobNorm
  rw [← Real.sqrt_sq (abs_nonneg k), ← Real.sqrt_mul (sq_nonneg _)]
  congr 1
  rw [sq_abs, Finset.mul_sum]
  refine Finset.sum_congr rfl fun i _ => ?_
  rw [Finset.mul_sum]
  exact Finset.sum_congr rfl fun j _ => by simp; ring

/-- C59: FrobeniusToTruth is at most 0, is 0 exactly at the truth, scores the zero estimate -1, and does not change
when estimate and truth are measured in other units. -/
theorem C59_frobenius (c truth : Matrix (Fin p) (Fin p) ℝ) (ht : truth ≠ 0) :
    frobeniusScore c truth ≤ 0 ∧ (frobeniusScore c truth = 0 ↔ c = truth) ∧ frobeniusScore 0 truth = -1 ∧
    (∀ k : ℝ, k ≠ 0 → frobeniusScore (k • c) (k • truth) = frobeniusScore c truth) ∧
    (∀ c', frobeniusScore c truth ≤ frobeniusScore c' truth ↔
      ∑ i, ∑ j, (c' i j - truth i j) ^ 2 ≤ ∑ i, ∑ j, (c i j - truth i j) ^ 2) := by
  have hn : 0 < frobNorm truth := lt_of_le_of_ne (frobNorm_nonneg _) fun h => ht ((frobNorm_eq_zero _).1 h.symm)
  refine ⟨?_, ?_, ?_, fun k hk => ?_, fun c' => ?_⟩
  · unfold frobeniusScore
    exact neg_nonpos.2 (div_nonneg (frobNorm_nonneg _) hn.le)
  · unfold frobeniusScore
    rw [neg_eq_zero, div_eq_zero_iff, frobNorm_eq_zero, sub_eq_zero]
    exact ⟨fun h => h.resolve_right hn.ne', Or.inl⟩
  · unfold frobeniusScore
    rw [show (0 : Matrix (Fin p) (Fin p) ℝ) - truth = (-1 : ℝ) • truth by simp, frobNorm_smul]
    simp [hn.ne']
  · unfold frobeniusScore
    rw [← smul_sub, frobNorm_smul, frobNorm_smul, mul_div_mul_left _ _ (abs_ne_zero.2 hk)]
  · unfold frobeniusScore
    rw [neg_le_neg_iff, div_le_div_iff_of_pos_right hn]
    have e : ∀ a : Matrix (Fin p) (Fin p) ℝ, frobNorm (a - truth) = Real.sqrt (∑ i, ∑ j, (a i j - truth i j) ^ 2) := fun a => by
      unfold frobNorm; congr 1
      exact Finset.sum_congr rfl fun i _ => Finset.sum_congr rfl fun j _ => by rw [Matrix.sub_apply, pow_two]
    have h0 : 0 ≤ ∑ i, ∑ j, (c i j - truth i j) ^ 2 := Finset.sum_nonneg fun i _ => Finset.sum_nonneg fun j _ => sq_nonneg _
    rw [e, e, Real.sqrt_le_sqrt_iff h0]

/-! ### VariogramScore -/

theorem variogramExpected_of_symm {c : Matrix (Fin p) (Fin p) ℝ} (hs : Symm c) (i j : Fin p) :
    variogramExpected c i j = Real.sqrt (max (c i i + c j j - 2 * c i j) 0 * (2 / Real.pi)) := by
  unfold variogramExpected
  rw [toSymmetric_of_symm hs]; rfl

/-- C59: VariogramScore is at most 0; it depends on a symmetric estimate only through the variances
`c i i + c j j - 2 c i j` of the pairwise differences (so adding one constant to every entry changes nothing), and on a row
only through its pairwise differences. -/
theorem C59_variogram_invariance (c : Matrix (Fin p) (Fin p) ℝ) (X : List (Fin p → ℝ)) :
    variogramScore c X ≤ 0 ∧
    (Symm c → ∀ c', Symm c' → (∀ i j, c' i i + c' j j - 2 * c' i j = c i i + c j j - 2 * c i j) → variogramScore c' X = variogramScore c X) ∧
    (Symm c → ∀ k : ℝ, variogramScore (Matrix.of fun i j => c i j + k) X = variogramScore c X) ∧
    (∀ t : (Fin p → ℝ) → ℝ, variogramScore c (X.map fun x i => x i + t x) = variogramScore c X) := by
  have h2 : Symm c → ∀ c', Symm c' → (∀ i j, c' i i + c' j j - 2 * c' i j = c i i + c j j - 2 * c i j) →
      variogramScore c' X = variogramScore c X := by
    intro hs c' hs' h
    unfold variogramScore
    simp only [variogramExpected_of_symm hs, variogramExpected_of_symm hs', h]
  refine ⟨?_, h2, fun hs k => h2 hs _ (fun i j => by simp [hs i j]) (fun i j => by simp; ring), fun t => ?_⟩
  · unfold variogramScore
    refine neg_nonpos.2 (div_nonneg (List.sum_nonneg fun a ha => ?_) (Nat.cast_nonneg _))
    obtain ⟨x, _, rfl⟩ := List.mem_map.1 ha
    exact Finset.sum_nonneg fun i _ => Finset.sum_nonneg fun j _ => sq_nonneg _
  · unfold variogramScore
    simp only [List.map_map, List.length_map, Function.comp_def, add_sub_add_right_eq_sub]

/-- the part of the variogram score that depends on the estimate -/
theorem variogramScore_split (c : Matrix (Fin p) (Fin p) ℝ) (X : List (Fin p → ℝ)) (hx : X ≠ []) (m : Matrix (Fin p) (Fin p) ℝ)
    (hm : ∀ i j, m i j = (X.map fun x => |x i - x j|).sum / X.length) :
    variogramScore c X = -(∑ i, ∑ j, ((X.map fun x => (|x i - x j| - m i j) ^ 2).sum / X.length + (m i j - variogramExpected c i j) ^ 2)) := by
  have hn : (X.length : ℝ) ≠ 0 := by simpa using hx
  unfold variogramScore
  simp only []
  congr 1
  rw [list_sum_finset, Finset.sum_div]
  refine Finset.sum_congr rfl fun i _ => ?_
  rw [list_sum_finset, Finset.sum_div]
  refine Finset.sum_congr rfl fun j _ => ?_
  have hs : (X.map fun x => |x i - x j|).sum = X.length * m i j := by rw [hm]; field_simp
  generalize variogramExpected c i j = e
  generalize m i j = a at hs ⊢
  have key : ∀ t : ℝ, (X.map fun x => (|x i - x j| - t) ^ 2).sum
      = (X.map fun x => |x i - x j| ^ 2).sum - 2 * t * (X.map fun x => |x i - x j|).sum + X.length * t ^ 2 := by
    intro t
    clear hs hn hx hm
    induction X with
    | nil => simp
    | cons x X ih => simp only [List.map_cons, List.sum_cons, ih, List.length_cons]; push_cast; ring
  rw [key, key, hs]
  field_simp
  ring

/-- C59: an estimate whose expected absolute differences equal the observed mean absolute differences is optimal, and
another estimate scores the same exactly when it implies the same expected absolute differences. -/
theorem C59_variogram_optimal (c c' : Matrix (Fin p) (Fin p) ℝ) (hs : Symm c) (hs' : Symm c') (X : List (Fin p → ℝ)) (hx : X ≠ [])
    (h : ∀ i j, Real.sqrt (2 / Real.pi * (c' i i + c' j j - 2 * c' i j)) = (X.map fun x => |x i - x j|).sum / X.length) :
    variogramScore c X ≤ variogramScore c' X ∧
    (variogramScore c X = variogramScore c' X ↔ ∀ i j, max (c i i + c j j - 2 * c i j) 0 = max (c' i i + c' j j - 2 * c' i j) 0) := by
  have hpi : (0:ℝ) < 2 / Real.pi := by positivity
  have he' : ∀ i j, variogramExpected c' i j = (X.map fun x => |x i - x j|).sum / X.length := by
    intro i j
    rw [← h, variogramExpected_of_symm hs']
    rcases le_total 0 (c' i i + c' j j - 2 * c' i j) with h0 | h0
    · rw [max_eq_left h0, mul_comm]
    · rw [max_eq_right h0, zero_mul, Real.sqrt_zero, Real.sqrt_eq_zero_of_nonpos (mul_nonpos_of_nonneg_of_nonpos hpi.le h0)]
  rw [variogramScore_split c X hx (variogramExpected c') he', variogramScore_split c' X hx (variogramExpected c') he']
  simp only [sub_self, Finset.sum_add_distrib]
  set V := ∑ i, ∑ j, (X.map fun x => (|x i - x j| - variogramExpected c' i j) ^ 2).sum / (X.length : ℝ)
  have hnn : 0 ≤ ∑ i, ∑ j, (variogramExpected c' i j - variogramExpected c i j) ^ 2 :=
    Finset.sum_nonneg fun i _ => Finset.sum_nonneg fun j _ => sq_nonneg _
  have hzero : ∑ i : Fin p, ∑ j : Fin p, (0:ℝ) ^ 2 = 0 := by simp
  rw [hzero]
  refine ⟨by linarith, fun heq i j => ?_, fun heq => ?_⟩
  · have h0 : ∑ i, ∑ j, (variogramExpected c' i j - variogramExpected c i j) ^ 2 = 0 := by linarith
    have h1 := (Finset.sum_eq_zero_iff_of_nonneg fun i _ => Finset.sum_nonneg fun j _ => sq_nonneg _).1 h0 i (Finset.mem_univ i)
    have h2 := (Finset.sum_eq_zero_iff_of_nonneg fun j _ => sq_nonneg _).1 h1 j (Finset.mem_univ j)
    have h3 : variogramExpected c' i j = variogramExpected c i j := sub_eq_zero.1 (pow_eq_zero_iff (two_ne_zero) |>.1 h2)
    rw [variogramExpected_of_symm hs, variogramExpected_of_symm hs', Real.sqrt_inj (by positivity) (by positivity)] at h3
    exact (mul_right_cancel₀ hpi.ne' h3).symm
  · have : ∀ i j, variogramExpected c' i j = variogramExpected c i j := fun i j => by
      rw [variogramExpected_of_symm hs, variogramExpected_of_symm hs', heq]
    simp only [this, sub_self]
    rw [hzero]

-- the hypothesis of the optimality theorem is met: one row (1, 0), and an estimate with c00 = pi/2
example : ∀ i j : Fin 2, Real.sqrt (2 / Real.pi * ((!![Real.pi / 2, 0; 0, 0] : Matrix (Fin 2) (Fin 2) ℝ) i i
    + (!![Real.pi / 2, 0; 0, 0] : Matrix (Fin 2) (Fin 2) ℝ) j j - 2 * (!![Real.pi / 2, 0; 0, 0] : Matrix (Fin 2) (Fin 2) ℝ) i j))
      = (([![1, 0]] : List (Fin 2 → ℝ)).map fun x => |x i - x j|).sum / (([![1, 0]] : List (Fin 2 → ℝ)).length : ℝ) := by
  have hpi : Real.pi ≠ 0 := Real.pi_ne_zero
  intro i j
  fin_cases i <;> fin_cases j <;> simp <;> field_simp <;> norm_num

-- C58: the identity has positive-definite second moments on four rows at the corners of a square (see `Props/Assessors`)
example : (1 : ℕ) ≤ 2 ∧ PD (!![2, 1; 1, 1] : Matrix (Fin 2) (Fin 2) ℝ) :=
  ⟨by norm_num, (demo_minEig.pd (fun i j => by fin_cases i <;> fin_cases j <;> rfl) (by positivity))⟩

end Precise
