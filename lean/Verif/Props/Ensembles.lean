import Verif.Model.Ensembles
import Verif.Spec.Matrix
import Verif.Lemmas.Matrix
import Mathlib.Probability.Distributions.Gamma
import Mathlib.Probability.Independence.Integration
import Mathlib.Probability.Distributions.Gaussian.Real
import Mathlib.Tactic.Positivity
import Mathlib.Tactic.FieldSimp

/-!
# C84: the ground truths of the research studies are covariance matrices, and the heavy-tailed samples have them
-/

set_option linter.all false

namespace Precise.Oos

open Matrix Spec MeasureTheory ProbabilityTheory

variable {p : ℕ}

theorem quad_eq (a : Matrix (Fin p) (Fin p) ℝ) (x : Fin p → ℝ) : quad a x = ∑ i, ∑ j, x i * a i j * x j := by
  unfold quad
  simp only [dotProduct, mulVec, Finset.mul_sum]
  exact Finset.sum_congr rfl fun i _ => Finset.sum_congr rfl fun j _ => by ring

theorem normSq_pos {x : Fin p → ℝ} (h : x ≠ 0) : 0 < normSq x := by
  obtain ⟨i, hi⟩ := Function.ne_iff.1 h
  refine lt_of_lt_of_le (mul_self_pos.2 hi) ?_
  exact Finset.single_le_sum (f := fun i => x i * x i) (fun j _ => mul_self_nonneg _) (Finset.mem_univ i)

theorem pd_of_minEig {a : Matrix (Fin p) (Fin p) ℝ} {c : ℝ} (hs : Symm a) (hc : 0 < c) (h : MinEigGE a c) : PD a :=
  ⟨hs, fun x hx => lt_of_lt_of_le (mul_pos hc (normSq_pos hx)) (h x)⟩

theorem quad_diagonal (d x : Fin p → ℝ) : quad (Matrix.diagonal d) x = ∑ i, d i * (x i * x i) := by
  unfold quad
  simp only [dotProduct, mulVec_diagonal]
  exact Finset.sum_congr rfl fun i _ => by ring

theorem quad_add' (a b : Matrix (Fin p) (Fin p) ℝ) (x : Fin p → ℝ) : quad (a + b) x = quad a x + quad b x := by
  unfold quad; rw [add_mulVec, dotProduct_add]

theorem quad_gram {q : ℕ} (B : Matrix (Fin p) (Fin q) ℝ) (x : Fin p → ℝ) : quad (B * Bᵀ) x = normSq (Bᵀ *ᵥ x) := by
  unfold quad normSq
  rw [← mulVec_mulVec, dotProduct_mulVec, ← mulVec_transpose]
  rfl

theorem minEig_diagonal {d : Fin p → ℝ} {c : ℝ} (h : ∀ i, c ≤ d i) : MinEigGE (Matrix.diagonal d) c := by
  intro x
  rw [quad_diagonal]
  unfold normSq
  rw [Finset.mul_sum]
  exact Finset.sum_le_sum fun i _ => mul_le_mul_of_nonneg_right (h i) (mul_self_nonneg _)

/-- C84: an equicorrelation matrix with `0 ≤ rho < 1` is a correlation matrix with smallest eigenvalue at least `1 - rho`
(the studies use 0.2, 0.6 and 0.85). -/
theorem C84_equicorr (rho : ℝ) (h0 : 0 ≤ rho) (h1 : rho < 1) :
    PD (equicorr p rho) ∧ MinEigGE (equicorr p rho) (1 - rho) ∧ ∀ i, equicorr p rho i i = 1 := by
  have hs : Symm (equicorr p rho) := by intro i j; simp [equicorr, eq_comm]
  have hm : MinEigGE (equicorr p rho) (1 - rho) := by
    intro x
    have e : quad (equicorr p rho) x = (1 - rho) * normSq x + rho * (∑ i, x i) ^ 2 := by
      rw [quad_eq, sq, Finset.sum_mul_sum, normSq, Finset.mul_sum, Finset.mul_sum, ← Finset.sum_add_distrib]
      refine Finset.sum_congr rfl fun i _ => ?_
      rw [Finset.mul_sum]
      have : ∀ j, x i * equicorr p rho i j * x j = (if i = j then (1 - rho) * (x i * x j) else 0) + rho * (x i * x j) := by
        intro j
        unfold equicorr
        by_cases h : i = j <;> simp [h] <;> ring
      simp only [this, Finset.sum_add_distrib, Finset.sum_ite_eq, Finset.mem_univ, if_true]
    rw [e]
    nlinarith [sq_nonneg (∑ i, x i)]
  exact ⟨pd_of_minEig hs (by linarith) hm, hm, fun i => by simp [equicorr]⟩

/-- C84: one factor plus specific variances of at least `c > 0` is positive definite, smallest eigenvalue at least `c`. -/
theorem C84_one_factor (b d : Fin p → ℝ) (c : ℝ) (hc : 0 < c) (hd : ∀ i, c ≤ d i) :
    PD (oneFactor b d) ∧ MinEigGE (oneFactor b d) c := by
  have hs : Symm (oneFactor b d) := by
    intro i j
    simp only [oneFactor, Matrix.add_apply, vecMulVec_apply, Matrix.diagonal_apply]
    by_cases h : i = j
    · subst h; ring
    · rw [if_neg h, if_neg (Ne.symm h)]; ring
  have hm : MinEigGE (oneFactor b d) c := by
    intro x
    unfold oneFactor
    rw [quad_add']
    have e : quad (vecMulVec b b) x = (∑ i, b i * x i) ^ 2 := by
      rw [quad_eq, sq, Finset.sum_mul_sum]
      exact Finset.sum_congr rfl fun i _ => Finset.sum_congr rfl fun j _ => by rw [vecMulVec_apply]; ring
    rw [e]
    have := minEig_diagonal hd x
    nlinarith [sq_nonneg (∑ i, b i * x i)]
  exact ⟨pd_of_minEig hs hc hm, hm⟩

/-- C84: three factors, whatever the loadings. -/
theorem C84_three_factor (B : Matrix (Fin p) (Fin 3) ℝ) (d : Fin p → ℝ) (c : ℝ) (hc : 0 < c) (hd : ∀ i, c ≤ d i) :
    PD (threeFactor B d) ∧ MinEigGE (threeFactor B d) c := by
  have hs : Symm (threeFactor B d) := by
    intro i j
    simp only [threeFactor, Matrix.add_apply, Matrix.diagonal_apply, Matrix.mul_apply, Matrix.transpose_apply]
    by_cases h : i = j
    · subst h; rfl
    · rw [if_neg h, if_neg (Ne.symm h)]
      congr 1
      exact Finset.sum_congr rfl fun k _ => mul_comm _ _
  have hm : MinEigGE (threeFactor B d) c := by
    intro x
    unfold threeFactor
    rw [quad_add', quad_gram]
    have := minEig_diagonal hd x
    have h2 : 0 ≤ normSq (Bᵀ *ᵥ x) := Finset.sum_nonneg fun i _ => mul_self_nonneg _
    linarith
  exact ⟨pd_of_minEig hs hc hm, hm⟩

/-- C84: independent variables. -/
theorem C84_diag_hetero (d : Fin p → ℝ) (c : ℝ) (hc : 0 < c) (hd : ∀ i, c ≤ d i) :
    PD (diagHetero d) ∧ MinEigGE (diagHetero d) c := by
  refine ⟨pd_of_minEig (fun i j => ?_) hc (minEig_diagonal hd), minEig_diagonal hd⟩
  by_cases h : i = j
  · subst h; rfl
  · simp [diagHetero, Matrix.diagonal_apply, h, Ne.symm h]

/-- C84: the spiked matrix with orthogonal `Q`: for each column `q` of `Q`, `spiked q = spike q` (the eigenvalues are the
spikes), smallest eigenvalue at least 0.4 and largest at most 15. -/
theorem C84_spiked (Q : Matrix (Fin p) (Fin p) ℝ) (hQ : Q * Qᵀ = 1) (s : Fin 3 → ℝ) (h8 : ∀ i, 8 ≤ s i) (h15 : ∀ i, s i ≤ 15) :
    PD (spiked Q s) ∧ MinEigGE (spiked Q s) (2 / 5) ∧ MaxEigLE (spiked Q s) 15 ∧
    ∀ j, spiked Q s *ᵥ (fun i => Q i j) = (spikes s j) • fun i => Q i j := by
  have hQ' : Qᵀ * Q = 1 := mul_eq_one_comm.1 hQ
  have e : spiked Q s = Q * Matrix.diagonal (spikes s) * Qᵀ := by
    unfold spiked
    congr 1
    ext i j
    rw [mul_diagonal]; rfl
  have hb : ∀ j : Fin p, 2 / 5 ≤ spikes s j ∧ spikes s j ≤ 15 := by
    intro j
    unfold spikes
    split
    · rename_i h
      have h1 := h8 ⟨j, h⟩; have h2 := h15 ⟨j, h⟩
      constructor <;> linarith
    · constructor <;> norm_num
  have qe : ∀ x, quad (spiked Q s) x = ∑ i, spikes s i * ((Qᵀ *ᵥ x) i * (Qᵀ *ᵥ x) i) := by
    intro x
    rw [← quad_diagonal, e]
    unfold quad
    rw [← mulVec_mulVec, ← mulVec_mulVec, dotProduct_mulVec, ← mulVec_transpose]
  have ne : ∀ x, normSq (Qᵀ *ᵥ x) = normSq x := by
    intro x
    rw [← quad_gram, hQ]
    unfold quad normSq
    rw [one_mulVec]; rfl
  have hs : Symm (spiked Q s) := by
    intro i j
    have : (spiked Q s)ᵀ = spiked Q s := by
      rw [e]
      simp [Matrix.transpose_mul, Matrix.mul_assoc]
    exact congrFun (congrFun this j) i
  have hm : MinEigGE (spiked Q s) (2 / 5) := by
    intro x
    rw [qe, ← ne x, normSq, Finset.mul_sum]
    exact Finset.sum_le_sum fun i _ => mul_le_mul_of_nonneg_right (hb i).1 (mul_self_nonneg _)
  refine ⟨pd_of_minEig hs (by norm_num) hm, hm, fun x => ?_, fun j => ?_⟩
  · rw [qe, ← ne x, normSq, Finset.mul_sum]
    exact Finset.sum_le_sum fun i _ => mul_le_mul_of_nonneg_right (hb i).2 (mul_self_nonneg _)
  · have hj : (fun i => Q i j) = Q *ᵥ Pi.single j 1 := by simp [mulVec_single_one]; rfl
    rw [hj, e, mulVec_mulVec, Matrix.mul_assoc, hQ', Matrix.mul_one, ← mulVec_mulVec]
    funext i
    simp [mulVec_single_one, mulVec, dotProduct, Matrix.diagonal_apply, Pi.single_apply, mul_comm]

/-! AR(1): the matrix is the covariance of `y₀ = e₀`, `yᵢ = rho yᵢ₋₁ + √(1-rho²) eᵢ`. -/

/-- Innovation variances. -/
noncomputable def arVar (rho : ℝ) (k : ℕ) : ℝ := if k = 0 then 1 else 1 - rho ^ 2

theorem ar_geom (rho : ℝ) (m : ℕ) : ∑ k ∈ Finset.range (m + 1), arVar rho k * (rho ^ 2) ^ (m - k) = 1 := by
  induction m with
  | zero => simp [arVar]
  | succ m ih =>
    rw [Finset.sum_range_succ]
    have : ∀ k ∈ Finset.range (m + 1), arVar rho k * (rho ^ 2) ^ (m + 1 - k) = rho ^ 2 * (arVar rho k * (rho ^ 2) ^ (m - k)) := by
      intro k hk
      have := Finset.mem_range.1 hk
      rw [show m + 1 - k = (m - k) + 1 by omega, pow_succ]; ring
    rw [Finset.sum_congr rfl this, ← Finset.mul_sum, ih]
    simp [arVar]

theorem ar1_entry (rho : ℝ) (i j : ℕ) :
    ∑ k ∈ Finset.range (max i j + 1), arVar rho k * (if k ≤ i then rho ^ (i - k) else 0) * (if k ≤ j then rho ^ (j - k) else 0)
      = rho ^ ((i : ℤ) - (j : ℤ)).natAbs := by
  have key : ∀ a b : ℕ, a ≤ b → ∑ k ∈ Finset.range (b + 1), arVar rho k * (if k ≤ a then rho ^ (a - k) else 0) * (if k ≤ b then rho ^ (b - k) else 0)
      = rho ^ (b - a) := by
    intro a b hab
    rw [← Finset.sum_subset (s₁ := Finset.range (a + 1)) (fun k hk => by
      have := Finset.mem_range.1 hk; exact Finset.mem_range.2 (by omega))]
    · have : ∀ k ∈ Finset.range (a + 1), arVar rho k * (if k ≤ a then rho ^ (a - k) else 0) * (if k ≤ b then rho ^ (b - k) else 0)
          = rho ^ (b - a) * (arVar rho k * (rho ^ 2) ^ (a - k)) := by
        intro k hk
        have := Finset.mem_range.1 hk
        rw [if_pos (by omega), if_pos (by omega), show b - k = (b - a) + (a - k) by omega, pow_add, ← pow_mul,
          show 2 * (a - k) = (a - k) + (a - k) by omega, pow_add]
        ring
      rw [Finset.sum_congr rfl this, ← Finset.mul_sum, ar_geom, mul_one]
    · intro k hk hk'
      have h1 := Finset.mem_range.1 hk
      have h2 : ¬ k < a + 1 := fun h => hk' (Finset.mem_range.2 h)
      rw [if_neg (by omega)]; ring
  rcases le_total i j with h | h
  · rw [max_eq_right h, key i j h]
    congr 1; omega
  · rw [max_eq_left h]
    have := key j i h
    rw [show ((i : ℤ) - (j : ℤ)).natAbs = i - j by omega, ← this]
    exact Finset.sum_congr rfl fun k _ => by ring

/-- C84: the AR(1) Toeplitz matrix with `|rho| < 1` is a correlation matrix of full rank (the studies use 0.7). -/
theorem C84_ar1 (rho : ℝ) (h : |rho| < 1) : PD (ar1 p rho) ∧ ∀ i, ar1 p rho i i = 1 := by
  have hs : Symm (ar1 p rho) := by
    intro i j
    simp only [ar1, Matrix.of_apply]
    congr 1; omega
  refine ⟨⟨hs, fun x hx => ?_⟩, fun i => by simp [ar1]⟩
  have r2 : rho ^ 2 < 1 := by rw [← sq_abs]; nlinarith [abs_nonneg rho]
  have vpos : ∀ k, 0 < arVar rho k := by intro k; unfold arVar; split <;> linarith
  -- weight of variable `i` on innovation `k`
  set L : ℕ → Fin p → ℝ := fun k i => if k ≤ (i : ℕ) then rho ^ ((i : ℕ) - k) else 0 with hL
  have ent : ∀ i j : Fin p, ar1 p rho i j = ∑ k ∈ Finset.range p, arVar rho k * L k i * L k j := by
    intro i j
    rw [ar1, Matrix.of_apply, ← ar1_entry]
    refine Finset.sum_subset (fun k hk => ?_) (fun k hk hk' => ?_)
    · have := Finset.mem_range.1 hk; exact Finset.mem_range.2 (by omega)
    · have : ¬ k < max (i : ℕ) j + 1 := fun h => hk' (Finset.mem_range.2 h)
      rw [if_neg (show ¬ k ≤ (i : ℕ) by omega)]; ring
  have qe : quad (ar1 p rho) x = ∑ k ∈ Finset.range p, arVar rho k * (∑ i, L k i * x i) ^ 2 := by
    rw [quad_eq]
    simp only [ent, Finset.mul_sum, Finset.sum_mul]
    have : ∀ k, arVar rho k * (∑ i, L k i * x i) ^ 2 = ∑ i, ∑ j, x i * (arVar rho k * L k i * L k j) * x j := by
      intro k
      rw [sq, Finset.sum_mul_sum, Finset.mul_sum]
      refine Finset.sum_congr rfl fun i _ => ?_
      rw [Finset.mul_sum]
      exact Finset.sum_congr rfl fun j _ => by ring
    simp only [this]
    symm
    rw [Finset.sum_comm]
    refine Finset.sum_congr rfl fun i _ => ?_
    rw [Finset.sum_comm]
  have nonneg : ∀ k ∈ Finset.range p, 0 ≤ arVar rho k * (∑ i, L k i * x i) ^ 2 := fun k _ => mul_nonneg (vpos k).le (sq_nonneg _)
  rw [qe]
  refine lt_of_le_of_ne (Finset.sum_nonneg nonneg) fun h0 => hx ?_
  have hz : ∀ k, k < p → ∑ i, L k i * x i = 0 := by
    intro k hk
    have := (Finset.sum_eq_zero_iff_of_nonneg nonneg).1 h0.symm k (Finset.mem_range.2 hk)
    rcases mul_eq_zero.1 this with h | h
    · exact absurd h (vpos k).ne'
    · exact pow_eq_zero_iff (n := 2) (by norm_num) |>.1 h
  have hz' : ∀ k, ∑ i, L k i * x i = 0 := by
    intro k
    by_cases hk : k < p
    · exact hz k hk
    · refine Finset.sum_eq_zero fun i _ => ?_
      have := i.2
      simp only [hL]
      rw [if_neg (by omega)]; ring
  funext i
  have recur : ∀ j : Fin p, L i j = (if j = i then 1 else 0) + rho * L (i + 1) j := by
    intro j
    simp only [hL]
    by_cases hji : j = i
    · subst hji
      rw [if_pos le_rfl, if_pos rfl, if_neg (by omega)]; simp
    · have : (j : ℕ) ≠ i := fun h => hji (Fin.ext h)
      rw [if_neg hji]
      by_cases hle : (i : ℕ) ≤ j
      · rw [if_pos hle, if_pos (by omega), zero_add, ← pow_succ']
        congr 1; omega
      · rw [if_neg hle, if_neg (by omega)]; ring
  have := hz' i
  simp only [recur, add_mul, Finset.sum_add_distrib, ite_mul, one_mul, zero_mul, Finset.sum_ite_eq', Finset.mem_univ, if_true,
    mul_assoc, ← Finset.mul_sum, hz' (i + 1)] at this
  simpa using this

/-! Heavy tails. A chi-square draw with `df` degrees of freedom has the gamma law with shape `df/2` and rate `1/2`. -/

theorem integral_inv_gamma (a r : ℝ) (ha : 1 < a) (hr : 0 < r) :
    Integrable (fun w => w⁻¹) (gammaMeasure a r) ∧ ∫ w, w⁻¹ ∂(gammaMeasure a r) = r / (a - 1) := by
  have ha0 : 0 < a := by linarith
  have hG : 0 < Real.Gamma a := Real.Gamma_pos_of_pos ha0
  have hdens : gammaMeasure a r = volume.withDensity (fun x => ENNReal.ofReal (gammaPDFReal a r x)) := rfl
  have meas : Measurable (fun x => (gammaPDFReal a r x).toNNReal) := (measurable_gammaPDFReal a r).real_toNNReal
  have hdens' : gammaMeasure a r = volume.withDensity (fun x => (((gammaPDFReal a r x).toNNReal : NNReal) : ENNReal)) := rfl
  have pt : ∀ x : ℝ, ((gammaPDFReal a r x).toNNReal : NNReal) • x⁻¹
      = (Set.Ioi (0 : ℝ)).indicator (fun x => r ^ a / Real.Gamma a * (x ^ ((a - 1) - 1) * Real.exp (-(r * x)))) x := by
    intro x
    rw [NNReal.smul_def, Real.coe_toNNReal _ (gammaPDFReal_nonneg ha0 hr x), smul_eq_mul]
    unfold gammaPDFReal
    by_cases h : 0 < x
    · rw [Set.indicator_of_mem (Set.mem_Ioi.2 h), if_pos h.le, Real.rpow_sub_one h.ne' (a - 1)]
      field_simp
    · rw [Set.indicator_of_notMem (by simpa using h)]
      rcases (not_lt.1 h).lt_or_eq with h | h
      · rw [if_neg (by linarith)]; ring
      · simp [h]
  have base := Real.integral_rpow_mul_exp_neg_mul_Ioi (show 0 < a - 1 by linarith) hr
  have pos : 0 < (1 / r) ^ (a - 1) * Real.Gamma (a - 1) :=
    mul_pos (Real.rpow_pos_of_pos (by positivity) _) (Real.Gamma_pos_of_pos (by linarith))
  have int0 : IntegrableOn (fun t : ℝ => t ^ ((a - 1) - 1) * Real.exp (-(r * t))) (Set.Ioi 0) := by
    by_contra hn
    rw [integral_undef hn] at base
    exact absurd base.symm pos.ne'
  constructor
  · rw [hdens', integrable_withDensity_iff_integrable_smul meas]
    simp only [pt]
    rw [integrable_indicator_iff measurableSet_Ioi]
    exact int0.const_mul _
  · rw [hdens', integral_withDensity_eq_integral_smul meas]
    simp only [pt]
    rw [integral_indicator measurableSet_Ioi, integral_const_mul, base]
    have hGa : Real.Gamma a = (a - 1) * Real.Gamma (a - 1) := by
      have := Real.Gamma_add_one (s := a - 1) (by linarith)
      rwa [sub_add_cancel] at this
    have hG1 : Real.Gamma (a - 1) ≠ 0 := (Real.Gamma_pos_of_pos (by linarith)).ne'
    have hra : r ^ a = r * r ^ (a - 1) := by
      rw [← Real.rpow_one_add' hr.le (by linarith)]; congr 1; ring
    rw [hGa, hra, Real.div_rpow zero_le_one hr.le, Real.one_rpow]
    have : r ^ (a - 1) ≠ 0 := (Real.rpow_pos_of_pos hr _).ne'
    have : a - 1 ≠ 0 := by linarith
    field_simp

/-- C84: the heavy-tailed rows have mean zero and exactly the covariance asked for. `z` is any draw with mean zero and
second moments `cov * (df-2)/df` (in the code: normal), `w` an independent chi-square draw with `df > 2` degrees of
freedom. -/
theorem C84_heavy {Ω : Type} [MeasurableSpace Ω] (P : Measure Ω) [IsProbabilityMeasure P] (df : ℝ) (hdf : 2 < df)
    (cov : Matrix (Fin p) (Fin p) ℝ) (z : Ω → Fin p → ℝ) (w : Ω → ℝ) (hz : Measurable z) (hw : Measurable w)
    (h2 : ∀ i, MemLp (fun ω => z ω i) 2 P)
    (hmean : ∀ i, ∫ ω, z ω i ∂P = 0) (hcov : ∀ i j, ∫ ω, z ω i * z ω j ∂P = heavyInner df cov i j)
    (hchi : P.map w = gammaMeasure (df / 2) (1 / 2)) (hind : IndepFun z w P) (i j : Fin p) :
    Integrable (fun ω => heavyRow df (z ω) (w ω) i) P ∧
    ∫ ω, heavyRow df (z ω) (w ω) i ∂P = 0 ∧
    Integrable (fun ω => heavyRow df (z ω) (w ω) i * heavyRow df (z ω) (w ω) j) P ∧
    ∫ ω, heavyRow df (z ω) (w ω) i * heavyRow df (z ω) (w ω) j ∂P = cov i j := by
  obtain ⟨g1, g2⟩ := integral_inv_gamma (df / 2) (1 / 2) (by linarith) (by norm_num)
  have wpos : ∀ᵐ ω ∂P, 0 ≤ w ω := by
    have : ∀ᵐ x ∂(P.map w), 0 ≤ x := by
      rw [hchi]
      show ∀ᵐ x ∂(volume.withDensity (gammaPDF (df / 2) (1 / 2))), 0 ≤ x
      rw [ae_withDensity_iff (by
        exact (measurable_gammaPDFReal _ _).ennreal_ofReal)]
      refine Filter.Eventually.of_forall fun x hx => ?_
      by_contra hn
      exact hx (gammaPDF_of_neg (by linarith))
    exact ae_of_ae_map hw.aemeasurable this
  have wi1 : Integrable (fun ω => (w ω)⁻¹) P := by
    have : Integrable (fun x : ℝ => x⁻¹) (P.map w) := by rw [hchi]; exact g1
    exact (integrable_map_measure measurable_inv.aestronglyMeasurable hw.aemeasurable).1 this
  have wi2 : ∫ ω, (w ω)⁻¹ ∂P = 1 / (df - 2) := by
    have : ∫ x, x⁻¹ ∂(P.map w) = ∫ ω, (w ω)⁻¹ ∂P :=
      integral_map hw.aemeasurable measurable_inv.aestronglyMeasurable
    rw [← this, hchi, g2]
    have : df - 2 ≠ 0 := by linarith
    have : df / 2 - 1 ≠ 0 := by linarith
    field_simp
  -- the scale factor and its square
  have smeas : Measurable fun ω => Real.sqrt (df / w ω) := (measurable_const.div hw).sqrt
  have ssq : ∀ᵐ ω ∂P, Real.sqrt (df / w ω) * Real.sqrt (df / w ω) = df * (w ω)⁻¹ := by
    filter_upwards [wpos] with ω hω
    rw [Real.mul_self_sqrt (by positivity), div_eq_mul_inv]
  have sint2 : Integrable (fun ω => Real.sqrt (df / w ω) * Real.sqrt (df / w ω)) P :=
    (wi1.const_mul df).congr (by filter_upwards [ssq] with ω h using h.symm)
  have sL2 : MemLp (fun ω => Real.sqrt (df / w ω)) 2 P := by
    refine (memLp_two_iff_integrable_sq smeas.aestronglyMeasurable).2 ?_
    simpa [sq] using sint2
  have sint1 : Integrable (fun ω => Real.sqrt (df / w ω)) P := sL2.integrable one_le_two
  have zint1 : Integrable (fun ω => z ω i) P := (h2 i).integrable one_le_two
  have zint2 : Integrable (fun ω => z ω i * z ω j) P := (h2 i).integrable_mul (h2 j)
  have ind1 : IndepFun (fun ω => z ω i) (fun ω => Real.sqrt (df / w ω)) P :=
    hind.comp (φ := fun v : Fin p → ℝ => v i) (ψ := fun t => Real.sqrt (df / t)) (measurable_pi_apply i)
      ((measurable_const.div measurable_id).sqrt)
  have ind2 : IndepFun (fun ω => z ω i * z ω j) (fun ω => Real.sqrt (df / w ω) * Real.sqrt (df / w ω)) P :=
    hind.comp (φ := fun v : Fin p → ℝ => v i * v j) (ψ := fun t => Real.sqrt (df / t) * Real.sqrt (df / t))
      ((measurable_pi_apply i).mul (measurable_pi_apply j))
      (((measurable_const.div measurable_id).sqrt).mul ((measurable_const.div measurable_id).sqrt))
  have prod : ∀ ω, heavyRow df (z ω) (w ω) i * heavyRow df (z ω) (w ω) j
      = (z ω i * z ω j) * (Real.sqrt (df / w ω) * Real.sqrt (df / w ω)) := by
    intro ω; unfold heavyRow; ring
  refine ⟨ind1.integrable_mul zint1 sint1, ?_, ?_, ?_⟩
  · refine (ind1.integral_fun_mul_eq_mul_integral zint1.aestronglyMeasurable sint1.aestronglyMeasurable).trans ?_
    rw [hmean, zero_mul]
  · simp only [prod]
    exact ind2.integrable_mul zint2 sint2
  · simp only [prod]
    refine (ind2.integral_fun_mul_eq_mul_integral zint2.aestronglyMeasurable sint2.aestronglyMeasurable).trans ?_
    rw [hcov, integral_congr_ae ssq, integral_const_mul, wi2]
    have : df - 2 ≠ 0 := by linarith
    have : df ≠ 0 := by linarith
    simp only [heavyInner, Matrix.of_apply]
    field_simp

/-! Non-vacuity. -/

example : PD (equicorr 12 (3 / 5)) ∧ PD (ar1 12 (7 / 10)) :=
  ⟨(C84_equicorr _ (by norm_num) (by norm_num)).1, (C84_ar1 _ (by rw [abs_of_pos] <;> norm_num)).1⟩

example : PD (spiked (1 : Matrix (Fin 5) (Fin 5) ℝ) ![8, 10, 15]) :=
  (C84_spiked 1 (by simp) _ (by intro i; fin_cases i <;> norm_num) (by intro i; fin_cases i <;> norm_num)).1

/-- One variable, five degrees of freedom, as in the code: a normal and a chi-square draw on the product space. -/
example : ∫ ω, heavyRow 5 (fun _ : Fin 1 => ω.1) ω.2 0 * heavyRow 5 (fun _ : Fin 1 => ω.1) ω.2 0
    ∂((gaussianReal 0 1).prod (gammaMeasure (5 / 2) (1 / 2))) = 5 / 3 := by
  haveI : IsProbabilityMeasure (gammaMeasure (5 / 2) (1 / 2)) := isProbabilityMeasure_gammaMeasure (by norm_num) (by norm_num)
  have pres : MeasurePreserving Prod.fst ((gaussianReal 0 1).prod (gammaMeasure (5 / 2) (1 / 2))) (gaussianReal 0 1) :=
    measurePreserving_fst
  have fst : ∀ f : ℝ → ℝ, ∫ ω, f ω.1 ∂((gaussianReal 0 1).prod (gammaMeasure (5 / 2) (1 / 2))) = ∫ x, f x ∂(gaussianReal 0 1) := by
    intro f
    rw [integral_fun_fst, probReal_univ, one_smul]
  have sq1 : ∫ x, x * x ∂(gaussianReal 0 1) = 1 := by
    have h := variance_id_gaussianReal (μ := 0) (v := 1)
    rw [variance_eq_sub (memLp_id_gaussianReal 2)] at h
    simpa [integral_id_gaussianReal, sq] using h
  have h := (C84_heavy (p := 1) ((gaussianReal 0 1).prod (gammaMeasure (5 / 2) (1 / 2))) 5 (by norm_num)
    (Matrix.of fun _ _ => 5 / 3) (fun ω _ => ω.1) (fun ω => ω.2) (by fun_prop) measurable_snd
    (fun i => (memLp_id_gaussianReal 2).comp_measurePreserving pres)
    (fun i => by rw [fst (fun x => x)]; exact integral_id_gaussianReal)
    (fun i j => by rw [fst (fun x => x * x), sq1]; simp [heavyInner]; norm_num)
    (by rw [Measure.map_snd_prod]; simp)
    (indepFun_prod (X := fun x : ℝ => (fun _ : Fin 1 => x)) (Y := fun y : ℝ => y) (by fun_prop) measurable_id) 0 0).2.2.2
  simpa using h

end Precise.Oos
