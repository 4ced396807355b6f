import Verif.Props.Sampling
import Verif.Props.Ewa
import Verif.Props.Diagonal
import Verif.Lemmas.EwaClosed
import Mathlib.Analysis.SpecificLimits.Basic

/-!
# C78: EwaCovariance and DiagonalCovariance on a random stream
-/

set_option linter.all false

open MeasureTheory ProbabilityTheory Filter Topology

namespace Precise
open Spec Obj

/-- `Σ wₜ²`, the variance of the recency-weighted mean in units of the variance of one observation. -/
noncomputable def Spec.noiseLevel (r : ℝ) (b n : ℕ) : ℝ := ∑ t ∈ Finset.range n, recencyWeight r b n t ^ 2

/-- The factor by which the exponentially weighted covariance is off on average after `n` observations, `b` of them burn-in. -/
noncomputable def Spec.ewaFactor (r : ℝ) (b n : ℕ) : ℝ :=
  if n ≤ b then 1 - 1 / (n : ℝ)
  else 2 / (2 - r) - (1 / (b : ℝ) + r / (2 - r)) * (1 - r) ^ (n - b)
    + (1 / (b : ℝ) - r / (2 - r)) * (1 - r) ^ (n - b - 1) * (1 - (1 - r) ^ (n - b))

theorem noise_burn (r : ℝ) (b n : ℕ) (hn : 1 ≤ n) (h : n ≤ b) : noiseLevel r b n = 1 / (n : ℝ) := by
  have hn0 : (n : ℝ) ≠ 0 := by exact_mod_cast (by omega : n ≠ 0)
  have : ∀ t ∈ Finset.range n, recencyWeight r b n t ^ 2 = (1 / (n : ℝ)) ^ 2 := fun t _ => by
    unfold recencyWeight; rw [if_pos h]
  unfold noiseLevel
  rw [Finset.sum_congr rfl this]
  simp; field_simp

theorem noise_step (r : ℝ) (b n : ℕ) (hb : 1 ≤ b) (h : b ≤ n) :
    noiseLevel r b (n + 1) = (1 - r) ^ 2 * noiseLevel r b n + r ^ 2 := by
  unfold noiseLevel
  rw [Finset.sum_range_succ, weight_last r b n h, Finset.mul_sum]
  congr 1
  refine Finset.sum_congr rfl fun t ht => ?_
  rw [weight_step r b n t h (Finset.mem_range.1 ht) hb]; ring

theorem noise_closed (r : ℝ) (hr : r ≠ 2) (b k : ℕ) (hb : 1 ≤ b) :
    noiseLevel r b (b + k) = r / (2 - r) + (1 - r) ^ (2 * k) * (1 / (b : ℝ) - r / (2 - r)) := by
  have h2 : 2 - r ≠ 0 := fun h => hr (by linarith)
  induction k with
  | zero => rw [add_zero, noise_burn r b b hb le_rfl]; simp
  | succ k ih =>
    rw [← add_assoc, noise_step r b (b + k) hb (by omega), ih, show 2 * (k + 1) = 2 * k + 2 by ring, pow_add]
    have hb0 : (b : ℝ) ≠ 0 := by exact_mod_cast (by omega : b ≠ 0)
    field_simp; ring

theorem factor_step (r : ℝ) (hr : r ≠ 2) (b n : ℕ) (hb : 1 ≤ b) (h : b ≤ n) :
    ewaFactor r b (n + 1) = (1 - r) * ewaFactor r b n + r * (1 + noiseLevel r b n) := by
  have h2 : 2 - r ≠ 0 := fun h => hr (by linarith)
  have hb0 : (b : ℝ) ≠ 0 := by exact_mod_cast (by omega : b ≠ 0)
  obtain ⟨k, rfl⟩ := Nat.exists_eq_add_of_le h
  rw [noise_closed r hr b k hb]
  unfold ewaFactor
  rw [if_neg (by omega : ¬ b + k + 1 ≤ b), show b + k + 1 - b = k + 1 by omega, show k + 1 - 1 = k by omega, show b + k - b = k by omega]
  rcases Nat.eq_zero_or_pos k with rfl | hk
  · rw [if_pos (by omega)]
    simp
    field_simp; ring
  · rw [if_neg (by omega : ¬ b + k ≤ b)]
    obtain ⟨j, rfl⟩ : ∃ j, k = j + 1 := ⟨k - 1, by omega⟩
    rw [show j + 1 - 1 = j by omega]
    set q := 1 - r with hq
    have e1 : q ^ (j + 1 + 1) = q * (q * q ^ j) := by ring
    have e2 : q ^ (j + 1) = q * q ^ j := by ring
    have e3 : q ^ (2 * (j + 1)) = q * q * (q ^ j * q ^ j) := by ring
    rw [e1, e2, e3]
    have hrq : r = 1 - q := by rw [hq]; ring
    set z := q ^ j
    rw [hrq] at h2 ⊢
    field_simp
    ring

variable {Ω ι : Type} [Fintype ι] [MeasurableSpace Ω] {P : Measure Ω} [IsProbabilityMeasure P] {X : ℕ → Ω → ι → ℝ} {μ : ι → ℝ}
  {S : Matrix ι ι ℝ}

omit [MeasurableSpace Ω] [Fintype ι] in
theorem sample_succ (X : ℕ → Ω → ι → ℝ) (n : ℕ) (ω : Ω) : sample X (n + 1) ω = sample X n ω ++ [X n ω] := by
  simp [sample, List.range_succ]

omit [MeasurableSpace Ω] [Fintype ι] in
theorem sample_length (X : ℕ → Ω → ι → ℝ) (n : ℕ) (ω : Ω) : (sample X n ω).length = n := by simp [sample]

omit [MeasurableSpace Ω] in
theorem ewa_mean_sample (X : ℕ → Ω → ι → ℝ) (r : ℝ) (b : ℕ) (hb : 1 ≤ b) (n : ℕ) (ω : Ω) (i : ι) :
    (ewaExact r b (sample X n ω)).mean i = ∑ t ∈ Finset.range n, recencyWeight r b n t * X t ω i := by
  rw [recencyMean_eq r b hb]
  unfold recencyMean
  rw [sample_length]
  refine Finset.sum_congr rfl fun t ht => ?_
  rw [sample, List.getD_eq_getElem?_getD, List.getElem?_map, List.getElem?_range (Finset.mem_range.1 ht)]
  rfl

omit [MeasurableSpace Ω] in
theorem ewa_mean_dev (X : ℕ → Ω → ι → ℝ) (μ : ι → ℝ) (r : ℝ) (b : ℕ) (hb : 1 ≤ b) (n : ℕ) (hn : 1 ≤ n) (ω : Ω) (i : ι) :
    (ewaExact r b (sample X n ω)).mean i - μ i = ∑ t ∈ Finset.range n, recencyWeight r b n t * (X t ω i - μ i) := by
  rw [ewa_mean_sample X r b hb]
  have := recencyWeight_sum r b n hb hn
  simp only [mul_sub, Finset.sum_sub_distrib, ← Finset.sum_mul, this, one_mul]

/-- Coefficients of the one-step-ahead innovation. -/
noncomputable def innovCoef (r : ℝ) (b n t : ℕ) : ℝ := if t = n then 1 else - recencyWeight r b n t

theorem innovCoef_sq (r : ℝ) (b n : ℕ) :
    ∑ t ∈ Finset.range (n + 1), innovCoef r b n t * innovCoef r b n t = 1 + noiseLevel r b n := by
  rw [Finset.sum_range_succ]
  unfold innovCoef noiseLevel
  rw [if_pos rfl, add_comm]
  congr 1
  · ring
  · refine Finset.sum_congr rfl fun t ht => ?_
    rw [if_neg (by have := Finset.mem_range.1 ht; omega)]; ring

omit [MeasurableSpace Ω] in
theorem innov_dev (X : ℕ → Ω → ι → ℝ) (μ : ι → ℝ) (r : ℝ) (b : ℕ) (hb : 1 ≤ b) (n : ℕ) (hn : 1 ≤ n) (ω : Ω) (i : ι) :
    X n ω i - (ewaExact r b (sample X n ω)).mean i = ∑ t ∈ Finset.range (n + 1), innovCoef r b n t * (X t ω i - μ i) := by
  rw [Finset.sum_range_succ]
  have h1 : ∑ t ∈ Finset.range n, innovCoef r b n t * (X t ω i - μ i)
      = - ((ewaExact r b (sample X n ω)).mean i - μ i) := by
    rw [ewa_mean_dev X μ r b hb n hn, ← Finset.sum_neg_distrib]
    refine Finset.sum_congr rfl fun t ht => ?_
    unfold innovCoef
    rw [if_neg (by have := Finset.mem_range.1 ht; omega)]; ring
  rw [h1]
  unfold innovCoef
  rw [if_pos rfl]; ring

theorem ewa_cov_mean (h : Uncorrelated P X μ S) (r : ℝ) (hr : r ≠ 2) (b : ℕ) (hb : 1 ≤ b) (n : ℕ) (hn : 1 ≤ n) (i j : ι) :
    Integrable (fun ω => (ewaExact r b (sample X n ω)).cov i j) P ∧
    ∫ ω, (ewaExact r b (sample X n ω)).cov i j ∂P = ewaFactor r b n * S i j := by
  induction n with
  | zero => omega
  | succ n ih =>
    by_cases hnb : n + 1 ≤ b
    · have e : ∀ ω, (ewaExact r b (sample X (n + 1) ω)).cov i j = covOf (sample X (n + 1) ω) i j := fun ω => by
        rw [show (ewaExact r b (sample X (n + 1) ω)).cov = (ewaExact r b (sample X (n + 1) ω)).toEmpState.cov from rfl,
          ewaExact_burn r b _ (by rw [sample_length]; exact hnb), empFold_cov (sample_ne X hn ω)]
      have := C77_covariance_bias h false (n + 1) hn (fun ω => feed X (n + 1) ω) (feed_used X (n + 1)) (fun ω => covOf (sample X (n + 1) ω))
        (fun ω => by
          have := (C15_batch false (feed X (n + 1) ω) (by rw [feed_used]; exact sample_ne X hn ω)).2.1
          rwa [feed_used] at this) i j
      simp only [e]
      unfold ewaFactor
      rw [if_pos hnb]
      exact this
    · have hbn : b ≤ n := by omega
      obtain ⟨ih1, ih2⟩ := ih (by omega)
      have e : (fun ω => (ewaExact r b (sample X (n + 1) ω)).cov i j) = fun ω => (1 - r) * (ewaExact r b (sample X n ω)).cov i j
          + r * ((∑ t ∈ Finset.range (n + 1), innovCoef r b n t * (X t ω i - μ i))
            * (∑ t ∈ Finset.range (n + 1), innovCoef r b n t * (X t ω j - μ j))) := by
        funext ω
        rw [sample_succ, show (ewaExact r b (sample X n ω ++ [X n ω])).cov = (ewaExact r b (sample X n ω ++ [X n ω])).toEmpState.cov from rfl,
          ewaExact_tail r b _ _ (by rw [sample_length]; exact hbn), ← innov_dev X μ r b hb n (by omega), ← innov_dev X μ r b hb n (by omega)]
        rfl
      obtain ⟨i1, i2⟩ := Uncor.bilin h (n + 1) (innovCoef r b n) (innovCoef r b n) i j
      rw [e]
      refine ⟨(ih1.const_mul _).add (i1.const_mul _), ?_⟩
      rw [integral_add (ih1.const_mul _) (i1.const_mul _), integral_const_mul, integral_const_mul, ih2, i2, innovCoef_sq,
        factor_step r hr b n hb hbn]
      ring

/-- C78: `EwaCovariance.location_` is unbiased; its covariance about the mean is `Σ wₜ² · S`, with `Σ wₜ² = 1/n` in the burn-in and
`r/(2-r) + (1-r)^(2k) (1/b - r/(2-r))` after `k` further observations: it does not tend to 0, but to `r/(2-r)`. -/
theorem C78_location (h : Uncorrelated P X μ S) (p : RParam ℝ) (h0 : 0 < p.r) (h1 : p.r ≤ 1) (n : ℕ) (hn : 1 ≤ n)
    (calls : Ω → List (Call ι ℝ)) (hu : ∀ ω, used p.diff (calls ω) = sample X n ω) (m : Ω → ι → ℝ)
    (hm : ∀ ω, ((new (ewaCls ι ℝ) p).run (calls ω)).location = .ok (m ω)) :
    (∀ i, Integrable (fun ω => m ω i) P ∧ ∫ ω, m ω i ∂P = μ i) ∧
    (∀ i j, ∫ ω, (m ω i - μ i) * (m ω j - μ j) ∂P = noiseLevel p.r (ewaBurnN p.r) n * S i j) ∧
    (n ≤ ewaBurnN p.r → noiseLevel p.r (ewaBurnN p.r) n = 1 / n) ∧
    (∀ k, noiseLevel p.r (ewaBurnN p.r) (ewaBurnN p.r + k)
      = p.r / (2 - p.r) + (1 - p.r) ^ (2 * k) * (1 / (ewaBurnN p.r : ℝ) - p.r / (2 - p.r))) ∧
    Tendsto (noiseLevel p.r (ewaBurnN p.r)) atTop (𝓝 (p.r / (2 - p.r))) := by
  have hb : 1 ≤ ewaBurnN p.r := by have := ewaBurnN_ge p.r; omega
  set b := ewaBurnN p.r with hbd
  have hm' : ∀ ω i, m ω i = (ewaExact p.r b (sample X n ω)).mean i := by
    intro ω i
    obtain ⟨hne, e⟩ := run_location_inv (ewa_lawful ι ℝ) p (calls ω) (m ω) (hm ω)
    rw [e, ← hu ω]; rfl
  have hr2 : p.r ≠ 2 := by linarith
  refine ⟨fun i => ?_, fun i j => ?_, noise_burn p.r b n hn, fun k => noise_closed p.r hr2 b k hb, ?_⟩
  · simp only [hm', ewa_mean_sample X p.r b hb]
    refine ⟨(Uncor.lin h n _ i).1, ?_⟩
    rw [(Uncor.lin h n _ i).2, recencyWeight_sum p.r b n hb hn, one_mul]
  · simp only [hm', ewa_mean_dev X μ p.r b hb n hn]
    rw [(Uncor.bilin h n _ _ i j).2]
    unfold noiseLevel
    simp only [sq]
  · rw [← tendsto_add_atTop_iff_nat b]
    have e : (fun k => noiseLevel p.r b (k + b)) = fun k => p.r / (2 - p.r) + ((1 - p.r) ^ 2) ^ k * (1 / (b : ℝ) - p.r / (2 - p.r)) := by
      funext k; rw [add_comm k b, noise_closed p.r hr2 b k hb, pow_mul]
    rw [e]
    have hq : Tendsto (fun k : ℕ => ((1 - p.r) ^ 2) ^ k) atTop (𝓝 0) :=
      tendsto_pow_atTop_nhds_zero_of_lt_one (sq_nonneg _) (by nlinarith)
    simpa using (hq.mul_const _).const_add (p.r / (2 - p.r))

/-- C78 (finding): on rows with covariance `S`, uncorrelated in time, the expectation of `EwaCovariance.covariance_` is
`f · S` with the explicit factor `Spec.ewaFactor`: `1 - 1/n` during the burn-in, tending to `2/(2-r) > 1` afterwards. The estimate is
systematically too large in the long run (by 2.6% for `r = 0.05`, by a factor 2 for `r = 1`), since the deviations are taken
from the mean before the update. -/
theorem C78_covariance_bias (h : Uncorrelated P X μ S) (p : RParam ℝ) (h0 : 0 < p.r) (h1 : p.r ≤ 1) (n : ℕ) (hn : 1 ≤ n)
    (calls : Ω → List (Call ι ℝ)) (hu : ∀ ω, used p.diff (calls ω) = sample X n ω) (c : Ω → Matrix ι ι ℝ)
    (hc : ∀ ω, ((new (ewaCls ι ℝ) p).run (calls ω)).covariance = .ok (c ω)) (i j : ι) :
    Integrable (fun ω => c ω i j) P ∧ ∫ ω, c ω i j ∂P = ewaFactor p.r (ewaBurnN p.r) n * S i j := by
  have hb : 1 ≤ ewaBurnN p.r := by have := ewaBurnN_ge p.r; omega
  have hc' : ∀ ω, c ω i j = (ewaExact p.r (ewaBurnN p.r) (sample X n ω)).cov i j := fun ω => by
    rw [(ewa_attrs_inv p (calls ω) (c ω) (hc ω)).2, hu ω]; rfl
  simp only [hc']
  exact ewa_cov_mean h p.r (by linarith) _ hb n hn i j

/-- C78: the limit of the factor, and that it exceeds 1. -/
theorem C78_factor_limit (r : ℝ) (h0 : 0 < r) (h1 : r ≤ 1) (b : ℕ) (hb : 1 ≤ b) :
    Tendsto (ewaFactor r b) atTop (𝓝 (2 / (2 - r))) ∧ 1 < 2 / (2 - r) := by
  have h2 : 0 < 2 - r := by linarith
  constructor
  · rw [← tendsto_add_atTop_iff_nat (b + 1)]
    have e : (fun k => ewaFactor r b (k + (b + 1))) = fun k => 2 / (2 - r) - (1 / (b : ℝ) + r / (2 - r)) * ((1 - r) ^ k * (1 - r))
        + (1 / (b : ℝ) - r / (2 - r)) * (1 - r) ^ k * (1 - (1 - r) ^ k * (1 - r)) := by
      funext k
      unfold ewaFactor
      rw [if_neg (by omega), show k + (b + 1) - b = k + 1 by omega, show k + 1 - 1 = k by omega, pow_succ]
    rw [e]
    have hq : Tendsto (fun k : ℕ => (1 - r) ^ k) atTop (𝓝 0) :=
      tendsto_pow_atTop_nhds_zero_of_lt_one (by linarith) (by linarith)
    have := ((((hq.mul_const (1 - r)).const_mul (1 / (b : ℝ) + r / (2 - r))).const_sub (2 / (2 - r))).add
      ((hq.const_mul (1 / (b : ℝ) - r / (2 - r))).mul ((hq.mul_const (1 - r)).const_sub 1)))
    simpa using this
  · rw [lt_div_iff₀ h2]; linarith


/-! ### DiagonalCovariance -/

omit [MeasurableSpace Ω] [Fintype ι] in
theorem sample_take (X : ℕ → Ω → ι → ℝ) (n t : ℕ) (ht : t ≤ n) (ω : Ω) : (sample X n ω).take t = sample X t ω := by
  unfold sample
  rw [← List.map_take, List.take_range, Nat.min_eq_left ht]

omit [MeasurableSpace Ω] [Fintype ι] in
theorem sample_getD (X : ℕ → Ω → ι → ℝ) (n t : ℕ) (ht : t < n) (ω : Ω) : (sample X n ω).getD t 0 = X t ω := by
  rw [sample, List.getD_eq_getElem?_getD, List.getElem?_map, List.getElem?_range ht]; rfl

/-- The mean square of the innovation at time `t`. -/
theorem innov_sq_mean (h : Uncorrelated P X μ S) (r : ℝ) (b : ℕ) (hb : 1 ≤ b) (n t : ℕ) (ht : t < n) (i : ι) :
    Integrable (fun ω => innovation r b (sample X n ω) t i ^ 2) P ∧
    ∫ ω, innovation r b (sample X n ω) t i ^ 2 ∂P = (1 + noiseLevel r b t) * S i i + if t = 0 then μ i ^ 2 else 0 := by
  have e : ∀ ω, innovation r b (sample X n ω) t i = X t ω i - (ewaExact r b (sample X t ω)).mean i := fun ω => by
    unfold innovation
    rw [sample_take X n t ht.le, sample_getD X n t ht, Pi.sub_apply, recencyMean_eq r b hb]
  simp only [e]
  rcases Nat.eq_zero_or_pos t with rfl | ht0
  · have e0 : ∀ ω, (X 0 ω i - (ewaExact r b (sample X 0 ω)).mean i) ^ 2
        = ((X 0 ω i - μ i) * (X 0 ω i - μ i) + (2 * μ i) * X 0 ω i) - μ i ^ 2 := fun ω => by
      rw [show (ewaExact r b (sample X 0 ω)).mean i = 0 from rfl]; ring
    simp only [e0]
    have i1 := h.int2 0 0 i i
    have i2 := (h.int1 0 i).const_mul (2 * μ i)
    refine ⟨(i1.add i2).sub (integrable_const _), ?_⟩
    have i3 : Integrable (fun ω => (X 0 ω i - μ i) * (X 0 ω i - μ i) + (2 * μ i) * X 0 ω i) P := i1.add i2
    rw [integral_sub i3 (integrable_const _), integral_add i1 i2, integral_const_mul, h.cov, h.mean, integral_const]
    simp [noiseLevel]; ring
  · rw [if_neg (by omega), add_zero]
    obtain ⟨i1, i2⟩ := Uncor.bilin h (t + 1) (innovCoef r b t) (innovCoef r b t) i i
    rw [innovCoef_sq] at i2
    have e1 : ∀ ω, (X t ω i - (ewaExact r b (sample X t ω)).mean i) ^ 2
        = (∑ s ∈ Finset.range (t + 1), innovCoef r b t s * (X s ω i - μ i))
            * (∑ s ∈ Finset.range (t + 1), innovCoef r b t s * (X s ω i - μ i)) := fun ω => by
      rw [← innov_dev X μ r b hb t ht0, sq]
    simp only [e1]
    exact ⟨i1, i2⟩

/-- C78 (finding): the expectation of a variance reported by `DiagonalCovariance` is
`Σ wₜ (1 + noiseₜ) · Sᵢᵢ + w₀ · μᵢ²`: inflated by the noise of the running mean and, while the first row carries weight `w₀`,
by the square of the mean. -/
theorem C78_diagonal_bias (h : Uncorrelated P X μ S) [DecidableEq ι] (p : RParam ℝ) (h0 : 0 < p.r) (h1 : p.r ≤ 1) (n : ℕ) (hn : 1 ≤ n)
    (calls : Ω → List (Call ι ℝ)) (hu : ∀ ω, used p.diff (calls ω) = sample X n ω) (c : Ω → Matrix ι ι ℝ)
    (hc : ∀ ω, ((new (diagonalCls ι ℝ) p).run (calls ω)).covariance = .ok (c ω)) (i : ι) :
    Integrable (fun ω => c ω i i) P ∧
    ∫ ω, c ω i i ∂P = (∑ t ∈ Finset.range n, recencyWeight p.r (ewaBurnN p.r) n t * (1 + noiseLevel p.r (ewaBurnN p.r) t)) * S i i
      + recencyWeight p.r (ewaBurnN p.r) n 0 * μ i ^ 2 := by
  have hb : 1 ≤ ewaBurnN p.r := by have := ewaBurnN_ge p.r; omega
  set b := ewaBurnN p.r with hbd
  have hc' : ∀ ω, c ω i i = ∑ t ∈ Finset.range n, recencyWeight p.r b n t * innovation p.r b (sample X n ω) t i ^ 2 := fun ω => by
    obtain ⟨hne, e⟩ := diagonal_attrs p (calls ω) (c ω) (hc ω)
    rw [e, Matrix.diagonal_apply_eq]
    have : (diagFold p.r (used p.diff (calls ω))).var i = (diagExact p.r b (used p.diff (calls ω))).var i := rfl
    rw [this, trackedVar_eq p.r b hb _ hne, hu]
    unfold trackedVar
    rw [sample_length]
  simp only [hc']
  have hi : ∀ t ∈ Finset.range n, Integrable (fun ω => recencyWeight p.r b n t * innovation p.r b (sample X n ω) t i ^ 2) P := fun t ht =>
    (innov_sq_mean h p.r b hb n t (Finset.mem_range.1 ht) i).1.const_mul _
  refine ⟨integrable_finset_sum _ hi, ?_⟩
  rw [integral_finset_sum _ hi, Finset.sum_congr rfl (fun t ht => by
    rw [integral_const_mul, (innov_sq_mean h p.r b hb n t (Finset.mem_range.1 ht) i).2])]
  rw [Finset.sum_mul]
  simp only [mul_add, ← mul_assoc, mul_ite, mul_zero]
  rw [Finset.sum_add_distrib, Finset.sum_ite_eq' (Finset.range n) 0, if_pos (Finset.mem_range.2 (by omega))]

/-! ### The hypotheses are met: pairs of fair coins, `r = 1/20` -/

example (n : ℕ) (hn : 1 ≤ n) : ∃ (m : (ℕ → Bool × Bool) → Fin 2 → ℝ) (c d : (ℕ → Bool × Bool) → Matrix (Fin 2) (Fin 2) ℝ),
    (∀ ω, ((new (ewaCls (Fin 2) ℝ) ⟨1/20, false⟩).run (feed coinX n ω)).location = .ok (m ω)) ∧
    (∀ ω, ((new (ewaCls (Fin 2) ℝ) ⟨1/20, false⟩).run (feed coinX n ω)).covariance = .ok (c ω)) ∧
    (∀ ω, ((new (diagonalCls (Fin 2) ℝ) (show RParam ℝ from ⟨1/20, false⟩)).run (feed coinX n ω)).covariance = .ok (d ω)) ∧
    ∫ ω, m ω 0 ∂coinP = 1 ∧ ∫ ω, c ω 1 1 ∂coinP = ewaFactor (1/20) (ewaBurnN (1/20 : ℝ)) n * 2 ∧
    ∫ ω, d ω 0 0 ∂coinP = (∑ t ∈ Finset.range n, recencyWeight (1/20) (ewaBurnN (1/20 : ℝ)) n t * (1 + noiseLevel (1/20) (ewaBurnN (1/20 : ℝ)) t)) * 1
      + recencyWeight (1/20) (ewaBurnN (1/20 : ℝ)) n 0 * 1 ^ 2 := by
  have hne : ∀ ω, used false (feed coinX n ω) ≠ [] := fun ω => by rw [feed_used]; exact sample_ne coinX hn ω
  have h1 := fun ω => ewa_attrs (⟨1/20, false⟩ : RParam ℝ) (feed coinX n ω) (hne ω)
  have h2 := fun ω => run_covariance (diagonal_lawful (Fin 2) ℝ) ⟨1/20, false⟩ (feed coinX n ω) (hne ω)
  refine ⟨_, _, _, fun ω => (h1 ω).1, fun ω => (h1 ω).2, h2, ?_, ?_, ?_⟩
  · exact ((C78_location coin_uncorrelated ⟨1/20, false⟩ (by norm_num) (by norm_num) n hn (feed coinX n) (feed_used coinX n) _
      fun ω => (h1 ω).1).1 0).2
  · exact (C78_covariance_bias coin_uncorrelated ⟨1/20, false⟩ (by norm_num) (by norm_num) n hn (feed coinX n) (feed_used coinX n) _
      (fun ω => (h1 ω).2) 1 1).2
  · exact (C78_diagonal_bias coin_uncorrelated ⟨1/20, false⟩ (by norm_num) (by norm_num) n hn (feed coinX n) (feed_used coinX n) _ h2 0).2

end Precise
