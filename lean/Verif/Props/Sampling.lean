import Verif.Lemmas.Sample
import Verif.Lemmas.SampleDemo
import Verif.Lemmas.Emp
import Verif.Lemmas.State
import Verif.Lemmas.Lawful
import Verif.Props.Linalg
import Verif.Props.Emp
import Mathlib.Probability.Independence.InfinitePi
import Mathlib.Topology.Instances.Matrix
import Mathlib.Topology.Algebra.GroupWithZero

/-!
# C77: EmpiricalCovariance on a random stream

`X t ω` is row `t` in outcome `ω`; `calls ω` is any way of feeding the first `n` rows (after differencing, if asked).
-/

set_option linter.all false

open MeasureTheory ProbabilityTheory Filter Topology

namespace Precise
open Spec Obj

variable {Ω ι : Type} [Fintype ι] [MeasurableSpace Ω] {P : Measure Ω} [IsProbabilityMeasure P] {X : ℕ → Ω → ι → ℝ} {μ : ι → ℝ}
  {S : Matrix ι ι ℝ}

omit [MeasurableSpace Ω] in
theorem meanOf_sample (X : ℕ → Ω → ι → ℝ) (n : ℕ) (ω : Ω) (i : ι) :
    meanOf (sample X n ω) i = (∑ t ∈ Finset.range n, X t ω i) / n := by
  simp only [meanOf, sample, List.map_map, List.length_map, List.length_range]
  congr 1

omit [MeasurableSpace Ω] in
theorem covOf_sample (X : ℕ → Ω → ι → ℝ) (n : ℕ) (ω : Ω) (i j : ι) :
    covOf (sample X n ω) i j = (∑ t ∈ Finset.range n, (X t ω i - meanOf (sample X n ω) i) * (X t ω j - meanOf (sample X n ω) j)) / n := by
  simp only [covOf, Matrix.of_apply]
  rw [show (sample X n ω).length = n by simp [sample]]
  congr 1
  conv_lhs => rw [show sample X n ω = (List.range n).map fun t => X t ω from rfl]
  rw [List.map_map]
  rfl

omit [MeasurableSpace Ω] in
theorem sample_ne (X : ℕ → Ω → ι → ℝ) {n : ℕ} (hn : 1 ≤ n) (ω : Ω) : sample X n ω ≠ [] := by
  intro h; have := congrArg List.length h; simp [sample] at this; omega

/-- The covariance through the deviations from any point. -/
theorem covOf_sample_dev (X : ℕ → Ω → ι → ℝ) (μ : ι → ℝ) {n : ℕ} (hn : 1 ≤ n) (ω : Ω) (i j : ι) :
    covOf (sample X n ω) i j = (∑ t ∈ Finset.range n, (X t ω i - μ i) * (X t ω j - μ j)) / n
      - (∑ t ∈ Finset.range n, (1 / (n : ℝ)) * (X t ω i - μ i)) * (∑ t ∈ Finset.range n, (1 / (n : ℝ)) * (X t ω j - μ j)) := by
  have hn0 : (n : ℝ) ≠ 0 := by exact_mod_cast (by omega : n ≠ 0)
  rw [covOf_sample, ← Finset.mul_sum, ← Finset.mul_sum]
  set A := ∑ t ∈ Finset.range n, (X t ω i - μ i) with hA
  set B := ∑ t ∈ Finset.range n, (X t ω j - μ j) with hB
  have mi : meanOf (sample X n ω) i = μ i + A / n := by
    rw [meanOf_sample, hA, Finset.sum_sub_distrib]; simp; field_simp; ring
  have mj : meanOf (sample X n ω) j = μ j + B / n := by
    rw [meanOf_sample, hB, Finset.sum_sub_distrib]; simp; field_simp; ring
  rw [mi, mj]
  have e : ∀ t ∈ Finset.range n, (X t ω i - (μ i + A / n)) * (X t ω j - (μ j + B / n))
      = (X t ω i - μ i) * (X t ω j - μ j) - (B / n) * (X t ω i - μ i) - (A / n) * (X t ω j - μ j) + A / n * (B / n) := by
    intro t _; ring
  rw [Finset.sum_congr rfl e, Finset.sum_add_distrib, Finset.sum_sub_distrib, Finset.sum_sub_distrib, ← Finset.mul_sum, ← Finset.mul_sum,
    ← hA, ← hB]
  simp
  field_simp; ring

theorem emp_cov_eq (d : Bool) (calls : List (Call ι ℝ)) (c : Matrix ι ι ℝ)
    (hc : ((new (empiricalCls ι ℝ) d).run calls).covariance = .ok c) : c = covOf (used d calls) := by
  obtain ⟨hne, -⟩ := run_covariance_inv (empirical_lawful ι ℝ) d calls c hc
  rw [(C15_batch d calls hne).2.1] at hc
  exact (Except.ok.inj hc).symm

/-- C77: `EmpiricalCovariance.location_` is an unbiased estimate of the mean, with covariance `S / n` about it, for every
stream of rows with common mean and covariance, uncorrelated in time. -/
theorem C77_location_unbiased (h : Uncorrelated P X μ S) (d : Bool) (n : ℕ) (hn : 1 ≤ n) (calls : Ω → List (Call ι ℝ))
    (hu : ∀ ω, used d (calls ω) = sample X n ω) (m : Ω → ι → ℝ)
    (hm : ∀ ω, ((new (empiricalCls ι ℝ) d).run (calls ω)).location = .ok (m ω)) :
    (∀ i, Integrable (fun ω => m ω i) P ∧ ∫ ω, m ω i ∂P = μ i) ∧
    ∀ i j, ∫ ω, (m ω i - μ i) * (m ω j - μ j) ∂P = S i j / n := by
  have hn0 : (n : ℝ) ≠ 0 := by exact_mod_cast (by omega : n ≠ 0)
  have hm' : ∀ ω i, m ω i = meanOf (sample X n ω) i := by
    intro ω i
    obtain ⟨hne, e⟩ := run_location_inv (empirical_lawful ι ℝ) d (calls ω) (m ω) (hm ω)
    change used d (calls ω) ≠ [] at hne
    rw [e, ← hu ω, ← empFold_mean hne]; rfl
  constructor
  · intro i
    have := Uncor.lin h n (fun _ => 1 / (n : ℝ)) i
    have e : (fun ω => m ω i) = fun ω => ∑ t ∈ Finset.range n, 1 / (n : ℝ) * X t ω i := by
      funext ω; rw [hm', meanOf_sample, ← Finset.mul_sum]; ring
    rw [e]
    refine ⟨this.1, this.2.trans ?_⟩
    simp; field_simp
  · intro i j
    have e : (fun ω => (m ω i - μ i) * (m ω j - μ j)) = fun ω => (∑ t ∈ Finset.range n, 1 / (n : ℝ) * (X t ω i - μ i))
        * (∑ t ∈ Finset.range n, 1 / (n : ℝ) * (X t ω j - μ j)) := by
      funext ω
      rw [hm', hm', meanOf_sample, meanOf_sample, ← Finset.mul_sum, ← Finset.mul_sum, Finset.sum_sub_distrib, Finset.sum_sub_distrib]
      simp; field_simp
    rw [e, (Uncor.bilin h n _ _ i j).2]
    simp; field_simp

/-- C77: the expectation of `EmpiricalCovariance.covariance_` is `(1 - 1/n) S`: biased low by exactly `S / n`. -/
theorem C77_covariance_bias (h : Uncorrelated P X μ S) (d : Bool) (n : ℕ) (hn : 1 ≤ n) (calls : Ω → List (Call ι ℝ))
    (hu : ∀ ω, used d (calls ω) = sample X n ω) (c : Ω → Matrix ι ι ℝ)
    (hc : ∀ ω, ((new (empiricalCls ι ℝ) d).run (calls ω)).covariance = .ok (c ω)) (i j : ι) :
    Integrable (fun ω => c ω i j) P ∧ ∫ ω, c ω i j ∂P = (1 - 1 / (n : ℝ)) * S i j := by
  have hn0 : (n : ℝ) ≠ 0 := by exact_mod_cast (by omega : n ≠ 0)
  have hc' : ∀ ω, c ω i j = covOf (sample X n ω) i j := by
    intro ω
    rw [emp_cov_eq d (calls ω) (c ω) (hc ω), hu]
  have i1 : Integrable (fun ω => (∑ t ∈ Finset.range n, (X t ω i - μ i) * (X t ω j - μ j)) / n) P :=
    (integrable_finset_sum _ fun t _ => h.int2 t t i j).div_const _
  obtain ⟨i2, e2⟩ := Uncor.bilin h n (fun _ => 1 / (n : ℝ)) (fun _ => 1 / (n : ℝ)) i j
  have e : (fun ω => c ω i j) = fun ω => (∑ t ∈ Finset.range n, (X t ω i - μ i) * (X t ω j - μ j)) / n
      - (∑ t ∈ Finset.range n, (1 / (n : ℝ)) * (X t ω i - μ i)) * (∑ t ∈ Finset.range n, (1 / (n : ℝ)) * (X t ω j - μ j)) := by
    funext ω; rw [hc', covOf_sample_dev X μ hn]
  rw [e]
  refine ⟨i1.sub i2, ?_⟩
  rw [integral_sub i1 i2, e2, integral_div, integral_finset_sum _ fun t _ => h.int2 t t i j]
  simp only [h.cov]
  simp; field_simp


theorem comp_IID (h : IID P X) (f : (ι → ℝ) → ℝ) (hf : Measurable f) (hi : Integrable (fun ω => f (X 0 ω)) P) :
    ∀ᵐ ω ∂P, Tendsto (fun n : ℕ => (∑ t ∈ Finset.range n, f (X t ω)) / n) atTop (𝓝 (∫ ω, f (X 0 ω) ∂P)) :=
  strong_law_ae_real (fun t ω => f (X t ω)) hi (fun s t hst => (h.indep hst).comp hf hf) (fun t => (h.ident t).comp hf)

/-- C77: strong consistency. On a stream of i.i.d. rows with finite second moments, with probability one `location_` converges
to the mean and every entry of `covariance_` to the true covariance, as the stream goes on. -/
theorem C77_consistent (h : IID P X) (d : Bool) (calls : ℕ → Ω → List (Call ι ℝ)) (hu : ∀ n ω, used d (calls n ω) = sample X n ω)
    (m : ℕ → Ω → ι → ℝ) (c : ℕ → Ω → Matrix ι ι ℝ)
    (hm : ∀ n ω, 1 ≤ n → ((new (empiricalCls ι ℝ) d).run (calls n ω)).location = .ok (m n ω))
    (hc : ∀ n ω, 1 ≤ n → ((new (empiricalCls ι ℝ) d).run (calls n ω)).covariance = .ok (c n ω)) :
    ∀ᵐ ω ∂P, Tendsto (fun n => m n ω) atTop (𝓝 (meanRow P X)) ∧ Tendsto (fun n => c n ω) atTop (𝓝 (covRow P X)) := by
  have U := IID.uncorrelated h
  set μ := meanRow P X with hμ
  have h1 : ∀ᵐ ω ∂P, ∀ i, Tendsto (fun n : ℕ => (∑ t ∈ Finset.range n, X t ω i) / n) atTop (𝓝 (μ i)) := by
    rw [ae_all_iff]; intro i
    exact comp_IID h (fun x => x i) (measurable_pi_apply i) (U.int1 0 i)
  have h2 : ∀ᵐ ω ∂P, ∀ i j, Tendsto (fun n : ℕ => (∑ t ∈ Finset.range n, (X t ω i - μ i) * (X t ω j - μ j)) / n) atTop (𝓝 (covRow P X i j)) := by
    rw [ae_all_iff]; intro i
    rw [ae_all_iff]; intro j
    exact comp_IID h (fun x => (x i - μ i) * (x j - μ j)) (by fun_prop) (U.int2 0 0 i j)
  filter_upwards [h1, h2] with ω w1 w2
  have w3 : ∀ i, Tendsto (fun n : ℕ => ∑ t ∈ Finset.range n, (1 / (n : ℝ)) * (X t ω i - μ i)) atTop (𝓝 0) := by
    intro i
    have := (w1 i).sub_const (μ i)
    rw [sub_self] at this
    refine this.congr' ?_
    filter_upwards [eventually_ge_atTop 1] with n hn
    have hn0 : (n : ℝ) ≠ 0 := by exact_mod_cast (by omega : n ≠ 0)
    rw [← Finset.mul_sum, Finset.sum_sub_distrib]; simp; field_simp
  constructor
  · rw [tendsto_pi_nhds]; intro i
    refine (w1 i).congr' ?_
    filter_upwards [eventually_ge_atTop 1] with n hn
    obtain ⟨hne, e⟩ := run_location_inv (empirical_lawful ι ℝ) d (calls n ω) (m n ω) (hm n ω hn)
    change used d (calls n ω) ≠ [] at hne
    rw [e, ← meanOf_sample, ← hu n ω, ← empFold_mean hne]; rfl
  · refine tendsto_pi_nhds.2 fun i => tendsto_pi_nhds.2 fun j => ?_
    have := (w2 i j).sub ((w3 i).mul (w3 j))
    rw [mul_zero, sub_zero] at this
    refine this.congr' ?_
    filter_upwards [eventually_ge_atTop 1] with n hn
    rw [emp_cov_eq d _ _ (hc n ω hn), hu, covOf_sample_dev X μ hn]

/-- C77: if moreover the true covariance is invertible, `precision_` converges to its inverse with probability one. -/
theorem C77_precision_consistent [DecidableEq ι] (L : Lapack) (h : IID P X) (hS : (covRow P X).det ≠ 0) (d : Bool) (calls : ℕ → Ω → List (Call ι ℝ))
    (hu : ∀ n ω, used d (calls n ω) = sample X n ω) (q : ℕ → Ω → Matrix ι ι ℝ)
    (hq : ∀ n ω, 1 ≤ n → ((new (empiricalCls ι ℝ) d).run (calls n ω)).precision L = .ok (q n ω)) :
    ∀ᵐ ω ∂P, Tendsto (fun n => q n ω) atTop (𝓝 (covRow P X)⁻¹) := by
  have hne : ∀ n ω, 1 ≤ n → used d (calls n ω) ≠ [] := fun n ω hn => by rw [hu]; exact sample_ne X hn ω
  have hcons := C77_consistent h d calls hu (fun n ω => meanOf (sample X n ω)) (fun n ω => covOf (sample X n ω))
    (fun n ω hn => by rw [← hu]; exact (C15_batch d (calls n ω) (hne n ω hn)).1)
    (fun n ω hn => by rw [← hu]; exact (C15_batch d (calls n ω) (hne n ω hn)).2.1)
  filter_upwards [hcons] with ω hω
  have hc := hω.2
  have hdet : Tendsto (fun n => (covOf (sample X n ω)).det) atTop (𝓝 (covRow P X).det) :=
    ((continuous_id.matrix_det).tendsto _).comp hc
  have hadj : Tendsto (fun n => (covOf (sample X n ω)).adjugate) atTop (𝓝 (covRow P X).adjugate) :=
    ((continuous_id.matrix_adjugate).tendsto _).comp hc
  have hinv : Tendsto (fun n => (covOf (sample X n ω)).det⁻¹ • (covOf (sample X n ω)).adjugate) atTop
      (𝓝 ((covRow P X).det⁻¹ • (covRow P X).adjugate)) := (hdet.inv₀ hS).smul hadj
  rw [Matrix.inv_def, Ring.inverse_eq_inv']
  refine hinv.congr' ?_
  filter_upwards [eventually_ge_atTop 1, hdet.eventually_ne hS] with n hn hd
  have hcn : ((new (empiricalCls ι ℝ) d).run (calls n ω)).covariance = .ok (covOf (sample X n ω)) := by
    rw [← hu]; exact (C15_batch d (calls n ω) (hne n ω hn)).2.1
  have := (C12_precision L _ _ _ hcn (hq n ω hn)).1 hd
  rw [← Ring.inverse_eq_inv', ← Matrix.inv_def]
  exact (Matrix.inv_eq_left_inv this.1)

/-! ### The hypotheses are met: infinitely many pairs of fair coins (`Lemmas/SampleDemo`) -/

/-- Feeding the first `n` rows in one call. -/
def feed (X : ℕ → Ω → ι → ℝ) (n : ℕ) (ω : Ω) : List (Call ι ℝ) := [.partialFit (.batch (sample X n ω))]

omit [MeasurableSpace Ω] [Fintype ι] in
theorem feed_used (X : ℕ → Ω → ι → ℝ) (n : ℕ) (ω : Ω) : used false (feed X n ω) = sample X n ω := by
  simp [feed, used, effective, rowsSinceFit, rowsOf]

example (n : ℕ) (hn : 1 ≤ n) : ∃ (m : (ℕ → Bool × Bool) → Fin 2 → ℝ) (c : (ℕ → Bool × Bool) → Matrix (Fin 2) (Fin 2) ℝ), (∀ ω, ((new (empiricalCls (Fin 2) ℝ) false).run (feed coinX n ω)).location = .ok (m ω)) ∧
    (∀ ω, ((new (empiricalCls (Fin 2) ℝ) false).run (feed coinX n ω)).covariance = .ok (c ω)) ∧
    ∫ ω, m ω 0 ∂coinP = 1 ∧ ∫ ω, c ω 0 1 ∂coinP = (1 - 1 / (n : ℝ)) * 1 := by
  have hne : ∀ ω, used false (feed coinX n ω) ≠ [] := fun ω => by rw [feed_used]; exact sample_ne coinX hn ω
  have h := fun ω => C15_batch false (feed coinX n ω) (hne ω)
  refine ⟨_, _, fun ω => (h ω).1, fun ω => (h ω).2.1, ?_, ?_⟩
  · exact ((C77_location_unbiased coin_uncorrelated false n hn (feed coinX n) (feed_used coinX n) _ fun ω => (h ω).1).1 0).2
  · exact (C77_covariance_bias coin_uncorrelated false n hn (feed coinX n) (feed_used coinX n) _ (fun ω => (h ω).2.1) 0 1).2

example (L : Lapack) : ∃ (m : ℕ → (ℕ → Bool × Bool) → Fin 2 → ℝ) (c q : ℕ → (ℕ → Bool × Bool) → Matrix (Fin 2) (Fin 2) ℝ), (∀ n ω, 1 ≤ n → ((new (empiricalCls (Fin 2) ℝ) false).run (feed coinX n ω)).location = .ok (m n ω)) ∧
    (∀ n ω, 1 ≤ n → ((new (empiricalCls (Fin 2) ℝ) false).run (feed coinX n ω)).covariance = .ok (c n ω)) ∧
    (∀ n ω, 1 ≤ n → ((new (empiricalCls (Fin 2) ℝ) false).run (feed coinX n ω)).precision L = .ok (q n ω)) ∧
    ∀ᵐ ω ∂coinP, Tendsto (fun n => m n ω) atTop (𝓝 ![1, 0]) ∧ Tendsto (fun n => c n ω) atTop (𝓝 !![1, 1; 1, 2]) ∧
      Tendsto (fun n => q n ω) atTop (𝓝 (!![1, 1; 1, 2] : Matrix (Fin 2) (Fin 2) ℝ)⁻¹) := by
  have h := fun n ω (hn : 1 ≤ n) => C15_batch false (feed coinX n ω) (by rw [feed_used]; exact sample_ne coinX hn ω)
  have hq : ∀ n ω, 1 ≤ n → ((new (empiricalCls (Fin 2) ℝ) false).run (feed coinX n ω)).precision L
      = .ok (tryInvert L (covOf (used false (feed coinX n ω)))) := fun n ω hn => by
    unfold Obj.precision; rw [(h n ω hn).2.1]; rfl
  refine ⟨_, _, _, fun n ω hn => (h n ω hn).1, fun n ω hn => (h n ω hn).2.1, hq, ?_⟩
  have h1 := C77_consistent coin_iid false (feed coinX) (feed_used coinX) _ _ (fun n ω hn => (h n ω hn).1) (fun n ω hn => (h n ω hn).2.1)
  have h2 := C77_precision_consistent L coin_iid (by rw [coin_cov]; simp [Matrix.det_fin_two]; norm_num) false (feed coinX) (feed_used coinX) _ hq
  rw [coin_mean, coin_cov] at h1
  rw [coin_cov] at h2
  filter_upwards [h1, h2] with ω a b
  exact ⟨a.1, a.2, b⟩

end Precise
