import Verif.Model.GammaSim
import Verif.Lemmas.Ols
import Verif.Props.TheoryGammaStar
import Mathlib.Probability.StrongLaw
import Mathlib.MeasureTheory.Function.ConvergenceInMeasure
import Mathlib.Probability.Independence.InfinitePi

/-!
# C106: `gamma_star` against its simulation

C71 takes from the module's documentation that the least-squares slope has variance `s/(a(n-2))`. Here that is proved for the slope the
script computes from Gaussian samples, so that `gamma_star` minimizes the expected value of what the script simulates, and the
simulation finds it.
-/

set_option linter.all false

open MeasureTheory ProbabilityTheory Filter
open scoped ENNReal Topology

namespace Precise.Theory

open Precise.Ols

/-- The law of one simulated sample: `2 n` independent standard normal numbers. -/
noncomputable abbrev drawLaw (n : ℕ) : Measure (Draw n) :=
  (Measure.pi fun _ => gaussianReal 0 1).prod (Measure.pi fun _ => gaussianReal 0 1)

theorem bHat_eq {n : ℕ} (hn : 1 ≤ n) {a b s : ℝ} (ha : 0 < a) :
    ∀ᵐ d ∂drawLaw n, bHat a b s d = b + (Real.sqrt s / Real.sqrt a) * noise d := by
  have h : ∀ᵐ d ∂drawLaw n, 0 < ∑ i, d.1 i ^ 2 :=
    (Measure.quasiMeasurePreserving_fst (μ := std n) (ν := std n)).ae (ae_ne_zero n hn)
  filter_upwards [h] with d hd
  have hsa : 0 < Real.sqrt a := Real.sqrt_pos.2 ha
  have e1 : ∑ i, Real.sqrt a * d.1 i * (Real.sqrt a * d.1 i) = Real.sqrt a ^ 2 * ∑ i, d.1 i ^ 2 := by
    rw [Finset.mul_sum]; exact Finset.sum_congr rfl fun i _ => by ring
  have e2 : ∑ i, Real.sqrt a * d.1 i * (b * (Real.sqrt a * d.1 i) + Real.sqrt s * d.2 i)
      = b * (Real.sqrt a ^ 2 * ∑ i, d.1 i ^ 2) + Real.sqrt a * Real.sqrt s * ∑ i, d.1 i * d.2 i := by
    rw [Finset.mul_sum, Finset.mul_sum, Finset.mul_sum, ← Finset.sum_add_distrib]; exact Finset.sum_congr rfl fun i _ => by ring
  simp only [bHat, noise]
  rw [e1, e2]
  field_simp

/-- C106: with `n ≥ 3` Gaussian observations the least-squares slope is unbiased, with variance exactly `s / (a (n - 2))`. -/
theorem C106_slope {n : ℕ} (hn : 3 ≤ n) (a b s : ℝ) (ha : 0 < a) (hs : 0 ≤ s) :
    Integrable (fun d => bHat a b s d) (drawLaw n) ∧ Integrable (fun d => bHat a b s d ^ 2) (drawLaw n) ∧
    ∫ d, bHat a b s d ∂drawLaw n = b ∧ ∫ d, (bHat a b s d - b) ^ 2 ∂drawLaw n = s / (a * (n - 2)) ∧
    ∫ d, bHat a b s d ^ 2 ∂drawLaw n = b ^ 2 + s / (a * (n - 2)) := by
  have h := bHat_eq (n := n) (by omega) (b := b) (s := s) ha
  set c := Real.sqrt s / Real.sqrt a with hc
  have hc2 : c ^ 2 = s / a := by rw [hc, div_pow, Real.sq_sqrt hs, Real.sq_sqrt ha.le]
  have hL := noise_memLp n hn
  have hi : Integrable (noise (n := n)) (drawLaw n) := hL.integrable one_le_two
  have hi2 : Integrable (fun d => noise (n := n) d ^ 2) (drawLaw n) := hL.integrable_sq
  have hm := noise_mean n hn
  have hs2 := noise_second n hn
  have hn' : (3 : ℝ) ≤ n := by exact_mod_cast hn
  have hsq : (fun d => bHat a b s d ^ 2) =ᵐ[drawLaw n] fun d => (b ^ 2 + (2 * b * c) * noise d) + c ^ 2 * noise d ^ 2 := by
    filter_upwards [h] with d hd; rw [hd]; ring
  have hl : (fun d => bHat a b s d) =ᵐ[drawLaw n] fun d => b + c * noise d := h
  have i1 : Integrable (fun d => b + c * noise d) (drawLaw n) := (integrable_const b).add (hi.const_mul c)
  have i2 : Integrable (fun d => b ^ 2 + (2 * b * c) * noise d) (drawLaw n) := (integrable_const _).add (hi.const_mul _)
  have i3 : Integrable (fun d => c ^ 2 * noise d ^ 2) (drawLaw n) := hi2.const_mul _
  have hd : (fun d => (bHat a b s d - b) ^ 2) =ᵐ[drawLaw n] fun d => c ^ 2 * noise d ^ 2 := by
    filter_upwards [h] with d hd; rw [hd]; ring
  have hv : c ^ 2 * (1 / ((n : ℝ) - 2)) = s / (a * (n - 2)) := by
    rw [hc2]; field_simp
  refine ⟨i1.congr hl.symm, (i2.add i3).congr hsq.symm, ?_, ?_, ?_⟩
  · rw [integral_congr_ae hl, integral_add (integrable_const b) (hi.const_mul c), integral_const_mul, hm]; simp
  · rw [integral_congr_ae hd, integral_const_mul, hs2, hv]
  · rw [integral_congr_ae hsq, integral_add i2 i3, integral_add (integrable_const _) (hi.const_mul _), integral_const_mul,
      integral_const_mul, hm, hs2, hv]
    simp

/-- C106: hence `gamma_star(n, rho²)` is the coupling with strictly the smallest expected residual, for `n ≥ 3` Gaussian observations
and `rho²` the true coupling. -/
theorem C106_optimal {n : ℕ} (hn : 3 ≤ n) (a b s : ℝ) (ha : 0 < a) (hs : 0 < s) (gamma : ℝ) :
    let g := gammaStar n (b ^ 2 * a / (b ^ 2 * a + s))
    gamma ≠ g → ∫ d, residual g a b s (bHat a b s d) ∂drawLaw n < ∫ d, residual gamma a b s (bHat a b s d) ∂drawLaw n := by
  obtain ⟨h1, h2, h3, _, h4⟩ := C106_slope hn a b s ha hs.le
  have hn' : (3 : ℝ) ≤ n := by exact_mod_cast hn
  exact C71_unique_minimizer (drawLaw n) gamma a b s n (fun d => bHat a b s d) ha hs (by linarith) h1 h2 h3 h4

/-- C106: the expected residual in closed form: a parabola in the coupling with its vertex at `gamma_star`. -/
theorem C106_risk {n : ℕ} (hn : 3 ≤ n) (a b s : ℝ) (ha : 0 < a) (hs : 0 < s) (gamma : ℝ) :
    let g := gammaStar n (b ^ 2 * a / (b ^ 2 * a + s))
    ∫ d, residual gamma a b s (bHat a b s d) ∂drawLaw n
      = b ^ 2 * a + s - g * b ^ 2 * a + (b ^ 2 * a + s / (n - 2)) * (gamma - g) ^ 2 := by
  obtain ⟨h1, h2, h3, _, h4⟩ := C106_slope hn a b s ha hs.le
  have hn' : (0 : ℝ) < n - 2 := by have : (3 : ℝ) ≤ n := by exact_mod_cast hn
                                   linarith
  intro g
  rw [C71_risk (drawLaw n) gamma a b s _ _ h1 h2 h3 h4]
  have hg : g * ((n - 2) * (b ^ 2 * a) + s) = (n - 2) * (b ^ 2 * a) := by
    show gammaStar n (b ^ 2 * a / (b ^ 2 * a + s)) * _ = _
    unfold gammaStar
    have ht : 0 < b ^ 2 * a + s := by positivity
    have hk : 0 < (n - 2) * (b ^ 2 * a) + s := by positivity
    have e1 : 1 - b ^ 2 * a / (b ^ 2 * a + s) = s / (b ^ 2 * a + s) := by field_simp; ring
    rw [e1, ← mul_div_assoc, ← add_div, div_div_div_cancel_right₀ ht.ne', div_mul_cancel₀ _ hk.ne']
  field_simp
  linear_combination (2 * gamma - g) * hg

/-- C106 (finding): with one or two observations the expected residual is infinite for every coupling but 0, however small: only
ignoring the estimated coupling has a finite risk. -/
theorem C106_few_observations {n : ℕ} (h1 : 1 ≤ n) (hn : n ≤ 2) (a b s : ℝ) (ha : 0 < a) (hs : 0 < s) (gamma : ℝ) :
    Integrable (fun d => residual gamma a b s (bHat (n := n) a b s d)) (drawLaw n) ↔ gamma = 0 := by
  constructor
  · intro hI
    by_contra hg
    have h := bHat_eq (n := n) h1 (b := b) (s := s) ha
    set c := Real.sqrt s / Real.sqrt a with hc
    have hcp : 0 < c := div_pos (Real.sqrt_pos.2 hs) (Real.sqrt_pos.2 ha)
    have hq : Integrable (fun d => (residual gamma a b s (bHat (n := n) a b s d) - s) / a) (drawLaw n) :=
      (hI.sub (integrable_const s)).div_const a
    -- `(b(1-γ) - γ c q)²` is integrable, hence so is `(γ c q)²`
    have hq2 : Integrable (fun d => (b * (1 - gamma) - gamma * c * noise (n := n) d) ^ 2) (drawLaw n) := by
      refine hq.congr ?_
      filter_upwards [h] with d hd
      rw [hd, residual]
      field_simp
      ring
    have hm := measurable_noise n
    have hL : MemLp (fun d => b * (1 - gamma) - gamma * c * noise (n := n) d) 2 (drawLaw n) :=
      (memLp_two_iff_integrable_sq (by apply Measurable.aestronglyMeasurable; fun_prop)).2 hq2
    have hL2 : MemLp (fun d => gamma * c * noise (n := n) d) 2 (drawLaw n) := by
      have := (memLp_const (b * (1 - gamma)) (p := 2) (μ := drawLaw n)).sub hL
      refine this.ae_eq (Eventually.of_forall fun d => ?_)
      simp
    have hL3 : MemLp (noise (n := n)) 2 (drawLaw n) := by
      have := hL2.const_mul (gamma * c)⁻¹
      refine this.ae_eq (Eventually.of_forall fun d => ?_)
      field_simp
    exact noise_infinite n h1 hn hL3.integrable_sq
  · rintro rfl
    simp [residual]

/-- C106: at two observations the formula gives that answer, 0; at one it leaves [0,1]: negative below `rho² = 1/2`, above 1
beyond. -/
theorem C106_formula_few (r : ℝ) (h0 : 0 < r) (h1 : r < 1) :
    gammaStar 2 r = 0 ∧ (r < 1 / 2 → gammaStar 1 r < 0) ∧ (1 / 2 < r → 1 < gammaStar 1 r) := by
  unfold gammaStar
  refine ⟨by simp, fun h => ?_, fun h => ?_⟩
  · exact div_neg_of_neg_of_pos (by linarith) (by linarith)
  · rw [lt_div_iff_of_neg (by linarith)]
    linarith

/-- C106: `_ab_s_from(rho2, s)` realizes the coupling it was asked for. -/
theorem C106_ab_s (rho2 s : ℝ) (h0 : 0 ≤ rho2) (h1 : rho2 < 1) (hs : 0 < s) :
    (abSFrom rho2 s).1 = 1 ∧ 0 ≤ (abSFrom rho2 s).2.1 ∧ (abSFrom rho2 s).2.2 = s ∧
    (abSFrom rho2 s).2.1 ^ 2 * (abSFrom rho2 s).1 / ((abSFrom rho2 s).2.1 ^ 2 * (abSFrom rho2 s).1 + (abSFrom rho2 s).2.2) = rho2 := by
  have h : 0 < 1 - rho2 := by linarith
  refine ⟨rfl, Real.sqrt_nonneg _, rfl, ?_⟩
  simp only [abSFrom]
  rw [Real.sq_sqrt (by positivity)]
  field_simp
  ring

theorem residualR_eq {n : ℕ} (gamma a b s : ℝ) (N : ℕ) (D : ℕ → Draw n) :
    residualR gamma a b s ((List.range N).map D) = (∑ k ∈ Finset.range N, residual gamma a b s (bHat a b s (D k))) / N := by
  simp only [residualR, List.map_map, List.length_map, List.length_range]
  rfl

theorem integrable_residual {n : ℕ} (hn : 3 ≤ n) (gamma a b s : ℝ) (ha : 0 < a) (hs : 0 ≤ s) :
    Integrable (fun d => residual gamma a b s (bHat (n := n) a b s d)) (drawLaw n) := by
  obtain ⟨h1, h2, _, _, _⟩ := C106_slope hn a b s ha hs
  have : (fun d : Draw n => residual gamma a b s (bHat a b s d)) = fun d => (b ^ 2 * a + s) + ((-(2 * b * gamma * a)) * bHat a b s d + (gamma ^ 2 * a) * bHat a b s d ^ 2) := by
    funext d; unfold residual; ring
  rw [this]
  exact (integrable_const _).add ((h1.const_mul _).add (h2.const_mul _))

/-- C106: the simulated residual is unbiased: over `n_draws ≥ 1` samples, each with the law above, its expectation is the expected
residual. -/
theorem C106_simulation_unbiased {n : ℕ} (hn : 3 ≤ n) (gamma a b s : ℝ) (ha : 0 < a) (hs : 0 ≤ s)
    {Ω : Type} [MeasurableSpace Ω] (P : Measure Ω) (N : ℕ) (hN : 1 ≤ N) (D : ℕ → Ω → Draw n) (hD : ∀ k, HasLaw (D k) (drawLaw n) P) :
    ∫ ω, residualR gamma a b s ((List.range N).map fun k => D k ω) ∂P = ∫ d, residual gamma a b s (bHat a b s d) ∂drawLaw n := by
  have hI := integrable_residual hn gamma a b s ha hs
  have e := fun ω => residualR_eq gamma a b s N fun k => D k ω
  simp_rw [e]
  rw [integral_div, integral_finsetSum]
  · have hk : ∀ k, ∫ ω, residual gamma a b s (bHat a b s (D k ω)) ∂P = ∫ d, residual gamma a b s (bHat a b s d) ∂drawLaw n := fun k =>
      (hD k).integral_comp hI.aestronglyMeasurable
    simp only [hk, Finset.sum_const, Finset.card_range, nsmul_eq_mul]
    have : (N : ℝ) ≠ 0 := by positivity
    field_simp
  · intro k _
    have := (hD k).map_eq ▸ hI
    exact this.comp_aemeasurable (hD k).aemeasurable

/-! ## The simulation finds `gamma_star` -/

theorem measurable_bHat {n : ℕ} (a b s : ℝ) : Measurable (bHat (n := n) a b s) := by
  unfold bHat; fun_prop

theorem measurable_residual {n : ℕ} (gamma a b s : ℝ) : Measurable fun d : Draw n => residual gamma a b s (bHat a b s d) := by
  have := measurable_bHat (n := n) a b s
  unfold residual; fun_prop

theorem exists_gap (s : Finset ℕ) (R : ℕ → ℝ) : ∃ δ > 0, ∀ k ∈ s, ∀ l ∈ s, R k < R l → R k + 2 * δ ≤ R l := by
  by_cases hT : ((s ×ˢ s).filter fun kl => R kl.1 < R kl.2).Nonempty
  · obtain ⟨kl, hkl, hmin⟩ := Finset.exists_min_image _ (fun kl => R kl.2 - R kl.1) hT
    have hlt := (Finset.mem_filter.1 hkl).2
    refine ⟨(R kl.2 - R kl.1) / 2, by linarith, fun k hk l hl h => ?_⟩
    have := hmin (k, l) (Finset.mem_filter.2 ⟨Finset.mem_product.2 ⟨hk, hl⟩, h⟩)
    simp only at this
    linarith
  · exact ⟨1, one_pos, fun k hk l hl h => absurd ⟨(k, l), Finset.mem_filter.2 ⟨Finset.mem_product.2 ⟨hk, hl⟩, h⟩⟩ hT⟩

/-- Averages over any block of `N` consecutive samples of one independent stream converge in probability, uniformly in where the
block starts. -/
theorem block_average {X Ω : Type} [MeasurableSpace X] [MeasurableSpace Ω] {ν : Measure X} [IsProbabilityMeasure ν] {P : Measure Ω}
    {D : ℕ → Ω → X} (hD : ∀ k, HasLaw (D k) ν P) (hind : iIndepFun D P) {f : X → ℝ} (hf : Measurable f) (hI : Integrable f ν)
    (c : ℕ → ℕ) {δ : ℝ} (hδ : 0 < δ) :
    Tendsto (fun N : ℕ => P {ω | δ ≤ |(∑ k ∈ Finset.range N, f (D (c N + k) ω)) / N - ∫ x, f x ∂ν|}) atTop (𝓝 0) := by
  have hP : IsProbabilityMeasure P := (hD 0).isProbabilityMeasure
  have hc : ∀ k, (∫ ω, f (D k ω) ∂P) = ∫ x, f x ∂ν := fun k => (hD k).integral_comp hI.aestronglyMeasurable
  have hIk : ∀ k, Integrable (fun ω => f (D k ω)) P := fun k =>
    ((hD k).map_eq ▸ hI : Integrable f (P.map (D k))).comp_aemeasurable (hD k).aemeasurable
  have hslln := strong_law_ae_real (fun k ω => f (D k ω)) (hIk 0)
    (fun i j hij => (hind.indepFun hij).comp hf hf)
    (fun i => ⟨hf.comp_aemeasurable (hD i).aemeasurable, hf.comp_aemeasurable (hD 0).aemeasurable, by
      rw [← Function.comp_def, ← AEMeasurable.map_map_of_aemeasurable hf.aemeasurable (hD i).aemeasurable, (hD i).map_eq,
        ← Function.comp_def, ← AEMeasurable.map_map_of_aemeasurable hf.aemeasurable (hD 0).aemeasurable, (hD 0).map_eq]⟩)
  have hmeas := tendstoInMeasure_of_tendsto_ae (μ := P) (f := fun N ω => (∑ k ∈ Finset.range N, f (D k ω)) / (N : ℝ))
    (g := fun _ => ∫ x, f x ∂ν)
    (fun N => by
      have : AEStronglyMeasurable (fun ω => ∑ k ∈ Finset.range N, f (D k ω)) P :=
        (integrable_finsetSum _ fun k _ => hIk k).aestronglyMeasurable
      simpa [div_eq_mul_inv] using this.mul_const ((N : ℝ)⁻¹))
    (by filter_upwards [hslln] with ω hω; rw [hc 0] at hω; exact hω)
  have h0 := (tendstoInMeasure_iff_dist.1 hmeas) δ hδ
  simp only [Real.dist_eq] at h0
  refine h0.congr fun N => ?_
  -- the block starting at `c N` has the law of the block starting at 0
  let S : Set (Fin N → X) := {x | δ ≤ |(∑ k, f (x k)) / N - ∫ x, f x ∂ν|}
  have hS : MeasurableSet S := measurableSet_le measurable_const (by fun_prop)
  have key : ∀ m : ℕ, P {ω | δ ≤ |(∑ k ∈ Finset.range N, f (D (m + k) ω)) / N - ∫ x, f x ∂ν|} = Measure.pi (fun _ : Fin N => ν) S := by
    intro m
    have hi : iIndepFun (fun (k : Fin N) => D (m + k)) P :=
      hind.precomp (g := fun k : Fin N => m + (k : ℕ)) fun x y hxy => Fin.ext (by simpa using hxy)
    have hmap := iIndepFun.map_fun_eq_pi_map (fun k : Fin N => (hD (m + k)).aemeasurable) hi
    simp only [(hD _).map_eq] at hmap
    rw [← hmap, Measure.map_apply_of_aemeasurable (aemeasurable_pi_lambda (fun ω (i : Fin N) => D (m + i) ω) fun k => (hD (m + k)).aemeasurable) hS]
    congr 1
    ext ω
    simp only [S, Set.mem_setOf_eq, Set.mem_preimage]
    rw [Finset.sum_range fun k => f (D (m + k) ω)]
  have h1 := key 0
  simp only [zero_add] at h1
  rw [h1, key (c N)]

theorem gammaGrid_getD (k : ℕ) (hk : k < 51) : gammaGrid.getD k 0 = (k : ℝ) / 50 := by
  simp [gammaGrid, List.getD, List.getElem?_map, List.getElem?_range hk]

/-- C106: the simulation is consistent. For `n ≥ 3`, a coupling `0 ≤ rho² < 1`, and one generator whose successive samples are
independent standard normal, the probability that `empirical_gamma_star` returns a grid point closest to `gamma_star(n, rho²)`, hence
one within 1/100 of it, tends to 1 as `n_draws` grows. -/
theorem C106_simulation_consistent {n : ℕ} (hn : 3 ≤ n) (rho2 : ℝ) (h0 : 0 ≤ rho2) (h1 : rho2 < 1)
    {Ω : Type} [MeasurableSpace Ω] (P : Measure Ω) (D : ℕ → Ω → Draw n) (hD : ∀ k, HasLaw (D k) (drawLaw n) P) (hind : iIndepFun D P) :
    Tendsto (fun N => P {ω | (∀ k : ℕ, k ≤ 50 → |empiricalGammaStar rho2 N (fun t => D t ω) - gammaStar n rho2| ≤ |(k : ℝ) / 50 - gammaStar n rho2|) ∧
      |empiricalGammaStar rho2 N (fun t => D t ω) - gammaStar n rho2| ≤ 1 / 100}) atTop (𝓝 1) := by
  have hP : IsProbabilityMeasure P := (hD 0).isProbabilityMeasure
  obtain ⟨ea, eb, es, er⟩ := C106_ab_s rho2 1 h0 h1 one_pos
  set a := (abSFrom rho2 1).1 with hadef
  set b := (abSFrom rho2 1).2.1 with hbdef
  set s := (abSFrom rho2 1).2.2 with hsdef
  have ha : 0 < a := by rw [ea]; exact one_pos
  have hs : 0 < s := by rw [es]; exact one_pos
  set g := gammaStar n rho2 with hg
  have hn' : (3 : ℝ) ≤ n := by exact_mod_cast hn
  let R : ℕ → ℝ := fun k => ∫ d, residual ((k : ℝ) / 50) a b s (bHat a b s d) ∂drawLaw n
  set A := b ^ 2 * a + s / ((n : ℝ) - 2) with hA
  have hApos : 0 < A := by
    have : 0 < s / ((n : ℝ) - 2) := div_pos hs (by linarith)
    positivity
  have hR : ∀ k, R k = b ^ 2 * a + s - g * b ^ 2 * a + A * ((k : ℝ) / 50 - g) ^ 2 := fun k => by
    have := C106_risk hn a b s ha hs ((k : ℝ) / 50)
    simp only [er] at this
    exact this
  -- a gap between distinct values on the grid
  obtain ⟨δ, hδ, hgap⟩ := exists_gap (Finset.range 51) R
  let bad : ℕ → ℕ → Set Ω := fun N k => {ω | δ ≤ |(∑ j ∈ Finset.range N, residual ((k : ℝ) / 50) a b s (bHat a b s (D (k * N + j) ω))) / N - R k|}
  have hbad : ∀ k, Tendsto (fun N => P (bad N k)) atTop (𝓝 0) := fun k =>
    block_average hD hind (f := fun d => residual ((k : ℝ) / 50) a b s (bHat a b s d))
      (measurable_residual ((k : ℝ) / 50) a b s) (integrable_residual hn _ a b s ha hs.le) (fun N => k * N) hδ
  have hsum : Tendsto (fun N => ∑ k ∈ Finset.range 51, P (bad N k)) atTop (𝓝 0) := by
    have := tendsto_finsetSum (Finset.range 51) fun k _ => hbad k
    rw [Finset.sum_const_zero] at this
    exact this
  have hgr : 0 ≤ g ∧ g ≤ 1 := C71_range n rho2 (by linarith) h0 h1.le
  -- outside the bad events the answer is a closest grid point
  have hgood : ∀ N ω, (∀ k ∈ Finset.range 51, ω ∉ bad N k) →
      (∀ k : ℕ, k ≤ 50 → |empiricalGammaStar rho2 N (fun t => D t ω) - g| ≤ |(k : ℝ) / 50 - g|) ∧
      |empiricalGammaStar rho2 N (fun t => D t ω) - g| ≤ 1 / 100 := by
    intro N ω hω
    set Rs : ℕ → ℝ := fun k => residualR (gammaGrid.getD k 0) a b s ((List.range N).map fun j => D (k * N + j) ω) with hRs
    have hRsk : ∀ k ∈ Finset.range 51, |Rs k - R k| < δ := by
      intro k hk
      have := hω k hk
      simp only [bad, Set.mem_setOf_eq, not_le] at this
      rw [hRs]
      simp only [gammaGrid_getD k (Finset.mem_range.1 hk), residualR_eq]
      exact this
    obtain ⟨m, hm⟩ : ∃ m, (List.range 51).argmin Rs = some m := by
      cases h : (List.range 51).argmin Rs with
      | none => rw [List.argmin_eq_none] at h; simp at h
      | some m => exact ⟨m, rfl⟩
    have hmem : m < 51 := by have := List.argmin_mem hm; simpa using this
    have hle : ∀ k < 51, Rs m ≤ Rs k := fun k hk => List.le_of_mem_argmin (List.mem_range.2 hk) hm
    have hval : empiricalGammaStar rho2 N (fun t => D t ω) = (m : ℝ) / 50 := by
      have : empiricalGammaStar rho2 N (fun t => D t ω) = gammaGrid.getD (((List.range 51).argmin Rs).getD 0) 0 := rfl
      rw [this, hm, Option.getD_some, gammaGrid_getD m hmem]
    have hnear : ∀ k : ℕ, k < 51 → |(m : ℝ) / 50 - g| ≤ |(k : ℝ) / 50 - g| := by
      intro k hk
      have hmk : R m ≤ R k := by
        by_contra hlt
        push Not at hlt
        have e1 := hgap k (Finset.mem_range.2 hk) m (Finset.mem_range.2 hmem) hlt
        have e2 := abs_lt.1 (hRsk k (Finset.mem_range.2 hk))
        have e3 := abs_lt.1 (hRsk m (Finset.mem_range.2 hmem))
        have e4 := hle k hk
        linarith [e2.1, e2.2, e3.1, e3.2]
      rw [hR, hR] at hmk
      have : ((m : ℝ) / 50 - g) ^ 2 ≤ ((k : ℝ) / 50 - g) ^ 2 := by
        by_contra hc
        push Not at hc
        have := mul_lt_mul_of_pos_left hc hApos
        linarith
      exact sq_le_sq.1 this
    rw [hval]
    refine ⟨fun k hk => hnear k (by omega), ?_⟩
    -- some grid point is within 1/100
    have hr := abs_sub_round (50 * g)
    have hz0 : 0 ≤ round (50 * g) := by rw [round_eq]; exact Int.floor_nonneg.2 (by linarith [hgr.1])
    have hz1 : round (50 * g) ≤ 50 := by
      rw [round_eq]
      have : ⌊50 * g + 1 / 2⌋ < 51 := Int.floor_lt.2 (by push_cast; linarith [hgr.2])
      omega
    obtain ⟨k, hk⟩ := Int.eq_ofNat_of_zero_le hz0
    have hk51 : k < 51 := by omega
    refine (hnear k hk51).trans ?_
    rw [hk] at hr
    push_cast at hr
    rw [abs_le] at hr ⊢
    constructor <;> linarith [hr.1, hr.2]
  -- probability
  have hlow : ∀ N, 1 - ∑ k ∈ Finset.range 51, P (bad N k) ≤ P {ω | (∀ k : ℕ, k ≤ 50 → |empiricalGammaStar rho2 N (fun t => D t ω) - g| ≤ |(k : ℝ) / 50 - g|) ∧
      |empiricalGammaStar rho2 N (fun t => D t ω) - g| ≤ 1 / 100} := by
    intro N
    have hu : P (⋃ k ∈ Finset.range 51, bad N k) ≤ ∑ k ∈ Finset.range 51, P (bad N k) := measure_biUnion_finset_le _ _
    refine (tsub_le_tsub_left hu 1).trans ?_
    have hc : (⋃ k ∈ Finset.range 51, bad N k)ᶜ ⊆ {ω | (∀ k : ℕ, k ≤ 50 → |empiricalGammaStar rho2 N (fun t => D t ω) - g| ≤ |(k : ℝ) / 50 - g|) ∧
      |empiricalGammaStar rho2 N (fun t => D t ω) - g| ≤ 1 / 100} := by
      intro ω hω
      simp only [Set.mem_compl_iff, Set.mem_iUnion, not_exists] at hω
      exact hgood N ω fun k hk => hω k hk
    refine le_trans ?_ (measure_mono hc)
    rw [tsub_le_iff_right]
    calc (1 : ℝ≥0∞) = P Set.univ := measure_univ.symm
      _ ≤ P ((⋃ k ∈ Finset.range 51, bad N k)ᶜ) + P (⋃ k ∈ Finset.range 51, bad N k) := by
          rw [← Set.compl_union_self (⋃ k ∈ Finset.range 51, bad N k)]; exact measure_union_le _ _
  refine tendsto_of_tendsto_of_tendsto_of_le_of_le ?_ tendsto_const_nhds hlow fun N => prob_le_one
  have := ENNReal.Tendsto.sub (tendsto_const_nhds (x := (1 : ℝ≥0∞)) (f := atTop)) hsum (Or.inl ENNReal.one_ne_top)
  simpa using this

/-- Such a generator exists: the independent product of the samples' laws. -/
example : ∃ (Ω : Type) (_ : MeasurableSpace Ω) (P : Measure Ω) (D : ℕ → Ω → Draw 3),
    (∀ k, HasLaw (D k) (drawLaw 3) P) ∧ iIndepFun D P := by
  refine ⟨ℕ → Draw 3, inferInstance, Measure.infinitePi fun _ => drawLaw 3, fun k ω => ω k, fun k => ?_, ?_⟩
  · exact ⟨(measurable_pi_apply k).aemeasurable, Measure.infinitePi_map_eval _ k⟩
  · exact iIndepFun_infinitePi (X := fun _ x => x) (by fun_prop)

/-- Four observations, `a = 1`, `b = 1`, `s = 2`: `rho² = 1/3`, `gamma_star = 1/2`, and damping fully or not at all is worse. -/
example : ∫ d, residual (1 / 2) 1 1 2 (bHat (n := 4) 1 1 2 d) ∂drawLaw 4 = 5 / 2 ∧
    ∫ d, residual 1 1 1 2 (bHat (n := 4) 1 1 2 d) ∂drawLaw 4 = 3 ∧ ∫ d, residual 0 1 1 2 (bHat (n := 4) 1 1 2 d) ∂drawLaw 4 = 3 := by
  have h := fun g => C106_risk (n := 4) (by norm_num) 1 1 2 one_pos two_pos g
  have e : gammaStar (4 : ℕ) (1 ^ 2 * 1 / (1 ^ 2 * 1 + 2)) = 1 / 2 := by norm_num [gammaStar]
  simp only [e] at h
  rw [h, h, h]
  norm_num

end Precise.Theory
