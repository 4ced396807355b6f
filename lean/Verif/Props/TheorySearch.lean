import Verif.Model.TheorySearch
import Verif.Lemmas.Isserlis
import Verif.Props.TheoryScalar
import Verif.Props.TheoryBlocks
import Verif.Props.TheoryOperator
import Verif.Props.Spiked
import Mathlib.Probability.StrongLaw
import Mathlib.Probability.Independence.InfinitePi

/-!
# C107: the numerical checks of the theory scripts

The scripts confirm their closed forms by random search and by simulation. Here the checks themselves are analysed: what they return
for every sequence of random numbers, or in the limit of many of them.
-/

set_option linter.all false

open MeasureTheory ProbabilityTheory Filter Matrix
open scoped ENNReal Topology

namespace Precise.Theory

open Precise.Spec

variable {p : ℕ}

/-! ### Random search, two scalar blocks -/

/-- C107: for every sequence of random numbers the search of `_numerical_argmax` returns exactly the closed form and its value: no
candidate ever replaces it. -/
theorem C107_argmax (a b s gamma : ℝ) (ha : 0 < a) (hs : 0 < s) (hg : gamma ≠ 0) (draws : List (ℝ × ℝ × ℝ)) :
    numericalArgmax a b s gamma draws =
      (closedFormMaximizer a b s gamma, ((-(1 / 2) * (Real.log a + Real.log s + 2) : ℝ) : WithBot ℝ)) := by
  have hv := C68_value a b s gamma ha hs hg
  unfold numericalArgmax
  simp only []
  rw [hv]
  induction draws with
  | nil => rfl
  | cons z zs ih =>
    rw [List.foldl_cons]
    have : argmaxStep a b s gamma (closedFormMaximizer a b s gamma, ((-(1 / 2) * (Real.log a + Real.log s + 2) : ℝ) : WithBot ℝ)) z =
        (closedFormMaximizer a b s gamma, ((-(1 / 2) * (Real.log a + Real.log s + 2) : ℝ) : WithBot ℝ)) := by
      unfold argmaxStep
      simp only []
      split
      · rfl
      · rw [if_neg]
        rw [not_lt, ← hv]
        by_cases h : ((closedFormMaximizer a b s gamma).1 * Real.exp (1 / 2 * z.1),
            (closedFormMaximizer a b s gamma).2.1 + 1 / 2 * |(closedFormMaximizer a b s gamma).2.1 + 1 / 10 ^ 6| * z.2.1,
            (closedFormMaximizer a b s gamma).2.2 * Real.exp (1 / 2 * z.2.2)) = closedFormMaximizer a b s gamma
        · have h1 := congrArg Prod.fst h
          have h2 := congrArg (fun t => t.2.1) h
          have h3 := congrArg (fun t => t.2.2) h
          simp only at h1 h2 h3
          rw [h1, h2, h3]
        · exact (C68_unique_maximizer a b s gamma _ _ _ ha hs hg h).le
    rw [this]; exact ih

/-- C107: so the column `argmax ok` of the printed table is `yes` in every row whose closed form is positive definite, and `-` in the
others. -/
theorem C107_report_column (a b s gamma : ℝ) (ha : 0 < a) (hs : 0 < s) (hg : gamma ≠ 0) (draws : List (ℝ × ℝ × ℝ)) :
    let m := closedFormMaximizer a b s gamma
    (0 < m.1 * m.2.2 - m.2.1 * m.2.1 → argmaxOk a b s gamma draws = some true) ∧
    (m.1 * m.2.2 - m.2.1 * m.2.1 ≤ 0 → argmaxOk a b s gamma draws = none) := by
  intro m
  have h := C68_spd_iff a b s gamma ha hg
  change spdThresholdHolds a b s gamma ↔ 0 < m.1 ∧ 0 < m.1 * m.2.2 - m.2.1 * m.2.1 at h
  constructor
  · intro h0
    unfold argmaxOk
    simp only []
    rw [if_pos (h.2 ⟨ha, h0⟩), C107_argmax a b s gamma ha hs hg]
    simp
  · intro h0
    unfold argmaxOk
    simp only []
    rw [if_neg fun h' => not_lt.2 h0 (h.1 h').2]

/-! ### Random search, blocks -/

/-- C107: the random true covariances of the reports are symmetric with every eigenvalue at least the dimension, whatever is drawn. -/
theorem C107_random_spd (A : Matrix (Fin p) (Fin p) ℝ) :
    Symm (randomSpd A) ∧ MinEigGE (randomSpd A) p ∧ (1 ≤ p → PD (randomSpd A)) := by
  have hs : Symm (randomSpd A) := by
    intro i j
    simp only [randomSpd, Matrix.add_apply, Matrix.mul_apply, Matrix.smul_apply, transpose_apply, Matrix.one_apply]
    congr 1
    · exact Finset.sum_congr rfl fun k _ => mul_comm _ _
    · simp only [eq_comm]
  have hm : MinEigGE (randomSpd A) p := by
    intro x
    have h1 : quad (A * Aᵀ) x = normSq (Aᵀ *ᵥ x) := by
      simp only [quad, normSq]
      rw [← mulVec_mulVec, dotProduct_mulVec, ← mulVec_transpose]
      rfl
    rw [randomSpd, quad_add, quad_smul, quad_one, h1]
    have : 0 ≤ normSq (Aᵀ *ᵥ x) := Finset.sum_nonneg fun i _ => mul_self_nonneg _
    linarith
  refine ⟨hs, hm, fun hp => ⟨hs, fun x hx => lt_of_lt_of_le ?_ (hm x)⟩⟩
  have hn : 0 < normSq x := by
    obtain ⟨i, hi⟩ := Function.ne_iff.1 hx
    exact Finset.sum_pos' (fun i _ => mul_self_nonneg _) ⟨i, Finset.mem_univ i, mul_self_pos.2 hi⟩
  have : (0:ℝ) < p := by exact_mod_cast hp
  positivity

theorem isSpd_iff (L : Lapack) {M : Matrix (Fin p) (Fin p) ℝ} (hM : Symm M) :
    isSpd L M = true ↔ ∀ x, x ≠ 0 → 1 / 10 ^ 9 * normSq x < quad M x := by
  have ho := L.eigh_orth _ hM
  have hs := L.eigh_spec hM
  unfold isSpd
  rw [decide_eq_true_iff, toSymmetric_of_symm hM]
  constructor
  · intro h x hx
    have e : M = spec (L.eigh M).2 (fun i => (L.eigh M).1 i - 1 / 10 ^ 9) + (1 / 10 ^ 9 : ℝ) • 1 := by
      rw [← spec_one ho, ← spec_smul, ← spec_add]
      refine hs.trans ?_
      congr 1
      funext i; ring
    have h2 := (pd_spec ho (w := fun i => (L.eigh M).1 i - 1 / 10 ^ 9) fun i => sub_pos.2 (h i)).2 x hx
    have e2 : quad M x = quad (spec (L.eigh M).2 (fun i => (L.eigh M).1 i - 1 / 10 ^ 9)) x + 1 / 10 ^ 9 * normSq x := by
      conv_lhs => rw [e]
      rw [quad_add, quad_smul, quad_one]
    linarith
  · intro h i
    have := h _ (col_ne_zero ho i)
    rw [normSq_col ho, mul_one] at this
    have e2 : quad M (fun k => (L.eigh M).2 k i) = (L.eigh M).1 i := by
      have := quad_spec_col ho (L.eigh M).1 i
      rwa [← hs] at this
    rwa [e2] at this

theorem normSq_nonneg' (x : Fin p → ℝ) : 0 ≤ normSq x := Finset.sum_nonneg fun i _ => mul_self_nonneg _

/-- C107: what `_local_search_confirms` returns, for every positive-definite truth, every partition, every `gamma ≠ 0` and every
sequence of perturbations: exactly `0` when every eigenvalue of the closed form exceeds the tolerance `1e-9`, and `None` otherwise. It
never returns a positive number, so it never refutes the closed form. -/
theorem C107_local_search (L : Lapack) (T : Matrix (Fin p) (Fin p) ℝ) (sizes : List ℕ) (gamma : ℝ) (hT : PD T) (hp : sizes.sum = p)
    (hg : gamma ≠ 0) (draws : List (Matrix (Fin p) (Fin p) ℝ)) :
    let M := closedFormGeneral T sizes gamma
    ((∀ x, x ≠ 0 → 1 / 10 ^ 9 * normSq x < quad M x) → localSearchConfirms L T sizes gamma draws = .gain 0) ∧
    ((∃ x, x ≠ 0 ∧ quad M x ≤ 1 / 10 ^ 9 * normSq x) → localSearchConfirms L T sizes gamma draws = .none) := by
  intro M
  have hM : Symm M := (closedFormGeneral_eq T gamma hT sizes hp).2
  constructor
  · intro h
    have hspd := (isSpd_iff L hM).2 h
    have hpd : PD M := ⟨hM, fun x hx => lt_of_le_of_lt (mul_nonneg (by norm_num) (normSq_nonneg' x)) (h x hx)⟩
    have hv := C69_value L T sizes gamma hT hp hg fun b _ => (pd_WW hpd b.1).det_pos.ne'
    have key : draws.foldl (confirmStep L T sizes gamma M) ((-(1 / 2) * (Real.log T.det + p) : ℝ) : WithBot ℝ) =
        ((-(1 / 2) * (Real.log T.det + p) : ℝ) : WithBot ℝ) := by
      induction draws with
      | nil => rfl
      | cons Z Zs ih =>
        rw [List.foldl_cons]
        have : confirmStep L T sizes gamma M ((-(1 / 2) * (Real.log T.det + p) : ℝ) : WithBot ℝ) Z =
            ((-(1 / 2) * (Real.log T.det + p) : ℝ) : WithBot ℝ) := by
          unfold confirmStep
          simp only []
          split
          · rw [if_neg]
            rw [not_lt]
            refine C69_bound L T _ sizes gamma hT ?_ hp
            intro i j
            simp only [Matrix.add_apply, transpose_apply, Matrix.smul_apply]
            rw [hM i j, add_comm ((1 / 50 : ℝ) • Z i j)]
          · rfl
        rw [this]; exact ih
    unfold localSearchConfirms
    simp only []
    rw [if_pos hspd, hv, key]
    simp only []
    rw [sub_self]
  · rintro ⟨x, hx, hle⟩
    unfold localSearchConfirms
    simp only []
    rw [if_neg]
    intro h
    exact not_lt.2 hle ((isSpd_iff L hM).1 h x hx)

/-- C107 (finding): the tolerance is absolute. In small enough units every check answers `None`, for every `gamma ≠ 0`, although for
`gamma ≥ 1` the closed form is positive definite. -/
theorem C107_units (L : Lapack) (T : Matrix (Fin p) (Fin p) ℝ) (sizes : List ℕ) (hT : PD T) (hp : sizes.sum = p) (h1 : 1 ≤ sizes.headD 0) :
    ∃ c : ℝ, 0 < c ∧ PD (c • T) ∧ (∀ gamma : ℝ, gamma ≠ 0 → ∀ draws, localSearchConfirms L (c • T) sizes gamma draws = .none) ∧
      ∀ gamma : ℝ, 1 ≤ gamma → PD (closedFormGeneral (c • T) sizes gamma) := by
  have hp1 : 0 < p := by
    cases sizes with
    | nil => simp at h1
    | cons s rest => simp at h1 hp; omega
  let i : Fin p := ⟨0, hp1⟩
  have hii : ∀ M : Matrix (Fin p) (Fin p) ℝ, quad M (Pi.single i 1) = M i i := fun M => by
    simp [quad, Matrix.mulVec_single_one, single_one_dotProduct]
  have hne : (Pi.single i 1 : Fin p → ℝ) ≠ 0 := fun h => by simpa using congrFun h i
  have hpos : 0 < T i i := by rw [← hii T]; exact hT.2 _ hne
  have hc : 0 < 1 / 10 ^ 9 / T i i := by positivity
  have hcT : PD ((1 / 10 ^ 9 / T i i) • T) := ⟨fun a b => by simp [hT.1 a b], fun x hx => by rw [quad_smul]; exact mul_pos hc (hT.2 x hx)⟩
  refine ⟨1 / 10 ^ 9 / T i i, hc, hcT, fun gamma hg draws => ?_, fun gamma hg => C69_pd_above_one _ sizes gamma hcT hp hg⟩
  refine (C107_local_search L _ sizes gamma hcT hp hg draws).2 ⟨Pi.single i 1, hne, ?_⟩
  rw [hii, (C69_shape _ sizes gamma hcT hp).2 i i h1 h1]
  have e : normSq (Pi.single i 1 : Fin p → ℝ) = 1 := by rw [← quad_one, hii]; simp
  rw [e, Matrix.smul_apply, smul_eq_mul, div_mul_cancel₀ _ hpos.ne', mul_one]

/-! ### Monte-Carlo -/

theorem posSemidef_of_pd {T : Matrix (Fin p) (Fin p) ℝ} (hT : PD T) : T.PosSemidef := by
  refine Matrix.PosSemidef.of_dotProduct_mulVec_nonneg ?_ fun x => ?_
  · ext i j; simpa using hT.1 j i
  · by_cases hx : x = 0
    · simp [hx]
    · simpa [quad] using (hT.2 x hx).le

theorem integrable_quad {T : Matrix (Fin p) (Fin p) ℝ} (hT : T.PosSemidef) (D : Matrix (Fin p) (Fin p) ℝ) :
    Integrable (fun x : EuclideanSpace ℝ (Fin p) => quad D x.ofLp) (multivariateGaussian 0 T) ∧
    Integrable (fun x : EuclideanSpace ℝ (Fin p) => quad D x.ofLp * quad D x.ofLp) (multivariateGaussian 0 T) := by
  constructor
  · have : (fun x : EuclideanSpace ℝ (Fin p) => quad D x.ofLp) = fun x => ∑ i, ∑ j, D i j * (x i * x j) := by
      funext x; rw [quad_expand]
      exact Finset.sum_congr rfl fun i _ => Finset.sum_congr rfl fun j _ => by ring
    rw [this]
    exact integrable_finsetSum _ fun i _ => integrable_finsetSum _ fun j _ => (Isserlis.second hT i j).1.const_mul _
  · have : (fun x : EuclideanSpace ℝ (Fin p) => quad D x.ofLp * quad D x.ofLp) =
        fun x => ∑ i, ∑ j, ∑ k, ∑ l, D i j * D k l * (x i * x j * (x k * x l)) := by
      funext x; simp only [quad_expand, Finset.sum_mul, Finset.mul_sum]
      refine Finset.sum_congr rfl fun i _ => Finset.sum_congr rfl fun j _ => Finset.sum_congr rfl fun k _ => Finset.sum_congr rfl fun l _ => by ring
    rw [this]
    exact integrable_finsetSum _ fun i _ => integrable_finsetSum _ fun j _ => integrable_finsetSum _ fun k _ => integrable_finsetSum _ fun l _ =>
      (Isserlis.fourth hT i j k l).1.const_mul _

theorem integrable_gap {T : Matrix (Fin p) (Fin p) ℝ} (hT : T.PosSemidef) (A B : Matrix (Fin p) (Fin p) ℝ) (sizes : List ℕ) (gamma : ℝ) :
    Integrable (fun x : EuclideanSpace ℝ (Fin p) => gap A B sizes gamma x.ofLp) (multivariateGaussian 0 T) ∧
    Integrable (fun x : EuclideanSpace ℝ (Fin p) => gap A B sizes gamma x.ofLp ^ 2) (multivariateGaussian 0 T) := by
  set c := (schurOperator A sizes gamma).2 - (schurOperator B sizes gamma).2 with hc
  set D := (schurOperator A sizes gamma).1 - (schurOperator B sizes gamma).1 with hD
  have hg : ∀ x, gap A B sizes gamma x = -(1 / 2) * (c + quad D x) := fun x => by
    simp only [gap, hc, hD, quad_sub]
  obtain ⟨i1, i2⟩ := integrable_quad hT D
  constructor
  · simp only [hg]
    exact ((integrable_const c).add i1).const_mul _
  · have : (fun x : EuclideanSpace ℝ (Fin p) => gap A B sizes gamma x.ofLp ^ 2) =
        fun x => 1 / 4 * c ^ 2 + 1 / 2 * c * quad D x.ofLp + 1 / 4 * (quad D x.ofLp * quad D x.ofLp) := by
      funext x; rw [hg]; ring
    rw [this]
    exact ((integrable_const _).add (i1.const_mul _)).add (i2.const_mul _)

/-- C107: under the centred Gaussian law with covariance `T`, `mu` and `var` of `snr` are the mean and the variance of the score gap of
one observation. -/
theorem C107_gaussian_gap (A B T : Matrix (Fin p) (Fin p) ℝ) (hT : PD T) (sizes : List ℕ) (gamma : ℝ) (hA : Proper A gamma sizes)
    (hB : Proper B gamma sizes) :
    ∫ x, gap A B sizes gamma x.ofLp ∂multivariateGaussian 0 T = snrMu A B T sizes gamma ∧
    Var[fun x => gap A B sizes gamma x.ofLp; multivariateGaussian 0 T] = snrVar A B T sizes gamma := by
  have hT' := posSemidef_of_pd hT
  obtain ⟨E, hE, hG⟩ := Isserlis.exists_expectation hT'
  obtain ⟨h1, h2⟩ := C72_gap_moments A B T hT.1 sizes hA hB E hG
  obtain ⟨i1, i2⟩ := integrable_gap hT' A B sizes gamma
  have e1 : ∫ x, gap A B sizes gamma x.ofLp ∂multivariateGaussian 0 T = snrMu A B T sizes gamma := by rw [← h1, hE _ i1]
  refine ⟨e1, ?_⟩
  rw [variance_eq_integral i1.aemeasurable, e1, ← h2, hE]
  have : (fun x : EuclideanSpace ℝ (Fin p) => (gap A B sizes gamma x.ofLp - snrMu A B T sizes gamma) ^ 2) =
      fun x => gap A B sizes gamma x.ofLp ^ 2 - 2 * snrMu A B T sizes gamma * gap A B sizes gamma x.ofLp + snrMu A B T sizes gamma ^ 2 := by
    funext x; ring
  rw [this]
  exact (i2.sub (i1.const_mul _)).add (integrable_const _)

/-- the mean and standard deviation of a list in terms of its sums -/
theorem mean_std_range (n : ℕ) (hn : 0 < n) (f : ℕ → ℝ) :
    mean? ((List.range n).map f) = some ((∑ k ∈ Finset.range n, f k) / n) ∧
    std? ((List.range n).map f) = some (Real.sqrt ((∑ k ∈ Finset.range n, f k ^ 2) / n - ((∑ k ∈ Finset.range n, f k) / n) ^ 2)) := by
  have hsum : ∀ g : ℕ → ℝ, ((List.range n).map g).sum = ∑ k ∈ Finset.range n, g k := fun g => rfl
  have hne : ∀ g : ℕ → ℝ, (List.range n).map g ≠ [] := fun g h => by simp at h; omega
  have hm : ∀ g : ℕ → ℝ, mean? ((List.range n).map g) = some ((∑ k ∈ Finset.range n, g k) / n) := fun g => by
    unfold mean?; rw [if_neg (hne g), hsum]; simp
  refine ⟨hm f, ?_⟩
  unfold std?
  rw [hm f]
  simp only [Option.bind_some, List.map_map]
  rw [show ((fun x => (x - (∑ k ∈ Finset.range n, f k) / n) ^ 2) ∘ f) = fun k => (f k - (∑ k ∈ Finset.range n, f k) / n) ^ 2 from rfl, hm]
  simp only [Option.map_some]
  congr 2
  set m := (∑ k ∈ Finset.range n, f k) / n with hmdef
  have hn' : (n : ℝ) ≠ 0 := by exact_mod_cast hn.ne'
  have hs : ∑ k ∈ Finset.range n, f k = n * m := by rw [hmdef]; field_simp
  have : ∑ k ∈ Finset.range n, (f k - m) ^ 2 = ∑ k ∈ Finset.range n, f k ^ 2 - n * m ^ 2 := by
    have e : ∀ k, (f k - m) ^ 2 = f k ^ 2 - 2 * m * f k + m ^ 2 := fun k => by ring
    simp only [e, Finset.sum_add_distrib, Finset.sum_sub_distrib, ← Finset.mul_sum, hs, Finset.sum_const, Finset.card_range, nsmul_eq_mul]
    ring
  rw [this]; field_simp

/-- C107: `snr_montecarlo` is consistent. For independent Gaussian rows with covariance the truth, almost surely its value becomes a
number and tends to `mu/sigma`, the number `snr` returns, as the number of rows grows: whenever the judge can tell the candidates apart. -/
theorem C107_montecarlo (A B T : Matrix (Fin p) (Fin p) ℝ) (hT : PD T) (sizes : List ℕ) (hp : sizes.sum = p) (gamma : ℝ)
    (hA : Proper A gamma sizes) (hB : Proper B gamma sizes) (hne : schurOperator A sizes gamma ≠ schurOperator B sizes gamma)
    {Ω : Type} [MeasurableSpace Ω] (P : Measure Ω) (X : ℕ → Ω → EuclideanSpace ℝ (Fin p))
    (hX : ∀ k, HasLaw (X k) (multivariateGaussian 0 T) P) (hind : iIndepFun X P) :
    ∃ r : ℝ, snr A B T sizes gamma = (r : WithTop ℝ) ∧ ∀ᵐ ω ∂P, ∃ v : ℕ → ℝ, Tendsto v atTop (𝓝 r) ∧
      ∀ᶠ n in atTop, snrMonteCarlo A B sizes gamma ((List.range n).map fun k => (X k ω).ofLp) = some ((v n : ℝ) : EReal) := by
  have hT' := posSemidef_of_pd hT
  obtain ⟨i1, i2⟩ := integrable_gap hT' A B sizes gamma
  obtain ⟨g1, g2⟩ := C107_gaussian_gap A B T hT sizes gamma hA hB
  obtain ⟨w1, w2⟩ := C72_var A B T hT sizes hp hA hB
  have hpos : 0 < snrVar A B T sizes gamma := lt_of_le_of_ne w1 fun h => hne (w2.1 h.symm)
  have hmeas : Measurable fun x : EuclideanSpace ℝ (Fin p) => gap A B sizes gamma x.ofLp := by
    have : (fun x : EuclideanSpace ℝ (Fin p) => gap A B sizes gamma x.ofLp) = fun x =>
        -(1 / 2) * (((schurOperator A sizes gamma).2 - (schurOperator B sizes gamma).2) +
          ∑ i, ∑ j, ((schurOperator A sizes gamma).1 - (schurOperator B sizes gamma).1) i j * (x i * x j)) := by
      funext x
      simp only [gap]
      rw [← quad_sub, quad_expand]
      congr 2
      exact Finset.sum_congr rfl fun i _ => Finset.sum_congr rfl fun j _ => by ring
    rw [this]; fun_prop
  have hsecond : ∫ x, gap A B sizes gamma x.ofLp ^ 2 ∂multivariateGaussian 0 T = snrVar A B T sizes gamma + snrMu A B T sizes gamma ^ 2 := by
    have hmem : MemLp (fun x : EuclideanSpace ℝ (Fin p) => gap A B sizes gamma x.ofLp) 2 (multivariateGaussian 0 T) :=
      (memLp_two_iff_integrable_sq hmeas.aestronglyMeasurable).2 i2
    have := variance_eq_sub hmem
    rw [g2, g1] at this
    rw [this]; simp
  have slln : ∀ f : EuclideanSpace ℝ (Fin p) → ℝ, Measurable f → Integrable f (multivariateGaussian 0 T) →
      ∀ᵐ ω ∂P, Tendsto (fun n : ℕ => (∑ k ∈ Finset.range n, f (X k ω)) / n) atTop (𝓝 (∫ x, f x ∂multivariateGaussian 0 T)) := by
    intro f hf hI
    have hIk : ∀ k, Integrable (fun ω => f (X k ω)) P := fun k =>
      ((hX k).map_eq ▸ hI : Integrable f (P.map (X k))).comp_aemeasurable (hX k).aemeasurable
    have h := strong_law_ae_real (fun k ω => f (X k ω)) (hIk 0) (fun i j hij => (hind.indepFun hij).comp hf hf)
      (fun i => ⟨hf.comp_aemeasurable (hX i).aemeasurable, hf.comp_aemeasurable (hX 0).aemeasurable, by
        rw [← Function.comp_def, ← AEMeasurable.map_map_of_aemeasurable hf.aemeasurable (hX i).aemeasurable, (hX i).map_eq,
          ← Function.comp_def, ← AEMeasurable.map_map_of_aemeasurable hf.aemeasurable (hX 0).aemeasurable, (hX 0).map_eq]⟩)
    have hc : (∫ ω, f (X 0 ω) ∂P) = ∫ x, f x ∂multivariateGaussian 0 T := (hX 0).integral_comp hI.aestronglyMeasurable
    rw [hc] at h
    exact h
  have s1 := slln _ hmeas i1
  have s2 := slln _ (hmeas.pow_const 2) i2
  rw [g1] at s1
  rw [hsecond] at s2
  refine ⟨snrMu A B T sizes gamma / Real.sqrt (snrVar A B T sizes gamma), by unfold snr; simp only []; rw [if_pos hpos], ?_⟩
  filter_upwards [s1, s2] with ω h1 h2
  set f : ℕ → ℝ := fun k => gap A B sizes gamma (X k ω).ofLp with hf
  have hstd : Tendsto (fun n : ℕ => Real.sqrt ((∑ k ∈ Finset.range n, f k ^ 2) / n - ((∑ k ∈ Finset.range n, f k) / n) ^ 2)) atTop
      (𝓝 (Real.sqrt (snrVar A B T sizes gamma))) := by
    have := (h2.sub (h1.pow 2)).sqrt
    simpa using this
  have hs := Real.sqrt_pos.2 hpos
  refine ⟨fun n => (∑ k ∈ Finset.range n, f k) / n / Real.sqrt ((∑ k ∈ Finset.range n, f k ^ 2) / n - ((∑ k ∈ Finset.range n, f k) / n) ^ 2),
    h1.div hstd hs.ne', ?_⟩
  filter_upwards [hstd.eventually (lt_mem_nhds hs), eventually_gt_atTop 0] with n hn h0
  obtain ⟨e1, e2⟩ := mean_std_range n h0 f
  unfold snrMonteCarlo
  simp only [List.map_map]
  rw [show (gap A B sizes gamma ∘ fun k => (X k ω).ofLp) = f from rfl, e1, e2]
  simp only []
  rw [if_pos hn.ne']

/-- C107 (finding): when the judge cannot tell the candidates apart (in particular for equal candidates) the two disagree: `snr` is
`inf`, and the Monte-Carlo check divides zero by zero: NaN for every set of rows. -/
theorem C107_montecarlo_nan (A B T : Matrix (Fin p) (Fin p) ℝ) (hT : PD T) (sizes : List ℕ) (hp : sizes.sum = p) (gamma : ℝ)
    (hA : Proper A gamma sizes) (hB : Proper B gamma sizes) (he : schurOperator A sizes gamma = schurOperator B sizes gamma) :
    snr A B T sizes gamma = ⊤ ∧ ∀ rows, snrMonteCarlo A B sizes gamma rows = none := by
  constructor
  · exact (C72_snr_inf A B T hT sizes hp hA hB).2 ⟨he, by rw [snrMu, he]; simp⟩
  · intro rows
    have hz : rows.map (gap A B sizes gamma) = List.replicate rows.length 0 := by
      have hg : gap A B sizes gamma = fun _ => 0 := by funext x; simp [gap, he]
      rw [hg, List.map_const']
    unfold snrMonteCarlo
    simp only []
    rw [hz]
    cases rows with
    | nil => simp [mean?, std?]
    | cons r rs => simp [mean?, std?, List.map_replicate]

/-! ### Non-vacuity -/

-- the parameters of the first table of the report, above and below the threshold
example (draws : List (ℝ × ℝ × ℝ)) : argmaxOk 1 (4 / 5) (1 / 2) (9 / 10) draws = some true :=
  (C107_report_column 1 (4 / 5) (1 / 2) (9 / 10) (by norm_num) (by norm_num) (by norm_num) draws).1 (by simp [closedFormMaximizer]; norm_num)

example (draws : List (ℝ × ℝ × ℝ)) : argmaxOk 1 (4 / 5) (1 / 2) (1 / 10) draws = none :=
  (C107_report_column 1 (4 / 5) (1 / 2) (1 / 10) (by norm_num) (by norm_num) (by norm_num) draws).2 (by simp [closedFormMaximizer]; norm_num)

-- a random truth, at `gamma = 1`: the search confirms it
example (L : Lapack) (A : Matrix (Fin 3) (Fin 3) ℝ) (draws : List (Matrix (Fin 3) (Fin 3) ℝ)) :
    localSearchConfirms L (randomSpd A) [2, 1] 1 draws = .gain 0 := by
  obtain ⟨h1, h2, h3⟩ := C107_random_spd A
  refine (C107_local_search L _ [2, 1] 1 (h3 (by norm_num)) rfl one_ne_zero draws).1 fun x hx => ?_
  rw [C69_gamma_one _ [2, 1] (h3 (by norm_num)) rfl]
  refine lt_of_lt_of_le ?_ (h2 x)
  have hn : 0 < normSq x := by
    obtain ⟨i, hi⟩ := Function.ne_iff.1 hx
    exact Finset.sum_pos' (fun i _ => mul_self_nonneg _) ⟨i, Finset.mem_univ i, mul_self_pos.2 hi⟩
  refine mul_lt_mul_of_pos_right ?_ hn
  norm_num

-- equal candidates
example (rows : List (Fin 2 → ℝ)) : snrMonteCarlo (!![2, 1; 1, 2] : Matrix (Fin 2) (Fin 2) ℝ) !![2, 1; 1, 2] [1, 1] 1 rows = none :=
  (C107_montecarlo_nan _ _ _ pd_demo2 [1, 1] rfl 1 (C72_proper _ pd_demo2 le_rfl) (C72_proper _ pd_demo2 le_rfl) rfl).2 rows

-- independent Gaussian rows exist, and `gamma = 1` tells different candidates apart
example : ∃ (Ω : Type) (_ : MeasurableSpace Ω) (P : Measure Ω) (X : ℕ → Ω → EuclideanSpace ℝ (Fin 2)),
    (∀ k, HasLaw (X k) (multivariateGaussian 0 (!![2, 1; 1, 2] : Matrix (Fin 2) (Fin 2) ℝ)) P) ∧ iIndepFun X P := by
  refine ⟨ℕ → EuclideanSpace ℝ (Fin 2), inferInstance, Measure.infinitePi fun _ => multivariateGaussian 0 !![2, 1; 1, 2], fun k ω => ω k,
    fun k => ⟨(measurable_pi_apply k).aemeasurable, Measure.infinitePi_map_eval _ k⟩, ?_⟩
  exact iIndepFun_infinitePi (X := fun _ x => x) (fun _ => measurable_id)

example : schurOperator (!![2, 1; 1, 2] : Matrix (Fin 2) (Fin 2) ℝ) [1, 1] 1 ≠ schurOperator 1 [1, 1] 1 := by
  intro h
  have h1 := (C72_gamma_one (p := 2) [1, 1] rfl pd_demo2).2
  have h2 := (C72_gamma_one (p := 2) (M := 1) [1, 1] rfl pd_one).2
  rw [h, h2, det_fin_two] at h1
  simp at h1
  norm_num at h1
  exact (Real.log_pos (by norm_num : (1:ℝ) < 3)).ne h1

end Precise.Theory
