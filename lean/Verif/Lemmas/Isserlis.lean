import Mathlib.Probability.Distributions.Gaussian.Multivariate
import Mathlib.Probability.Moments.MGFAnalytic
import Mathlib.LinearAlgebra.Basis.VectorSpace
import Verif.Spec.Theory
import Verif.Spec.Matrix

/-!
# Second and fourth moments of the centred Gaussian law
-/

set_option linter.all false

open MeasureTheory ProbabilityTheory Real Matrix
open scoped ENNReal

namespace Precise.Isserlis

theorem mem_expSet (v : NNReal) (t : ℝ) : t ∈ interior (integrableExpSet (fun x : ℝ => x) (gaussianReal 0 v)) := by
  have : integrableExpSet (fun x : ℝ => x) (gaussianReal 0 v) = Set.univ := by
    ext t; simp only [integrableExpSet, Set.mem_setOf_eq, Set.mem_univ, iff_true]
    exact integrable_exp_mul_gaussianReal t
  rw [this]; simp

/-- The fourth moment of a centred Gaussian number. -/
theorem fourth_real (v : NNReal) : ∫ x, x ^ 4 ∂gaussianReal 0 v = 3 * (v : ℝ) ^ 2 := by
  have h4 := iteratedDeriv_mgf_zero (mem_expSet v 0) 4
  have e0 : mgf (fun x : ℝ => x) (gaussianReal 0 v) = fun t => exp (v * t ^ 2 / 2) := by
    have := mgf_fun_id_gaussianReal (μ := 0) (v := v)
    rw [this]; funext t; simp
  have hb : ∀ t : ℝ, HasDerivAt (fun t => exp (v * t ^ 2 / 2)) ((v * t) * exp (v * t ^ 2 / 2)) t := by
    intro t
    have := (((hasDerivAt_pow 2 t).const_mul (v : ℝ)).div_const 2).exp
    convert this using 1
    ring
  have d1 : deriv (fun t => exp (v * t ^ 2 / 2)) = fun t : ℝ => (v * t) * exp (v * t ^ 2 / 2) := funext fun t => (hb t).deriv
  have d2 : deriv (fun t : ℝ => (v * t) * exp (v * t ^ 2 / 2)) = fun t => (v + v ^ 2 * t ^ 2) * exp (v * t ^ 2 / 2) := funext fun t => by
    have := ((hasDerivAt_id t).const_mul (v : ℝ)).mul (hb t)
    refine this.deriv.trans ?_; simp; ring
  have d3 : deriv (fun t : ℝ => (v + v ^ 2 * t ^ 2) * exp (v * t ^ 2 / 2)) = fun t => (3 * v ^ 2 * t + v ^ 3 * t ^ 3) * exp (v * t ^ 2 / 2) :=
    funext fun t => by
      have := (((hasDerivAt_pow 2 t).const_mul ((v : ℝ) ^ 2)).const_add (v : ℝ)).mul (hb t)
      refine this.deriv.trans ?_; simp; ring
  have d4 : deriv (fun t : ℝ => (3 * v ^ 2 * t + v ^ 3 * t ^ 3) * exp (v * t ^ 2 / 2)) =
      fun t => (3 * v ^ 2 + 6 * v ^ 3 * t ^ 2 + v ^ 4 * t ^ 4) * exp (v * t ^ 2 / 2) := funext fun t => by
    have := (((hasDerivAt_id t).const_mul (3 * (v : ℝ) ^ 2)).add ((hasDerivAt_pow 3 t).const_mul ((v : ℝ) ^ 3))).mul (hb t)
    have h2 := this.deriv
    simp only [Pi.add_apply, Pi.mul_apply, id] at h2
    refine Eq.trans ?_ (h2.trans ?_)
    · rfl
    · push_cast; ring
  rw [e0, iteratedDeriv_succ, iteratedDeriv_succ, iteratedDeriv_succ, iteratedDeriv_one, d1, d2, d3, d4] at h4
  simpa using h4.symm

variable {ι : Type} [Fintype ι] [DecidableEq ι]

/-- A linear form of a centred Gaussian vector is a centred Gaussian number. -/
theorem map_form {T : Matrix ι ι ℝ} (hT : T.PosSemidef) (u : EuclideanSpace ℝ ι) :
    (multivariateGaussian 0 T).map (fun x => inner ℝ u x) = gaussianReal 0 (u.ofLp ⬝ᵥ T *ᵥ u.ofLp).toNNReal := by
  have h := IsGaussian.map_eq_gaussianReal (μ := multivariateGaussian 0 T) (innerSL ℝ u)
  have hm : (multivariateGaussian 0 T)[innerSL ℝ u] = 0 := by
    have := ContinuousLinearMap.integral_comp_id_comm (μ := multivariateGaussian 0 T) IsGaussian.integrable_id (innerSL ℝ u)
    rw [this]; simp
  have hv : Var[innerSL ℝ u; multivariateGaussian 0 T] = u.ofLp ⬝ᵥ T *ᵥ u.ofLp := by
    have := covarianceBilin_self (μ := multivariateGaussian 0 T) IsGaussian.memLp_two_id u
    rw [covarianceBilin_multivariateGaussian hT] at this
    exact this.symm
  rw [hm, hv] at h
  exact h

theorem form_pow {T : Matrix ι ι ℝ} (hT : T.PosSemidef) (u : EuclideanSpace ℝ ι) :
    Integrable (fun x => (inner ℝ u x : ℝ) ^ 4) (multivariateGaussian 0 T) ∧
      ∫ x, (inner ℝ u x : ℝ) ^ 4 ∂multivariateGaussian 0 T = 3 * (u.ofLp ⬝ᵥ T *ᵥ u.ofLp) ^ 2 ∧
    Integrable (fun x => (inner ℝ u x : ℝ) ^ 2) (multivariateGaussian 0 T) ∧
      ∫ x, (inner ℝ u x : ℝ) ^ 2 ∂multivariateGaussian 0 T = u.ofLp ⬝ᵥ T *ᵥ u.ofLp := by
  have h0 : 0 ≤ u.ofLp ⬝ᵥ T *ᵥ u.ofLp := by simpa using hT.dotProduct_mulVec_nonneg u.ofLp
  have hm := map_form hT u
  set ν := multivariateGaussian 0 T
  have hme : AEMeasurable (fun x => (inner ℝ u x : ℝ)) ν := Measurable.aemeasurable (by fun_prop)
  have i4 : ∀ n : ℕ, Integrable (fun y : ℝ => y ^ n) (ν.map fun x => (inner ℝ u x : ℝ)) := fun n => by
    rw [hm]; exact integrable_pow_of_mem_interior_integrableExpSet (mem_expSet _ 0) n
  refine ⟨?_, ?_, ?_, ?_⟩
  · exact (i4 4).comp_aemeasurable hme
  · have := integral_map hme (i4 4).aestronglyMeasurable
    rw [← this, hm, fourth_real, Real.coe_toNNReal _ h0]
  · exact (i4 2).comp_aemeasurable hme
  · have := integral_map hme (i4 2).aestronglyMeasurable
    rw [← this, hm]
    have hv := variance_id_gaussianReal (μ := 0) (v := (u.ofLp ⬝ᵥ T *ᵥ u.ofLp).toNNReal)
    rw [variance_eq_integral (by fun_prop)] at hv
    simpa [h0] using hv

/-- the four coordinates with signs -/
noncomputable def comb (i j k l : ι) (s t r : ℝ) : EuclideanSpace ℝ ι :=
  EuclideanSpace.single i 1 + s • EuclideanSpace.single j 1 + t • EuclideanSpace.single k 1 + r • EuclideanSpace.single l 1

theorem inner_comb (i j k l : ι) (s t r : ℝ) (x : EuclideanSpace ℝ ι) :
    (inner ℝ (comb i j k l s t r) x : ℝ) = x i + s * x j + t * x k + r * x l := by
  simp [comb, inner_add_left, inner_smul_left, EuclideanSpace.inner_single_left]

theorem quad_comb {T : Matrix ι ι ℝ} (i j k l : ι) (s t r : ℝ) :
    (comb i j k l s t r).ofLp ⬝ᵥ T *ᵥ (comb i j k l s t r).ofLp =
      (T i i + s * T i j + t * T i k + r * T i l) + s * (T j i + s * T j j + t * T j k + r * T j l) +
      t * (T k i + s * T k j + t * T k k + r * T k l) + r * (T l i + s * T l j + t * T l k + r * T l l) := by
  simp [comb, Matrix.mulVec_add, Matrix.mulVec_smul, add_dotProduct, smul_dotProduct, mul_comm]
  ring

/-- Products of four coordinates of a centred Gaussian vector (Isserlis' theorem). -/
theorem fourth {T : Matrix ι ι ℝ} (hT : T.PosSemidef) (i j k l : ι) :
    Integrable (fun x => x i * x j * (x k * x l)) (multivariateGaussian 0 T) ∧
      ∫ x, x i * x j * (x k * x l) ∂multivariateGaussian 0 T = T i j * T k l + T i k * T j l + T i l * T j k := by
  have hs : ∀ a b, T a b = T b a := fun a b => by simpa using (hT.1.apply b a)
  have key := fun s t r => form_pow hT (comb i j k l s t r)
  simp only [inner_comb, quad_comb] at key
  have hI := fun s t r => (key s t r).1
  have hV := fun s t r => (key s t r).2.1
  have e : (fun x : EuclideanSpace ℝ ι => x i * x j * (x k * x l)) = fun x =>
      (1 / 192 : ℝ) * ((x i + 1 * x j + 1 * x k + 1 * x l) ^ 4 + (x i + 1 * x j + (-1) * x k + (-1) * x l) ^ 4 +
        (x i + (-1) * x j + 1 * x k + (-1) * x l) ^ 4 + (x i + (-1) * x j + (-1) * x k + 1 * x l) ^ 4 -
        (x i + 1 * x j + 1 * x k + (-1) * x l) ^ 4 - (x i + 1 * x j + (-1) * x k + 1 * x l) ^ 4 -
        (x i + (-1) * x j + 1 * x k + 1 * x l) ^ 4 - (x i + (-1) * x j + (-1) * x k + (-1) * x l) ^ 4) := by
    funext x; ring
  have i1 := (hI 1 1 1).add (hI 1 (-1) (-1))
  have i2 := i1.add (hI (-1) 1 (-1))
  have i3 := i2.add (hI (-1) (-1) 1)
  have i4 := i3.sub (hI 1 1 (-1))
  have i5 := i4.sub (hI 1 (-1) 1)
  have i6 := i5.sub (hI (-1) 1 1)
  have i7 := i6.sub (hI (-1) (-1) (-1))
  rw [e]
  refine ⟨i7.const_mul _, ?_⟩
  rw [integral_const_mul]
  have v7 := integral_sub i6 (hI (-1) (-1) (-1))
  have v6 := integral_sub i5 (hI (-1) 1 1)
  have v5 := integral_sub i4 (hI 1 (-1) 1)
  have v4 := integral_sub i3 (hI 1 1 (-1))
  have v3 := integral_add i2 (hI (-1) (-1) 1)
  have v2 := integral_add i1 (hI (-1) 1 (-1))
  have v1 := integral_add (hI 1 1 1) (hI 1 (-1) (-1))
  simp only [Pi.add_apply, Pi.sub_apply] at v1 v2 v3 v4 v5 v6 v7
  rw [v7, v6, v5, v4, v3, v2, v1]
  simp only [hV]
  rw [hs j i, hs k i, hs l i, hs k j, hs l j, hs l k]
  ring

/-- Products of two coordinates. -/
theorem second {T : Matrix ι ι ℝ} (hT : T.PosSemidef) (i j : ι) :
    Integrable (fun x => x i * x j) (multivariateGaussian 0 T) ∧ ∫ x, x i * x j ∂multivariateGaussian 0 T = T i j := by
  have hs : ∀ a b, T a b = T b a := fun a b => by simpa using (hT.1.apply b a)
  have key := fun s => form_pow hT (comb i j i j s 0 0)
  simp only [inner_comb, quad_comb] at key
  have hI := fun s => (key s).2.2.1
  have hV := fun s => (key s).2.2.2
  have e : (fun x : EuclideanSpace ℝ ι => x i * x j) = fun x =>
      (1 / 4 : ℝ) * ((x i + 1 * x j + 0 * x i + 0 * x j) ^ 2 - (x i + (-1) * x j + 0 * x i + 0 * x j) ^ 2) := by
    funext x; ring
  rw [e]
  refine ⟨((hI 1).sub (hI (-1))).const_mul _, ?_⟩
  rw [integral_const_mul, integral_sub (hI 1) (hI (-1)), hV, hV, hs j i]
  ring

/-- The expectation under a centred Gaussian law, extended to a linear functional on all functions of the vector. -/
theorem exists_expectation {T : Matrix ι ι ℝ} (hT : T.PosSemidef) : ∃ E : ((ι → ℝ) → ℝ) →ₗ[ℝ] ℝ,
    (∀ f : (ι → ℝ) → ℝ, Integrable (fun x : EuclideanSpace ℝ ι => f x.ofLp) (multivariateGaussian 0 T) →
      E f = ∫ x, f x.ofLp ∂multivariateGaussian 0 T) ∧ Spec.GaussMoments E T := by
  let V : Submodule ℝ ((ι → ℝ) → ℝ) :=
    { carrier := {f | Integrable (fun x : EuclideanSpace ℝ ι => f x.ofLp) (multivariateGaussian 0 T)}
      add_mem' := fun ha hb => ha.add hb
      zero_mem' := integrable_zero _ _ _
      smul_mem' := fun c f hf => hf.smul c }
  let I : V →ₗ[ℝ] ℝ :=
    { toFun := fun f => ∫ x : EuclideanSpace ℝ ι, f.1 x.ofLp ∂multivariateGaussian 0 T
      map_add' := fun f g => integral_add f.2 g.2
      map_smul' := fun c f => integral_const_mul c _ }
  obtain ⟨E, hE⟩ := I.exists_extend
  have h : ∀ f : (ι → ℝ) → ℝ, Integrable (fun x : EuclideanSpace ℝ ι => f x.ofLp) (multivariateGaussian 0 T) →
      E f = ∫ x, f x.ofLp ∂multivariateGaussian 0 T := fun f hf => congrArg (fun g => g ⟨f, hf⟩) hE
  refine ⟨E, h, ?_, fun i j => ?_, fun i j k l => ?_⟩
  · rw [h _ (integrable_const _)]; simp
  · rw [h _ (second hT i j).1]; exact (second hT i j).2
  · rw [h _ (fourth hT i j k l).1]; exact (fourth hT i j k l).2

end Precise.Isserlis
