import Verif.Spec.Sample
import Verif.Lemmas.Recency
import Mathlib.Probability.StrongLaw
import Mathlib.Probability.Independence.Integration

set_option linter.all false

open MeasureTheory ProbabilityTheory

namespace Precise
open Spec

variable {Ω ι : Type} [MeasurableSpace Ω] {P : Measure Ω} [IsProbabilityMeasure P] {X : ℕ → Ω → ι → ℝ} {μ : ι → ℝ}
  {S : Matrix ι ι ℝ}

namespace Uncor

theorem bilin (h : Uncorrelated P X μ S) (n : ℕ) (a b : ℕ → ℝ) (i j : ι) :
    Integrable (fun ω => (∑ t ∈ Finset.range n, a t * (X t ω i - μ i)) * (∑ t ∈ Finset.range n, b t * (X t ω j - μ j))) P ∧
    ∫ ω, (∑ t ∈ Finset.range n, a t * (X t ω i - μ i)) * (∑ t ∈ Finset.range n, b t * (X t ω j - μ j)) ∂P
      = (∑ t ∈ Finset.range n, a t * b t) * S i j := by
  have e : (fun ω => (∑ t ∈ Finset.range n, a t * (X t ω i - μ i)) * (∑ t ∈ Finset.range n, b t * (X t ω j - μ j)))
      = fun ω => ∑ s ∈ Finset.range n, ∑ t ∈ Finset.range n, a s * b t * ((X s ω i - μ i) * (X t ω j - μ j)) := by
    funext ω
    rw [Finset.sum_mul_sum]
    exact Finset.sum_congr rfl fun s _ => Finset.sum_congr rfl fun t _ => by ring
  have hi : ∀ s t, Integrable (fun ω => a s * b t * ((X s ω i - μ i) * (X t ω j - μ j))) P := fun s t =>
    (h.int2 s t i j).const_mul _
  rw [e]
  refine ⟨integrable_finset_sum _ fun s _ => integrable_finset_sum _ fun t _ => hi s t, ?_⟩
  rw [integral_finset_sum _ fun s _ => integrable_finset_sum _ fun t _ => hi s t, Finset.sum_mul]
  refine Finset.sum_congr rfl fun s hs => ?_
  rw [integral_finset_sum _ fun t _ => hi s t]
  have : ∀ t ∈ Finset.range n, ∫ ω, a s * b t * ((X s ω i - μ i) * (X t ω j - μ j)) ∂P
      = if t = s then a s * b s * S i j else 0 := by
    intro t _
    rw [integral_const_mul]
    split
    · rename_i e; rw [e, h.cov]
    · rename_i e; rw [h.uncor s t i j (Ne.symm e), mul_zero]
  rw [Finset.sum_congr rfl this, Finset.sum_ite_eq' (Finset.range n) s, if_pos hs]

theorem lin (h : Uncorrelated P X μ S) (n : ℕ) (a : ℕ → ℝ) (i : ι) :
    Integrable (fun ω => ∑ t ∈ Finset.range n, a t * X t ω i) P ∧
    ∫ ω, ∑ t ∈ Finset.range n, a t * X t ω i ∂P = (∑ t ∈ Finset.range n, a t) * μ i := by
  have hi : ∀ t, Integrable (fun ω => a t * X t ω i) P := fun t => (h.int1 t i).const_mul _
  refine ⟨integrable_finset_sum _ fun t _ => hi t, ?_⟩
  rw [integral_finset_sum _ fun t _ => hi t, Finset.sum_mul]
  exact Finset.sum_congr rfl fun t _ => by rw [integral_const_mul, h.mean]

end Uncor

/-- i.i.d. rows are uncorrelated. -/
theorem IID.uncorrelated (h : IID P X) : Uncorrelated P X (meanRow P X) (covRow P X) := by
  have hm : ∀ t i, IdentDistrib (fun ω => X t ω i) (fun ω => X 0 ω i) P P := fun t i =>
    (h.ident t).comp (measurable_pi_apply i)
  have hL : ∀ t i, MemLp (fun ω => X t ω i) 2 P := fun t i => (hm t i).symm.memLp_snd (h.moments i)
  have hI : ∀ t i, Integrable (fun ω => X t ω i) P := fun t i => (hL t i).integrable (by norm_num)
  have hE : ∀ t i, ∫ ω, X t ω i ∂P = meanRow P X i := fun t i => (hm t i).integral_eq
  have hD : ∀ t i, MemLp (fun ω => X t ω i - meanRow P X i) 2 P := fun t i => (hL t i).sub (memLp_const _)
  refine ⟨hI, fun s t i j => (hD s i).integrable_mul (hD t j), hE, fun t i j => ?_, fun s t i j hst => ?_⟩
  · have : IdentDistrib (fun ω => (X t ω i - meanRow P X i) * (X t ω j - meanRow P X j))
        (fun ω => (X 0 ω i - meanRow P X i) * (X 0 ω j - meanRow P X j)) P P :=
      (h.ident t).comp (u := fun x : ι → ℝ => (x i - meanRow P X i) * (x j - meanRow P X j)) (by fun_prop)
    exact this.integral_eq
  · have hind : IndepFun (fun ω => X s ω i - meanRow P X i) (fun ω => X t ω j - meanRow P X j) P :=
      (h.indep hst).comp (φ := fun x : ι → ℝ => x i - meanRow P X i) (ψ := fun x : ι → ℝ => x j - meanRow P X j)
        (by fun_prop) (by fun_prop)
    rw [hind.integral_fun_mul_eq_mul_integral (hD s i).aestronglyMeasurable (hD t j).aestronglyMeasurable,
      integral_sub (hI s i) (integrable_const _), hE]
    simp

end Precise
