import Verif.Lemmas.Sample
import Mathlib.Probability.Independence.InfinitePi
import Mathlib.Probability.ProbabilityMassFunction.Integrals
import Mathlib.Probability.Distributions.Uniform
import Mathlib.LinearAlgebra.Matrix.Notation
import Mathlib.Tactic.NormNum
import Mathlib.Tactic.FinCases

/-!
A concrete random stream for the non-vacuity examples: two fair coins are tossed at every step, the row is
`(1 ± 1, ±1 ± 1)`.
-/

set_option linter.all false

open MeasureTheory ProbabilityTheory

namespace Precise
open Spec

/-- One pair of fair coins. -/
noncomputable def coins : Measure (Bool × Bool) := (PMF.uniformOfFintype (Bool × Bool)).toMeasure

instance : IsProbabilityMeasure coins := by unfold coins; infer_instance

/-- Infinitely many independent pairs of coins. -/
noncomputable def coinP : Measure (ℕ → Bool × Bool) := Measure.infinitePi fun _ => coins

instance : IsProbabilityMeasure coinP := by unfold coinP; infer_instance

def coinRow (p : Bool × Bool) : Fin 2 → ℝ :=
  ![1 + (if p.1 then 1 else -1), (if p.1 then 1 else -1) + (if p.2 then 1 else -1)]

def coinX (t : ℕ) (ω : ℕ → Bool × Bool) : Fin 2 → ℝ := coinRow (ω t)

theorem coin_integral (f : Bool × Bool → ℝ) (t : ℕ) : ∫ ω, f (ω t) ∂coinP
    = (f (true, true) + f (true, false) + f (false, true) + f (false, false)) / 4 := by
  have h := measurePreserving_eval_infinitePi (fun _ : ℕ => coins) t
  have e : ∫ ω, f (ω t) ∂coinP = ∫ x, f x ∂coins := by
    rw [← h.map_eq, integral_map h.measurable.aemeasurable (measurable_of_finite f).aestronglyMeasurable]
    rfl
  rw [e, coins, PMF.integral_eq_sum]
  simp [Fintype.sum_prod_type]
  ring

theorem coin_iid : IID coinP coinX where
  indep := by
    intro s t hst
    exact (iIndepFun_infinitePi (P := fun _ : ℕ => coins) (X := fun _ => coinRow) (fun _ => measurable_of_finite _)).indepFun hst
  ident := by
    intro t
    have h : ∀ s, MeasurePreserving (fun ω : ℕ → Bool × Bool => ω s) coinP coins := fun s =>
      measurePreserving_eval_infinitePi (fun _ : ℕ => coins) s
    have hm : Measurable coinRow := measurable_of_finite _
    have g : ∀ s, coinP.map (coinX s) = coins.map coinRow := fun s => by
      rw [← (h s).map_eq, Measure.map_map hm (h s).measurable]; rfl
    exact ⟨(hm.comp (h t).measurable).aemeasurable, (hm.comp (h 0).measurable).aemeasurable, by rw [g, g]⟩
  moments := by
    intro i
    have h := (measurePreserving_eval_infinitePi (fun _ : ℕ => coins) 0).measurable
    have hm : Measurable fun p => coinRow p i := measurable_of_finite _
    refine MemLp.of_bound (hm.comp h).aestronglyMeasurable 2 (Filter.Eventually.of_forall fun ω => ?_)
    show ‖coinRow (ω 0) i‖ ≤ 2
    rcases ω 0 with ⟨a, b⟩
    cases a <;> cases b <;> fin_cases i <;> norm_num [coinRow]

theorem coin_mean : meanRow coinP coinX = ![1, 0] := by
  funext i
  show ∫ ω, coinRow (ω 0) i ∂coinP = _
  rw [coin_integral (fun p => coinRow p i)]
  fin_cases i <;> norm_num [coinRow]

theorem coin_cov : covRow coinP coinX = !![1, 1; 1, 2] := by
  ext i j
  show ∫ ω, (coinRow (ω 0) i - meanRow coinP coinX i) * (coinRow (ω 0) j - meanRow coinP coinX j) ∂coinP = _
  rw [coin_integral (fun p => (coinRow p i - meanRow coinP coinX i) * (coinRow p j - meanRow coinP coinX j)), coin_mean]
  fin_cases i <;> fin_cases j <;> norm_num [coinRow]

theorem coin_uncorrelated : Uncorrelated coinP coinX ![1, 0] !![1, 1; 1, 2] := by
  have := IID.uncorrelated coin_iid
  rwa [coin_mean, coin_cov] at this

end Precise
