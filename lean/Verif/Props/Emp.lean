import Verif.Lemmas.Emp
import Verif.Props.Base
import Mathlib.LinearAlgebra.Matrix.ToLinearEquiv
import Mathlib.LinearAlgebra.Dimension.Constructions
import Mathlib.LinearAlgebra.FiniteDimensional.Lemmas

/-!
# C15–C18: EmpiricalCovariance against the batch formulas

`Spec.used diff calls` is the list of observations used: the rows since the last `fit`, or their differences.
All theorems are over an arbitrary ordered field (ℚ, ℝ, ...).
-/

set_option linter.all false

open Matrix

namespace Precise

open Spec Obj

variable {ι κ K : Type} [Fintype ι] [Fintype κ] [Field K] [LinearOrder K] [IsStrictOrderedRing K]

theorem symm_covOf (xs : List (ι → K)) : Symm (covOf xs) := fun i j => by
  simp only [covOf, of_apply]
  congr 2
  exact List.map_congr_left fun x _ => mul_comm _ _

/-- C15: after any history that used at least one observation, in any chunking, `location_` is the arithmetic
mean and `covariance_` the population covariance of the observations used, and `n_samples_` their number. -/
theorem C15_batch (d : Bool) (calls : List (Call ι K)) (h : used d calls ≠ []) :
    let o := (new (empiricalCls ι K) d).run calls
    o.location = .ok (meanOf (used d calls)) ∧ o.covariance = .ok (covOf (used d calls)) ∧
    o.nSamples = (used d calls).length := by
  intro o
  have hC := empirical_lawful ι K
  refine ⟨?_, ?_, ?_⟩
  · show ((new (empiricalCls ι K) d).run calls).location = _
    rw [run_location hC d calls h, ← empFold_mean h]; rfl
  · show ((new (empiricalCls ι K) d).run calls).covariance = _
    rw [run_covariance hC d calls h, ← toSymmetric_of_symm (symm_covOf (used d calls)), ← empFold_cov h]; rfl
  · refine (C04_n_samples hC d calls).trans ?_
    simp only [used]
    rw [effective_length]; rfl

/-- C16: two streams that are permutations of each other give the same attributes. -/
theorem C16_order (d : Bool) (a b : List (Call ι K)) (h : (used d a).Perm (used d b)) :
    ((new (empiricalCls ι K) d).run a).location = ((new (empiricalCls ι K) d).run b).location ∧
    ((new (empiricalCls ι K) d).run a).covariance = ((new (empiricalCls ι K) d).run b).covariance ∧
    ((new (empiricalCls ι K) d).run a).nSamples = ((new (empiricalCls ι K) d).run b).nSamples := by
  have hmean : meanOf (used d a) = meanOf (used d b) := by
    ext i; simp only [meanOf, h.length_eq, (h.map fun x => x i).sum_eq]
  have hcov : covOf (used d a) = covOf (used d b) := by
    ext i j
    simp only [covOf, of_apply, h.length_eq, hmean]
    rw [(h.map fun x => (x i - meanOf (used d b) i) * (x j - meanOf (used d b) j)).sum_eq]
  by_cases ha : used d a = []
  · have hb : used d b = [] := by rw [ha] at h; exact List.nil_perm.1 h
    have h1 := C06_not_fitted_iff (empirical_lawful ι K) d a
    have h2 := C06_not_fitted_iff (empirical_lawful ι K) d b
    have n1 := h1.1.2 ha
    have n2 := h2.1.2 hb
    exact ⟨by rw [(h1.2.1 n1).1, (h2.2.1 n2).1], by rw [(h1.2.1 n1).2, (h2.2.1 n2).2], by rw [n1, n2]⟩
  · have hb : used d b ≠ [] := fun hb => ha (by rw [hb] at h; exact List.perm_nil.1 h)
    have h1 := C15_batch d a ha
    have h2 := C15_batch d b hb
    exact ⟨by rw [h1.1, h2.1, hmean], by rw [h1.2.1, h2.2.1, hcov], by rw [h1.2.2, h2.2.2, h.length_eq]⟩

/-- The variance of a linear combination `u` under the empirical covariance is the mean squared deviation. -/
theorem quad_covOf (xs : List (ι → K)) (u : ι → K) :
    quad (covOf xs) u = (xs.map fun x => (u ⬝ᵥ (x - meanOf xs)) * (u ⬝ᵥ (x - meanOf xs))).sum / xs.length := by
  have e : covOf xs = (1 / (xs.length : K)) • (xs.map fun x => outer (x - meanOf xs) (x - meanOf xs)).sum := by
    ext i j
    simp only [covOf, of_apply, Matrix.smul_apply, smul_eq_mul]
    have : ∀ l : List (ι → K), (l.map fun x => outer (x - meanOf xs) (x - meanOf xs)).sum i j
        = (l.map fun x => (x i - meanOf xs i) * (x j - meanOf xs j)).sum := by
      intro l
      induction l with
      | nil => simp
      | cons x l ih => simp only [List.map_cons, List.sum_cons, Matrix.add_apply, ih]; simp [outer]
    rw [this]; ring
  rw [e, quad_smul]
  have : ∀ l : List (ι → K), quad (l.map fun x => outer (x - meanOf xs) (x - meanOf xs)).sum u
      = (l.map fun x => (u ⬝ᵥ (x - meanOf xs)) * (u ⬝ᵥ (x - meanOf xs))).sum := by
    intro l
    induction l with
    | nil => simp
    | cons x l ih => rw [List.map_cons, List.sum_cons, quad_add, ih, quad_outer, List.map_cons, List.sum_cons, dotProduct_comm]
  rw [this]; ring

/-- C18: `covariance_` of EmpiricalCovariance is PSD. -/
theorem C18_psd (d : Bool) (calls : List (Call ι K)) (c : Matrix ι ι K)
    (h : ((new (empiricalCls ι K) d).run calls).covariance = .ok c) : PSD c := by
  have hne : used d calls ≠ [] := (run_covariance_inv (empirical_lawful ι K) d calls c h).1
  have := (C15_batch d calls hne).2.1
  rw [this] at h
  cases h
  refine ⟨symm_covOf _, fun u => ?_⟩
  rw [quad_covOf]
  refine div_nonneg (List.sum_nonneg fun y hy => ?_) (Nat.cast_nonneg _)
  obtain ⟨x, -, rfl⟩ := List.mem_map.1 hy
  exact mul_self_nonneg _

/-- C18: a combination `u` of the variables has zero estimated variance iff it took the same value in all
observations. -/
theorem C18_zero_variance_iff (d : Bool) (calls : List (Call ι K)) (c : Matrix ι ι K)
    (h : ((new (empiricalCls ι K) d).run calls).covariance = .ok c) (u : ι → K) :
    quad c u = 0 ↔ ∃ v, ∀ x ∈ used d calls, u ⬝ᵥ x = v := by
  have hne : used d calls ≠ [] := (run_covariance_inv (empirical_lawful ι K) d calls c h).1
  have := (C15_batch d calls hne).2.1
  rw [this] at h
  cases h
  generalize used d calls = xs at *
  have hn : (xs.length : K) ≠ 0 := by exact_mod_cast (List.length_pos_iff.2 hne).ne'
  rw [quad_covOf]
  constructor
  · intro h0
    rw [div_eq_zero_iff, or_iff_left hn] at h0
    refine ⟨u ⬝ᵥ meanOf xs, fun x hx => ?_⟩
    have hall : ∀ l : List (ι → K), (l.map fun x => (u ⬝ᵥ (x - meanOf xs)) * (u ⬝ᵥ (x - meanOf xs))).sum = 0 →
        ∀ x ∈ l, u ⬝ᵥ (x - meanOf xs) = 0 := by
      intro l
      induction l with
      | nil => simp
      | cons y l ih =>
        intro h1 x hx
        rw [List.map_cons, List.sum_cons] at h1
        have nn : 0 ≤ (l.map fun x => (u ⬝ᵥ (x - meanOf xs)) * (u ⬝ᵥ (x - meanOf xs))).sum :=
          List.sum_nonneg fun y hy => by obtain ⟨x, -, rfl⟩ := List.mem_map.1 hy; exact mul_self_nonneg _
        have n2 := mul_self_nonneg (u ⬝ᵥ (y - meanOf xs))
        rcases List.mem_cons.1 hx with rfl | hx
        · exact mul_self_eq_zero.1 (by linarith)
        · exact ih (by linarith) x hx
    have := hall xs h0 x hx
    rw [dotProduct_sub, sub_eq_zero] at this
    exact this
  · rintro ⟨v, hv⟩
    have hm : u ⬝ᵥ meanOf xs = v := by
      have key : ∀ l : List (ι → K), (∀ x ∈ l, u ⬝ᵥ x = v) → ∑ i, u i * (l.map fun x => x i).sum = l.length * v := by
        intro l
        induction l with
        | nil => simp
        | cons y l ih =>
          intro hl
          have h1 := ih fun x hx => hl x (List.mem_cons_of_mem _ hx)
          have h2 := hl y List.mem_cons_self
          simp only [List.map_cons, List.sum_cons, mul_add, Finset.sum_add_distrib, h1, List.length_cons]
          rw [show ∑ i, u i * y i = v from h2]; push_cast; ring
      have := key xs hv
      simp only [meanOf, dotProduct]
      calc ∑ i, u i * ((xs.map fun x => x i).sum / xs.length)
          = (∑ i, u i * (xs.map fun x => x i).sum) / xs.length := by
            rw [Finset.sum_div]; exact Finset.sum_congr rfl fun i _ => by ring
        _ = v := by rw [this]; field_simp
    have : (xs.map fun x => (u ⬝ᵥ (x - meanOf xs)) * (u ⬝ᵥ (x - meanOf xs))) = xs.map fun _ => (0:K) :=
      List.map_congr_left fun x hx => by rw [dotProduct_sub, hv x hx, hm, sub_self, mul_zero]
    rw [this]; simp

/-- C18: with at most as many observations as variables the empirical covariance is singular. -/
theorem C18_singular [DecidableEq ι] (d : Bool) (calls : List (Call ι K)) (c : Matrix ι ι K)
    (h : ((new (empiricalCls ι K) d).run calls).covariance = .ok c)
    (hn : (used d calls).length ≤ Fintype.card ι) : (∃ u, u ≠ 0 ∧ quad c u = 0) ∧ c.det = 0 := by
  have hne : used d calls ≠ [] := (run_covariance_inv (empirical_lawful ι K) d calls c h).1
  have hpsd := C18_psd d calls c h
  have hiff := C18_zero_variance_iff d calls c h
  -- n - 1 < d linear conditions u · (x_k - x_0) = 0
  obtain ⟨x0, t, hx⟩ := List.exists_cons_of_ne_nil hne
  have ⟨u, hu, hu0⟩ : ∃ u : ι → K, u ≠ 0 ∧ ∀ x ∈ t, u ⬝ᵥ (x - x0) = 0 := by
    let f : (ι → K) →ₗ[K] (Fin t.length → K) :=
      { toFun := fun u k => u ⬝ᵥ (t[k] - x0)
        map_add' := fun u v => by ext k; exact add_dotProduct _ _ _
        map_smul' := fun a u => by ext k; exact smul_dotProduct _ _ _ }
    have hlt : Module.finrank K (Fin t.length → K) < Module.finrank K (ι → K) := by
      rw [Module.finrank_fin_fun, Module.finrank_fintype_fun_eq_card]
      rw [hx] at hn; simp at hn; omega
    have hker : LinearMap.ker f ≠ ⊥ := LinearMap.ker_ne_bot_of_finrank_lt hlt
    obtain ⟨u, hmem, hne0⟩ := (Submodule.ne_bot_iff _).1 hker
    refine ⟨u, hne0, fun x hxm => ?_⟩
    obtain ⟨k, hk, rfl⟩ := List.getElem_of_mem hxm
    have := congrFun (LinearMap.mem_ker.1 hmem) ⟨k, hk⟩
    exact this
  have hq : quad c u = 0 := by
    rw [hiff u]
    refine ⟨u ⬝ᵥ x0, fun x hxm => ?_⟩
    rw [hx] at hxm
    rcases List.mem_cons.1 hxm with rfl | hxm
    · rfl
    · have := hu0 x hxm
      rw [dotProduct_sub, sub_eq_zero] at this
      exact this
  exact ⟨⟨u, hu, hq⟩, exists_mulVec_eq_zero_iff.1 ⟨u, hu, (hpsd.quad_eq_zero_iff u).1 hq⟩⟩

/-! ## Concrete cases (over ℚ) -/

section Examples

private def data : List (Call (Fin 2) ℚ) := [.partialFit (.batch [![1, 2], ![3, 5]]), .partialFit (.row ![5, 2])]

example : used false data ≠ [] := by simp [data, used, effective, rowsSinceFit, rowsOf]
-- the batch mean of this stream is (3, 3), and the model computes exactly that
example : meanOf (used false data) = ![3, 3] := by
  ext i; fin_cases i <;> simp [data, used, effective, rowsSinceFit, rowsOf, meanOf] <;> norm_num
-- C16: a genuine permutation
example : (used false data).Perm (used false [.fit (.batch [![5, 2], ![1, 2], ![3, 5]])]) := by
  simp [data, used, effective, rowsSinceFit, rowsOf]
  have : ([![5,2], ![1,2], ![3,5]] : List (Fin 2 → ℚ)).Perm [![1,2], ![3,5], ![5,2]] :=
    (List.Perm.swap ![1,2] ![5,2] [![3,5]]).trans ((List.Perm.swap ![3,5] ![5,2] []).cons ![1,2])
  exact this.symm
-- C18: two observations of two variables
example : (used false [Call.partialFit (.batch [![1, 2], ![(3:ℚ), 5]])]).length ≤ Fintype.card (Fin 2) := by
  simp [used, effective, rowsSinceFit, rowsOf]

end Examples

end Precise
