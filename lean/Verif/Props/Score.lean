import Verif.Props.Linalg
import Verif.Props.Emp
import Verif.Spec.Gauss

/-!
# C14: score is the mean Gaussian log-likelihood, and the empirical estimate maximizes it
-/

set_option linter.all false

open Matrix

namespace Precise

open Spec Obj

variable {ι : Type} [Fintype ι] [DecidableEq ι]

theorem log_gaussDensity (m : ι → ℝ) {S : Matrix ι ι ℝ} (hS : PD S) (x : ι → ℝ) :
    Real.log (gaussDensity m S x) = -(1/2) * quad S⁻¹ (x - m) - (1/2) * (Fintype.card ι * Real.log (2 * Real.pi) + Real.log S.det) := by
  have hd := hS.det_pos
  have hpi : (0:ℝ) < 2 * Real.pi := by positivity
  have hpp : (0:ℝ) < (2 * Real.pi) ^ Fintype.card ι := by positivity
  unfold gaussDensity
  rw [Real.log_div (Real.exp_ne_zero _) (by positivity), Real.log_exp, Real.log_sqrt (by positivity),
    Real.log_mul hpp.ne' hd.ne', Real.log_pow]
  ring

theorem sum_map_const_add {α : Type} (xs : List α) (f : α → ℝ) (c : ℝ) :
    (xs.map fun x => f x + c).sum = (xs.map f).sum + xs.length * c := by
  induction xs with
  | nil => simp
  | cons x xs ih => simp only [List.map_cons, List.sum_cons, ih, List.length_cons]; push_cast; ring

theorem sum_map_mul_left' {α : Type} (xs : List α) (f : α → ℝ) (c : ℝ) :
    (xs.map fun x => c * f x).sum = c * (xs.map f).sum := by
  induction xs with
  | nil => simp
  | cons x xs ih => simp only [List.map_cons, List.sum_cons, ih]; ring

theorem list_sum_finset {α β : Type} (xs : List α) (s : Finset β) (f : α → β → ℝ) :
    (xs.map fun x => ∑ b ∈ s, f x b).sum = ∑ b ∈ s, (xs.map fun x => f x b).sum := by
  induction xs with
  | nil => simp
  | cons x xs ih => simp only [List.map_cons, List.sum_cons, ih, Finset.sum_add_distrib]

/-- the average quadratic form splits into the part due to the covariance and the part due to the location -/
theorem mean_quad (P : Matrix ι ι ℝ) (hP : Symm P) (m : ι → ℝ) (xs : List (ι → ℝ)) (hx : xs ≠ []) :
    (xs.map fun x => quad P (x - m)).sum = xs.length * ((P * covOf xs).trace + quad P (meanOf xs - m)) := by
  have hn : (xs.length : ℝ) ≠ 0 := by simpa using hx
  have key : ∀ x : ι → ℝ, quad P (x - m) = ∑ i, ∑ j, P i j * ((x i - m i) * (x j - m j)) := fun x => by
    rw [quad_expand]; exact Finset.sum_congr rfl fun i _ => Finset.sum_congr rfl fun j _ => by simp; ring
  simp only [key]
  rw [list_sum_finset]
  have e : (P * covOf xs).trace = ∑ i, ∑ j, P i j * covOf xs i j := by
    simp only [trace, diag_apply, mul_apply]
    exact Finset.sum_congr rfl fun i _ => Finset.sum_congr rfl fun j _ => by rw [symm_covOf xs j i]
  rw [e, ← Finset.sum_add_distrib, Finset.mul_sum]
  refine Finset.sum_congr rfl fun i _ => ?_
  rw [list_sum_finset, ← Finset.sum_add_distrib, Finset.mul_sum]
  refine Finset.sum_congr rfl fun j _ => ?_
  rw [sum_map_mul_left', sum_centered]
  have hc : covOf xs i j = (xs.map fun x => (x i - meanOf xs i) * (x j - meanOf xs j)).sum / xs.length := rfl
  rw [hc, sum_centered]
  have h1 : ∀ k, (xs.map fun x => x k).sum = xs.length * meanOf xs k := fun k => by
    simp only [meanOf]; field_simp
  simp only [h1]
  field_simp
  ring

theorem meanLogLik_eq (m : ι → ℝ) {S : Matrix ι ι ℝ} (hS : PD S) (xs : List (ι → ℝ)) (hx : xs ≠ []) :
    meanLogLik m S xs = -(1/2) * ((S⁻¹ * covOf xs).trace + quad S⁻¹ (meanOf xs - m))
      - (1/2) * (Fintype.card ι * Real.log (2 * Real.pi) + Real.log S.det) := by
  have hn : (xs.length : ℝ) ≠ 0 := by simpa using hx
  unfold meanLogLik
  simp only [log_gaussDensity m hS, sub_eq_add_neg (G := ℝ)]
  rw [sum_map_const_add, sum_map_mul_left', mean_quad _ hS.inv.1 _ _ hx]
  field_simp

theorem logAbsDet_inv {c : Matrix ι ι ℝ} (h : PD c) : logAbsDet c⁻¹ = ((-Real.log c.det : ℝ) : WithBot ℝ) := by
  have hd := h.inv.det_pos
  unfold logAbsDet
  rw [if_neg hd.ne', abs_of_pos hd, det_nonsing_inv, Ring.inverse_eq_inv', Real.log_inv]

/-- C14: for every estimator class and every fitted state with positive-definite `covariance_`, `score(X)` is the
mean log-density of the rows of `X` under the normal distribution with `location_` and `covariance_`. -/
theorem C14_score_is_loglik {C : Cls ι ℝ} (L : Lapack) (o : Obj C) (c : Matrix ι ι ℝ) (m : ι → ℝ)
    (hc : o.covariance = .ok c) (hm : o.location = .ok m) (hpd : PD c) (xs : List (ι → ℝ)) :
    o.score L (.batch xs) = .ok ((meanLogLik m c xs : ℝ) : WithBot ℝ) := by
  have e1 : o.precision L = .ok c⁻¹ := by
    simp only [Obj.precision, hc, Except.map, tryInvert_of_pd L hpd]
  have e2 : o.mahalanobis L (.batch xs) = .ok (xs.map fun x => mahaRow c⁻¹ (x - m)) := by
    simp only [Obj.mahalanobis, asRows, e1, hm, bind, Except.bind, pure, Except.pure]
  simp only [Obj.score, asRows, e1, e2, bind, Except.bind, pure, Except.pure, logAbsDet_inv hpd]
  congr 1
  show ((_ : ℝ) : WithBot ℝ) = _
  congr 1
  unfold meanLogLik
  beta_reduce
  rw [List.map_map, List.length_map]
  congr 2
  refine List.map_congr_left fun x _ => ?_
  simp only [Function.comp, mahaRow_eq, log_gaussDensity m hpd]
  ring

/-- C14: `score` raises NotFittedError exactly when the estimator is not fitted, and ValueError on a bad rank. -/
theorem C14_score_errors {C : Cls ι ℝ} (L : Lapack) (o : Obj C) (xs : List (ι → ℝ)) (x : ι → ℝ) (n : ℕ) :
    (o.covariance = .error .notFitted → o.score L (.batch xs) = .error .notFitted) ∧
    o.score L (.row x) = o.score L (.batch [x]) ∧ o.score L (.other n) = .error .valueError := by
  refine ⟨fun h => ?_, rfl, rfl⟩
  simp [Obj.score, asRows, Obj.precision, h, Except.map, bind, Except.bind]

/-- C14: the sample mean and covariance are the unique maximizers of the likelihood. -/
theorem gauss_mle (xs : List (ι → ℝ)) (hx : xs ≠ []) (hpd : PD (covOf xs)) (m : ι → ℝ) (S : Matrix ι ι ℝ) (hS : PD S) :
    meanLogLik m S xs ≤ meanLogLik (meanOf xs) (covOf xs) xs ∧
    (meanLogLik m S xs = meanLogLik (meanOf xs) (covOf xs) xs → m = meanOf xs ∧ S = covOf xs) := by
  have hu : IsUnit (covOf xs).det := isUnit_iff_ne_zero.2 hpd.det_pos.ne'
  have huS : IsUnit S.det := isUnit_iff_ne_zero.2 hS.det_pos.ne'
  have hst := stein hS.inv hpd
  have hlog : Real.log S⁻¹.det = -Real.log S.det := by rw [det_nonsing_inv, Ring.inverse_eq_inv', Real.log_inv]
  rw [hlog] at hst
  rw [meanLogLik_eq m hS xs hx, meanLogLik_eq _ hpd xs hx, nonsing_inv_mul _ hu, trace_one, sub_self, quad_zero_right]
  have hq := hS.inv.psd.2 (meanOf xs - m)
  refine ⟨by linarith [hst.1], fun heq => ?_⟩
  have h1 : quad S⁻¹ (meanOf xs - m) = 0 := by linarith [hst.1]
  refine ⟨?_, ?_⟩
  · by_contra hne
    exact absurd h1 (hS.inv.2 _ (sub_ne_zero.2 (Ne.symm hne))).ne'
  · have := hst.2 (by linarith [hst.1])
    have h2 := congrArg (fun z => z⁻¹) this
    simpa [nonsing_inv_nonsing_inv _ hu, nonsing_inv_nonsing_inv _ huS] using h2

/-- C14: fit EmpiricalCovariance on a batch whose covariance is positive-definite. Its `score` on that batch is a
number that no other choice of location and positive-definite covariance exceeds or equals. -/
theorem C14_empirical_maximizes (L : Lapack) (xs : List (ι → ℝ)) (hx : xs ≠ []) (hpd : PD (covOf xs)) :
    ∃ v : ℝ, ((new (empiricalCls ι ℝ) false).fit (.batch xs)).1.score L (.batch xs) = .ok (v : WithBot ℝ) ∧
      ∀ (m : ι → ℝ) (S : Matrix ι ι ℝ), PD S → meanLogLik m S xs ≤ v ∧
        (meanLogLik m S xs = v → m = meanOf xs ∧ S = covOf xs) := by
  have h := C15_batch (K := ℝ) (ι := ι) false [.fit (.batch xs)] (by simpa [used, effective, rowsSinceFit] using hx)
  have hu : used false [Call.fit (.batch xs)] = xs := by simp [used, effective, rowsSinceFit]
  rw [hu] at h
  have e : ((new (empiricalCls ι ℝ) false).run [.fit (.batch xs)]) = ((new (empiricalCls ι ℝ) false).fit (.batch xs)).1 := rfl
  rw [e] at h
  exact ⟨_, C14_score_is_loglik L _ _ _ h.2.1 h.1 hpd xs, fun m S hS => gauss_mle xs hx hpd m S hS⟩

-- a sample with positive-definite covariance: the corners of a square
example : PD (covOf ([![1, 1], ![1, -1], ![-1, 1], ![-1, -1]] : List (Fin 2 → ℝ))) := by
  have e : covOf ([![1, 1], ![1, -1], ![-1, 1], ![-1, -1]] : List (Fin 2 → ℝ)) = 1 := by
    ext i j
    fin_cases i <;> fin_cases j <;> simp [covOf, meanOf] <;> norm_num
  rw [e]; exact pd_one

end Precise
