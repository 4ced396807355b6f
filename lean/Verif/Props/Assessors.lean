import Verif.Model.Assessors
import Verif.Props.Score
import Verif.Props.Features

/-!
# C56: the likelihood and Stein assessors are proper
-/

set_option linter.all false

open Matrix

namespace Precise

open Spec Obj

section General

variable {ι : Type} [Fintype ι] [DecidableEq ι]

/-- `_gaussian_loglik` of a positive-definite estimate is the mean log-density under `N(0, cov)`. -/
theorem gaussLoglik_pd (L : Lapack) {c : Matrix ι ι ℝ} (h : PD c) (X : List (ι → ℝ)) :
    gaussLoglik L c X = ((meanLogLik 0 c X : ℝ) : WithBot ℝ) := by
  unfold gaussLoglik
  simp only [tryInvert_of_pd L h, logAbsDet_inv h]
  show ((_ : ℝ) : WithBot ℝ) = _
  congr 1
  unfold meanLogLik
  beta_reduce
  congr 2
  refine List.map_congr_left fun x _ => ?_
  rw [log_gaussDensity 0 h, mahaRow_eq, sub_zero]
  ring

theorem det_tryInvert_zero (L : Lapack) {c : Matrix ι ι ℝ} (hs : Symm c) (hd : c.det = 0) : (tryInvert L c).det = 0 := by
  obtain ⟨_, h2, _⟩ := tryInvert_pinv L hs
  by_contra hne
  have := congrArg det h2
  rw [det_mul, det_mul, hd] at this
  simp at this
  exact hne this.symm

theorem gaussLoglik_singular (L : Lapack) {c : Matrix ι ι ℝ} (hs : Symm c) (hd : c.det = 0) (X : List (ι → ℝ)) :
    gaussLoglik L c X = ⊥ := by
  unfold gaussLoglik
  simp only [logAbsDet, det_tryInvert_zero L hs hd, if_true]
  rfl

theorem secondMoment_eq (xs : List (ι → ℝ)) (hx : xs ≠ []) (i j : ι) :
    secondMoment xs i j = covOf xs i j + meanOf xs i * meanOf xs j := by
  have hn : (xs.length : ℝ) ≠ 0 := by simpa using hx
  have hc : covOf xs i j = (xs.map fun x => (x i - meanOf xs i) * (x j - meanOf xs j)).sum / xs.length := rfl
  rw [hc, sum_centered]
  have h1 : ∀ k, (xs.map fun x => x k).sum = xs.length * meanOf xs k := fun k => by
    simp only [meanOf]; field_simp
  simp only [h1, secondMoment, of_apply]
  field_simp
  ring

theorem symm_secondMoment (xs : List (ι → ℝ)) : Symm (secondMoment xs) := fun i j => by
  simp only [secondMoment, of_apply, mul_comm]

theorem quad_secondMoment (xs : List (ι → ℝ)) (u : ι → ℝ) :
    quad (secondMoment xs) u = (xs.map fun x => (∑ i, x i * u i) ^ 2).sum / xs.length := by
  rw [quad_expand]
  simp only [secondMoment, of_apply]
  have : ∀ x : ι → ℝ, (∑ i, x i * u i) ^ 2 = ∑ i, ∑ j, u i * u j * (x i * x j) := fun x => by
    rw [pow_two, Finset.sum_mul_sum]
    exact Finset.sum_congr rfl fun i _ => Finset.sum_congr rfl fun j _ => by ring
  simp only [this]
  rw [list_sum_finset, Finset.sum_div]
  refine Finset.sum_congr rfl fun i _ => ?_
  rw [list_sum_finset, Finset.sum_div]
  refine Finset.sum_congr rfl fun j _ => ?_
  rw [sum_map_mul_left']
  ring

theorem psd_secondMoment (xs : List (ι → ℝ)) : PSD (secondMoment xs) :=
  ⟨symm_secondMoment xs, fun u => by
    rw [quad_secondMoment]
    refine div_nonneg (List.sum_nonneg fun a ha => ?_) (Nat.cast_nonneg _)
    obtain ⟨x, _, rfl⟩ := List.mem_map.1 ha
    positivity⟩

theorem trace_secondMoment (P : Matrix ι ι ℝ) (hP : Symm P) (xs : List (ι → ℝ)) (hx : xs ≠ []) :
    (P * covOf xs).trace + quad P (meanOf xs) = (P * secondMoment xs).trace := by
  rw [quad_expand]
  simp only [trace, diag_apply, mul_apply]
  rw [← Finset.sum_add_distrib]
  refine Finset.sum_congr rfl fun i _ => ?_
  rw [← Finset.sum_add_distrib]
  refine Finset.sum_congr rfl fun j _ => ?_
  rw [secondMoment_eq xs hx]
  ring

theorem meanLogLik_zero_eq {S : Matrix ι ι ℝ} (hS : PD S) (xs : List (ι → ℝ)) (hx : xs ≠ []) :
    meanLogLik 0 S xs = -(1/2) * (S⁻¹ * secondMoment xs).trace
      - (1/2) * (Fintype.card ι * Real.log (2 * Real.pi) + Real.log S.det) := by
  rw [meanLogLik_eq 0 hS xs hx, sub_zero, trace_secondMoment _ hS.inv.1 xs hx]

/-- Among centred normals the one with the second-moment matrix of the sample is the unique maximizer. -/
theorem centred_mle (xs : List (ι → ℝ)) (hx : xs ≠ []) (hpd : PD (secondMoment xs)) (S : Matrix ι ι ℝ) (hS : PD S) :
    meanLogLik 0 S xs ≤ meanLogLik 0 (secondMoment xs) xs ∧
    (meanLogLik 0 S xs = meanLogLik 0 (secondMoment xs) xs → S = secondMoment xs) := by
  have hu : IsUnit (secondMoment xs).det := isUnit_iff_ne_zero.2 hpd.det_pos.ne'
  have huS : IsUnit S.det := isUnit_iff_ne_zero.2 hS.det_pos.ne'
  have hst := stein hS.inv hpd
  have hlog : Real.log S⁻¹.det = -Real.log S.det := by rw [det_nonsing_inv, Ring.inverse_eq_inv', Real.log_inv]
  rw [hlog] at hst
  rw [meanLogLik_zero_eq hS xs hx, meanLogLik_zero_eq hpd xs hx, nonsing_inv_mul _ hu, trace_one]
  refine ⟨by linarith [hst.1], fun heq => ?_⟩
  have := hst.2 (by linarith [hst.1])
  have h2 := congrArg (fun z => z⁻¹) this
  simpa [nonsing_inv_nonsing_inv _ hu, nonsing_inv_nonsing_inv _ huS] using h2

end General

variable {p : ℕ} (L : Lapack)

/-- C56: LogLikelihood of a positive-definite estimate is the mean log-density of the test rows under `N(0, cov)`; of a
singular estimate it is minus infinity. -/
theorem C56_loglik_value (c : Matrix (Fin p) (Fin p) ℝ) (X : List (Fin p → ℝ)) :
    (PD c → logLikelihoodScore L c X = ((meanLogLik 0 c X : ℝ) : WithBot ℝ)) ∧
    (Symm c → c.det = 0 → logLikelihoodScore L c X = ⊥) :=
  ⟨fun h => gaussLoglik_pd L h X, fun hs hd => gaussLoglik_singular L hs hd X⟩

/-- C56: LogLikelihood is proper: over all positive semi-definite estimates it is largest at the second-moment
matrix of the test rows, and only there. -/
theorem C56_loglik_proper (X : List (Fin p → ℝ)) (hx : X ≠ []) (hpd : PD (secondMoment X)) (c : Matrix (Fin p) (Fin p) ℝ)
    (hc : PSD c) :
    logLikelihoodScore L c X ≤ logLikelihoodScore L (secondMoment X) X ∧
    (logLikelihoodScore L c X = logLikelihoodScore L (secondMoment X) X → c = secondMoment X) := by
  have h0 := (C56_loglik_value L (secondMoment X) X).1 hpd
  by_cases hd : c.det = 0
  · rw [(C56_loglik_value L c X).2 hc.1 hd, h0]
    exact ⟨bot_le, fun h => absurd h.symm (WithBot.coe_ne_bot)⟩
  · have hp := hc.pd_of_det hd
    rw [(C56_loglik_value L c X).1 hp, h0]
    have := centred_mle X hx hpd c hp
    exact ⟨WithBot.coe_le_coe.2 this.1, fun h => this.2 (WithBot.coe_injective h)⟩

/-- C56 (violation): nothing checks that the estimate is positive-definite. The negative-definite "covariances" `-e I` get
arbitrarily high LogLikelihood scores on every test batch. -/
theorem C56_loglik_indefinite (hp : 1 ≤ p) (X : List (Fin p → ℝ)) (hx : X ≠ []) (B : ℝ) :
    ∃ e : ℝ, 0 < e ∧ ∃ v : ℝ, B < v ∧ logLikelihoodScore L ((-e) • (1 : Matrix (Fin p) (Fin p) ℝ)) X = (v : WithBot ℝ) := by
  have hpp : (0:ℝ) < p := by exact_mod_cast hp
  have hl : (0:ℝ) < X.length := by exact_mod_cast List.length_pos_iff.2 hx
  -- score = p/2 log(1/e) + mean |x|²/(2e) - p/2 log 2π ≥ p/2 (log (1/e) - log 2π)
  set t := 2 * |B| / p + Real.log (2 * Real.pi) + 1 with ht
  refine ⟨Real.exp (-t), Real.exp_pos _, ?_⟩
  set e := Real.exp (-t) with he
  have hepos : 0 < e := Real.exp_pos _
  have hdet : ((-e) • (1 : Matrix (Fin p) (Fin p) ℝ)).det = (-e) ^ p := by rw [det_smul]; simp
  have hinv : tryInvert L ((-e) • (1 : Matrix (Fin p) (Fin p) ℝ)) = (-e)⁻¹ • 1 := by
    unfold tryInvert
    rw [if_neg (by rw [hdet]; exact pow_ne_zero _ (neg_ne_zero.2 hepos.ne'))]
    refine inv_eq_right_inv ?_
    rw [smul_mul_smul_comm, Matrix.one_mul, mul_inv_cancel₀ (neg_ne_zero.2 hepos.ne'), one_smul]
  have hld : logAbsDet ((-e)⁻¹ • (1 : Matrix (Fin p) (Fin p) ℝ)) = ((p * t : ℝ) : WithBot ℝ) := by
    unfold logAbsDet
    have : ((-e)⁻¹ • (1 : Matrix (Fin p) (Fin p) ℝ)).det = ((-e)⁻¹) ^ p := by rw [det_smul]; simp
    rw [this, if_neg (pow_ne_zero _ (inv_ne_zero (neg_ne_zero.2 hepos.ne'))), abs_pow, abs_inv, abs_neg, abs_of_pos hepos,
      Real.log_pow, Real.log_inv, he, Real.log_exp, neg_neg]
  unfold logLikelihoodScore gaussLoglik
  simp only [hinv, hld]
  refine ⟨_, ?_, rfl⟩
  rw [lt_div_iff₀ hl]
  have hrow : ∀ x ∈ X, B < (1/2) * (p * t) - (1/2) * mahaRow ((-e)⁻¹ • (1 : Matrix (Fin p) (Fin p) ℝ)) x
      - (1/2) * (Fintype.card (Fin p) : ℝ) * Real.log (2 * Real.pi) := by
    intro x _
    rw [mahaRow_eq, quad_smul, quad_one, Fintype.card_fin]
    have h1 : (-e)⁻¹ * normSq x ≤ 0 :=
      mul_nonpos_of_nonpos_of_nonneg (inv_nonpos.2 (by linarith)) (Finset.sum_nonneg fun i _ => mul_self_nonneg _)
    have h2 : (1/2) * ((p:ℝ) * t) - (1/2) * p * Real.log (2 * Real.pi) = |B| + p / 2 := by
      rw [ht]; field_simp; ring
    have := le_abs_self B
    linarith
  have : ∀ (l : List (Fin p → ℝ)) (f : (Fin p → ℝ) → ℝ), l ≠ [] → (∀ x ∈ l, B < f x) → B * l.length < (l.map f).sum := by
    intro l f
    induction l with
    | nil => intro h; exact absurd rfl h
    | cons a l ih =>
      intro _ h
      have ha := h a (by simp)
      rcases eq_or_ne l [] with rfl | hne
      · simpa using ha
      · have := ih hne fun x hx => h x (by simp [hx])
        simp only [List.map_cons, List.sum_cons, List.length_cons]
        push_cast; linarith
  exact this X _ hx hrow

/-- C56: SteinLoss of a positive-definite estimate against a non-singular sample covariance `S` is
`log det (cov⁻¹ S) - tr (cov⁻¹ S) + p`, never positive. Over all positive semi-definite estimates the score is 0 exactly at `S`. -/
theorem C56_stein_proper (X : List (Fin p → ℝ)) (hpd : PD (covOf X)) (c : Matrix (Fin p) (Fin p) ℝ) (hc : PSD c) :
    (PD c → steinScore L c X = ((Real.log (c⁻¹ * covOf X).det - (c⁻¹ * covOf X).trace + p : ℝ) : WithBot ℝ)) ∧
    steinScore L c X ≤ 0 ∧ (steinScore L c X = 0 ↔ c = covOf X) := by
  have hS := hpd.det_pos
  have key : ∀ c : Matrix (Fin p) (Fin p) ℝ, PD c →
      steinScore L c X = ((Real.log (c⁻¹ * covOf X).det - (c⁻¹ * covOf X).trace + p : ℝ) : WithBot ℝ) := by
    intro c hp
    have hd : 0 < (c⁻¹ * covOf X).det := by rw [det_mul]; exact mul_pos hp.inv.det_pos hS
    unfold steinScore
    simp only [npCov_eq, tryInvert_of_pd L hp, logAbsDet, if_neg hd.ne', abs_of_pos hd]
    show ((_ : ℝ) : WithBot ℝ) = _
    congr 1; ring
  refine ⟨key c, ?_⟩
  by_cases hd : c.det = 0
  · have : steinScore L c X = ⊥ := by
      unfold steinScore
      simp only [npCov_eq, logAbsDet, det_mul, det_tryInvert_zero L hc.1 hd, zero_mul, if_true]
      rfl
    rw [this]
    refine ⟨bot_le, fun h => absurd h.symm WithBot.coe_ne_bot, fun h => ?_⟩
    rw [h] at hd
    exact absurd hd hS.ne'
  · have hp := hc.pd_of_det hd
    have hst := stein hp.inv hpd
    have hl : Real.log (c⁻¹ * covOf X).det = Real.log c⁻¹.det + Real.log (covOf X).det := by
      rw [det_mul, Real.log_mul hp.inv.det_pos.ne' hS.ne']
    have hu : IsUnit (covOf X).det := isUnit_iff_ne_zero.2 hS.ne'
    have huc : IsUnit c.det := isUnit_iff_ne_zero.2 hd
    rw [Fintype.card_fin] at hst
    rw [key c hp, hl, show (0 : WithBot ℝ) = ((0:ℝ) : WithBot ℝ) from rfl, WithBot.coe_le_coe, WithBot.coe_inj]
    refine ⟨by linarith [hst.1], fun h => ?_, fun h => ?_⟩
    · have := congrArg (fun z => z⁻¹) (hst.2 (by linarith))
      simpa [nonsing_inv_nonsing_inv _ hu, nonsing_inv_nonsing_inv _ huc] using this
    · subst h
      rw [nonsing_inv_mul _ hu, trace_one, Fintype.card_fin, ← hl, nonsing_inv_mul _ hu, det_one, Real.log_one]; ring

/-- C56 (violation): with at most as many test rows as variables the sample covariance is singular and SteinLoss is
minus infinity for every estimate, so it cannot compare any two. -/
theorem C56_stein_degenerate (X : List (Fin p → ℝ)) (hx : X ≠ []) (c : Matrix (Fin p) (Fin p) ℝ) :
    ((covOf X).det = 0 → steinScore L c X = ⊥) ∧ (X.length ≤ p → steinScore L c X = ⊥) := by
  have key : (covOf X).det = 0 → steinScore L c X = ⊥ := by
    intro hd
    unfold steinScore
    simp only [npCov_eq, logAbsDet, det_mul, hd, mul_zero, if_true]
    rfl
  refine ⟨key, fun hn => key ?_⟩
  have hu : used false [Call.fit (.batch X)] = X := by simp [used, effective, rowsSinceFit]
  have h := C15_batch (K := ℝ) (ι := Fin p) false [.fit (.batch X)] (by rw [hu]; exact hx)
  have := C18_singular false [.fit (.batch X)] _ h.2.1 (by rw [hu, Fintype.card_fin]; exact hn)
  rw [hu] at this
  exact this.2

-- the hypotheses hold for four rows at the corners of a square: both matrices are the identity
example : PD (secondMoment ([![1, 1], ![1, -1], ![-1, 1], ![-1, -1]] : List (Fin 2 → ℝ))) ∧
    PD (covOf ([![1, 1], ![1, -1], ![-1, 1], ![-1, -1]] : List (Fin 2 → ℝ))) := by
  have e : covOf ([![1, 1], ![1, -1], ![-1, 1], ![-1, -1]] : List (Fin 2 → ℝ)) = 1 := by
    ext i j
    fin_cases i <;> fin_cases j <;> simp [covOf, meanOf] <;> norm_num
  have e' : secondMoment ([![1, 1], ![1, -1], ![-1, 1], ![-1, -1]] : List (Fin 2 → ℝ)) = 1 := by
    ext i j
    fin_cases i <;> fin_cases j <;> simp [secondMoment] <;> norm_num
  rw [e, e']
  exact ⟨pd_one, pd_one⟩

end Precise
