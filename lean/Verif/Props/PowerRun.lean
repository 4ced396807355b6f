import Verif.Props.PowerBlocks
import Mathlib.Analysis.Complex.ExponentialBounds

/-!
# C81: the power experiment `run` of `research/metric_power.py`
-/

set_option linter.all false

open Matrix MeasureTheory ProbabilityTheory

namespace Precise.Power
open Precise Spec Obj

variable {p : ℕ}

/-- A trial with a positive definite truth and positive definite estimates (what `_spd_factor` and `_perturb` draw). -/
def Trial.Ok (t : Trial p) : Prop := PD t.truth ∧ PD t.good ∧ PD t.bad

/-- The gap of the two estimates in exact KL divergence, and the pair (better, worse) (specification). -/
noncomputable def Trial.gap (t : Trial p) : ℝ := |gaussKL t.truth t.good - gaussKL t.truth t.bad|

open Classical in
noncomputable def Trial.better (t : Trial p) : Matrix (Fin p) (Fin p) ℝ :=
  if gaussKL t.truth t.good ≤ gaussKL t.truth t.bad then t.good else t.bad

open Classical in
noncomputable def Trial.worse (t : Trial p) : Matrix (Fin p) (Fin p) ℝ :=
  if gaussKL t.truth t.good ≤ gaussKL t.truth t.bad then t.bad else t.good

theorem kl_gaussKL {S a : Matrix (Fin p) (Fin p) ℝ} (hS : PD S) (ha : PD a) : kl S a = .ok ((gaussKL S a : ℝ) : WithTop ℝ) := by
  rw [kl_pd hS ha]
  unfold gaussKL
  rw [Real.log_div ha.det_pos.ne' hS.det_pos.ne']
  congr 2
  ring

theorem ordered_ok {t : Trial p} (h : t.Ok) : ordered t = .ok ((t.better, t.worse), t.gap) := by
  unfold ordered
  rw [kl_gaussKL h.1 h.2.1, kl_gaussKL h.1 h.2.2]
  simp only [bind, Except.bind, pure, Except.pure, WithTop.coe_le_coe, WithTop.untopD_coe]
  unfold Trial.better Trial.worse Trial.gap
  congr 2
  split <;> rfl

theorem better_kl (t : Trial p) : gaussKL t.truth t.better ≤ gaussKL t.truth t.worse ∧
    gaussKL t.truth t.worse - gaussKL t.truth t.better = t.gap := by
  unfold Trial.better Trial.worse Trial.gap
  split
  · rename_i h; exact ⟨h, by rw [abs_sub_comm, abs_of_nonneg (by linarith)]⟩
  · rename_i h; push Not at h; exact ⟨h.le, by rw [abs_of_nonneg (by linarith)]⟩

theorem better_pd {t : Trial p} (h : t.Ok) : PD t.better ∧ PD t.worse := by
  unfold Trial.better Trial.worse
  split
  · exact ⟨h.2.1, h.2.2⟩
  · exact ⟨h.2.2, h.2.1⟩

theorem tally_ok (fn : Judge p) (n : ℕ) (g : ℝ) (s : Matrix (Fin p) (Fin p) ℝ → Trial p → WithBot ℝ) (ts : List (Trial p))
    (h : ∀ t ∈ ts, t.Ok) (hs : ∀ t ∈ ts, ∀ c, PD c → fn c (t.pool.take n) t.dirs = .ok (s c t)) :
    open Classical in tally fn n g ts = .ok ((ts.filter fun t => decide (g ≤ t.gap ∧ s t.worse t < s t.better t)).length,
      (ts.filter fun t => decide (g ≤ t.gap)).length) := by
  induction ts with
  | nil => rfl
  | cons t ts ih =>
    have ih := ih (fun u hu => h u (by simp [hu])) fun u hu => hs u (by simp [hu])
    have hb := better_pd (h t (by simp))
    unfold tally
    rw [ordered_ok (h t (by simp))]
    simp only [bind, Except.bind, pure, Except.pure]
    by_cases hg : t.gap < g
    · rw [if_pos hg, ih]
      simp [List.filter_cons, not_le.2 hg]
    · rw [if_neg hg, hs t (by simp) _ hb.1, hs t (by simp) _ hb.2, ih]
      simp only [List.filter_cons, decide_eq_true_eq]
      rw [if_pos (not_lt.1 hg)]
      simp only [not_lt.1 hg, true_and]
      split <;> simp [*]

/-- C81: what the experiment reports. For positive definite trials and a judge that returns a number on every positive definite
estimate, the entry of the power table is the fraction, among the trials whose KL gap is at least `min_gap`, of those where the judge
scores the better estimate strictly higher; it raises ZeroDivisionError exactly when no trial reaches the gap. -/
theorem C81_power (fn : Judge p) (n : ℕ) (g : ℝ) (s : Matrix (Fin p) (Fin p) ℝ → Trial p → WithBot ℝ) (ts : List (Trial p))
    (h : ∀ t ∈ ts, t.Ok) (hs : ∀ t ∈ ts, ∀ c, PD c → fn c (t.pool.take n) t.dirs = .ok (s c t)) :
    open Classical in
    let counted := ts.filter fun t => decide (g ≤ t.gap);
    (counted = [] → power fn n g ts = .error .zeroDivision) ∧
    (counted ≠ [] → power fn n g ts = .ok (((counted.filter fun t => decide (s t.worse t < s t.better t)).length : ℝ) / counted.length)) := by
  classical
  simp only []
  have e : tally fn n g ts = .ok ((ts.filter fun t => decide (g ≤ t.gap ∧ s t.worse t < s t.better t)).length,
      (ts.filter fun t => decide (g ≤ t.gap)).length) := by convert tally_ok fn n g s ts h hs
  have hf : (ts.filter fun t => decide (g ≤ t.gap ∧ s t.worse t < s t.better t)) =
      (ts.filter fun t => decide (g ≤ t.gap)).filter fun t => decide (s t.worse t < s t.better t) := by
    rw [List.filter_filter]
    congr 1
    funext t
    simp [Bool.decide_and, Bool.and_comm]
  unfold power
  refine ⟨fun h0 => ?_, fun h0 => ?_⟩
  · rw [e]
    have : (ts.filter fun t => decide (g ≤ t.gap)).length = 0 := by rw [h0]; rfl
    simp only [bind, Except.bind, this, if_true]
  · rw [e, hf]
    have : (ts.filter fun t => decide (g ≤ t.gap)).length ≠ 0 := fun h1 => h0 (List.length_eq_zero_iff.1 h1)
    simp only [bind, Except.bind, pure, Except.pure, if_neg this]

/-- C81: a reported power is always between 0 and 1, whatever the judge and the trials. -/
theorem C81_power_range (fn : Judge p) (n : ℕ) (g : ℝ) (ts : List (Trial p)) (v : ℝ) (h : power fn n g ts = .ok v) : 0 ≤ v ∧ v ≤ 1 := by
  have key : ∀ ts : List (Trial p), ∀ c k, tally fn n g ts = .ok (c, k) → c ≤ k := by
    intro ts
    induction ts with
    | nil => intro c k e; cases e; exact le_rfl
    | cons t ts ih =>
      intro c k e
      unfold tally at e
      cases ho : ordered t with
      | error x => rw [ho] at e; cases e
      | ok ab =>
        rw [ho] at e
        simp only [bind, Except.bind, pure, Except.pure] at e
        split at e
        · exact ih c k e
        · cases h1 : fn ab.1.1 (t.pool.take n) t.dirs with
          | error x => rw [h1] at e; cases e
          | ok sa =>
            rw [h1] at e
            cases h2 : fn ab.1.2 (t.pool.take n) t.dirs with
            | error x => rw [h2] at e; cases e
            | ok sb =>
              rw [h2] at e
              cases h3 : tally fn n g ts with
              | error x => rw [h3] at e; cases e
              | ok ck =>
                rw [h3] at e
                have := ih ck.1 ck.2 h3
                simp only [Except.ok.injEq, Prod.mk.injEq] at e
                obtain ⟨e1, e2⟩ := e
                split at e1 <;> omega
  unfold power at h
  cases ht : tally fn n g ts with
  | error x => rw [ht] at h; cases h
  | ok ck =>
    rw [ht] at h
    simp only [bind, Except.bind, pure, Except.pure] at h
    have := key ts ck.1 ck.2 ht
    split at h
    · cases h
    · rename_i hk
      have hk' : (0:ℝ) < ck.2 := by exact_mod_cast Nat.pos_of_ne_zero hk
      cases h
      exact ⟨by positivity, (div_le_one hk').2 (by exact_mod_cast this)⟩

/-- C81 (finding): with `n ≤ p` test rows the Stein judge has power exactly 0, not the 1/2 of a coin. -/
theorem C81_stein_zero (n : ℕ) (g : ℝ) (ts : List (Trial p)) (hn : 1 ≤ n) (hnp : n ≤ p) (h : ∀ t ∈ ts, t.Ok) (hpool : ∀ t ∈ ts, t.pool ≠ [])
    (hc : ∃ t ∈ ts, g ≤ t.gap) : ∀ fn, ("stein", fn) ∈ metrics p → power fn n g ts = .ok 0 := by
  intro fn hfn
  have : fn = fun cov X _ => stein cov X := by simpa [metrics] using hfn
  rw [this]
  have hp := (C81_power (fun cov X _ => stein cov X) n g (fun _ _ => ⊥) ts h fun t ht c hc => ?_).2 ?_
  · rw [hp]
    simp
  rotate_left 1
  · intro h0
    obtain ⟨t, ht, hg⟩ := hc
    have : t ∈ ts.filter fun t => decide (g ≤ t.gap) := List.mem_filter.2 ⟨ht, by simpa using hg⟩
    rw [h0] at this
    cases this
  · refine (C80_stein (t.pool.take n) ?_).2.2 ?_ c hc.det_pos.ne'
    · have := List.length_pos_iff.2 (hpool t ht)
      refine List.length_pos_iff.1 ?_
      rw [List.length_take]; omega
    · rw [List.length_take]; omega

/-- C81: when the test rows of every trial have exactly the truth's second moments, the log-likelihood judge makes no mistake. -/
theorem C81_loglik_one (n : ℕ) (g : ℝ) (hg : 0 < g) (ts : List (Trial p)) (h : ∀ t ∈ ts, t.Ok) (hpool : ∀ t ∈ ts, t.pool.take n ≠ [])
    (hm : ∀ t ∈ ts, secondMoment (t.pool.take n) = t.truth) (hc : ∃ t ∈ ts, g ≤ t.gap) :
    ∀ fn, ("loglik", fn) ∈ metrics p → power fn n g ts = .ok 1 := by
  intro fn hfn
  have : fn = fun cov X _ => Except.map (WithBot.some : ℝ → WithBot ℝ) (loglik cov X) := by simpa [metrics] using hfn
  rw [this]
  have hp := (C81_power (fun cov X _ => Except.map (WithBot.some : ℝ → WithBot ℝ) (loglik cov X)) n g
    (fun c t => ((-(1/2) * (c⁻¹ * secondMoment (t.pool.take n)).trace - (1/2) * Real.log c.det : ℝ) : WithBot ℝ)) ts h fun t ht c hc => ?_).2 ?_
  · rw [hp, List.filter_eq_self.2]
    · have : (ts.filter fun t => decide (g ≤ t.gap)).length ≠ 0 := by
        obtain ⟨t, ht, hg⟩ := hc
        exact (List.length_pos_of_mem (List.mem_filter.2 ⟨ht, by simpa using hg⟩ : t ∈ ts.filter fun t => decide (g ≤ t.gap))).ne'
      rw [div_self (by exact_mod_cast this)]
    · intro t ht
      obtain ⟨ht, hgt⟩ := List.mem_filter.1 ht
      have hgt : g ≤ t.gap := by simpa using hgt
      rw [decide_eq_true_eq, WithBot.coe_lt_coe, hm t ht]
      have := (better_kl t).2
      unfold gaussKL at this
      have hb := better_pd (h t ht)
      have hS := (h t ht).1
      rw [Real.log_div hb.1.det_pos.ne' hS.det_pos.ne', Real.log_div hb.2.det_pos.ne' hS.det_pos.ne'] at this
      linarith
  rotate_left 1
  · intro h0
    obtain ⟨t, ht, hg⟩ := hc
    have : t ∈ ts.filter fun t => decide (g ≤ t.gap) := List.mem_filter.2 ⟨ht, by simpa using hg⟩
    rw [h0] at this
    cases this
  · show Except.map _ (loglik c (t.pool.take n)) = _
    rw [loglik_pd hc _ (hpool t ht)]
    rfl

/-- C81: the six columns of the power table are the six judges their names say. For a positive definite estimate `c`, test rows `xs` with
a positive definite sample covariance `S`, and directions `dirs`: the mean Gaussian log-density without its constant, minus the
Frobenius distance to `S`, minus Stein's loss against `S`, the mean log-density of the projections, minus the mean squared return of
the minimum-variance portfolio, and minus the distance of the mean squared Mahalanobis norm to `p`. -/
theorem C81_metrics (hp : 1 ≤ p) (c : Matrix (Fin p) (Fin p) ℝ) (hc : PD c) (xs dirs : List (Fin p → ℝ)) (hS : PD (covOf xs)) :
    (metrics p).map Prod.fst = ["loglik", "frobenius", "stein", "random_proj", "min_variance", "maha_calib"] ∧
    ∀ fn : Judge p,
      (("loglik", fn) ∈ metrics p →
        fn c xs dirs = .ok (((xs.map fun x => -(1/2) * Real.log c.det - (1/2) * quad c⁻¹ x).sum / xs.length : ℝ) : WithBot ℝ)) ∧
      (("frobenius", fn) ∈ metrics p →
        fn c xs dirs = .ok ((-Real.sqrt (∑ i, ∑ j, (c i j - covOf xs i j) ^ 2) : ℝ) : WithBot ℝ)) ∧
      (("stein", fn) ∈ metrics p →
        fn c xs dirs = .ok ((-((c⁻¹ * covOf xs).trace - Real.log ((covOf xs).det / c.det) - p) : ℝ) : WithBot ℝ)) ∧
      (("random_proj", fn) ∈ metrics p →
        fn c xs dirs = .ok (((xs.map fun x => (dirs.map fun d => -(1/2) * Real.log (quad c d) - (1/2) * (x ⬝ᵥ d) ^ 2 / quad c d).sum).sum
          / (xs.length * dirs.length) : ℝ) : WithBot ℝ)) ∧
      (("min_variance", fn) ∈ metrics p → ∃ w : Fin p → ℝ, ∑ i, w i = 1 ∧ (∀ v : Fin p → ℝ, ∑ i, v i = 1 → quad c w ≤ quad c v) ∧
        fn c xs dirs = .ok ((-((xs.map fun x => (x ⬝ᵥ w) ^ 2).sum / xs.length) : ℝ) : WithBot ℝ)) ∧
      (("maha_calib", fn) ∈ metrics p →
        fn c xs dirs = .ok ((-|(xs.map fun x => quad c⁻¹ x).sum / xs.length - p| : ℝ) : WithBot ℝ)) := by
  have hd := hc.det_pos
  refine ⟨rfl, fun fn => ⟨fun h => ?_, fun h => ?_, fun h => ?_, fun h => ?_, fun h => ?_, fun h => ?_⟩⟩
  · obtain rfl : fn = fun cov X _ => Except.map (WithBot.some : ℝ → WithBot ℝ) (loglik cov X) := by simpa [metrics] using h
    beta_reduce
    unfold loglik
    rw [if_neg hd.ne']
    simp only [Except.map, mahaRow_eq, det_nonsing_inv, Ring.inverse_eq_inv', abs_of_pos (inv_pos.2 hd), Real.log_inv]
    congr 5
    funext x
    ring
  · obtain rfl : fn = fun cov X _ => .ok (frobenius cov X : ℝ) := by simpa [metrics] using h
    beta_reduce
    unfold frobenius frobNorm
    rw [npCov_eq]
    simp only [Matrix.sub_apply, pow_two]
  · obtain rfl : fn = fun cov X _ => stein cov X := by simpa [metrics] using h
    beta_reduce
    unfold stein
    rw [if_neg hd.ne', npCov_eq]
    simp only [Obj.logAbsDet]
    have e : (c⁻¹ * covOf xs).det = (covOf xs).det / c.det := by
      rw [det_mul, det_nonsing_inv, Ring.inverse_eq_inv']; field_simp
    have h0 : 0 < (covOf xs).det / c.det := div_pos hS.det_pos hd
    rw [if_neg (by rw [e]; exact h0.ne'), e, abs_of_pos h0]
    rfl
  · obtain rfl : fn = fun cov X dirs => .ok (randomProjection cov X dirs : ℝ) := by simpa [metrics] using h
    have hq : ∀ d : Fin p → ℝ, (∑ i, ∑ j, d i * c i j * d j) = quad c d := fun d => by
      simp only [quad, dotProduct, mulVec, Finset.mul_sum]
      exact Finset.sum_congr rfl fun i _ => Finset.sum_congr rfl fun j _ => by ring
    simp only [randomProjection, hq, dotProduct]
  · obtain rfl : fn = fun cov X _ => Except.map (WithBot.some : ℝ → WithBot ℝ) (minVariance cov X) := by simpa [metrics] using h
    obtain ⟨w, h1, h2, h3⟩ := C80_min_variance hp c hc xs
    refine ⟨w, h1, fun v hv => (h2 v hv).1, ?_⟩
    beta_reduce
    rw [h3]
    rfl
  · obtain rfl : fn = fun cov X _ => Except.map (WithBot.some : ℝ → WithBot ℝ) (mahalanobisCal cov X) := by simpa [metrics] using h
    beta_reduce
    unfold mahalanobisCal
    rw [if_neg hd.ne']
    simp only [mahaRow_eq, Fintype.card_fin]
    rfl

/-! ### Non-vacuity -/

/-- For every positive semi-definite `S` there are random rows with second moments `S`: any number of copies of a normal vector. -/
theorem gaussian_rows (n : ℕ) {S : Matrix (Fin p) (Fin p) ℝ} (hS : PSD S) :
    TestRows (multivariateGaussian (0 : EuclideanSpace ℝ (Fin p)) S) (fun (_ : Fin n) ω => ω.ofLp) S :=
  ⟨fun _ i j => int_prod i j, fun _ i j => moment_coord hS i j⟩

theorem demo_pd_one (k : ℝ) (hk : 0 < k) : PD (k • (1 : Matrix (Fin 2) (Fin 2) ℝ)) :=
  ⟨symm_one.smul k, fun x hx => by rw [quad_smul, quad_one]; exact mul_pos hk (normSq_pos hx)⟩

/-- A trial: truth `I`, estimates `I` and `2 I`, four test rows with second moments exactly `I`. -/
noncomputable def demoTrial : Trial 2 :=
  { truth := 1, good := 1, bad := (2 : ℝ) • 1, dirs := [], pool := [![1, 1], ![1, -1], ![-1, 1], ![-1, -1]] }

theorem demoTrial_ok : demoTrial.Ok :=
  ⟨by simpa [demoTrial] using demo_pd_one 1 one_pos, by simpa [demoTrial] using demo_pd_one 1 one_pos, demo_pd_one 2 two_pos⟩

theorem demoTrial_gap : (2 / 100 : ℝ) ≤ demoTrial.gap := by
  have h2 : ((2 : ℝ) • (1 : Matrix (Fin 2) (Fin 2) ℝ))⁻¹ = (1 / 2 : ℝ) • 1 := by
    refine inv_eq_left_inv ?_
    rw [smul_mul_smul_comm, Matrix.mul_one]; norm_num
  have e1 : gaussKL (1 : Matrix (Fin 2) (Fin 2) ℝ) 1 = 0 := by simp [gaussKL]
  have e2 : gaussKL (1 : Matrix (Fin 2) (Fin 2) ℝ) ((2 : ℝ) • 1) = (1/2) * (-1 + Real.log 4) := by
    unfold gaussKL
    rw [h2]
    simp [det_smul]
    rw [show (4:ℝ) = 2 ^ 2 by norm_num, Real.log_pow]
    norm_num
  have hl : (1.386 : ℝ) < Real.log 4 := by
    rw [show (4:ℝ) = 2 ^ 2 by norm_num, Real.log_pow]
    have := Real.log_two_gt_d9
    norm_num
    linarith
  unfold Trial.gap
  simp only [demoTrial]
  rw [e1, e2, zero_sub, abs_neg, abs_of_pos (by linarith)]
  linarith

/-- Non-vacuity of C81: on this trial the log-likelihood judge has power 1, and the Stein judge with two rows has power 0. -/
example : (∀ fn, ("loglik", fn) ∈ metrics 2 → power fn 4 (2 / 100) [demoTrial] = .ok 1) ∧
    (∀ fn, ("stein", fn) ∈ metrics 2 → power fn 2 (2 / 100) [demoTrial] = .ok 0) := by
  have hok : ∀ t ∈ [demoTrial], t.Ok := fun t ht => by rw [List.mem_singleton.1 ht]; exact demoTrial_ok
  constructor
  · refine C81_loglik_one 4 _ (by norm_num) _ hok (fun t ht => ?_) (fun t ht => ?_) ⟨_, List.mem_singleton.2 rfl, demoTrial_gap⟩
    · rw [List.mem_singleton.1 ht]; simp [demoTrial]
    · rw [List.mem_singleton.1 ht]
      ext i j
      fin_cases i <;> fin_cases j <;> simp [demoTrial, secondMoment] <;> norm_num
  · refine C81_stein_zero 2 _ _ (by norm_num) le_rfl hok (fun t ht => ?_) ⟨_, List.mem_singleton.2 rfl, demoTrial_gap⟩
    rw [List.mem_singleton.1 ht]; simp [demoTrial]

/-- Non-vacuity of `C81_metrics`: the four rows of the demonstration trial have a positive definite sample covariance, so the six judges
score the estimate `2 I` on them; the Frobenius one returns minus the distance to `I`. -/
example : PD (covOf demoTrial.pool) ∧ ∀ fn, ("frobenius", fn) ∈ metrics 2 →
    fn ((2 : ℝ) • 1) demoTrial.pool [] = .ok ((-Real.sqrt 2 : ℝ) : WithBot ℝ) := by
  have e : covOf demoTrial.pool = (1 : ℝ) • (1 : Matrix (Fin 2) (Fin 2) ℝ) := by
    ext i j
    fin_cases i <;> fin_cases j <;> simp [demoTrial, covOf, meanOf, Fin.sum_univ_succ] <;> norm_num
  have h : PD (covOf demoTrial.pool) := by rw [e]; exact demo_pd_one _ (by norm_num)
  refine ⟨h, fun fn hfn => ?_⟩
  rw [((C81_metrics (by norm_num) _ (demo_pd_one 2 two_pos) demoTrial.pool [] h).2 fn).2.1 hfn, e]
  congr 4
  simp [Fin.sum_univ_succ]
  norm_num

/-- Non-vacuity of C80: ten normal test rows; the identity against its double, as judged on average. -/
example (f g : EuclideanSpace ℝ (Fin 2) → ℝ)
    (hf : ∀ ω, loglik ((2 : ℝ) • 1) (rows (fun (_ : Fin 10) (ω : EuclideanSpace ℝ (Fin 2)) => ω.ofLp) ω) = .ok (f ω))
    (hg : ∀ ω, loglik 1 (rows (fun (_ : Fin 10) (ω : EuclideanSpace ℝ (Fin 2)) => ω.ofLp) ω) = .ok (g ω)) :
    ∫ ω, f ω ∂(multivariateGaussian (0 : EuclideanSpace ℝ (Fin 2)) 1) < ∫ ω, g ω ∂(multivariateGaussian (0 : EuclideanSpace ℝ (Fin 2)) 1) := by
  have h1 : PD (1 : Matrix (Fin 2) (Fin 2) ℝ) := by simpa using demo_pd_one 1 one_pos
  obtain ⟨-, -, ka, kb, e1, e2, -, hlt⟩ := C80_loglik_orders_by_kl (gaussian_rows 10 h1.psd) (by norm_num) h1 h1 (demo_pd_one 2 two_pos) g f hg hf
  obtain ⟨k, ek, -, hz⟩ := C80_kl h1 h1
  obtain ⟨k', ek', h0, hz'⟩ := C80_kl h1 (demo_pd_one 2 two_pos)
  refine hlt.2 ?_
  have a1 : ka = k := by have := Except.ok.inj (e1.symm.trans ek); exact_mod_cast this
  have a2 : kb = k' := by have := Except.ok.inj (e2.symm.trans ek'); exact_mod_cast this
  rw [a1, a2, hz.2 rfl]
  refine lt_of_le_of_ne h0 fun h => ?_
  have := hz'.1 h.symm
  have := congrFun (congrFun this 0) 0
  norm_num at this

/-- Non-vacuity of `C80_projection_blind`: two directions in the plane cannot tell all covariances apart. -/
example : ∃ a : Matrix (Fin 2) (Fin 2) ℝ, PD a ∧ a ≠ 1 ∧ ∀ xs, randomProjection a xs [![1, 0], ![0, 1]] = randomProjection 1 xs [![1, 0], ![0, 1]] :=
  C80_projection_blind 1 (by simpa using demo_pd_one 1 one_pos) _ (by simp)

end Precise.Power
