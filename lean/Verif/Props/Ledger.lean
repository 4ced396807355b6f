import Verif.Spec.Ledger
import Verif.Props.Calibration
import Verif.Props.Portfolio
import Verif.Props.Bounded
import Verif.Props.Emp

/-!
# C137: the surprise ledger
-/

set_option linter.all false

open Matrix

namespace Precise

open Spec Obj

variable {ι : Type} [Fintype ι] [DecidableEq ι]

/-- the determinant after a rank-one update -/
theorem det_rank_one (L : Lapack) {c : Matrix ι ι ℝ} (hc : PD c) (α g : ℝ) (e : ι → ℝ) :
    (α • (c + g • outer e e)).det = α ^ Fintype.card ι * c.det * (1 + g * quad (tryInvert L c) e) := by
  have h : g • outer e e = replicateCol Unit (g • e) * replicateRow Unit e := by
    ext i j
    simp [outer, Matrix.mul_apply, mul_assoc]
  have h2 : (1 + replicateRow Unit e * c⁻¹ * replicateCol Unit (g • e)).det = 1 + g * quad c⁻¹ e := by
    rw [det_unique, Matrix.add_apply, Matrix.one_apply_eq, Matrix.mul_assoc, Matrix.mul_apply]
    congr 1
    simp only [replicateRow_apply, Matrix.mul_apply, replicateCol_apply, Pi.smul_apply, smul_eq_mul, quad, dotProduct, mulVec, Finset.mul_sum]
    exact Finset.sum_congr rfl fun i _ => Finset.sum_congr rfl fun j _ => by ring
  rw [det_smul, h, det_add_replicateCol_mul_replicateRow (isUnit_iff_ne_zero.2 hc.det_pos.ne'), h2, tryInvert_of_pd L hc, mul_assoc]

theorem ledger_of_fold (L : Lapack) {C : Cls ι ℝ} (hC : Lawful C) (p : C.Param) {n0 : ℕ} (hn : 0 < n0) {decay gain : ℕ → ℝ}
    (S : List (ι → ℝ) → EmpState ι ℝ)
    (hcov : ∀ calls, used (C.diff p) calls ≠ [] → ((new C p).run calls).covariance = .ok (S (used (C.diff p) calls)).cov)
    (hloc : ∀ calls, used (C.diff p) calls ≠ [] → ((new C p).run calls).location = .ok (S (used (C.diff p) calls)).mean)
    (hd : ∀ N, n0 ≤ N → 0 < decay N) (hg : ∀ N, n0 ≤ N → 0 ≤ gain N)
    (h : ∀ (xs : List (ι → ℝ)) (x : ι → ℝ), n0 ≤ xs.length →
      (S (xs ++ [x])).cov = decay xs.length • ((S xs).cov + gain xs.length • outer (x - (S xs).mean) (x - (S xs).mean))) :
    SurpriseLedger L C p n0 decay gain := by
  intro a x calls ha hu c0 hc0 hpd0
  have hne : ∀ k, used (C.diff p) (calls k) ≠ [] := by
    intro k e
    rw [hu] at e
    have := congrArg List.length e
    rw [List.length_append, List.length_nil] at this; omega
  have hlen : ∀ k, (a ++ firstRows k x).length = a.length + k := by intro k; simp [firstRows]
  have hstep : ∀ k, (S (a ++ firstRows (k + 1) x)).cov = decay (a.length + k) • ((S (a ++ firstRows k x)).cov +
      gain (a.length + k) • outer (x k - (S (a ++ firstRows k x)).mean) (x k - (S (a ++ firstRows k x)).mean)) := by
    intro k
    rw [firstRows_succ, ← List.append_assoc, h _ _ (by rw [hlen]; omega), hlen]
  have hpd : ∀ k, PD (S (a ++ firstRows k x)).cov := by
    intro k
    induction k with
    | zero =>
      rw [hcov _ (hne 0), hu] at hc0
      rw [Except.ok.inj hc0]; exact hpd0
    | succ k ih =>
      rw [hstep]
      exact (ih.add_psd ((psd_outer _).smul (hg _ (by omega)))).smul (hd _ (by omega))
  have hcovk : ∀ k, ((new C p).run (calls k)).covariance = .ok (S (a ++ firstRows k x)).cov := fun k => by rw [hcov _ (hne k), hu]
  have hlock : ∀ k, ((new C p).run (calls k)).location = .ok (S (a ++ firstRows k x)).mean := fun k => by rw [hloc _ (hne k), hu]
  have hD0 : ∀ k, 0 ≤ quad (tryInvert L (S (a ++ firstRows k x)).cov) (x k - (S (a ++ firstRows k x)).mean) := fun k =>
    (tryInvert_psd L (hpd k).psd).2 _
  have hdet : ∀ k, (S (a ++ firstRows (k + 1) x)).cov.det = decay (a.length + k) ^ Fintype.card ι * (S (a ++ firstRows k x)).cov.det *
      (1 + gain (a.length + k) * quad (tryInvert L (S (a ++ firstRows k x)).cov) (x k - (S (a ++ firstRows k x)).mean)) := fun k => by
    rw [hstep, det_rank_one L (hpd k)]
  refine ⟨fun k => (S (a ++ firstRows k x)).cov, fun k => quad (tryInvert L (S (a ++ firstRows k x)).cov) (x k - (S (a ++ firstRows k x)).mean),
    hcovk, hpd, fun k => ?_, hD0, hdet, fun n => ?_⟩
  · have hrow : ((new C p).run (calls k)).mahalanobis L (.row (x k)) = ((new C p).run (calls k)).mahalanobis L (.batch [x k]) := rfl
    rw [hrow, maha_eq L _ _ _ (hcovk k) (hlock k)]; rfl
  · induction n with
    | zero => simp
    | succ n ih =>
      rw [Finset.sum_range_succ, Finset.sum_range_succ, ih]
      have h1 : 0 < decay (a.length + n) ^ Fintype.card ι := pow_pos (hd _ (by omega)) _
      have h2 := (hpd n).det_pos
      have h3 := mul_nonneg (hg (a.length + n) (by omega)) (hD0 n)
      have e := congrArg Real.log (hdet n)
      rw [Real.log_mul (mul_pos h1 h2).ne' (by linarith), Real.log_mul h1.ne' h2.ne', Real.log_pow] at e
      dsimp only
      linarith

/-- C137: EwaCovariance after its burn-in: decay `1 - r`, gain `r / (1 - r)`. -/
theorem C137_ewa (L : Lapack) (p : RParam ℝ) (h0 : 0 ≤ p.r) (h1 : p.r < 1) :
    SurpriseLedger L (ewaCls ι ℝ) p (ewaBurnN p.r) (fun _ => 1 - p.r) fun _ => p.r / (1 - p.r) := by
  have h2 : 0 < 1 - p.r := by linarith
  refine ledger_of_fold L (ewa_lawful ι ℝ) p (calib_burn_pos _) (fun xs => (ewaFold p.r xs).toEmpState) (fun calls h => (ewa_attrs p calls h).2)
    (fun calls h => (ewa_attrs p calls h).1) (fun _ _ => h2) (fun _ _ => by positivity) fun xs x h => ?_
  rw [ewaFold_snoc, ewa_step h]
  show (1 - p.r) • (ewaFold p.r xs).cov + p.r • outer (x - (ewaFold p.r xs).mean) (x - (ewaFold p.r xs).mean) = _
  rw [smul_add, smul_smul, mul_div_cancel₀ _ h2.ne']

/-- C137: EmpiricalCovariance: before the observation after `N` others: decay `N / (N + 1)`, gain `1 / (N + 1)`. -/
theorem C137_empirical (L : Lapack) (d : Bool) :
    SurpriseLedger L (empiricalCls ι ℝ) d 1 (fun N => (N : ℝ) / (N + 1)) fun N => 1 / ((N : ℝ) + 1) := by
  refine ledger_of_fold L (empirical_lawful ι ℝ) d one_pos (fun xs => empFold xs)
    (fun calls h => by rw [(C15_batch d calls h).2.1, empFold_cov h]; rfl) (fun calls h => by rw [(C15_batch d calls h).1, empFold_mean h]; rfl)
    (fun N hN => by have : (0:ℝ) < N := by exact_mod_cast hN
                    positivity) (fun N _ => by positivity) fun xs x h => ?_
  have hN : (0:ℝ) < xs.length := by exact_mod_cast h
  rw [empFold_snoc, empUpdate_cov, empFold_n, smul_add, smul_smul]
  congr 2
  field_simp

/-- the volume is at most that of a ball with the same total variance -/
theorem log_det_le_trace [Nonempty ι] {c : Matrix ι ι ℝ} (h : PD c) {T : ℝ} (hT : c.trace ≤ T) :
    Real.log c.det ≤ (Fintype.card ι : ℝ) * Real.log (T / (Fintype.card ι : ℝ)) := by
  have hq : (0:ℝ) < Fintype.card ι := card_pos'
  have hpos : 0 < c.trace := Finset.sum_pos (fun i _ => h.diag_pos i) Finset.univ_nonempty
  have hT0 : 0 < T := lt_of_lt_of_le hpos hT
  have hk : 0 < (Fintype.card ι : ℝ) / T := by positivity
  have h1 := (log_det_le (h.smul hk)).1
  rw [det_smul, trace_smul, smul_eq_mul, Real.log_mul (pow_pos hk _).ne' h.det_pos.ne', Real.log_pow] at h1
  have h2 : (Fintype.card ι : ℝ) / T * c.trace ≤ (Fintype.card ι : ℝ) := by
    rw [div_mul_eq_mul_div, div_le_iff₀ hT0]
    exact mul_le_mul_of_nonneg_left hT hq.le
  have h3 : Real.log ((Fintype.card ι : ℝ) / T) = -Real.log (T / (Fintype.card ι : ℝ)) := by rw [← Real.log_inv, inv_div]
  rw [h3] at h1
  linarith

/-- C137: so distances cannot stay large: as long as the total variance reported stays below `T`, the surprises of the first `n` observations add up to at most a
constant plus what decay takes, and the distances of at least `δ` are at most that over `log (1 + gain δ)`. Here EwaCovariance, whatever the stream. -/
theorem C137_ewa_alarms [Nonempty ι] (L : Lapack) (p : RParam ℝ) (h0 : 0 < p.r) (h1 : p.r < 1) (a : List (ι → ℝ)) (x : ℕ → ι → ℝ) (calls : ℕ → List (Call ι ℝ))
    (ha : ewaBurnN p.r ≤ a.length) (hu : ∀ k, used p.diff (calls k) = a ++ firstRows k x) (c0 : Matrix ι ι ℝ)
    (hc0 : ((new (ewaCls ι ℝ) p).run (calls 0)).covariance = .ok c0) (hpd : PD c0) (B : ℝ) (ha' : ∀ y ∈ a, ∀ i, |y i| ≤ B) (hx : ∀ t i, |x t i| ≤ B) :
    ∃ D : ℕ → ℝ, (∀ k, ((new (ewaCls ι ℝ) p).run (calls k)).mahalanobis L (.row (x k)) = .ok [D k]) ∧ ∀ n,
      ∑ t ∈ Finset.range n, Real.log (1 + p.r / (1 - p.r) * D t) ≤
        (Fintype.card ι : ℝ) * Real.log (4 * B ^ 2) - Real.log c0.det + n * ((Fintype.card ι : ℝ) * Real.log (1 / (1 - p.r))) ∧
      ∀ δ, 0 < δ → (((Finset.range n).filter fun t => δ ≤ D t).card : ℝ) * Real.log (1 + p.r / (1 - p.r) * δ) ≤
        (Fintype.card ι : ℝ) * Real.log (4 * B ^ 2) - Real.log c0.det + n * ((Fintype.card ι : ℝ) * Real.log (1 / (1 - p.r))) := by
  obtain ⟨c, D, hc, hp, hD, hD0, _, hsum⟩ := C137_ewa L p h0.le h1 a x calls ha hu c0 hc0 hpd
  have hq : (0:ℝ) < Fintype.card ι := card_pos'
  have hg : 0 < p.r / (1 - p.r) := div_pos h0 (by linarith)
  have hB : 0 ≤ B := (abs_nonneg _).trans (hx 0 (Classical.arbitrary ι))
  have e0 : c 0 = c0 := by rw [hc 0] at hc0; exact Except.ok.inj hc0
  have key : ∀ n, ∑ t ∈ Finset.range n, Real.log (1 + p.r / (1 - p.r) * D t) ≤
        (Fintype.card ι : ℝ) * Real.log (4 * B ^ 2) - Real.log c0.det + n * ((Fintype.card ι : ℝ) * Real.log (1 / (1 - p.r))) := by
    intro n
    rw [hsum n, e0, Finset.sum_const, Finset.card_range, nsmul_eq_mul, one_div, Real.log_inv]
    have htr : (c n).trace ≤ (Fintype.card ι : ℝ) * (4 * B ^ 2) := by
      have hb : ∀ i, (c n) i i ≤ 4 * B ^ 2 := fun i => (le_abs_self _).trans (C95_ewa p h0.le h1.le (calls n) B hB (by
        intro y hy
        rw [hu, List.mem_append] at hy
        rcases hy with hy | hy
        · exact ha' y hy
        · obtain ⟨t, _, rfl⟩ := List.mem_map.1 hy
          exact hx t) _ (hc n) i i)
      refine (Finset.sum_le_sum fun i _ => hb i).trans (le_of_eq ?_)
      rw [Finset.sum_const, Finset.card_univ, nsmul_eq_mul]
    have hl := log_det_le_trace (hp n) htr
    rw [mul_div_cancel_left₀ _ hq.ne'] at hl
    linarith
  refine ⟨D, hD, fun n => ⟨key n, fun δ hδ => (le_trans ?_ (key n))⟩⟩
  rw [← nsmul_eq_mul]
  refine (Finset.card_nsmul_le_sum _ _ _ fun t ht => ?_).trans (Finset.sum_le_sum_of_subset_of_nonneg (Finset.filter_subset _ _) fun t _ _ => ?_)
  · have := (Finset.mem_filter.1 ht).2
    exact Real.log_le_log (by positivity) (by nlinarith)
  · exact Real.log_nonneg (by have := mul_nonneg hg.le (hD0 t); linarith)

/-- C137: EmpiricalCovariance: the surprises `log (1 + D / (N + 1))` add up to at most a constant plus `n` columns times the logarithm of the number of observations. -/
theorem C137_empirical_alarms [Nonempty ι] (L : Lapack) (d : Bool) (a : List (ι → ℝ)) (x : ℕ → ι → ℝ) (calls : ℕ → List (Call ι ℝ))
    (ha : a ≠ []) (hu : ∀ k, used d (calls k) = a ++ firstRows k x) (c0 : Matrix ι ι ℝ)
    (hc0 : ((new (empiricalCls ι ℝ) d).run (calls 0)).covariance = .ok c0) (hpd : PD c0) (B : ℝ) (ha' : ∀ y ∈ a, ∀ i, |y i| ≤ B) (hx : ∀ t i, |x t i| ≤ B) :
    ∃ D : ℕ → ℝ, (∀ k, ((new (empiricalCls ι ℝ) d).run (calls k)).mahalanobis L (.row (x k)) = .ok [D k]) ∧ ∀ n,
      ∑ t ∈ Finset.range n, Real.log (1 + D t / (a.length + t + 1)) ≤
        (Fintype.card ι : ℝ) * Real.log (B ^ 2) - Real.log c0.det + (Fintype.card ι : ℝ) * Real.log ((a.length + n) / a.length) := by
  have hla : 1 ≤ a.length := List.length_pos_iff.2 ha
  obtain ⟨c, D, hc, hp, hD, hD0, _, hsum⟩ := C137_empirical L d a x calls hla hu c0 hc0 hpd
  have hq : (0:ℝ) < Fintype.card ι := card_pos'
  have e0 : c 0 = c0 := by rw [hc 0] at hc0; exact Except.ok.inj hc0
  have hA : (0:ℝ) < a.length := by exact_mod_cast hla
  refine ⟨D, hD, fun n => ?_⟩
  have htr : (c n).trace ≤ (Fintype.card ι : ℝ) * B ^ 2 := by
    have hb : ∀ i, (c n) i i ≤ B ^ 2 := fun i => (le_abs_self _).trans (C95_empirical d (calls n) B (by
      intro y hy
      rw [hu, List.mem_append] at hy
      rcases hy with hy | hy
      · exact ha' y hy
      · obtain ⟨t, _, rfl⟩ := List.mem_map.1 hy
        exact hx t) _ (hc n) i i)
    refine (Finset.sum_le_sum fun i _ => hb i).trans (le_of_eq ?_)
    rw [Finset.sum_const, Finset.card_univ, nsmul_eq_mul]
  have hl := log_det_le_trace (hp n) htr
  rw [mul_div_cancel_left₀ _ hq.ne'] at hl
  have htel : ∑ t ∈ Finset.range n, Real.log (((a.length + t : ℕ) : ℝ) / ((a.length + t : ℕ) + 1)) = -Real.log ((a.length + n) / a.length) := by
    clear hl htr
    induction n with
    | zero => simp [div_self hA.ne']
    | succ n ih =>
      rw [Finset.sum_range_succ, ih, ← Real.log_inv, ← Real.log_inv, ← Real.log_mul (by positivity) (by positivity)]
      congr 1
      push_cast
      field_simp
      ring
  have hs := hsum n
  rw [htel, e0] at hs
  have e : ∑ t ∈ Finset.range n, Real.log (1 + 1 / (((a.length + t : ℕ) : ℝ) + 1) * D t) = ∑ t ∈ Finset.range n, Real.log (1 + D t / (a.length + t + 1)) := by
    refine Finset.sum_congr rfl fun t _ => ?_
    push_cast
    rw [one_div_mul_eq_div]
  rw [← e, hs]
  linarith

/-- C137: the volume grows with an observation exactly when its distance exceeds a threshold that depends on the rate and the number of columns only. -/
theorem C137_volume_grows (L : Lapack) (p : RParam ℝ) (h0 : 0 < p.r) (h1 : p.r < 1) (a : List (ι → ℝ)) (x : ℕ → ι → ℝ) (calls : ℕ → List (Call ι ℝ))
    (ha : ewaBurnN p.r ≤ a.length) (hu : ∀ k, used p.diff (calls k) = a ++ firstRows k x) (c0 c1 : Matrix ι ι ℝ) (D : ℝ)
    (hc0 : ((new (ewaCls ι ℝ) p).run (calls 0)).covariance = .ok c0) (hpd : PD c0)
    (hD : ((new (ewaCls ι ℝ) p).run (calls 0)).mahalanobis L (.row (x 0)) = .ok [D]) (hc1 : ((new (ewaCls ι ℝ) p).run (calls 1)).covariance = .ok c1) :
    c0.det < c1.det ↔ (1 / (1 - p.r) ^ Fintype.card ι - 1) * ((1 - p.r) / p.r) < D := by
  obtain ⟨c, D', hc, hp, hD', _, hdet, _⟩ := C137_ewa L p h0.le h1 a x calls ha hu c0 hc0 hpd
  have e0 : c 0 = c0 := by rw [hc 0] at hc0; exact Except.ok.inj hc0
  have e1 : c 1 = c1 := by rw [hc 1] at hc1; exact Except.ok.inj hc1
  have e2 : D' 0 = D := by rw [hD' 0] at hD; simpa using hD
  have hk := hdet 0
  simp only [zero_add] at hk
  rw [e1, e0, e2] at hk
  have hr : 0 < 1 - p.r := by linarith
  have hpw : 0 < (1 - p.r) ^ Fintype.card ι := pow_pos hr _
  rw [hk, mul_comm _ c0.det, mul_assoc, lt_mul_iff_one_lt_right hpd.det_pos]
  have hgap : (1 - p.r) ^ Fintype.card ι * (1 + p.r / (1 - p.r) * D) - 1 =
      (1 - p.r) ^ Fintype.card ι * (p.r / (1 - p.r)) * (D - (1 / (1 - p.r) ^ Fintype.card ι - 1) * ((1 - p.r) / p.r)) := by
    field_simp
    ring
  have hpos : 0 < (1 - p.r) ^ Fintype.card ι * (p.r / (1 - p.r)) := by positivity
  constructor
  · intro hlt
    have : 0 < (1 - p.r) ^ Fintype.card ι * (p.r / (1 - p.r)) * (D - (1 / (1 - p.r) ^ Fintype.card ι - 1) * ((1 - p.r) / p.r)) := by rw [← hgap]; linarith
    have := (mul_pos_iff_of_pos_left hpos).1 this
    linarith
  · intro hlt
    have := mul_pos hpos (sub_pos.2 hlt)
    rw [← hgap] at this
    linarith

theorem demo5_pd : PD (covOf (demoRows ++ [(0 : Fin 2 → ℝ)])) := by
  have e : covOf (demoRows ++ [0]) = (4 / 5 : ℝ) • !![2, 1; 1, 1] := by
    ext i j
    fin_cases i <;> fin_cases j <;> simp [covOf, meanOf, demoRows] <;> norm_num
  rw [e]
  refine PD.smul ⟨fun i j => by fin_cases i <;> fin_cases j <;> rfl, fun x hx => ?_⟩ (by norm_num)
  rw [quad_expand]
  simp only [Fin.sum_univ_two, Matrix.of_apply, cons_val', cons_val_zero, cons_val_one, cons_val_fin_one]
  by_contra hn
  have h1 : (x 0 + x 1) ^ 2 = 0 := by nlinarith [sq_nonneg (x 0 + x 1), sq_nonneg (x 0)]
  have h2 : (x 0) ^ 2 = 0 := by nlinarith [sq_nonneg (x 0 + x 1), sq_nonneg (x 0)]
  have h3 : x 0 = 0 := pow_eq_zero_iff (by norm_num) |>.1 h2
  have h4 : x 0 + x 1 = 0 := pow_eq_zero_iff (by norm_num) |>.1 h1
  refine hx (funext fun i => ?_)
  fin_cases i
  · exact h3
  · show x 1 = 0; rw [h3] at h4; linarith

/-- Non-vacuity: the demonstration rows and one more, then zeros: a positive-definite start after the burn-in, and a bounded stream. -/
example : ewaBurnN (1 / 2 : ℝ) ≤ (demoRows ++ [0]).length ∧ PD (covOf (demoRows ++ [0])) ∧
    (∀ k, used false [Call.partialFit (.batch (demoRows ++ [0] ++ firstRows k fun _ => 0))] = demoRows ++ [0] ++ firstRows k fun _ => (0 : Fin 2 → ℝ)) := by
  refine ⟨?_, ?_, fun k => by simp [used, effective, rowsSinceFit, rowsOf, demoRows]⟩
  · have : ⌈(1:ℝ) / (1 / 2)⌉ = 2 := by norm_num
    unfold ewaBurnN; rw [this]; simp [demoRows]
  · exact demo5_pd

end Precise
