import Verif.Model.Estimators
import Verif.Lemmas.Emp
import Verif.Lemmas.Base
import Verif.Lemmas.Linalg
import Verif.Lemmas.Lawful
import Verif.Props.Location

/-! Invariants of the running states on bounded data. -/

set_option linter.all false

open Matrix

namespace Precise

open Spec Obj

variable {ι : Type}

/-- A property kept by every update holds of the state behind a reported covariance. -/
theorem run_inv [Fintype ι] {C : Cls ι ℝ} (hC : Lawful C) (p : C.Param) (calls : List (Call ι ℝ)) (c : Matrix ι ι ℝ)
    (h : ((new C p).run calls).covariance = .ok c) (Inv : C.State → Prop) (h0 : Inv (C.initState p))
    (hs : ∀ s, ∀ x ∈ used (C.diff p) calls, Inv s → Inv (C.updateState p s x)) :
    ∃ s, Inv s ∧ c = toSymmetric (C.toCov p s) := by
  obtain ⟨hne, e⟩ := run_covariance_inv hC p calls c h
  refine ⟨_, ?_, e⟩
  generalize used (C.diff p) calls = xs at hs
  clear e hne h
  generalize C.initState p = s0 at h0
  induction xs generalizing s0 with
  | nil => exact h0
  | cons x xs ih => exact ih (fun s y hy => hs s y (by simp [hy])) _ (hs s0 x (by simp) h0)

/-- A convex combination stays in the interval. -/
theorem abs_mix {a x y B : ℝ} (h0 : 0 ≤ a) (h1 : a ≤ 1) (hx : |x| ≤ B) (hy : |y| ≤ B) : |(1 - a) * x + a * y| ≤ B := by
  rw [abs_le] at *
  constructor <;> nlinarith

theorem le_mix {a x y B : ℝ} (h0 : 0 ≤ a) (h1 : a ≤ 1) (hx : x ≤ B) (hy : y ≤ B) : (1 - a) * x + a * y ≤ B := by
  nlinarith

/-- Squared deviation of two numbers of size at most `B`. -/
theorem dev_sq {x m B : ℝ} (hx : |x| ≤ B) (hm : |m| ≤ B) : (x - m) * (x - m) ≤ 4 * B ^ 2 := by
  have h : |x - m| ≤ 2 * B := (abs_sub _ _).trans (by linarith)
  have h2 := mul_self_le_mul_self (abs_nonneg (x - m)) h
  rw [abs_mul_abs_self] at h2
  nlinarith

theorem dev_abs {x m B : ℝ} (hx : |x| ≤ B) (hm : |m| ≤ B) : |x - m| ≤ 2 * B := (abs_sub _ _).trans (by linarith)

/-- The entries of a PSD matrix are bounded by its largest variance. -/
theorem psd_entry_le [Fintype ι] [DecidableEq ι] {a : Matrix ι ι ℝ} (h : PSD a) {V : ℝ} (hV : ∀ i, a i i ≤ V) (i j : ι) : |a i j| ≤ V := by
  have h1 := h.entry_sq_le i j
  have hi := h.diag_nonneg i
  have hj := h.diag_nonneg j
  have hV0 : 0 ≤ V := hi.trans (hV i)
  apply abs_le_of_sq_le_sq _ hV0
  have := mul_le_mul (hV i) (hV j) hj hV0
  nlinarith

theorem abs_toSymmetric_le {a : Matrix ι ι ℝ} {V : ℝ} (h : ∀ i j, |a i j| ≤ V) (i j : ι) : |toSymmetric a i j| ≤ V := by
  have e : toSymmetric a i j = (a i j + a j i) / 2 := rfl
  rw [e, abs_div, abs_of_pos (by norm_num : (0:ℝ) < 2)]
  have := abs_add_le (a i j) (a j i)
  have h1 := h i j
  have h2 := h j i
  linarith

/-- The running mean is at most `B`, the running covariance is PSD with variances at most `4 B²`. -/
structure Small [Fintype ι] (B : ℝ) (s : EmpState ι ℝ) : Prop where
  mean : ∀ i, |s.mean i| ≤ B
  psd : PSD s.cov
  var : ∀ i, s.cov i i ≤ 4 * B ^ 2

variable [Fintype ι] [DecidableEq ι] {B : ℝ}

theorem small_init (hB : 0 ≤ B) : Small B (empInit : EmpState ι ℝ) where
  mean i := by simpa [empInit] using hB
  psd := psd_zero
  var i := by simp [empInit]; positivity

theorem small_emp {s : EmpState ι ℝ} (h : Small B s) {x : ι → ℝ} (hx : ∀ i, |x i| ≤ B) : Small B (empUpdate s x) := by
  have hn : (0:ℝ) < (s.nSamples : ℝ) + 1 := by positivity
  have hn0 : (0:ℝ) ≤ (s.nSamples : ℝ) := by positivity
  refine ⟨fun i => ?_, empUpdate_psd h.psd x, fun i => ?_⟩
  · rw [empUpdate_mean]
    exact abs_mix (by positivity) (by rw [div_le_one hn]; linarith) (h.mean i) (hx i)
  · rw [empUpdate_cov]
    simp only [Matrix.add_apply, Matrix.smul_apply, outer, of_apply, Pi.sub_apply, smul_eq_mul]
    have h1 := h.var i
    have h2 := dev_sq (hx i) (h.mean i)
    have h3 := mul_self_nonneg (x i - s.mean i)
    have e : (s.nSamples : ℝ) / (s.nSamples + 1) * s.cov i i + (s.nSamples : ℝ) / (s.nSamples + 1) ^ 2 * ((x i - s.mean i) * (x i - s.mean i))
        = ((s.nSamples : ℝ) * (s.nSamples + 1) * s.cov i i + s.nSamples * ((x i - s.mean i) * (x i - s.mean i))) / (s.nSamples + 1) ^ 2 := by
      field_simp
    rw [e, div_le_iff₀ (by positivity)]
    have h4 := mul_le_mul_of_nonneg_left h1 (mul_nonneg hn0 hn.le)
    have h5 := mul_le_mul_of_nonneg_left h2 hn0
    nlinarith [mul_nonneg hn0 (sq_nonneg B), sq_nonneg B]

theorem small_blend {r : ℝ} (h0 : 0 ≤ r) (h1 : r ≤ 1) {s : EmpState ι ℝ} (h : Small B s) {x : ι → ℝ} (hx : ∀ i, |x i| ≤ B) :
    Small B (ewaBlend r s x) where
  mean i := abs_mix h0 h1 (h.mean i) (hx i)
  psd := ewaBlend_psd h0 h1 h.psd x
  var i := by
    simp only [ewaBlend, Matrix.add_apply, Matrix.smul_apply, outer, of_apply, smul_eq_mul]
    exact le_mix h0 h1 (h.var i) (dev_sq (hx i) (h.mean i))

/-- The EWA state, with its rate. -/
def SmallE (B r : ℝ) (s : EwaState ι ℝ) : Prop := Small B s.toEmpState ∧ s.r = r

theorem smallE_init (hB : 0 ≤ B) (r : ℝ) : SmallE B r (ewaInit r : EwaState ι ℝ) := ⟨small_init hB, rfl⟩

theorem smallE_update {r : ℝ} (h0 : 0 ≤ r) (h1 : r ≤ 1) {s : EwaState ι ℝ} (h : SmallE B r s) {x : ι → ℝ} (hx : ∀ i, |x i| ≤ B) :
    SmallE B r (ewaUpdate s x) := by
  unfold ewaUpdate
  split
  · exact ⟨small_emp h.1 hx, h.2⟩
  · refine ⟨?_, h.2⟩
    show Small B (ewaBlend s.r s.toEmpState x)
    rw [h.2]
    exact small_blend h0 h1 h.1 hx

/-! ## The positive-definite repairs -/

theorem trace_le_of_diag {a : Matrix ι ι ℝ} {V : ℝ} (h : ∀ i, a i i ≤ V) : a.trace ≤ (Fintype.card ι : ℝ) * V := by
  unfold Matrix.trace
  calc ∑ i, a.diag i ≤ ∑ i : ι, V := Finset.sum_le_sum fun i _ => h i
    _ = _ := by simp

theorem diag_le_trace {a : Matrix ι ι ℝ} (h : PSD a) (i : ι) : a i i ≤ a.trace :=
  Finset.single_le_sum (f := fun i => a i i) (fun j _ => h.diag_nonneg j) (Finset.mem_univ i)

/-- Flooring the eigenvalues of a PSD matrix at `eps` raises no diagonal entry by more than `eps`. -/
theorem makePosDef_diag_le (L : Lapack) {a : Matrix ι ι ℝ} (h : PSD a) {eps : ℝ} (he : 0 ≤ eps) (i : ι) :
    makePosDef L a eps i i ≤ a i i + eps := by
  have hs := L.eigh_spec h.1
  have hv := (L.eigh_orth a h.1)
  have key : makePosDef L a eps = spec (L.eigh a).2 (fun i => max ((L.eigh a).1 i) eps) :=
    makePosDef_of_spec L hv (by rw [toSymmetric_of_symm h.1]; exact hs) eps
  have hw : ∀ k, 0 ≤ (L.eigh a).1 k := eigs_nonneg hv (by rw [← hs]; exact h)
  set v := (L.eigh a).2
  set w := (L.eigh a).1
  have h1 := maxEig_spec hv (w := fun k => max (w k) eps - w k) (c := eps) fun k => by
    have := hw k
    rcases max_cases (w k) eps with h | h <;> linarith
  have h2 := h1 (Pi.single i 1)
  have e : makePosDef L a eps = a + spec v (fun k => max (w k) eps - w k) := by
    rw [key]
    conv_rhs => rw [hs]
    rw [← spec_add]
    congr 1; funext k; ring
  have hn : normSq (Pi.single i 1 : ι → ℝ) = 1 := by
    rw [← quad_one, quad_single]; simp
  rw [quad_single, hn] at h2
  rw [e, Matrix.add_apply]
  linarith

theorem makePosDef_entry_le (L : Lapack) {a : Matrix ι ι ℝ} (h : PSD a) {eps V : ℝ} (he : 0 < eps) (hV : ∀ i, a i i ≤ V) (i j : ι) :
    |makePosDef L a eps i j| ≤ V + eps :=
  psd_entry_le (pd_makePosDef L a he).psd (fun k => (makePosDef_diag_le L h he.le k).trans (by linarith [hV k])) i j

/-! ## One step of each class -/

/-- Second moments of the empirical state. -/
def SmallM (B : ℝ) (s : EmpState ι ℝ) : Prop := PSD s.cov ∧ ∀ i, s.cov i i + s.mean i * s.mean i ≤ B ^ 2

theorem smallM_init : SmallM B (empInit : EmpState ι ℝ) := ⟨psd_zero, fun i => by simp [empInit]; positivity⟩

theorem smallM_emp {s : EmpState ι ℝ} (h : SmallM B s) {x : ι → ℝ} (hx : ∀ i, |x i| ≤ B) : SmallM B (empUpdate s x) := by
  obtain ⟨h1, h2⟩ := h
  refine ⟨empUpdate_psd h1 x, fun i => ?_⟩
  have hn : (0:ℝ) < (s.nSamples : ℝ) + 1 := by positivity
  rw [empUpdate_mean, empUpdate_cov]
  simp only [Matrix.add_apply, Matrix.smul_apply, outer, of_apply, Pi.sub_apply, smul_eq_mul]
  have hxi := hx i
  have hx2 : x i * x i ≤ B ^ 2 := by
    have := mul_self_le_mul_self (abs_nonneg (x i)) hxi
    rw [abs_mul_abs_self] at this; nlinarith
  have h3 := h2 i
  have hn0 : (0:ℝ) ≤ (s.nSamples : ℝ) := by positivity
  have e : (s.nSamples : ℝ) / (s.nSamples + 1) * s.cov i i + (s.nSamples : ℝ) / (s.nSamples + 1) ^ 2 * ((x i - s.mean i) * (x i - s.mean i))
      + ((1 - 1 / ((s.nSamples : ℝ) + 1)) * s.mean i + 1 / ((s.nSamples : ℝ) + 1) * x i) * ((1 - 1 / ((s.nSamples : ℝ) + 1)) * s.mean i + 1 / ((s.nSamples : ℝ) + 1) * x i)
      = ((s.nSamples : ℝ) * (s.cov i i + s.mean i * s.mean i) + x i * x i) / (s.nSamples + 1) := by
    field_simp; ring
  rw [e, div_le_iff₀ hn]
  nlinarith

/-- `a + (b - a)/n` is a mix. -/
theorem abs_burn {a b : ℝ} (n : ℕ) (ha : |a| ≤ B) (hb : |b| ≤ B) : |a + (b - a) / ((n + 1 : ℕ) : ℝ)| ≤ B := by
  rw [burn_avg]; exact abs_mix (inv_n_mem n).1 (inv_n_mem n).2 ha hb

theorem le_burn {a b V : ℝ} (n : ℕ) (ha : a ≤ V) (hb : b ≤ V) : a + (b - a) / ((n + 1 : ℕ) : ℝ) ≤ V := by
  rw [burn_avg]; exact le_mix (inv_n_mem n).1 (inv_n_mem n).2 ha hb

theorem nonneg_burn {a b : ℝ} (n : ℕ) (ha : 0 ≤ a) (hb : 0 ≤ b) : 0 ≤ a + (b - a) / ((n + 1 : ℕ) : ℝ) := by
  rw [burn_avg]
  have := inv_n_mem n
  exact add_nonneg (mul_nonneg (by linarith [this.2]) ha) (mul_nonneg this.1 hb)

/-- HuberCovariance. -/
theorem smallE_huber (L : Lapack) (pr : HuberParam) {r : ℝ} (h0 : 0 ≤ r) (h1 : r ≤ 1) {s : EwaState ι ℝ} (h : SmallE B r s) {x : ι → ℝ}
    (hx : ∀ i, |x i| ≤ B) : SmallE B r (huberUpdate L pr s x) := by
  unfold huberUpdate
  split
  · exact ⟨small_emp h.1 hx, h.2⟩
  · obtain ⟨hs, hr⟩ := h
    refine ⟨?_, hr⟩
    obtain ⟨w0, w1⟩ := huberWeight_range L pr.c s.cov (fun i => x i - s.mean i)
    simp only []
    generalize huberWeight L pr.c s.cov (fun i => x i - s.mean i) = w at w0 w1 ⊢
    rw [hr]
    refine ⟨fun i => ?_, ?_, fun i => ?_⟩
    · simp only []
      have e : s.mean i + r * (w * (x i - s.mean i)) = (1 - r * w) * s.mean i + r * w * x i := by ring
      rw [e]
      exact abs_mix (mul_nonneg h0 w0) (mul_le_one₀ h1 w0 w1) (hs.mean i) (hx i)
    · simp only []
      exact (hs.psd.smul (by linarith)).add ((psd_outer _).smul h0)
    · simp only [Matrix.add_apply, Matrix.smul_apply, outer, of_apply, smul_eq_mul]
      have h3 := dev_sq (hx i) (hs.mean i)
      have h4 := mul_self_nonneg (x i - s.mean i)
      refine le_mix h0 h1 (hs.var i) ?_
      calc w * (x i - s.mean i) * (w * (x i - s.mean i)) = (w * w) * ((x i - s.mean i) * (x i - s.mean i)) := by ring
        _ ≤ 1 * ((x i - s.mean i) * (x i - s.mean i)) := mul_le_mul_of_nonneg_right (mul_le_one₀ w1 w0 w1) h4
        _ ≤ _ := by rw [one_mul]; exact h3

/-- AdaptiveEwaCovariance. -/
def SmallA (B r m : ℝ) (s : AdaState ι) : Prop := Small B s.toEmpState ∧ s.r = r ∧ s.maxR = m

theorem smallA_update (L : Lapack) {r m : ℝ} (h0 : 0 ≤ r) (hm0 : 0 ≤ m) (hm1 : m ≤ 1) {s : AdaState ι} (h : SmallA B r m s) {x : ι → ℝ}
    (hx : ∀ i, |x i| ≤ B) : SmallA B r m (adaUpdate L s x) := by
  obtain ⟨hs, hr, hm⟩ := h
  have hrange := adaRate_range L s (fun i => x i - s.mean i)
  rw [hr, hm] at hrange
  unfold adaUpdate
  split
  · exact ⟨small_emp hs hx, hr, hm⟩
  · exact ⟨small_blend (le_trans (le_min h0 hm0) hrange.1) (hrange.2.trans hm1) hs hx, hr, hm⟩

/-- LedoitWolfCovariance. -/
def SmallLW (B r : ℝ) (s : LWState ι ℝ) : Prop := SmallE B r s.toEwaState

theorem smallLW_update {r : ℝ} (h0 : 0 ≤ r) (h1 : r ≤ 1) {s : LWState ι ℝ} (h : SmallLW B r s) {x : ι → ℝ}
    (hx : ∀ i, |x i| ≤ B) : SmallLW B r (lwUpdate s x) := by
  obtain ⟨hs, hr⟩ := h
  unfold lwUpdate
  split
  · exact ⟨small_emp hs hx, hr⟩
  · refine ⟨?_, hr⟩
    show Small B (ewaBlend s.r s.toEmpState x)
    rw [hr]; exact small_blend h0 h1 hs hx

/-- Means and variances tracked variable by variable (DiagonalCovariance, FactorCovariance, DCCCovariance). -/
structure SmallV (B : ℝ) (mean var : ι → ℝ) : Prop where
  mean : ∀ i, |mean i| ≤ B
  nonneg : ∀ i, 0 ≤ var i
  var : ∀ i, var i ≤ 4 * B ^ 2

theorem smallV_burn {m v : ι → ℝ} (h : SmallV B m v) {x : ι → ℝ} (hx : ∀ i, |x i| ≤ B) (n : ℕ) :
    SmallV B (fun i => m i + (x i - m i) / ((n + 1 : ℕ) : ℝ)) (fun i => v i + ((x i - m i) * (x i - m i) - v i) / ((n + 1 : ℕ) : ℝ)) where
  mean i := abs_burn n (h.mean i) (hx i)
  nonneg i := nonneg_burn n (h.nonneg i) (mul_self_nonneg _)
  var i := le_burn n (h.var i) (dev_sq (hx i) (h.mean i))

theorem smallV_blend {r : ℝ} (h0 : 0 ≤ r) (h1 : r ≤ 1) {m v : ι → ℝ} (h : SmallV B m v) {x : ι → ℝ} (hx : ∀ i, |x i| ≤ B) :
    SmallV B (fun i => (1 - r) * m i + r * x i) (fun i => (1 - r) * v i + r * ((x i - m i) * (x i - m i))) where
  mean i := abs_mix h0 h1 (h.mean i) (hx i)
  nonneg i := add_nonneg (mul_nonneg (by linarith) (h.nonneg i)) (mul_nonneg h0 (mul_self_nonneg _))
  var i := le_mix h0 h1 (h.var i) (dev_sq (hx i) (h.mean i))

def SmallD (B r : ℝ) (s : DiagState ι ℝ) : Prop := SmallV B s.mean s.var ∧ s.r = r

theorem smallD_update {r : ℝ} (h0 : 0 ≤ r) (h1 : r ≤ 1) {s : DiagState ι ℝ} (h : SmallD B r s) {x : ι → ℝ} (hx : ∀ i, |x i| ≤ B) :
    SmallD B r (diagUpdate s x) := by
  obtain ⟨hs, hr⟩ := h
  unfold diagUpdate
  simp only []
  split
  · exact ⟨smallV_burn hs hx _, hr⟩
  · rw [hr]; exact ⟨smallV_blend h0 h1 hs hx, rfl⟩

end Precise
