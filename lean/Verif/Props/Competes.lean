import Verif.Spec.Competes
import Verif.Props.Calibration
import Verif.Props.Emp
import Verif.Props.Delivery
import Mathlib.Analysis.SpecialFunctions.Log.Basic

/-!
# C133: forecasts compete with the best forecaster in hindsight, on every stream
-/

set_option linter.all false

open Matrix

namespace Precise

open Spec Obj

variable {ι : Type} [Fintype ι] [DecidableEq ι]

/-- Exponential smoothing against a path of competitors: an identity. -/
theorem smoothing_identity {r : ℝ} {y m : ℕ → ℝ} (h : ∀ k, m (k + 1) = m k + r * (y k - m k)) (u : ℕ → ℝ) (n : ℕ) :
    r * (1 - r) * ∑ t ∈ Finset.range n, (y t - m t) ^ 2 + r * ∑ t ∈ Finset.range n, (m t - u t) ^ 2 + (m n - u n) ^ 2
      = r * ∑ t ∈ Finset.range n, (y t - u t) ^ 2 + (m 0 - u 0) ^ 2
        + ∑ t ∈ Finset.range n, (u (t + 1) - u t) * (u (t + 1) + u t - 2 * m (t + 1)) := by
  induction n with
  | zero => simp
  | succ n ih =>
    simp only [Finset.sum_range_succ]
    have e : (m (n + 1) - u (n + 1)) ^ 2 = (m n - u n) ^ 2 - 2 * r * (y n - m n) * (u n - m n) + r ^ 2 * (y n - m n) ^ 2
        + (u (n + 1) - u n) * (u (n + 1) + u n - 2 * m (n + 1)) := by rw [h]; ring
    linear_combination ih + e

theorem smoothing_constant {r : ℝ} (h0 : 0 < r) {y m : ℕ → ℝ} (h : ∀ k, m (k + 1) = m k + r * (y k - m k)) (u : ℝ) (n : ℕ) :
    (1 - r) * ∑ t ∈ Finset.range n, (y t - m t) ^ 2 ≤ ∑ t ∈ Finset.range n, (y t - u) ^ 2 + (m 0 - u) ^ 2 / r := by
  have e := smoothing_identity h (fun _ => u) n
  simp only [sub_self, zero_mul, Finset.sum_const_zero, add_zero] at e
  have hs : 0 ≤ ∑ t ∈ Finset.range n, (m t - u) ^ 2 := Finset.sum_nonneg fun _ _ => sq_nonneg _
  rw [← mul_le_mul_iff_right₀ h0]
  have e2 : r * ((m 0 - u) ^ 2 / r) = (m 0 - u) ^ 2 := by field_simp
  rw [mul_add, e2]
  have := mul_nonneg h0.le hs
  nlinarith [sq_nonneg (m n - u)]

theorem smoothing_path {r : ℝ} (h0 : 0 < r) (h1 : r ≤ 1) {y m : ℕ → ℝ} (h : ∀ k, m (k + 1) = m k + r * (y k - m k)) {lo hi : ℝ} (hy : ∀ t, lo ≤ y t ∧ y t ≤ hi)
    (hl : lo ≤ m 0) (hh : m 0 ≤ hi) (u : ℕ → ℝ) (hu : ∀ t, lo ≤ u t ∧ u t ≤ hi) (n : ℕ) :
    (1 - r) * ∑ t ∈ Finset.range n, (y t - m t) ^ 2
      ≤ ∑ t ∈ Finset.range n, (y t - u t) ^ 2 + ((hi - lo) ^ 2 + 2 * (hi - lo) * ∑ t ∈ Finset.range n, |u (t + 1) - u t|) / r := by
  have hm : ∀ k, lo ≤ m k ∧ m k ≤ hi := by
    intro k
    induction k with
    | zero => exact ⟨hl, hh⟩
    | succ k ih => rw [h]; constructor <;> nlinarith [hy k, ih.1, ih.2]
  have e := smoothing_identity h u n
  have hs : 0 ≤ ∑ t ∈ Finset.range n, (m t - u t) ^ 2 := Finset.sum_nonneg fun _ _ => sq_nonneg _
  have hc : ∑ t ∈ Finset.range n, (u (t + 1) - u t) * (u (t + 1) + u t - 2 * m (t + 1)) ≤ 2 * (hi - lo) * ∑ t ∈ Finset.range n, |u (t + 1) - u t| := by
    rw [Finset.mul_sum]
    refine Finset.sum_le_sum fun t _ => ?_
    have hb : |u (t + 1) + u t - 2 * m (t + 1)| ≤ 2 * (hi - lo) := by
      rw [abs_le]; constructor <;> linarith [hu t, hu (t + 1), hm (t + 1), (hu t).1, (hu t).2, (hu (t + 1)).1, (hu (t + 1)).2, (hm (t + 1)).1, (hm (t + 1)).2]
    calc _ ≤ |(u (t + 1) - u t) * (u (t + 1) + u t - 2 * m (t + 1))| := le_abs_self _
      _ = |u (t + 1) - u t| * |u (t + 1) + u t - 2 * m (t + 1)| := abs_mul _ _
      _ ≤ |u (t + 1) - u t| * (2 * (hi - lo)) := mul_le_mul_of_nonneg_left hb (abs_nonneg _)
      _ = _ := by ring
  have h2 : (m 0 - u 0) ^ 2 ≤ (hi - lo) ^ 2 := by
    rw [sq_le_sq, abs_of_nonneg (by linarith : 0 ≤ hi - lo), abs_le]
    constructor <;> linarith [(hu 0).1, (hu 0).2]
  rw [← mul_le_mul_iff_right₀ h0]
  rw [mul_add, mul_div_cancel₀ _ h0.ne']
  have := mul_nonneg h0.le hs
  nlinarith [sq_nonneg (m n - u n)]

omit [DecidableEq ι] in
theorem portfolio_step {r : ℝ} {m x : ℕ → ι → ℝ} (h : ∀ n i, r * ∑ t ∈ Finset.range n, (x t i - m t i) = m n i - m 0 i) (w : ι → ℝ) (k : ℕ) :
    w ⬝ᵥ m (k + 1) = w ⬝ᵥ m k + r * (w ⬝ᵥ x k - w ⬝ᵥ m k) := by
  have e : m (k + 1) = m k + r • (x k - m k) := by
    funext i
    have e1 := h (k + 1) i
    have e2 := h k i
    rw [Finset.sum_range_succ, mul_add, e2] at e1
    simp only [Pi.add_apply, Pi.smul_apply, Pi.sub_apply, smul_eq_mul]
    linarith
  rw [e, dotProduct_add, dotProduct_smul, dotProduct_sub, smul_eq_mul]

omit [DecidableEq ι] in
theorem Spec.CalibratedMean.competes {C : Cls ι ℝ} {p : C.Param} {r : ℝ} {n0 : ℕ} (h0 : 0 < r) (h : CalibratedMean C p r n0) : CompetesWithConstants C p r n0 := by
  intro a x calls ha hu
  obtain ⟨m, h2, h3⟩ := h a x calls ha hu
  exact ⟨m, h2, fun w n u => smoothing_constant (y := fun t => w ⬝ᵥ x t) (m := fun t => w ⬝ᵥ m t) h0 (portfolio_step h3 w) u n⟩

omit [DecidableEq ι] in
theorem Spec.CalibratedMean.competes_paths {C : Cls ι ℝ} {p : C.Param} {r : ℝ} {n0 : ℕ} (h0 : 0 < r) (h1 : r ≤ 1) (h : CalibratedMean C p r n0) :
    CompetesWithPaths C p r n0 := by
  intro a x calls ha hu
  obtain ⟨m, h2, h3⟩ := h a x calls ha hu
  exact ⟨m, h2, fun w lo hi hx hl hh n u hb => smoothing_path (y := fun t => w ⬝ᵥ x t) (m := fun t => w ⬝ᵥ m t) h0 h1 (portfolio_step h3 w) hx hl hh u hb n⟩

omit [DecidableEq ι] in
theorem Spec.CalibratedCov.competes {C : Cls ι ℝ} {p : C.Param} {r : ℝ} {n0 : ℕ} {I : ι → ι → Prop} (h0 : 0 < r) (h : CalibratedCov C p r n0 I) :
    CovCompetesWithConstants C p r n0 I := by
  intro a x calls ha hu
  obtain ⟨m, c, h2, h2c, h3⟩ := h a x calls ha hu
  refine ⟨m, c, h2, h2c, fun i j hI n v => smoothing_constant (y := fun t => (x t i - m t i) * (x t j - m t j)) (m := fun t => c t i j) h0 (fun k => ?_) v n⟩
  have e1 := h3 (k + 1) i j hI
  have e2 := h3 k i j hI
  rw [Finset.sum_range_succ, mul_add, e2] at e1
  linarith

/-- C133: EwaCovariance. -/
theorem C133_ewa (p : RParam ℝ) (h0 : 0 < p.r) (h1 : p.r ≤ 1) :
    CompetesWithConstants (ewaCls ι ℝ) p p.r (ewaBurnN p.r) ∧ CompetesWithPaths (ewaCls ι ℝ) p p.r (ewaBurnN p.r) ∧
    CovCompetesWithConstants (ewaCls ι ℝ) p p.r (ewaBurnN p.r) fun _ _ => True :=
  ⟨(C130_ewa p).competes h0, (C130_ewa p).competes_paths h0 h1, (C130_ewa_covariance p).competes h0⟩

/-- C133: the classes whose `location_` is EwaCovariance's, against constants. -/
theorem C133_same_location (L : Lapack) (p : RParam ℝ) (h0 : 0 < p.r) (delta : ℝ) (target : String) :
    CompetesWithConstants (diagonalCls ι ℝ) p p.r (ewaBurnN p.r) ∧ CompetesWithConstants (ledoitWolfCls ι ℝ) p p.r (ewaBurnN p.r) ∧
    CompetesWithConstants (oasCls ι ℝ) p p.r (ewaBurnN p.r) ∧ CompetesWithConstants (shrunkCls ι) ⟨p.r, delta, target, p.diff⟩ p.r (ewaBurnN p.r) ∧
    CompetesWithConstants (partialMomentsCls L ι) p p.r (ewaBurnN p.r) ∧ CompetesWithConstants (tylerCls L ι) p p.r (ewaBurnN p.r) ∧
    CompetesWithConstants (geodesicCls L ι) p p.r (ewaBurnN p.r) := by
  obtain ⟨a, b, c, d, e, f, g⟩ := C130_same_location (ι := ι) L p delta target
  exact ⟨a.competes h0, b.competes h0, c.competes h0, d.competes h0, e.competes h0, f.competes h0, g.competes h0⟩

/-- C133: and against paths. -/
theorem C133_same_location_paths (L : Lapack) (p : RParam ℝ) (h0 : 0 < p.r) (h1 : p.r ≤ 1) (delta : ℝ) (target : String) :
    CompetesWithPaths (diagonalCls ι ℝ) p p.r (ewaBurnN p.r) ∧ CompetesWithPaths (ledoitWolfCls ι ℝ) p p.r (ewaBurnN p.r) ∧
    CompetesWithPaths (oasCls ι ℝ) p p.r (ewaBurnN p.r) ∧ CompetesWithPaths (shrunkCls ι) ⟨p.r, delta, target, p.diff⟩ p.r (ewaBurnN p.r) ∧
    CompetesWithPaths (partialMomentsCls L ι) p p.r (ewaBurnN p.r) ∧ CompetesWithPaths (tylerCls L ι) p p.r (ewaBurnN p.r) ∧
    CompetesWithPaths (geodesicCls L ι) p p.r (ewaBurnN p.r) := by
  obtain ⟨a, b, c, d, e, f, g⟩ := C130_same_location (ι := ι) L p delta target
  exact ⟨a.competes_paths h0 h1, b.competes_paths h0 h1, c.competes_paths h0 h1, d.competes_paths h0 h1, e.competes_paths h0 h1, f.competes_paths h0 h1,
    g.competes_paths h0 h1⟩

/-- C133: the block classes. -/
theorem C133_blocks (L : Lapack) {d : ℕ} (hd : 1 ≤ d) (p : RParam ℝ) (h0 : 0 < p.r) (nb : ℤ) (gamma : ℝ) (interp : String) :
    CompetesWithConstants (blockCls L d) ⟨p.r, nb, p.diff⟩ p.r (ewaBurnN p.r) ∧ CompetesWithConstants (schurCls L d) ⟨p.r, nb, gamma, interp, p.diff⟩ p.r (ewaBurnN p.r) ∧
    CompetesWithConstants (schurLWCls L d) ⟨p.r, nb, p.diff⟩ p.r (ewaBurnN p.r) ∧ CompetesWithConstants (schurCondCls L d) ⟨p.r, nb, p.diff⟩ p.r (ewaBurnN p.r) := by
  obtain ⟨a, b, c, e⟩ := C130_same_location_blocks L hd p nb gamma interp
  exact ⟨a.competes h0, b.competes h0, c.competes h0, e.competes h0⟩

/-- C133: DCCCovariance, at its volatility rate. -/
theorem C133_dcc (p : DCCParam) (h0 : 0 < p.volR.getD p.r) : CompetesWithConstants (dccCls ι) p (p.volR.getD p.r) (ewaBurnN (min p.r (p.volR.getD p.r))) :=
  (C130_dcc p).competes h0

/-- C133: FactorCovariance. -/
theorem C133_factor (p : FactorParam) (h0 : 0 < p.r) : CompetesWithConstants (factorCls ι) p p.r (min p.k (Fintype.card ι) + 1) := (C130_factor p).competes h0

/-- C133: DiagonalCovariance: the variances. -/
theorem C133_diagonal (p : RParam ℝ) (h0 : 0 < p.r) : CovCompetesWithConstants (diagonalCls ι ℝ) p p.r (ewaBurnN p.r) fun i j => i = j :=
  (C130_diagonal p).competes h0

/-- C133, the factor `1 - r` cannot be left out: on an alternating stream, of which a forecaster who says `0` gets every error `1`, EwaCovariance gets every error
`2 / (2 - r)`. -/
theorem C133_worse_than_constant (r : ℝ) (h1 : r ≤ 1) : ∃ (a : List (ι → ℝ)) (calls : ℕ → List (Call ι ℝ)), ewaBurnN r ≤ a.length ∧
    (∀ k, used false (calls k) = a ++ firstRows k fun t _ => (-1) ^ t) ∧ ∀ k, ∃ m : ι → ℝ, ((new (ewaCls ι ℝ) ⟨r, false⟩).run (calls k)).location = .ok m ∧
      ∀ i, ((-1) ^ k - m i) ^ 2 = (2 / (2 - r)) ^ 2 := by
  have h2 : 2 - r ≠ 0 := by linarith
  set b : ι → ℝ := fun _ => -(r / (2 - r)) with hb
  set a := List.replicate (ewaBurnN r) b with ha
  have hl : a.length = ewaBurnN r := List.length_replicate
  have hp := calib_burn_pos r
  have hne : a ≠ [] := by rw [← List.length_pos_iff, hl]; exact hp
  set x : ℕ → ι → ℝ := fun t _ => (-1) ^ t with hx
  have hm : ∀ k i, (ewaFold r (a ++ firstRows k x)).mean i = -((-1) ^ k * (r / (2 - r))) := by
    intro k i
    induction k with
    | zero =>
      have e0 : a ++ firstRows 0 x = a := List.append_nil a
      rw [e0, ewaFold_burn _ _ hl.le, empFold_mean hne]
      simp only [meanOf, ha, List.map_replicate, List.sum_replicate, List.length_replicate, hb, nsmul_eq_mul, pow_zero, one_mul]
      have : ((ewaBurnN r : ℕ) : ℝ) ≠ 0 := by exact_mod_cast hp.ne'
      field_simp
    | succ k ih =>
      rw [firstRows_succ, ← List.append_assoc, (ewaFold_step (by rw [List.length_append]; omega) (x k)).1, ih]
      simp only [hx, pow_succ]
      field_simp
      ring
  refine ⟨a, fun k => [.partialFit (.batch (a ++ firstRows k x))], hl.ge, fun k => used_batch _, fun k => ⟨_, (ewa_attrs ⟨r, false⟩ _ ?_).1, fun i => ?_⟩⟩
  · rw [used_batch]; simp [hne]
  · rw [used_batch]
    show ((-1) ^ k - (ewaFold r (a ++ firstRows k x)).mean i) ^ 2 = _
    rw [hm]
    have e : ((-1 : ℝ) ^ k) ^ 2 = 1 := by rw [← pow_mul, mul_comm, pow_mul]; simp
    have e2 : (-1 : ℝ) ^ k - -((-1) ^ k * (r / (2 - r))) = (-1) ^ k * (2 / (2 - r)) := by field_simp; ring
    rw [e2, mul_pow, e, one_mul]

/-! ## EmpiricalCovariance -/

omit [DecidableEq ι] in
theorem emp_portfolio_step (w : ι → ℝ) (xs : List (ι → ℝ)) (x : ι → ℝ) :
    w ⬝ᵥ (empFold (xs ++ [x])).mean = w ⬝ᵥ (empFold xs).mean + (w ⬝ᵥ x - w ⬝ᵥ (empFold xs).mean) / (xs.length + 1) := by
  have e : (empFold (xs ++ [x])).mean = (empFold xs).mean + (1 / ((xs.length : ℝ) + 1)) • (x - (empFold xs).mean) := by
    rw [empFold_snoc, empUpdate_mean, empFold_n]
    funext i
    simp only [Pi.add_apply, Pi.smul_apply, Pi.sub_apply, smul_eq_mul]
    ring
  rw [e, dotProduct_add, dotProduct_smul, dotProduct_sub, smul_eq_mul]
  ring

/-- the loss of `u` over the history, less what `location_` still owes it -/
noncomputable def hindsight (w : ι → ℝ) (u : ℝ) (xs : List (ι → ℝ)) : ℝ :=
  (xs.map fun z => (w ⬝ᵥ z - u) ^ 2).sum - xs.length * (w ⬝ᵥ (empFold xs).mean - u) ^ 2

omit [DecidableEq ι] in
theorem hindsight_step (w : ι → ℝ) (u : ℝ) (xs : List (ι → ℝ)) (x : ι → ℝ) :
    hindsight w u (xs ++ [x]) = hindsight w u xs + xs.length / (xs.length + 1) * (w ⬝ᵥ x - w ⬝ᵥ (empFold xs).mean) ^ 2 := by
  have h : (0:ℝ) < xs.length + 1 := by positivity
  simp only [hindsight, emp_portfolio_step, List.map_append, List.map_cons, List.map_nil, List.sum_append, List.sum_cons, List.sum_nil, List.length_append,
    List.length_singleton, Nat.cast_add, Nat.cast_one]
  field_simp
  ring

omit [DecidableEq ι] in
theorem hindsight_nonneg (w : ι → ℝ) (u : ℝ) (xs : List (ι → ℝ)) : 0 ≤ hindsight w u xs := by
  induction xs using List.reverseRecOn with
  | nil => simp [hindsight]
  | append_singleton xs x ih => rw [hindsight_step]; positivity

/-- C133: EmpiricalCovariance: `location_`, read before each observation, loses to no constant chosen in hindsight (of which the whole history counts) more than the
square of the range of the data times the logarithm of the growth of the history. -/
theorem C133_empirical (d : Bool) (a : List (ι → ℝ)) (hne : a ≠ []) (x : ℕ → ι → ℝ) (calls : ℕ → List (Call ι ℝ))
    (hu : ∀ k, used d (calls k) = a ++ firstRows k x) : ∃ m : ℕ → ι → ℝ, (∀ k, ((new (empiricalCls ι ℝ) d).run (calls k)).location = .ok (m k)) ∧
      ∀ (w : ι → ℝ) (lo hi : ℝ), (∀ z ∈ a, lo ≤ w ⬝ᵥ z ∧ w ⬝ᵥ z ≤ hi) → (∀ t, lo ≤ w ⬝ᵥ x t ∧ w ⬝ᵥ x t ≤ hi) → ∀ (n : ℕ) (u : ℝ),
        ∑ t ∈ Finset.range n, (w ⬝ᵥ x t - w ⬝ᵥ m t) ^ 2 ≤ (a.map fun z => (w ⬝ᵥ z - u) ^ 2).sum + ∑ t ∈ Finset.range n, (w ⬝ᵥ x t - u) ^ 2
          + (hi - lo) ^ 2 * Real.log ((a.length + n) / a.length) := by
  have hne' : ∀ k, used d (calls k) ≠ [] := fun k => by rw [hu]; simp [hne]
  refine ⟨fun k => (empFold (a ++ firstRows k x)).mean, fun k => ?_, fun w lo hi hA hX n u => ?_⟩
  · have h : a ++ firstRows k x ≠ [] := by simp [hne]
    rw [(C15_batch d (calls k) (hne' k)).1, hu, ← empFold_mean h]
  have hN : (0:ℝ) < a.length := by exact_mod_cast List.length_pos_iff.2 hne
  have hb : ∀ xs : List (ι → ℝ), xs ≠ [] → (∀ z ∈ xs, lo ≤ w ⬝ᵥ z ∧ w ⬝ᵥ z ≤ hi) → lo ≤ w ⬝ᵥ (empFold xs).mean ∧ w ⬝ᵥ (empFold xs).mean ≤ hi := by
    intro xs
    induction xs using List.reverseRecOn with
    | nil => intro h; exact absurd rfl h
    | append_singleton xs z ih =>
      intro _ hz
      rw [emp_portfolio_step]
      have hzz := hz z (by simp)
      rcases eq_or_ne xs [] with rfl | hx
      · simpa [empFold, empInit] using hzz
      · have i1 := ih hx fun y hy => hz y (by simp [hy])
        have hL : (0:ℝ) < xs.length + 1 := by positivity
        have e : w ⬝ᵥ (empFold xs).mean + (w ⬝ᵥ z - w ⬝ᵥ (empFold xs).mean) / (xs.length + 1)
            = (xs.length * (w ⬝ᵥ (empFold xs).mean) + w ⬝ᵥ z) / (xs.length + 1) := by field_simp; ring
        have hL' : (0:ℝ) ≤ xs.length := by positivity
        rw [e, le_div_iff₀ hL, div_le_iff₀ hL]
        constructor <;> nlinarith [i1.1, i1.2, hzz.1, hzz.2]
  have hloss : ∀ n, (a.map fun z => (w ⬝ᵥ z - u) ^ 2).sum + ∑ t ∈ Finset.range n, (w ⬝ᵥ x t - u) ^ 2
      = ((a ++ firstRows n x).map fun z => (w ⬝ᵥ z - u) ^ 2).sum := by
    intro n
    induction n with
    | zero => simp [firstRows]
    | succ n ih => rw [firstRows_succ, ← List.append_assoc, List.map_append, List.sum_append, ← ih, Finset.sum_range_succ]; simp; ring
  have key : ∀ n, ∑ t ∈ Finset.range n, (w ⬝ᵥ x t - w ⬝ᵥ (empFold (a ++ firstRows t x)).mean) ^ 2
      ≤ hindsight w u (a ++ firstRows n x) + (hi - lo) ^ 2 * Real.log ((a.length + n) / a.length) := by
    intro n
    induction n with
    | zero =>
      simp only [Finset.range_zero, Finset.sum_empty, Nat.cast_zero, add_zero, div_self hN.ne', Real.log_one, mul_zero]
      exact hindsight_nonneg _ _ _
    | succ n ih =>
      rw [Finset.sum_range_succ, firstRows_succ, ← List.append_assoc, hindsight_step]
      set e := w ⬝ᵥ x n - w ⬝ᵥ (empFold (a ++ firstRows n x)).mean with he
      have hL : ((a ++ firstRows n x).length : ℝ) = a.length + n := by rw [List.length_append, firstRows_length]; push_cast; ring
      rw [hL]
      set N : ℝ := a.length + n with hNd
      have hNp : 0 < N := by positivity
      have hm := hb (a ++ firstRows n x) (by simp [hne]) fun z hz => by
        rcases List.mem_append.1 hz with h | h
        · exact hA z h
        · obtain ⟨t, -, rfl⟩ := List.mem_map.1 h; exact hX t
      have he2 : e ^ 2 ≤ (hi - lo) ^ 2 := by
        have := hX n
        rw [sq_le_sq, abs_of_nonneg (by linarith [this.1, this.2] : 0 ≤ hi - lo), abs_le]
        constructor <;> linarith [hm.1, hm.2, this.1, this.2]
      have hlog : 1 / (N + 1) ≤ Real.log ((N + 1) / N) := by
        have := Real.one_sub_inv_le_log_of_pos (by positivity : 0 < (N + 1) / N)
        have e : 1 - ((N + 1) / N)⁻¹ = 1 / (N + 1) := by field_simp; ring
        rwa [e] at this
      have hsplit : Real.log ((a.length + ((n + 1 : ℕ) : ℝ)) / a.length) = Real.log (N / a.length) + Real.log ((N + 1) / N) := by
        rw [← Real.log_mul (by positivity) (by positivity)]
        congr 1
        push_cast
        rw [hNd]
        field_simp
        ring
      rw [hsplit]
      have e3 : N / (N + 1) * e ^ 2 = e ^ 2 - 1 / (N + 1) * e ^ 2 := by field_simp; ring
      have : 1 / (N + 1) * e ^ 2 ≤ Real.log ((N + 1) / N) * (hi - lo) ^ 2 :=
        mul_le_mul hlog he2 (sq_nonneg _) (le_trans (by positivity) hlog)
      rw [e3]
      linarith
  have h1 := key n
  have h2 : hindsight w u (a ++ firstRows n x) ≤ ((a ++ firstRows n x).map fun z => (w ⬝ᵥ z - u) ^ 2).sum := by
    unfold hindsight
    have : (0:ℝ) ≤ ((a ++ firstRows n x).length : ℝ) * (w ⬝ᵥ (empFold (a ++ firstRows n x)).mean - u) ^ 2 := by positivity
    linarith
  rw [hloss]
  linarith

/-- Non-vacuity: 250 rows, then a stream of cosines; every portfolio return lies in some `[lo, hi]`. -/
example : ∃ (a : List (Fin 2 → ℝ)) (x : ℕ → Fin 2 → ℝ) (calls : ℕ → List (Call (Fin 2) ℝ)), a ≠ [] ∧ ewaBurnN (1 / 4 : ℝ) ≤ a.length ∧
    (∀ k, used false (calls k) = a ++ firstRows k x) ∧ ∀ w : Fin 2 → ℝ, ∃ lo hi, (∀ z ∈ a, lo ≤ w ⬝ᵥ z ∧ w ⬝ᵥ z ≤ hi) ∧ ∀ t, lo ≤ w ⬝ᵥ x t ∧ w ⬝ᵥ x t ≤ hi := by
  refine ⟨List.replicate 250 ![1, 1], fun k _ => Real.cos k, fun k => [.partialFit (.batch (List.replicate 250 ![1, 1] ++ firstRows k fun k _ => Real.cos k))],
    by rw [← List.length_pos_iff, List.length_replicate]; norm_num, ?_,
    fun k => used_batch _, fun w => ⟨-(|w 0| + |w 1|), |w 0| + |w 1|, fun z hz => ?_, fun t => ?_⟩⟩
  · rw [List.length_replicate]; unfold ewaBurnN; omega
  · rw [List.eq_of_mem_replicate hz]
    simp only [dotProduct, Fin.sum_univ_two, cons_val_zero, cons_val_one, mul_one]
    constructor <;> linarith [neg_abs_le (w 0), neg_abs_le (w 1), le_abs_self (w 0), le_abs_self (w 1)]
  · simp only [dotProduct, Fin.sum_univ_two]
    have h := fun c : ℝ => (abs_le.1 ((abs_mul c (Real.cos t)).le.trans (mul_le_of_le_one_right (abs_nonneg c) (Real.abs_cos_le_one _))))
    constructor <;> linarith [(h (w 0)).1, (h (w 0)).2, (h (w 1)).1, (h (w 1)).2]

end Precise
