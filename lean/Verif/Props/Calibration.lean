import Verif.Spec.Calibration
import Verif.Props.NewLevel

/-!
# C130: one-step-ahead forecasts are right on average, on every stream
-/

set_option linter.all false

open Matrix Filter Topology

namespace Precise

open Spec Obj

variable {ι : Type} [Fintype ι] [DecidableEq ι]

theorem sum_of_step {r : ℝ} {m e : ℕ → ℝ} (h : ∀ k, m (k + 1) = m k + r * e k) (n : ℕ) : r * ∑ t ∈ Finset.range n, e t = m n - m 0 := by
  induction n with
  | zero => simp
  | succ n ih => rw [Finset.sum_range_succ, mul_add, ih, h]; ring

theorem calibratedMean_of_fold {C : Cls ι ℝ} (hC : Lawful C) (p : C.Param) {r : ℝ} {n0 : ℕ} (hn : 0 < n0)
    (h : ∀ (xs : List (ι → ℝ)) (x : ι → ℝ), n0 ≤ xs.length → ∀ i, C.toMean p (C.updateState p (xs.foldl (C.updateState p) (C.initState p)) x) i
      = (1 - r) * C.toMean p (xs.foldl (C.updateState p) (C.initState p)) i + r * x i) : CalibratedMean C p r n0 := by
  intro a x calls ha hu
  have hne : ∀ k, used (C.diff p) (calls k) ≠ [] := by
    intro k e
    rw [hu] at e
    have := congrArg List.length e
    rw [List.length_append, List.length_nil] at this; omega
  refine ⟨fun k => C.toMean p ((a ++ firstRows k x).foldl (C.updateState p) (C.initState p)), fun k => ?_, fun n i =>
    sum_of_step (m := fun k => C.toMean p ((a ++ firstRows k x).foldl (C.updateState p) (C.initState p)) i)
      (e := fun t => x t i - C.toMean p ((a ++ firstRows t x).foldl (C.updateState p) (C.initState p)) i) (fun k => ?_) n⟩
  · rw [run_location hC p (calls k) (hne k), hu]
  · show C.toMean p ((a ++ firstRows (k + 1) x).foldl (C.updateState p) (C.initState p)) i = _
    rw [firstRows_succ, ← List.append_assoc, List.foldl_append (l' := [x k])]
    show C.toMean p (C.updateState p _ (x k)) i = _
    rw [h _ (x k) (by rw [List.length_append]; omega)]
    ring

theorem calib_burn_pos (r : ℝ) : 0 < ewaBurnN r := by unfold ewaBurnN; omega

theorem ewa_step {r : ℝ} {xs : List (ι → ℝ)} (h : ewaBurnN r ≤ xs.length) (x : ι → ℝ) : ewaUpdate (ewaFold r xs) x
    = { ewaFold r xs with toEmpState := ewaBlend r (ewaFold r xs).toEmpState x } := by
  unfold ewaUpdate
  rw [if_neg (by rw [ewaFold_n, ewaFold_nBurn]; omega)]
  simp only [ewaFold_r]

/-- C130: EwaCovariance: `location_`. -/
theorem C130_ewa (p : RParam ℝ) : CalibratedMean (ewaCls ι ℝ) p p.r (ewaBurnN p.r) := by
  refine calibratedMean_of_fold (ewa_lawful ι ℝ) p (calib_burn_pos _) fun xs x h i => ?_
  change (ewaUpdate (ewaFold p.r xs) x).mean i = (1 - p.r) * (ewaFold p.r xs).mean i + p.r * x i
  rw [ewa_step h]; rfl

theorem CalibratedMean.of_location {C D : Cls ι ℝ} (p : C.Param) (q : D.Param) {r : ℝ} {n0 : ℕ} (hd : D.diff q = C.diff p)
    (h : ∀ calls, ((new D q).run calls).location = ((new C p).run calls).location) (hC : CalibratedMean C p r n0) : CalibratedMean D q r n0 := by
  intro a x calls ha hu
  obtain ⟨m, h1, h2⟩ := hC a x calls ha (fun k => by rw [← hd]; exact hu k)
  exact ⟨m, fun k => (h _).trans (h1 k), h2⟩

/-- C130: every class whose location is that of EwaCovariance. -/
theorem C130_same_location (L : Lapack) (p : RParam ℝ) (delta : ℝ) (target : String) :
    CalibratedMean (diagonalCls ι ℝ) p p.r (ewaBurnN p.r) ∧ CalibratedMean (ledoitWolfCls ι ℝ) p p.r (ewaBurnN p.r) ∧
    CalibratedMean (oasCls ι ℝ) p p.r (ewaBurnN p.r) ∧ CalibratedMean (shrunkCls ι) ⟨p.r, delta, target, p.diff⟩ p.r (ewaBurnN p.r) ∧
    CalibratedMean (partialMomentsCls L ι) p p.r (ewaBurnN p.r) ∧ CalibratedMean (tylerCls L ι) p p.r (ewaBurnN p.r) ∧
    CalibratedMean (geodesicCls L ι) p p.r (ewaBurnN p.r) := by
  have hE := C130_ewa (ι := ι) p
  refine ⟨?_, ?_, ?_, ?_, ?_, ?_, ?_⟩
  · exact CalibratedMean.of_location (C := ewaCls ι ℝ) p (D := diagonalCls ι ℝ) p rfl (fun c => (C22_same_location p c).1) hE
  · exact CalibratedMean.of_location (C := ewaCls ι ℝ) p (D := ledoitWolfCls ι ℝ) p rfl (fun c => (C22_same_location p c).2.1) hE
  · exact CalibratedMean.of_location (C := ewaCls ι ℝ) p (D := oasCls ι ℝ) p rfl (fun c => (C22_same_location p c).2.2) hE
  · exact CalibratedMean.of_location (C := ewaCls ι ℝ) p (D := shrunkCls ι) _ rfl (fun c => (C22_same_location_real L p delta target c).1) hE
  · exact CalibratedMean.of_location (C := ewaCls ι ℝ) p (D := partialMomentsCls L ι) p rfl (fun c => (C22_same_location_real L p delta target c).2.1) hE
  · exact CalibratedMean.of_location (C := ewaCls ι ℝ) p (D := tylerCls L ι) p rfl (fun c => (C22_same_location_real L p delta target c).2.2.1) hE
  · exact CalibratedMean.of_location (C := ewaCls ι ℝ) p (D := geodesicCls L ι) p rfl (fun c => (C22_same_location_real L p delta target c).2.2.2) hE

/-- C130: and the block classes. -/
theorem C130_same_location_blocks (L : Lapack) {d : ℕ} (hd : 1 ≤ d) (p : RParam ℝ) (nb : ℤ) (gamma : ℝ) (interp : String) :
    CalibratedMean (blockCls L d) ⟨p.r, nb, p.diff⟩ p.r (ewaBurnN p.r) ∧ CalibratedMean (schurCls L d) ⟨p.r, nb, gamma, interp, p.diff⟩ p.r (ewaBurnN p.r) ∧
    CalibratedMean (schurLWCls L d) ⟨p.r, nb, p.diff⟩ p.r (ewaBurnN p.r) ∧ CalibratedMean (schurCondCls L d) ⟨p.r, nb, p.diff⟩ p.r (ewaBurnN p.r) := by
  have hE := C130_ewa (ι := Fin d) p
  have h := C22_same_location_blocks L hd p nb gamma interp
  refine ⟨?_, ?_, ?_, ?_⟩
  · exact CalibratedMean.of_location (C := ewaCls (Fin d) ℝ) p (D := blockCls L d) _ rfl (fun c => (h c).1) hE
  · exact CalibratedMean.of_location (C := ewaCls (Fin d) ℝ) p (D := schurCls L d) _ rfl (fun c => (h c).2.1) hE
  · exact CalibratedMean.of_location (C := ewaCls (Fin d) ℝ) p (D := schurLWCls L d) _ rfl (fun c => (h c).2.2.1) hE
  · exact CalibratedMean.of_location (C := ewaCls (Fin d) ℝ) p (D := schurCondCls L d) _ rfl (fun c => (h c).2.2.2) hE

/-- C130: DCCCovariance, at its volatility rate. -/
theorem C130_dcc (p : DCCParam) : CalibratedMean (dccCls ι) p (p.volR.getD p.r) (ewaBurnN (min p.r (p.volR.getD p.r))) := by
  refine calibratedMean_of_fold (dcc_lawful ι) p (calib_burn_pos _) fun xs x h i => ?_
  obtain ⟨hn, hr, hv, hb⟩ := dcc_inv p xs
  simp only [dccCls]
  set s := xs.foldl dccUpdate (dccInit p) with hs
  unfold dccUpdate
  simp only []
  rw [if_neg (by rw [hn, hb]; omega)]
  simp only [hv]

/-- C130: FactorCovariance. -/
theorem C130_factor (p : FactorParam) : CalibratedMean (factorCls ι) p p.r (min p.k (Fintype.card ι) + 1) := by
  refine calibratedMean_of_fold (factor_lawful ι) p (by omega) fun xs x h i => ?_
  obtain ⟨hn, hr, hv, hb⟩ := factor_inv p xs
  simp only [factorCls]
  set s := xs.foldl factorUpdate (factorInit p) with hs
  unfold factorUpdate
  simp only []
  rw [if_neg (by rw [hn, hb]; omega)]
  simp only [hr]

/-- C130: EwaCovariance: `covariance_`, all entries. -/
theorem C130_ewa_covariance (p : RParam ℝ) : CalibratedCov (ewaCls ι ℝ) p p.r (ewaBurnN p.r) fun _ _ => True := by
  intro a x calls ha hu
  have hne : ∀ k, used p.diff (calls k) ≠ [] := by
    intro k e
    have e2 : used p.diff (calls k) = a ++ firstRows k x := hu k
    rw [e2] at e
    have := congrArg List.length e
    have := calib_burn_pos p.r
    simp only [List.length_append, List.length_nil] at *; omega
  have he := fun k => ewa_attrs p (calls k) (hne k)
  refine ⟨fun k => (ewaFold p.r (a ++ firstRows k x)).mean, fun k => (ewaFold p.r (a ++ firstRows k x)).cov,
    fun k => (he k).1.trans (congrArg (fun l => Except.ok (ewaFold p.r l).mean) (hu k)),
    fun k => (he k).2.trans (congrArg (fun l => Except.ok (ewaFold p.r l).cov) (hu k)), fun n i j _ =>
    sum_of_step (m := fun k => (ewaFold p.r (a ++ firstRows k x)).cov i j) (e := fun t => (x t i - (ewaFold p.r (a ++ firstRows t x)).mean i) *
      (x t j - (ewaFold p.r (a ++ firstRows t x)).mean j) - (ewaFold p.r (a ++ firstRows t x)).cov i j) (fun k => ?_) n⟩
  show (ewaFold p.r (a ++ firstRows (k + 1) x)).cov i j = _
  rw [firstRows_succ, ← List.append_assoc, ewaFold_snoc, ewa_step (by rw [List.length_append]; omega)]
  simp only [ewaBlend, Matrix.add_apply, Matrix.smul_apply, outer, Matrix.of_apply, smul_eq_mul]
  ring

theorem diag_counts (p : RParam ℝ) (xs : List (ι → ℝ)) : let s : DiagState ι ℝ := xs.foldl diagUpdate (diagInit p.r)
    s.nSamples = xs.length ∧ s.r = p.r ∧ s.nBurn = ewaBurnN p.r := by
  induction xs using List.reverseRecOn with
  | nil => exact ⟨rfl, rfl, rfl⟩
  | append_singleton xs x ih =>
    simp only [List.foldl_append, List.foldl_cons, List.foldl_nil, List.length_append, List.length_singleton]
    generalize (xs.foldl diagUpdate (diagInit p.r) : DiagState ι ℝ) = s at ih
    obtain ⟨i1, i2, i3⟩ := ih
    unfold diagUpdate
    simp only []
    split <;> exact ⟨by simp only [i1], i2, i3⟩

/-- C130: DiagonalCovariance: the variances. -/
theorem C130_diagonal (p : RParam ℝ) : CalibratedCov (diagonalCls ι ℝ) p p.r (ewaBurnN p.r) fun i j => i = j := by
  intro a x calls ha hu
  have hne : ∀ k, used p.diff (calls k) ≠ [] := by
    intro k e
    have e2 : used p.diff (calls k) = a ++ firstRows k x := hu k
    rw [e2] at e
    have := congrArg List.length e
    have := calib_burn_pos p.r
    simp only [List.length_append, List.length_nil] at *; omega
  set S : ℕ → DiagState ι ℝ := fun k => (a ++ firstRows k x).foldl diagUpdate (diagInit p.r) with hS
  refine ⟨fun k => (S k).mean, fun k => Matrix.diagonal (S k).var, fun k => ?_, fun k => ?_, ?_⟩
  · rw [run_location (diagonal_lawful ι ℝ) p (calls k) (hne k)]
    rw [hu k]; rfl
  · rw [run_covariance (diagonal_lawful ι ℝ) p (calls k) (hne k), hu k]
    congr 1
    exact toSymmetric_of_symm (symm_diagonal _)
  · rintro n i _ rfl
    simp only [diagonal_apply_eq]
    refine sum_of_step (m := fun k => (S k).var i) (e := fun t => (x t i - (S t).mean i) * (x t i - (S t).mean i) - (S t).var i) (fun k => ?_) n
    have e : S (k + 1) = diagUpdate (S k) (x k) := by
      simp only [hS]; rw [firstRows_succ, ← List.append_assoc, List.foldl_append]; rfl
    obtain ⟨i1, i2, i3⟩ := diag_counts p (a ++ firstRows k x)
    have i1 : (S k).nSamples = _ := i1
    have i2 : (S k).r = _ := i2
    have i3 : (S k).nBurn = _ := i3
    rw [e]
    generalize S k = s at *
    unfold diagUpdate
    simp only []
    rw [if_neg (by rw [i1, i3, List.length_append, firstRows_length]; omega)]
    simp only [i2]
    ring

/-! ## What it means for bounded streams -/

/-- C130: for any bounded stream, of whatever pattern, the forecast errors average to zero: over `n` observations their average is at most `2M/(r n)`, `M` the
largest of the stream's bound and the location it started from. -/
theorem C130_average {C : Cls ι ℝ} {p : C.Param} {r : ℝ} {n0 : ℕ} (h0 : 0 < r) (h1 : r ≤ 1) (h : CalibratedMean C p r n0)
    (a : List (ι → ℝ)) (x : ℕ → ι → ℝ) (calls : ℕ → List (Call ι ℝ)) (ha : n0 ≤ a.length) (hu : ∀ k, used (C.diff p) (calls k) = a ++ firstRows k x)
    (B : ℝ) (hB : ∀ k i, |x k i| ≤ B) : ∃ m : ℕ → ι → ℝ, (∀ k, ((new C p).run (calls k)).location = .ok (m k)) ∧
      ∀ n i, 0 < n → |(∑ t ∈ Finset.range n, (x t i - m t i)) / n| ≤ 2 * max B |m 0 i| / (r * n) := by
  obtain ⟨m, h2, h3⟩ := h a x calls ha hu
  refine ⟨m, h2, fun n i hn => ?_⟩
  have hM : ∀ k, |m k i| ≤ max B |m 0 i| := by
    intro k
    induction k with
    | zero => exact le_max_right _ _
    | succ k ih =>
      have e1 := h3 (k + 1) i
      have e2 := h3 k i
      rw [Finset.sum_range_succ, mul_add, e2] at e1
      have e : m (k + 1) i = (1 - r) * m k i + r * x k i := by linarith
      rw [e]
      calc |(1 - r) * m k i + r * x k i| ≤ |(1 - r) * m k i| + |r * x k i| := abs_add_le _ _
        _ = (1 - r) * |m k i| + r * |x k i| := by rw [abs_mul, abs_mul, abs_of_nonneg (by linarith : 0 ≤ 1 - r), abs_of_pos h0]
        _ ≤ (1 - r) * max B |m 0 i| + r * max B |m 0 i| := by
          have : |x k i| ≤ max B |m 0 i| := (hB k i).trans (le_max_left _ _)
          have : 0 ≤ 1 - r := by linarith
          gcongr
        _ = _ := by ring
  have hn' : (0:ℝ) < n := by exact_mod_cast hn
  have e : (∑ t ∈ Finset.range n, (x t i - m t i)) / n = (m n i - m 0 i) / (r * n) := by
    rw [← h3 n i]; field_simp
  rw [e, abs_div, abs_of_pos (by positivity : 0 < r * (n:ℝ))]
  refine div_le_div_of_nonneg_right ?_ (by positivity)
  have := hM n
  have := hM 0
  have := abs_sub (m n i) (m 0 i)
  linarith

/-- C130: for any bounded stream the `covariance_` read before each observation is, on average, the product of the errors made: over `n` observations the averages
differ by at most `2 M² / (r n)`, for a constant `M` (twice the bound of the data and of the start). -/
theorem C130_average_covariance {C : Cls ι ℝ} {p : C.Param} {r : ℝ} {n0 : ℕ} {I : ι → ι → Prop} (h0 : 0 < r) (h1 : r ≤ 1) (h : CalibratedMean C p r n0)
    (hC : CalibratedCov C p r n0 I) (a : List (ι → ℝ)) (x : ℕ → ι → ℝ) (calls : ℕ → List (Call ι ℝ)) (ha : n0 ≤ a.length)
    (hu : ∀ k, used (C.diff p) (calls k) = a ++ firstRows k x) (B : ℝ) (hB : ∀ k i, |x k i| ≤ B) :
    ∃ (m : ℕ → ι → ℝ) (c : ℕ → Matrix ι ι ℝ), (∀ k, ((new C p).run (calls k)).location = .ok (m k)) ∧ (∀ k, ((new C p).run (calls k)).covariance = .ok (c k)) ∧
      ∀ B', B ≤ B' → (∀ i, |m 0 i| ≤ B') → ∀ n i j, I i j → 0 < n →
        |(∑ t ∈ Finset.range n, (x t i - m t i) * (x t j - m t j)) / n - (∑ t ∈ Finset.range n, c t i j) / n| ≤ 2 * max (4 * B' ^ 2) |c 0 i j| / (r * n) := by
  obtain ⟨m', h2', h3'⟩ := h a x calls ha hu
  obtain ⟨m, c, h2, h2c, h3⟩ := hC a x calls ha hu
  have em : m = m' := funext fun k => Except.ok.inj ((h2 k).symm.trans (h2' k))
  subst em
  refine ⟨m, c, h2, h2c, fun B' hBB hB0 n i j hI hn => ?_⟩
  have hM : ∀ i k, |m k i| ≤ B' := by
    intro i k
    induction k with
    | zero => exact hB0 i
    | succ k ih =>
      have e1 := h3' (k + 1) i
      have e2 := h3' k i
      rw [Finset.sum_range_succ, mul_add, e2] at e1
      have e : m (k + 1) i = (1 - r) * m k i + r * x k i := by linarith
      rw [e]
      calc |(1 - r) * m k i + r * x k i| ≤ |(1 - r) * m k i| + |r * x k i| := abs_add_le _ _
        _ = (1 - r) * |m k i| + r * |x k i| := by rw [abs_mul, abs_mul, abs_of_nonneg (by linarith : 0 ≤ 1 - r), abs_of_pos h0]
        _ ≤ (1 - r) * B' + r * B' := by
          have : |x k i| ≤ B' := (hB k i).trans hBB
          have : 0 ≤ 1 - r := by linarith
          gcongr
        _ = _ := by ring
  have hE : ∀ i k, |x k i - m k i| ≤ 2 * B' := fun i k => by
    have := abs_sub (x k i) (m k i)
    have := hM i k
    have := (hB k i).trans hBB
    linarith
  set G := max (4 * B' ^ 2) |c 0 i j| with hG
  have hc : ∀ k, |c k i j| ≤ G := by
    intro k
    induction k with
    | zero => exact le_max_right _ _
    | succ k ih =>
      have e1 := h3 (k + 1) i j hI
      have e2 := h3 k i j hI
      rw [Finset.sum_range_succ, mul_add, e2] at e1
      have e : c (k + 1) i j = (1 - r) * c k i j + r * ((x k i - m k i) * (x k j - m k j)) := by linarith
      rw [e]
      have hp : |(x k i - m k i) * (x k j - m k j)| ≤ G := by
        rw [abs_mul]
        refine le_trans ?_ (le_max_left _ _)
        have := mul_le_mul (hE i k) (hE j k) (abs_nonneg _) ((abs_nonneg _).trans (hE i k))
        linarith
      calc |(1 - r) * c k i j + r * ((x k i - m k i) * (x k j - m k j))| ≤ |(1 - r) * c k i j| + |r * ((x k i - m k i) * (x k j - m k j))| := abs_add_le _ _
        _ = (1 - r) * |c k i j| + r * |(x k i - m k i) * (x k j - m k j)| := by
          rw [abs_mul, abs_mul r, abs_of_nonneg (by linarith : 0 ≤ 1 - r), abs_of_pos h0]
        _ ≤ (1 - r) * G + r * G := by
          have : 0 ≤ 1 - r := by linarith
          gcongr
        _ = _ := by ring
  have hn' : (0:ℝ) < n := by exact_mod_cast hn
  have e : (∑ t ∈ Finset.range n, (x t i - m t i) * (x t j - m t j)) / n - (∑ t ∈ Finset.range n, c t i j) / n = (c n i j - c 0 i j) / (r * n) := by
    rw [← h3 n i j hI, Finset.sum_sub_distrib]; field_simp
  rw [e, abs_div, abs_of_pos (by positivity : 0 < r * (n:ℝ))]
  refine div_le_div_of_nonneg_right ?_ (by positivity)
  have := hc n
  have := hc 0
  have := abs_sub (c n i j) (c 0 i j)
  linarith

/-- C130: so the risk EwaCovariance reports for any fixed portfolio `w` is, on average, the squared error of the portfolio forecast, up to what `covariance_` has
moved. -/
theorem C130_portfolio (p : RParam ℝ) (a : List (ι → ℝ)) (x : ℕ → ι → ℝ) (calls : ℕ → List (Call ι ℝ)) (ha : ewaBurnN p.r ≤ a.length)
    (hu : ∀ k, used p.diff (calls k) = a ++ firstRows k x) : ∃ (m : ℕ → ι → ℝ) (c : ℕ → Matrix ι ι ℝ),
      (∀ k, ((new (ewaCls ι ℝ) p).run (calls k)).location = .ok (m k)) ∧ (∀ k, ((new (ewaCls ι ℝ) p).run (calls k)).covariance = .ok (c k)) ∧
      ∀ (w : ι → ℝ) n, p.r * ∑ t ∈ Finset.range n, ((w ⬝ᵥ (x t - m t)) ^ 2 - w ⬝ᵥ (c t *ᵥ w)) = w ⬝ᵥ (c n *ᵥ w) - w ⬝ᵥ (c 0 *ᵥ w) := by
  obtain ⟨m, c, h1, h2, h3⟩ := C130_ewa_covariance p a x calls ha hu
  refine ⟨m, c, h1, h2, fun w n => ?_⟩
  have q : ∀ A : Matrix ι ι ℝ, w ⬝ᵥ (A *ᵥ w) = ∑ i, ∑ j, w i * w j * A i j := fun A => by
    simp only [dotProduct, mulVec, Finset.mul_sum]
    exact Finset.sum_congr rfl fun i _ => Finset.sum_congr rfl fun j _ => by ring
  have s : ∀ t, (w ⬝ᵥ (x t - m t)) ^ 2 = ∑ i, ∑ j, w i * w j * ((x t i - m t i) * (x t j - m t j)) := fun t => by
    simp only [dotProduct, pow_two, Finset.sum_mul_sum, Pi.sub_apply]
    exact Finset.sum_congr rfl fun i _ => Finset.sum_congr rfl fun j _ => by ring
  simp only [q, s, ← Finset.sum_sub_distrib, ← mul_sub]
  rw [Finset.sum_comm, Finset.mul_sum]
  refine Finset.sum_congr rfl fun i _ => ?_
  rw [Finset.sum_comm, Finset.mul_sum]
  refine Finset.sum_congr rfl fun j _ => ?_
  rw [← Finset.mul_sum, ← h3 n i j trivial]
  ring

/-- Non-vacuity: five rows, then an alternating stream. -/
example : ∃ (a : List (Fin 2 → ℝ)) (x : ℕ → Fin 2 → ℝ) (calls : ℕ → List (Call (Fin 2) ℝ)), ewaBurnN (1 / 4 : ℝ) ≤ a.length ∧
    (∀ k, used false (calls k) = a ++ firstRows k x) ∧ ∀ k i, |x k i| ≤ 1 := by
  refine ⟨List.replicate 250 ![1, 2], fun k _ => (-1) ^ k, fun k => [.partialFit (.batch (List.replicate 250 ![1, 2] ++ firstRows k fun k _ => (-1) ^ k))], ?_,
    fun k => used_batch _, fun k i => by simp [abs_pow]⟩
  rw [List.length_replicate]
  unfold ewaBurnN
  omega

/-- C130, finding: EmpiricalCovariance is not calibrated in this sense: after `N` rows of zeros, a stream of ones is forecast with an error of at least 1/2 in every
column for `N` observations on end, so the average error over as many observations as the past does not get small however long both are. -/
theorem C130_empirical_fails (d : Bool) (N : ℕ) (hN : 1 ≤ N) (calls : ℕ → List (Call ι ℝ))
    (hu : ∀ k, used d (calls k) = List.replicate N 0 ++ firstRows k fun _ _ => (1:ℝ)) :
    ∃ m : ℕ → ι → ℝ, (∀ k, ((new (empiricalCls ι ℝ) d).run (calls k)).location = .ok (m k)) ∧ (∀ k i, 1 - m k i = N / (N + k)) ∧
      ∀ i, 1 / 2 * (N : ℝ) ≤ ∑ t ∈ Finset.range N, (1 - m t i) := by
  have hN' : (0:ℝ) < N := by exact_mod_cast hN
  have hne : ∀ k, used d (calls k) ≠ [] := by
    intro k e
    rw [hu] at e
    have := congrArg List.length e
    simp at this; omega
  have hval : ∀ k i, 1 - meanOf (used d (calls k)) i = N / (N + k) := by
    intro k i
    have hl : ((used d (calls k)).length : ℝ) = N + k := by rw [hu]; simp [firstRows]
    have hs : ((used d (calls k)).map fun x => x i).sum = k := by rw [hu]; simp [firstRows]
    simp only [meanOf]
    rw [hl, hs]
    field_simp
    ring
  refine ⟨fun k => meanOf (used d (calls k)), fun k => (C15_batch d (calls k) (hne k)).1, hval, fun i => ?_⟩
  have hb : ∀ t ∈ Finset.range N, (1:ℝ) / 2 ≤ 1 - meanOf (used d (calls t)) i := by
    intro t ht
    have ht' : (t:ℝ) ≤ N := by exact_mod_cast (Finset.mem_range.1 ht).le
    rw [hval, div_le_div_iff₀ (by norm_num) (by positivity)]
    linarith
  have := Finset.card_nsmul_le_sum _ _ _ hb
  rw [Finset.card_range, nsmul_eq_mul] at this
  linarith

/-- Non-vacuity: such calls. -/
example (N k : ℕ) : used false [Call.partialFit (.batch (List.replicate N 0 ++ firstRows k fun _ (_ : Fin 2) => (1:ℝ)))] = List.replicate N 0 ++ firstRows k fun _ _ => (1:ℝ) := by
  simp [used, effective, rowsSinceFit, rowsOf]

end Precise
