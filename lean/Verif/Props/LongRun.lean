import Verif.Props.Calibration
import Verif.Props.ForgettingMore

/-!
# C131: streams with a regular long run: ergodic, trending, seasonal
-/

set_option linter.all false

open Matrix Filter Topology

namespace Precise

open Spec Obj

variable {ι : Type} [Fintype ι] [DecidableEq ι]

/-! ## Streams whose averages settle -/

theorem running_mean (f : (ι → ℝ) → ℝ) (a : List (ι → ℝ)) (x : ℕ → ι → ℝ) {μ : ℝ}
    (h : Tendsto (fun n : ℕ => (∑ t ∈ Finset.range n, f (x t)) / (n : ℝ)) atTop (𝓝 μ)) :
    Tendsto (fun k => ((a ++ firstRows k x).map f).sum / ((a ++ firstRows k x).length : ℝ)) atTop (𝓝 μ) := by
  have e : ∀ k, ((a ++ firstRows k x).map f).sum / ((a ++ firstRows k x).length : ℝ) = ((a.map f).sum + ∑ t ∈ Finset.range k, f (x t)) / (a.length + k : ℝ) := by
    intro k
    rw [List.map_append, List.sum_append, List.length_append, firstRows_length, firstRows, List.map_map]
    push_cast
    rfl
  simp only [e]
  have hk : Tendsto (fun k : ℕ => (k : ℝ)) atTop atTop := tendsto_natCast_atTop_atTop
  have hd : Tendsto (fun k : ℕ => (a.length + k : ℝ)) atTop atTop := tendsto_atTop_add_const_left _ _ hk
  have t1 : Tendsto (fun k : ℕ => (a.map f).sum / (a.length + k : ℝ)) atTop (𝓝 0) := tendsto_const_nhds.div_atTop hd
  have t2 : Tendsto (fun k : ℕ => (k : ℝ) / (a.length + k : ℝ)) atTop (𝓝 1) := by
    have : Tendsto (fun k : ℕ => 1 - (a.length : ℝ) / (a.length + k : ℝ)) atTop (𝓝 (1 - 0)) := tendsto_const_nhds.sub (tendsto_const_nhds.div_atTop hd)
    rw [sub_zero] at this
    refine this.congr' ?_
    filter_upwards [eventually_gt_atTop 0] with k hk
    have : (0:ℝ) < k := by exact_mod_cast hk
    have : (0:ℝ) ≤ a.length := by positivity
    field_simp; ring
  have := t1.add (h.mul t2)
  rw [zero_add, mul_one] at this
  refine this.congr' ?_
  filter_upwards [eventually_gt_atTop 0] with k hk
  have : (0:ℝ) < k := by exact_mod_cast hk
  have : (0:ℝ) ≤ a.length := by positivity
  field_simp

/-- C131: EmpiricalCovariance on a stream whose averages and average products settle (no distribution assumed, the rows may depend on each other in any way):
`location_` and `covariance_` settle on the corresponding mean and covariance, whatever was observed before. -/
theorem C131_ergodic (d : Bool) (a : List (ι → ℝ)) (x : ℕ → ι → ℝ) (calls : ℕ → List (Call ι ℝ)) (hu : ∀ k, used d (calls k) = a ++ firstRows k x)
    (μ : ι → ℝ) (M : Matrix ι ι ℝ) (h1 : ∀ i, Tendsto (fun n : ℕ => (∑ t ∈ Finset.range n, x t i) / (n : ℝ)) atTop (𝓝 (μ i)))
    (h2 : ∀ i j, Tendsto (fun n : ℕ => (∑ t ∈ Finset.range n, x t i * x t j) / (n : ℝ)) atTop (𝓝 (M i j))) :
    ∃ (m : ℕ → ι → ℝ) (c : ℕ → Matrix ι ι ℝ), (∀ k, 0 < k → ((new (empiricalCls ι ℝ) d).run (calls k)).location = .ok (m k)) ∧
      (∀ k, 0 < k → ((new (empiricalCls ι ℝ) d).run (calls k)).covariance = .ok (c k)) ∧
      (∀ i, Tendsto (fun k => m k i) atTop (𝓝 (μ i))) ∧ ∀ i j, Tendsto (fun k => c k i j) atTop (𝓝 (M i j - μ i * μ j)) := by
  have hne : ∀ k, 0 < k → a ++ firstRows k x ≠ [] := by
    intro k hk e
    have := congrArg List.length e
    rw [List.length_append, firstRows_length, List.length_nil] at this; omega
  have hb := fun k (hk : 0 < k) => C15_batch (ι := ι) (K := ℝ) d (calls k) (by rw [hu]; exact hne k hk)
  have hm : ∀ i, Tendsto (fun k => meanOf (a ++ firstRows k x) i) atTop (𝓝 (μ i)) := fun i => running_mean (fun z => z i) a x (h1 i)
  refine ⟨fun k => meanOf (a ++ firstRows k x), fun k => covOf (a ++ firstRows k x), fun k hk => ?_, fun k hk => ?_, hm, fun i j => ?_⟩
  · rw [(hb k hk).1, hu]
  · rw [(hb k hk).2.1, hu]
  · refine ((running_mean (fun z => z i * z j) a x (h2 i j)).sub ((hm i).mul (hm j))).congr' ?_
    filter_upwards [eventually_gt_atTop 0] with k hk
    exact (covOf_moments (hne k hk) i j).symm

/-- C131: and `precision_` settles on the inverse, if the limit has one. -/
theorem C131_ergodic_precision (L : Lapack) (d : Bool) (a : List (ι → ℝ)) (x : ℕ → ι → ℝ) (calls : ℕ → List (Call ι ℝ))
    (hu : ∀ k, used d (calls k) = a ++ firstRows k x)
    (μ : ι → ℝ) (M : Matrix ι ι ℝ) (h1 : ∀ i, Tendsto (fun n : ℕ => (∑ t ∈ Finset.range n, x t i) / (n : ℝ)) atTop (𝓝 (μ i)))
    (h2 : ∀ i j, Tendsto (fun n : ℕ => (∑ t ∈ Finset.range n, x t i * x t j) / (n : ℝ)) atTop (𝓝 (M i j)))
    (hd : (M - vecMulVec μ μ).det ≠ 0) (P : ℕ → Matrix ι ι ℝ) (hP : ∀ k, 0 < k → ((new (empiricalCls ι ℝ) d).run (calls k)).precision L = .ok (P k)) (i j : ι) :
    Tendsto (fun k => P k i j) atTop (𝓝 ((M - vecMulVec μ μ)⁻¹ i j)) := by
  obtain ⟨m, c, -, hc, -, hl⟩ := C131_ergodic d a x calls hu μ M h1 h2
  have hT : Tendsto c atTop (𝓝 (M - vecMulVec μ μ)) := tendsto_pi_nhds.2 fun i => tendsto_pi_nhds.2 fun j => hl i j
  have hdet : Tendsto (fun k => (c k).det) atTop (𝓝 (M - vecMulVec μ μ).det) := ((continuous_id.matrix_det).tendsto _).comp hT
  have hadj : Tendsto (fun k => (c k).adjugate i j) atTop (𝓝 ((M - vecMulVec μ μ).adjugate i j)) := (((continuous_id.matrix_adjugate).matrix_elem i j).tendsto _).comp hT
  have hlim := (hdet.inv₀ hd).mul hadj
  have e : ∀ A : Matrix ι ι ℝ, A⁻¹ i j = A.det⁻¹ * A.adjugate i j := fun A => by
    rw [Matrix.inv_def, Matrix.smul_apply, smul_eq_mul, Ring.inverse_eq_inv']
  rw [e]
  refine hlim.congr' ?_
  filter_upwards [hdet.eventually_ne hd, eventually_gt_atTop 0] with k hk hk0
  rw [← e]
  have := ((C12_precision L _ (c k) (P k) (hc k hk0) (hP k hk0)).1 hk).1
  rw [Matrix.inv_eq_left_inv this]

/-! ## Trends -/

/-- C131: EwaCovariance on a trend. If the increments of the stream settle on a slope `s` (an exact linear trend, or any stream that keeps growing at an asymptotically
constant pace), then after any past `location_` trails the last observation by `s (1-r)/r`, and `covariance_` settles on `s sᵀ / r²`: a deterministic
trend is reported as risk. With slope 0 (for example: a level is reached, but also `√n`) `location_` catches up and `covariance_` vanishes. -/
theorem C131_trend (p : RParam ℝ) (h0 : 0 < p.r) (h1 : p.r ≤ 1) (a : List (ι → ℝ)) (x : ℕ → ι → ℝ) (calls : ℕ → List (Call ι ℝ))
    (hu : ∀ k, used p.diff (calls k) = a ++ firstRows k x) (s : ι → ℝ) (hs : ∀ i, Tendsto (fun k => x (k + 1) i - x k i) atTop (𝓝 (s i))) :
    ∃ (m : ℕ → ι → ℝ) (c : ℕ → Matrix ι ι ℝ), (∀ k, 0 < k → ((new (ewaCls ι ℝ) p).run (calls k)).location = .ok (m k)) ∧
      (∀ k, 0 < k → ((new (ewaCls ι ℝ) p).run (calls k)).covariance = .ok (c k)) ∧
      (∀ i, Tendsto (fun k => x k i - m (k + 1) i) atTop (𝓝 (s i * (1 - p.r) / p.r))) ∧ ∀ i j, Tendsto (fun k => c k i j) atTop (𝓝 (s i * s j / p.r ^ 2)) := by
  have hne : ∀ k, 0 < k → used p.diff (calls k) ≠ [] := by
    intro k hk e
    have := congrArg List.length ((hu k).symm.trans e)
    rw [List.length_append, firstRows_length, List.length_nil] at this; omega
  set S := fun k => ewaFold p.r (a ++ firstRows k x) with hS
  have post := ewa_post p.r a x
  have hdev : ∀ i, Tendsto (fun k => x k i - (S k).mean i) atTop (𝓝 (s i / p.r)) := by
    intro i
    have : Tendsto (fun k => x k i - (S k).mean i - s i / p.r) atTop (𝓝 0) := by
      refine tendsto_of_contract (q := 1 - p.r) (w := fun k => |x (k + 1) i - x k i - s i|) (by linarith) (by linarith) ?_ ?_
      · have : Tendsto (fun k => x (k + 1) i - x k i - s i) atTop (𝓝 0) := by simpa using (hs i).sub_const (s i)
        simpa using this.abs
      · filter_upwards [post] with k hk
        have e : x (k + 1) i - (S (k + 1)).mean i - s i / p.r = (1 - p.r) * (x k i - (S k).mean i - s i / p.r) + (x (k + 1) i - x k i - s i) := by
          have := hk.1 i
          simp only [hS]
          rw [this]
          field_simp; ring
        rw [e]
        refine (abs_add_le _ _).trans ?_
        rw [abs_mul, abs_of_nonneg (by linarith : 0 ≤ 1 - p.r)]
    simpa using this.add_const (s i / p.r)
  have hmean : ∀ i, Tendsto (fun k => x k i - (S (k + 1)).mean i) atTop (𝓝 (s i * (1 - p.r) / p.r)) := by
    intro i
    have := (hdev i).const_mul (1 - p.r)
    rw [show (1 - p.r) * (s i / p.r) = s i * (1 - p.r) / p.r by ring] at this
    refine this.congr' ?_
    filter_upwards [post] with k hk
    have := hk.1 i
    simp only [hS]
    rw [this]; ring
  refine ⟨fun k => (S k).mean, fun k => (S k).cov, fun k hk => ?_, fun k hk => ?_, hmean, fun i j => ?_⟩
  · exact (ewa_attrs p (calls k) (hne k hk)).1.trans (congrArg (fun l => Except.ok (ewaFold p.r l).mean) (hu k))
  · exact (ewa_attrs p (calls k) (hne k hk)).2.trans (congrArg (fun l => Except.ok (ewaFold p.r l).cov) (hu k))
  · have hx := (hdev i).mul (hdev j)
    rw [show s i / p.r * (s j / p.r) = s i * s j / p.r ^ 2 by field_simp] at hx
    exact tendsto_of_averaging h0 hx (by
      filter_upwards [post] with k hk
      exact ⟨p.r, le_rfl, h1, hk.2 i j⟩)

/-- C131: two trending columns are reported as (almost) perfectly correlated, whatever else they do: the limit of `correlation_`. -/
theorem C131_trend_correlation (p : RParam ℝ) (h0 : 0 < p.r) (h1 : p.r ≤ 1) (a : List (ι → ℝ)) (x : ℕ → ι → ℝ) (calls : ℕ → List (Call ι ℝ))
    (hu : ∀ k, used p.diff (calls k) = a ++ firstRows k x) (s : ι → ℝ) (hs : ∀ i, Tendsto (fun k => x (k + 1) i - x k i) atTop (𝓝 (s i))) :
    ∃ R : ℕ → Matrix ι ι ℝ, (∀ k, 0 < k → ((new (ewaCls ι ℝ) p).run (calls k)).correlation = .ok (R k)) ∧
      ∀ i j, Tendsto (fun k => R k i j) atTop (𝓝 (s i * s j / (|s i| * |s j| + p.r ^ 2 / 10 ^ 12))) := by
  obtain ⟨m, c, -, hc, -, hl⟩ := C131_trend p h0 h1 a x calls hu s hs
  refine ⟨fun k => covToCorr (c k), fun k hk => by unfold Obj.correlation; rw [hc k hk]; rfl, fun i j => ?_⟩
  have hEPS : (0:ℝ) < EPS := EPS_pos
  have hr2 : 0 < p.r ^ 2 := by positivity
  have hsq : Real.sqrt (s j * s j / p.r ^ 2 * (s i * s i / p.r ^ 2)) = |s i| * |s j| / p.r ^ 2 := by
    rw [show s j * s j / p.r ^ 2 * (s i * s i / p.r ^ 2) = (|s i| * |s j| / p.r ^ 2) ^ 2 by
      rw [div_pow, mul_pow, sq_abs, sq_abs]; field_simp]
    exact Real.sqrt_sq (by positivity)
  have hd : Tendsto (fun k => Real.sqrt (c k j j * c k i i) + EPS) atTop (𝓝 (|s i| * |s j| / p.r ^ 2 + EPS)) := by
    rw [← hsq]
    exact ((Real.continuous_sqrt.tendsto _).comp ((hl j j).mul (hl i i))).add_const _
  have := (hl i j).div hd (by positivity)
  rw [show s i * s j / p.r ^ 2 / (|s i| * |s j| / p.r ^ 2 + EPS) = s i * s j / (|s i| * |s j| + p.r ^ 2 / 10 ^ 12) by
    have e : |s i| * |s j| / p.r ^ 2 + EPS = (|s i| * |s j| + p.r ^ 2 / 10 ^ 12) / p.r ^ 2 := by unfold EPS; field_simp
    rw [e, div_div_div_cancel_right₀ hr2.ne']] at this
  exact this

/-- C131: with `diff=True` the trend itself is what `location_` settles on, and it carries no risk: `covariance_` vanishes. -/
theorem C131_trend_diff (r : ℝ) (h0 : 0 < r) (h1 : r ≤ 1) (a : List (ι → ℝ)) (x : ℕ → ι → ℝ) (calls : ℕ → List (Call ι ℝ))
    (hu : ∀ k, rowsSinceFit (calls k) [] = a ++ firstRows k x) (s : ι → ℝ) (hs : ∀ i, Tendsto (fun k => x (k + 1) i - x k i) atTop (𝓝 (s i))) :
    ∃ (m : ℕ → ι → ℝ) (c : ℕ → Matrix ι ι ℝ), (∀ k, 1 < k → ((new (ewaCls ι ℝ) (⟨r, true⟩ : RParam ℝ)).run (calls k)).location = .ok (m k)) ∧
      (∀ k, 1 < k → ((new (ewaCls ι ℝ) (⟨r, true⟩ : RParam ℝ)).run (calls k)).covariance = .ok (c k)) ∧
      (∀ i, Tendsto (fun k => m k i) atTop (𝓝 (s i))) ∧ ∀ i j, Tendsto (fun k => c k i j) atTop (𝓝 0) := by
  set y : ℕ → ι → ℝ := fun k => if true then x (k + 1) - x k else x (k + 1) with hy
  have hz : ∀ i, Tendsto (fun k => y k i) atTop (𝓝 (s i)) := fun i => hs i
  have hdz : ∀ i, Tendsto (fun k => y (k + 1) i - y k i) atTop (𝓝 ((0 : ι → ℝ) i)) := fun i => by
    have := ((hz i).comp (tendsto_add_atTop_nat 1)).sub (hz i)
    rw [sub_self] at this
    exact this
  obtain ⟨m, c, e1, e2, l1, l2⟩ := C131_trend (⟨r, true⟩ : RParam ℝ) h0 h1 (effective true (a ++ [x 0])) y (fun k => calls (k + 1))
    (fun k => by show used true (calls (k + 1)) = _; unfold used; rw [hu, effective_stream]) 0 hdz
  refine ⟨fun k => m (k - 1), fun k => c (k - 1), fun k hk => ?_, fun k hk => ?_, fun i => ?_, fun i j => ?_⟩
  · have := e1 (k - 1) (by omega); rwa [Nat.sub_add_cancel (by omega)] at this
  · have := e2 (k - 1) (by omega); rwa [Nat.sub_add_cancel (by omega)] at this
  · have h3 := (hz i).sub (l1 i)
    simp only [Pi.zero_apply, zero_mul, zero_div, sub_zero] at h3
    have h4 : Tendsto (fun k => m (k + 1) i) atTop (𝓝 (s i)) := h3.congr fun k => by ring
    have h5 : Tendsto (fun k => m k i) atTop (𝓝 (s i)) := (tendsto_add_atTop_iff_nat (f := fun k => m k i) 1).1 h4
    exact h5.comp (tendsto_sub_atTop_nat 1)
  · have h5 := l2 i j
    simp only [Pi.zero_apply, zero_mul, zero_div] at h5
    exact h5.comp (tendsto_sub_atTop_nat 1)

/-- C131: every class whose forecasts are calibrated (C130: all the EWA-type classes, DCC, Factor) trails a trend by `s (1-r)/r`. -/
theorem C131_trailing {C : Cls ι ℝ} {p : C.Param} {r : ℝ} {n0 : ℕ} (h : CalibratedMean C p r n0) (h0 : 0 < r) (h1 : r ≤ 1) (a : List (ι → ℝ)) (x : ℕ → ι → ℝ)
    (calls : ℕ → List (Call ι ℝ)) (hu : ∀ k, used (C.diff p) (calls k) = a ++ firstRows k x) (s : ι → ℝ)
    (hs : ∀ i, Tendsto (fun k => x (k + 1) i - x k i) atTop (𝓝 (s i))) :
    ∃ m : ℕ → ι → ℝ, (∀ k, n0 ≤ k → ((new C p).run (calls k)).location = .ok (m k)) ∧
      ∀ i, Tendsto (fun k => x k i - m (k + 1) i) atTop (𝓝 (s i * (1 - r) / r)) := by
  have hsp : ∀ k, firstRows (k + n0) x = firstRows n0 x ++ firstRows k (fun k => x (k + n0)) := by
    intro k
    induction k with
    | zero => simp [firstRows]
    | succ k ih => rw [show k + 1 + n0 = (k + n0) + 1 by omega, firstRows_succ, ih, firstRows_succ, List.append_assoc]
  obtain ⟨m, e1, e2⟩ := h (a ++ firstRows n0 x) (fun k => x (k + n0)) (fun k => calls (k + n0)) (by rw [List.length_append, firstRows_length]; omega)
    (fun k => by rw [hu, hsp, List.append_assoc])
  have step : ∀ k i, m (k + 1) i = (1 - r) * m k i + r * x (k + n0) i := by
    intro k i
    have a1 := e2 (k + 1) i
    have a2 := e2 k i
    rw [Finset.sum_range_succ, mul_add, a2] at a1
    linarith
  refine ⟨fun k => m (k - n0), fun k hk => ?_, fun i => ?_⟩
  · have := e1 (k - n0); rwa [Nat.sub_add_cancel hk] at this
  · have hs' := (hs i).comp (tendsto_add_atTop_nat n0)
    have hdev : Tendsto (fun k => x (k + n0) i - m k i) atTop (𝓝 (s i / r)) := by
      have : Tendsto (fun k => x (k + n0) i - m k i - s i / r) atTop (𝓝 0) := by
        refine tendsto_of_contract (q := 1 - r) (w := fun k => |x (k + n0 + 1) i - x (k + n0) i - s i|) (by linarith) (by linarith) ?_ ?_
        · have : Tendsto (fun k => x (k + n0 + 1) i - x (k + n0) i - s i) atTop (𝓝 0) := by simpa using hs'.sub_const (s i)
          simpa using this.abs
        · refine Eventually.of_forall fun k => ?_
          have e : x (k + 1 + n0) i - m (k + 1) i - s i / r = (1 - r) * (x (k + n0) i - m k i - s i / r) + (x (k + n0 + 1) i - x (k + n0) i - s i) := by
            rw [step, show k + 1 + n0 = k + n0 + 1 by omega]
            field_simp; ring
          rw [e]
          refine (abs_add_le _ _).trans ?_
          rw [abs_mul, abs_of_nonneg (by linarith : 0 ≤ 1 - r)]
      simpa using this.add_const (s i / r)
    have hfin := hdev.const_mul (1 - r)
    rw [show (1 - r) * (s i / r) = s i * (1 - r) / r by ring] at hfin
    rw [← tendsto_add_atTop_iff_nat n0]
    refine hfin.congr fun k => ?_
    show _ = x (k + n0) i - m (k + n0 + 1 - n0) i
    rw [show k + n0 + 1 - n0 = k + 1 by omega, step]; ring

/-- C131: EmpiricalCovariance on an exact linear trend from the start: `location_` is half the way back, and `covariance_` grows with the square of the length. -/
theorem C131_trend_empirical (d : Bool) (a0 s : ι → ℝ) (n : ℕ) (hn : 0 < n) (calls : List (Call ι ℝ)) (hu : used d calls = firstRows n fun k i => a0 i + k * s i) :
    ((new (empiricalCls ι ℝ) d).run calls).location = .ok (fun i => a0 i + s i * (n - 1) / 2) ∧
    ((new (empiricalCls ι ℝ) d).run calls).covariance = .ok (Matrix.of fun i j => s i * s j * ((n:ℝ) ^ 2 - 1) / 12) := by
  have hne : firstRows n (fun (k : ℕ) i => a0 i + k * s i) ≠ [] := by
    intro e
    have := congrArg List.length e
    rw [firstRows_length, List.length_nil] at this; omega
  have hb := C15_batch (ι := ι) (K := ℝ) d calls (by rw [hu]; exact hne)
  have hn' : (n:ℝ) ≠ 0 := by positivity
  have sm : ∀ f : (ι → ℝ) → ℝ, ((firstRows n fun (k : ℕ) i => a0 i + k * s i).map f).sum = ∑ k ∈ Finset.range n, f fun i => a0 i + k * s i := by
    intro f; rw [firstRows, List.map_map]; rfl
  have s1 : ∑ k ∈ Finset.range n, (k : ℝ) = n * (n - 1) / 2 := by
    clear hu hne hb sm hn' hn
    induction n with
    | zero => simp
    | succ n ih => rw [Finset.sum_range_succ, ih]; push_cast; ring
  have s2 : ∑ k ∈ Finset.range n, (k : ℝ) * k = n * (n - 1) * (2 * n - 1) / 6 := by
    clear hu hne hb sm hn' hn s1
    induction n with
    | zero => simp
    | succ n ih => rw [Finset.sum_range_succ, ih]; push_cast; ring
  have hm : ∀ i, meanOf (firstRows n fun (k : ℕ) i => a0 i + k * s i) i = a0 i + s i * (n - 1) / 2 := by
    intro i
    unfold meanOf
    rw [sm (fun z => z i), firstRows_length]
    rw [Finset.sum_add_distrib, ← Finset.sum_mul, s1, Finset.sum_const, Finset.card_range, nsmul_eq_mul]
    field_simp
  refine ⟨?_, ?_⟩
  · rw [hb.1, hu]; exact congrArg _ (funext hm)
  · rw [hb.2.1, hu]
    congr 1
    ext i j
    rw [covOf_moments hne, hm, hm, sm (fun z => z i * z j), firstRows_length, Matrix.of_apply]
    have e : ∀ k : ℕ, (a0 i + k * s i) * (a0 j + k * s j) = a0 i * a0 j + (k : ℝ) * (a0 i * s j + s i * a0 j) + ((k : ℝ) * k) * (s i * s j) := fun k => by ring
    simp only [e, Finset.sum_add_distrib, ← Finset.sum_mul, s1, s2, Finset.sum_const, Finset.card_range, nsmul_eq_mul]
    field_simp; ring

/-! ## Seasons -/

/-- C131: a class that forgets, shown a stream that repeats every `P` observations, ends up reporting the same a season apart. -/
theorem C131_seasonal {C : Cls ι ℝ} {p : C.Param} (hF : Forgets C p) (a : List (ι → ℝ)) (x : ℕ → ι → ℝ) (P : ℕ) (hP : 0 < P) (hx : ∀ k, x (k + P) = x k)
    (calls : ℕ → List (Call ι ℝ)) (hu : ∀ k, used (C.diff p) (calls k) = a ++ firstRows k x) (m : ℕ → ι → ℝ) (c : ℕ → Matrix ι ι ℝ)
    (hm : ∀ᶠ k in atTop, ((new C p).run (calls k)).location = .ok (m k)) (hc : ∀ᶠ k in atTop, ((new C p).run (calls k)).covariance = .ok (c k)) :
    (∀ i, Tendsto (fun k => m (k + P) i - m k i) atTop (𝓝 0)) ∧ ∀ i j, Tendsto (fun k => c (k + P) i j - c k i j) atTop (𝓝 0) := by
  have hb : ∃ B : ℝ, ∀ k i, |x k i| ≤ B := by
    refine ⟨∑ t ∈ Finset.range P, ∑ j, |x t j|, fun k i => ?_⟩
    have hmod : x k = x (k % P) := by
      induction k using Nat.strong_induction_on with
      | _ k ih =>
        rcases lt_or_ge k P with h | h
        · rw [Nat.mod_eq_of_lt h]
        · have := ih (k - P) (by omega)
          rw [← Nat.sub_add_cancel h, hx, this, Nat.add_mod_right]
    rw [hmod]
    refine le_trans ?_ (Finset.single_le_sum (f := fun t => ∑ j, |x t j|) (fun t _ => Finset.sum_nonneg fun j _ => abs_nonneg _) (Finset.mem_range.2 (Nat.mod_lt k hP)))
    exact Finset.single_le_sum (f := fun j => |x (k % P) j|) (fun j _ => abs_nonneg _) (Finset.mem_univ i)
  obtain ⟨B, hB⟩ := hb
  have hxx : ∀ i, Merge (fun k => x k i) (fun k => x k i) := fun i => ⟨⟨B, Eventually.of_forall fun k => ⟨hB k i, hB k i⟩⟩, by simp⟩
  have hsp : ∀ k, firstRows (k + P) x = firstRows P x ++ firstRows k x := by
    intro k
    induction k with
    | zero => simp [firstRows]
    | succ k ih =>
      rw [show k + 1 + P = (k + P) + 1 by omega, firstRows_succ, ih, firstRows_succ, List.append_assoc, hx]
  have h := hF (a ++ firstRows P x) a x x hxx (fun k => calls (k + P)) calls (fun k => by rw [hu, hsp, List.append_assoc]) hu
  have sh : ∀ {Q : ℕ → Prop}, (∀ᶠ k in atTop, Q k) → ∀ᶠ k in atTop, Q (k + P) := fun hQ => (tendsto_add_atTop_nat P).eventually hQ
  exact ⟨fun i => (h.1 (fun k => m (k + P)) m (sh hm) hm i).lim, fun i j => (h.2 (fun k => c (k + P)) c (sh hc) hc i j).lim⟩

/-- C131: EmpiricalCovariance settles on the mean and covariance of one season. -/
theorem C131_seasonal_empirical (d : Bool) (a : List (ι → ℝ)) (x : ℕ → ι → ℝ) (P : ℕ) (hP : 0 < P) (hx : ∀ k, x (k + P) = x k)
    (calls : ℕ → List (Call ι ℝ)) (hu : ∀ k, used d (calls k) = a ++ firstRows k x) :
    ∃ (m : ℕ → ι → ℝ) (c : ℕ → Matrix ι ι ℝ), (∀ k, 0 < k → ((new (empiricalCls ι ℝ) d).run (calls k)).location = .ok (m k)) ∧
      (∀ k, 0 < k → ((new (empiricalCls ι ℝ) d).run (calls k)).covariance = .ok (c k)) ∧
      (∀ i, Tendsto (fun k => m k i) atTop (𝓝 (meanOf (firstRows P x) i))) ∧ ∀ i j, Tendsto (fun k => c k i j) atTop (𝓝 (covOf (firstRows P x) i j)) := by
  have hmod : ∀ k, x k = x (k % P) := by
    intro k
    induction k using Nat.strong_induction_on with
    | _ k ih =>
      rcases lt_or_ge k P with h | h
      · rw [Nat.mod_eq_of_lt h]
      · have := ih (k - P) (by omega)
        rw [← Nat.sub_add_cancel h, hx, this, Nat.add_mod_right]
  have hP' : (P:ℝ) ≠ 0 := by positivity
  have avg : ∀ f : (ι → ℝ) → ℝ, Tendsto (fun n : ℕ => (∑ t ∈ Finset.range n, f (x t)) / (n : ℝ)) atTop (𝓝 ((∑ t ∈ Finset.range P, f (x t)) / P)) := by
    intro f
    set A := (∑ t ∈ Finset.range P, f (x t)) / P with hA
    set g : ℕ → ℝ := fun n => ∑ t ∈ Finset.range n, f (x t) - n * A with hg
    have gper : ∀ n, g (n + P) = g n := by
      intro n
      have : ∑ t ∈ Finset.range (n + P), f (x t) = ∑ t ∈ Finset.range n, f (x t) + ∑ t ∈ Finset.range P, f (x t) := by
        rw [add_comm n P, Finset.sum_range_add, add_comm]
        congr 1
        exact Finset.sum_congr rfl fun t _ => by rw [add_comm P t, hx]
      simp only [hg]
      rw [this]
      push_cast
      rw [hA]; field_simp; ring
    have gmod : ∀ k, g k = g (k % P) := by
      intro k
      induction k using Nat.strong_induction_on with
      | _ k ih =>
        rcases lt_or_ge k P with h | h
        · rw [Nat.mod_eq_of_lt h]
        · have := ih (k - P) (by omega)
          rw [← Nat.sub_add_cancel h, gper, this, Nat.add_mod_right]
    set B := ∑ t ∈ Finset.range P, |g t| with hB
    have gb : ∀ k, |g k| ≤ B := fun k => by
      rw [gmod]; exact Finset.single_le_sum (f := fun t => |g t|) (fun t _ => abs_nonneg _) (Finset.mem_range.2 (Nat.mod_lt k hP))
    have hz : Tendsto (fun n : ℕ => g n / (n : ℝ)) atTop (𝓝 0) := by
      refine squeeze_zero_norm' (a := fun n : ℕ => B / (n : ℝ)) ?_ (tendsto_const_div_atTop_nhds_zero_nat _)
      filter_upwards [eventually_gt_atTop 0] with k hk
      have : (0:ℝ) < k := by exact_mod_cast hk
      rw [Real.norm_eq_abs, abs_div, Nat.abs_cast]
      exact div_le_div_of_nonneg_right (gb k) this.le
    have := hz.add_const A
    rw [zero_add] at this
    refine this.congr' ?_
    filter_upwards [eventually_gt_atTop 0] with k hk
    have : (0:ℝ) < k := by exact_mod_cast hk
    simp only [hg]
    field_simp; ring
  have hne : firstRows P x ≠ [] := by
    intro e
    have := congrArg List.length e
    rw [firstRows_length, List.length_nil] at this; omega
  have sm : ∀ f : (ι → ℝ) → ℝ, ((firstRows P x).map f).sum = ∑ k ∈ Finset.range P, f (x k) := by
    intro f; rw [firstRows, List.map_map]; rfl
  have e1 : ∀ i, (∑ t ∈ Finset.range P, x t i) / (P:ℝ) = meanOf (firstRows P x) i := fun i => by
    unfold meanOf; rw [sm (fun z => z i), firstRows_length]
  obtain ⟨m, c, h1, h2, h3, h4⟩ := C131_ergodic d a x calls hu (fun i => (∑ t ∈ Finset.range P, x t i) / (P:ℝ)) (Matrix.of fun i j => (∑ t ∈ Finset.range P, x t i * x t j) / (P:ℝ))
    (fun i => avg fun z => z i) (fun i j => avg fun z => z i * z j)
  refine ⟨m, c, h1, h2, fun i => by rw [← e1]; exact h3 i, fun i j => ?_⟩
  have := h4 i j
  rw [e1, e1, Matrix.of_apply] at this
  rw [covOf_moments hne, sm (fun z => z i * z j), firstRows_length]
  exact this

/-- Non-vacuity: after two rows, a trend in two columns; and a season of length two. -/
example : ∃ (calls : ℕ → List (Call (Fin 2) ℝ)), (∀ k, used false (calls k) = [![5, 7], ![0, 1]] ++ firstRows k fun k i => 3 + k * ![1, -2] i) ∧
    ∀ i, Tendsto (fun k : ℕ => (3 + ((k + 1 : ℕ) : ℝ) * (![1, -2] : Fin 2 → ℝ) i) - (3 + (k : ℝ) * (![1, -2] : Fin 2 → ℝ) i)) atTop (𝓝 ((![1, -2] : Fin 2 → ℝ) i)) := by
  refine ⟨fun k => [.partialFit (.batch ([![5, 7], ![0, 1]] ++ firstRows k fun k i => 3 + k * ![1, -2] i))], fun k => used_batch _, fun i => ?_⟩
  refine tendsto_const_nhds.congr fun k => ?_
  push_cast; ring

example : ∀ k, (fun (k : ℕ) (_ : Fin 2) => ((-1 : ℝ)) ^ k) (k + 2) = (fun (k : ℕ) (_ : Fin 2) => ((-1 : ℝ)) ^ k) k := fun k => by
  funext i; simp only []; rw [pow_add]; norm_num

end Precise
