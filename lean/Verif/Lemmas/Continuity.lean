import Verif.Props.Memory
import Verif.Lemmas.Linalg
import Mathlib.Topology.ContinuousMap.Weierstrass
import Mathlib.Topology.Instances.Matrix
import Mathlib.Topology.UniformSpace.UniformApproximation

/-! Continuity of the linear algebra: functions of the eigenvalues, the eigenvalue floor, shrinkage with a bounded weight. -/

set_option linter.all false

open Matrix

namespace Precise

open Spec

variable {ι T : Type} [Fintype ι] [DecidableEq ι] [TopologicalSpace T]

theorem continuous_entries {a : T → Matrix ι ι ℝ} : Continuous a ↔ ∀ i j, Continuous fun t => a t i j :=
  ⟨fun h i j => h.matrix_elem i j, fun h => continuous_matrix h⟩

theorem Continuous.toSymmetric' {a : T → Matrix ι ι ℝ} (h : Continuous a) : Continuous fun t => toSymmetric (a t) := by
  rw [continuous_entries] at h ⊢
  intro i j
  simp only [toSymmetric, Matrix.of_apply]
  exact ((h i j).add (h j i)).div_const _

theorem continuous_makePosDef (L : Lapack) {a : T → Matrix ι ι ℝ} (h : Continuous a) (eps : ℝ) : Continuous fun t => makePosDef L (a t) eps := by
  have hs := Continuous.toSymmetric' h
  have e : ∀ t, makePosDef L (a t) eps = makePosDef L (toSymmetric (a t)) eps := fun t => by
    unfold makePosDef; rw [toSymmetric_of_symm (symm_toSymmetric (a t))]
  simp only [e]
  rw [continuous_entries] at hs ⊢
  intro i j
  rw [continuous_iff_continuousAt]
  intro t0
  have hz : Filter.Tendsto (fun t => Real.sqrt (frobSq (toSymmetric (a t) - toSymmetric (a t0)))) (nhds t0) (nhds 0) := by
    have : Continuous fun t => Real.sqrt (frobSq (toSymmetric (a t) - toSymmetric (a t0))) := by
      apply Real.continuous_sqrt.comp
      unfold frobSq
      refine continuous_finset_sum _ fun i _ => continuous_finset_sum _ fun j _ => ?_
      simp only [Matrix.sub_apply]
      exact ((hs i j).sub continuous_const).mul ((hs i j).sub continuous_const)
    have h0 := this.tendsto t0
    simpa [frobSq] using h0
  rw [ContinuousAt, tendsto_iff_dist_tendsto_zero]
  refine squeeze_zero (fun _ => dist_nonneg) (fun t => ?_) hz
  rw [Real.dist_eq]
  apply Real.abs_le_sqrt
  refine le_trans ?_ (makePosDef_lip L (symm_toSymmetric (a t)) (symm_toSymmetric (a t0)) eps)
  unfold frobSq
  refine le_trans ?_ (Finset.single_le_sum (f := fun i => ∑ j, (makePosDef L (toSymmetric (a t)) eps - makePosDef L (toSymmetric (a t0)) eps) i j
    * (makePosDef L (toSymmetric (a t)) eps - makePosDef L (toSymmetric (a t0)) eps) i j) (fun i _ => Finset.sum_nonneg fun j _ => mul_self_nonneg _) (Finset.mem_univ i))
  refine le_trans ?_ (Finset.single_le_sum (f := fun j => (makePosDef L (toSymmetric (a t)) eps - makePosDef L (toSymmetric (a t0)) eps) i j
    * (makePosDef L (toSymmetric (a t)) eps - makePosDef L (toSymmetric (a t0)) eps) i j) (fun j _ => mul_self_nonneg _) (Finset.mem_univ j))
  rw [sq]; rfl

/-- A quantity times a weight in [-1,1] that is continuous wherever the quantity is not zero. -/
theorem continuous_weighted {w v : T → ℝ} (hv : Continuous v) (hw : ∀ t, |w t| ≤ 1) (hc : ∀ t, v t ≠ 0 → ContinuousAt w t) :
    Continuous fun t => w t * v t := by
  rw [continuous_iff_continuousAt]
  intro t0
  by_cases h : v t0 = 0
  · rw [ContinuousAt, h, mul_zero]
    have h0 : Filter.Tendsto (fun t => |v t|) (nhds t0) (nhds 0) := by simpa [h] using (hv.abs).tendsto t0
    refine squeeze_zero_norm (fun t => ?_) h0
    rw [Real.norm_eq_abs, abs_mul]
    exact mul_le_of_le_one_left (abs_nonneg _) (hw t)
  · exact (hc t0 h).mul hv.continuousAt

/-! ## Functions of the eigenvalues -/

theorem eigh_pow (L : Lapack) {a : Matrix ι ι ℝ} (ha : Symm a) (n : ℕ) :
    a ^ n = (L.eigh a).2 * diagonal (fun i => (L.eigh a).1 i ^ n) * (L.eigh a).2ᵀ := by
  have ho := L.eigh_orth a ha
  have he := L.eigh_eq a ha
  have ho' : (L.eigh a).2 * (L.eigh a).2ᵀ = 1 := mul_eq_one_comm.1 ho
  induction n with
  | zero => simp [ho']
  | succ n ih =>
    rw [pow_succ, ih]
    set V := (L.eigh a).2
    set w := (L.eigh a).1
    have e1 : V * diagonal (fun i => w i ^ n) * Vᵀ * a = V * diagonal (fun i => w i ^ n) * Vᵀ * (V * diagonal w * Vᵀ) := congrArg _ he
    rw [e1]
    calc V * diagonal (fun i => w i ^ n) * Vᵀ * (V * diagonal w * Vᵀ) = V * diagonal (fun i => w i ^ n) * (Vᵀ * V) * diagonal w * Vᵀ := by
          simp only [Matrix.mul_assoc]
      _ = V * (diagonal (fun i => w i ^ n) * diagonal w) * Vᵀ := by rw [ho]; simp only [Matrix.mul_one, Matrix.mul_assoc]
      _ = _ := by rw [diagonal_mul_diagonal]; simp only [pow_succ]

theorem recompose_apply (V : Matrix ι ι ℝ) (w : ι → ℝ) (i j : ι) : eigRecompose V w i j = ∑ k, V i k * w k * V j k := by
  simp [eigRecompose, Matrix.mul_apply]

theorem eigh_poly (L : Lapack) {a : Matrix ι ι ℝ} (ha : Symm a) (q : Polynomial ℝ) :
    Polynomial.aeval a q = eigRecompose (L.eigh a).2 (fun i => q.eval ((L.eigh a).1 i)) := by
  ext i j
  rw [Polynomial.aeval_eq_sum_range, recompose_apply]
  simp only [Matrix.sum_apply, Matrix.smul_apply, smul_eq_mul, eigh_pow L ha, Polynomial.eval_eq_sum_range, Matrix.mul_apply, Matrix.diagonal_apply,
    Matrix.transpose_apply, mul_ite, mul_zero, Finset.sum_ite_eq', Finset.mem_univ, if_true]
  simp only [Finset.mul_sum, Finset.sum_mul]
  rw [Finset.sum_comm]
  exact Finset.sum_congr rfl fun k _ => Finset.sum_congr rfl fun n _ => by ring

theorem row_sq_one (V : Matrix ι ι ℝ) (ho : Vᵀ * V = 1) (i : ι) : ∑ k, V i k * V i k = 1 := by
  have ho' : V * Vᵀ = 1 := mul_eq_one_comm.1 ho
  have := congrFun (congrFun ho' i) i
  simpa [Matrix.mul_apply] using this

theorem abs_recompose_le {V : Matrix ι ι ℝ} (ho : Vᵀ * V = 1) {w : ι → ℝ} {e : ℝ} (he : ∀ k, |w k| ≤ e) (i j : ι) : |eigRecompose V w i j| ≤ e := by
  rw [recompose_apply]
  have h1 := row_sq_one V ho i
  have h2 := row_sq_one V ho j
  refine (Finset.abs_sum_le_sum_abs _ _).trans ?_
  calc ∑ k, |V i k * w k * V j k| ≤ ∑ k, e * ((V i k * V i k + V j k * V j k) / 2) := by
        refine Finset.sum_le_sum fun k _ => ?_
        have e0 : 0 ≤ e := (abs_nonneg _).trans (he k)
        have : |V i k * w k * V j k| = |w k| * |V i k * V j k| := by rw [← abs_mul]; congr 1; ring
        rw [this]
        refine mul_le_mul (he k) ?_ (abs_nonneg _) e0
        rw [abs_le]; constructor <;> nlinarith [sq_nonneg (V i k + V j k), sq_nonneg (V i k - V j k)]
    _ = e := by rw [← Finset.mul_sum, ← Finset.sum_div, Finset.sum_add_distrib, h1, h2]; ring

theorem eig_sq_le (L : Lapack) {a : Matrix ι ι ℝ} (ha : Symm a) (k : ι) : (L.eigh a).1 k ^ 2 ≤ ∑ i, ∑ j, a i j ^ 2 := by
  have h1 : ∑ i, ∑ j, a i j ^ 2 = (a ^ 2).trace := by
    rw [pow_two, Matrix.trace]
    refine Finset.sum_congr rfl fun i _ => ?_
    simp only [Matrix.diag_apply, Matrix.mul_apply]
    exact Finset.sum_congr rfl fun j _ => by rw [ha j i]; ring
  rw [h1, eigh_pow L ha, Matrix.trace_mul_cycle, L.eigh_orth a ha, Matrix.one_mul, Matrix.trace_diagonal]
  exact Finset.single_le_sum (f := fun i => (L.eigh a).1 i ^ 2) (fun i _ => sq_nonneg _) (Finset.mem_univ k)

/-- A continuous function of the eigenvalues of a symmetric matrix is continuous in the matrix, whatever eigenvectors are returned. -/
theorem continuous_eigFun (L : Lapack) {f : ℝ → ℝ} (hf : Continuous f) {a : T → Matrix ι ι ℝ} (h : Continuous a) (hs : ∀ t, Symm (a t)) :
    Continuous fun t => eigRecompose (L.eigh (a t)).2 (fun i => f ((L.eigh (a t)).1 i)) := by
  rw [continuous_entries]
  intro i j
  refine continuous_of_locally_uniform_approx_of_continuousAt (fun t0 u hu => ?_)
  obtain ⟨e, he, hu⟩ := Metric.mem_uniformity_dist.1 hu
  set N : T → ℝ := fun t => ∑ i, ∑ j, a t i j ^ 2 with hN
  have cN : Continuous N := continuous_finset_sum _ fun i _ => continuous_finset_sum _ fun j _ => (h.matrix_elem i j).pow 2
  have hM : ∀ᶠ t in nhds t0, N t < N t0 + 1 := cN.continuousAt.eventually (gt_mem_nhds (by linarith))
  have hN0 : ∀ t, 0 ≤ N t := fun t => Finset.sum_nonneg fun i _ => Finset.sum_nonneg fun j _ => sq_nonneg _
  set R := Real.sqrt (N t0 + 1) with hR
  obtain ⟨q, hq⟩ := exists_polynomial_near_of_continuousOn (-R) R f hf.continuousOn (e / 2) (by linarith)
  refine ⟨_, hM, fun t => (Polynomial.aeval (a t) q) i j, ?_, ?_⟩
  · apply Continuous.continuousAt
    have : Continuous fun t => Polynomial.aeval (a t) q := by
      simp only [Polynomial.aeval_eq_sum_range]
      exact continuous_finset_sum _ fun k _ => ((h.pow k).const_smul (q.coeff k) : Continuous (q.coeff k • a ^ k))
    exact this.matrix_elem i j
  · intro t ht
    apply hu
    show dist (eigRecompose (L.eigh (a t)).2 (fun i => f ((L.eigh (a t)).1 i)) i j) ((Polynomial.aeval (a t) q) i j) < e
    rw [Real.dist_eq, eigh_poly L (hs t), recompose_apply, recompose_apply, ← Finset.sum_sub_distrib]
    have e1 : ∑ k, ((L.eigh (a t)).2 i k * f ((L.eigh (a t)).1 k) * (L.eigh (a t)).2 j k - (L.eigh (a t)).2 i k * q.eval ((L.eigh (a t)).1 k) * (L.eigh (a t)).2 j k)
        = eigRecompose (L.eigh (a t)).2 (fun k => f ((L.eigh (a t)).1 k) - q.eval ((L.eigh (a t)).1 k)) i j := by
      rw [recompose_apply]; exact Finset.sum_congr rfl fun k _ => by ring
    rw [e1]
    refine lt_of_le_of_lt (abs_recompose_le (L.eigh_orth _ (hs t)) (e := e / 2) (fun k => ?_) i j) (by linarith)
    have hk : |(L.eigh (a t)).1 k| ≤ R := Real.abs_le_sqrt ((eig_sq_le L (hs t) k).trans ht.le)
    rw [abs_le] at hk
    rw [abs_sub_comm]
    exact (hq _ hk).le

theorem continuous_geodesicStep (L : Lapack) {a b : T → Matrix ι ι ℝ} (ha : Continuous a) (hb : Continuous b) {g : ℝ} (hg : 0 ≤ g) :
    Continuous fun t => geodesicStep L (a t) (b t) g := by
  unfold geodesicStep
  simp only []
  have hs := continuous_makePosDef L ha (1 / 10 ^ 8)
  have he := continuous_makePosDef L hb (1 / 10 ^ 8)
  have ss : ∀ t, Symm (makePosDef L (a t)) := fun t => symm_toSymmetric _
  have hpos : ∀ x : ℝ, 0 < max x EPS := fun x => lt_max_of_lt_right (by unfold EPS; positivity)
  have c1 := continuous_eigFun L (f := fun x => Real.sqrt (max x EPS)) (by fun_prop) hs ss
  have c2 := continuous_eigFun L (f := fun x => 1 / Real.sqrt (max x EPS))
    (continuous_const.div (by fun_prop) fun x => (Real.sqrt_pos.2 (hpos x)).ne') hs ss
  have cm := Continuous.toSymmetric' ((c2.mul he).mul c2)
  have c3 := continuous_eigFun L (f := fun x => max x 0 ^ g) (Continuous.rpow_const (by fun_prop) fun x => Or.inr hg) cm (fun t => symm_toSymmetric _)
  exact Continuous.toSymmetric' ((c1.mul c3).mul c1)

theorem continuous_covToCorr {a : T → Matrix ι ι ℝ} (h : Continuous a) : Continuous fun t => covToCorr (a t) := by
  rw [continuous_entries] at h ⊢
  intro i j
  simp only [covToCorr, Matrix.of_apply]
  refine (h i j).div (((Real.continuous_sqrt.comp ((h j j).mul (h i i))).add continuous_const)) fun t => ?_
  have : 0 < EPS := by unfold EPS; positivity
  exact (add_pos_of_nonneg_of_pos (Real.sqrt_nonneg _) this).ne'

end Precise
