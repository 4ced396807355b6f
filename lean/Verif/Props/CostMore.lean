import Verif.Props.Cost

/-!
# C124, continued: the other twelve classes

OAS, Shrunk, Schur and SchurConditional update exactly as EwaCovariance does. For the others the counted updates of `Model/Cost.lean`
compute the same state as the class, and their cost is bounded by a function of the dimension, given any cost of the LAPACK routines that
depends on the dimension only.
-/

set_option linter.all false

namespace Precise

open Spec Obj Tick
open scoped Matrix

variable {ι K : Type} [Fintype ι]

theorem lwUpdateT_val [Field K] (s : LWState ι K) (x : ι → K) : (lwUpdateT s x).val = lwUpdate s x := by
  unfold lwUpdateT lwUpdate
  simp only [Tick.val_bind, scalar, decide_eq_true_eq]
  split
  · rfl
  · rfl

theorem lwUpdateT_ops [Field K] (s : LWState ι K) (x : ι → K) : (lwUpdateT s x).ops ≤ 7 * Fintype.card ι ^ 2 + 5 * Fintype.card ι + 9 := by
  unfold lwUpdateT
  simp only [Tick.ops_bind, scalar, decide_eq_true_eq]
  split
  · simp only [Tick.ops_bind, Tick.ops_pure, empUpdateT_ops]; omega
  · simp only [Tick.ops_bind, Tick.ops_pure, vec, mat, Tick.sum2]; omega

theorem slwUpdateT_val {p : ℕ} (pr : BlockParam) (s : SLWState (Fin p)) (x : Fin p → ℝ) : (slwUpdateT pr s x).val = slwUpdate pr s x := by
  unfold slwUpdateT slwUpdate
  simp only [Tick.val_bind, scalar, decide_eq_true_eq]
  split
  · rfl
  · simp only [Tick.val_bind, Tick.val_pure, vec, mat, Tick.sum2, crossMaskT, sumCross, decide_eq_true_eq]
    rfl

theorem slwUpdateT_ops {p : ℕ} (pr : BlockParam) (s : SLWState (Fin p)) (x : Fin p → ℝ) : (slwUpdateT pr s x).ops ≤ 9 * p ^ 2 + 5 * p + 8 := by
  unfold slwUpdateT
  simp only [Tick.ops_bind, scalar, decide_eq_true_eq]
  split
  · simp only [Tick.ops_bind, Tick.ops_pure, empUpdateT_ops, Fintype.card_fin]; omega
  · simp only [Tick.ops_bind, Tick.ops_pure, vec, mat, Tick.sum2, crossMaskT, Fintype.card_fin]; omega

theorem pmUpdateT_val (s : PMState ι) (x : ι → ℝ) : (pmUpdateT s x).val = pmUpdate s x := by
  unfold pmUpdateT pmUpdate
  simp only [Tick.val_bind, Tick.val_pure, scalar, vec, Tick.all, decide_eq_true_eq, pmLegT, mat]
  split
  · congr 1
    funext q
    ext i j
    simp [pmLeg, Tick.val_bind, outer]
    ring
  · rfl

theorem pmUpdateT_ops (s : PMState ι) (x : ι → ℝ) : (pmUpdateT s x).ops ≤ 16 * Fintype.card ι ^ 2 + 28 * Fintype.card ι + 11 := by
  unfold pmUpdateT
  simp only [Tick.ops_bind, Tick.ops_pure, scalar, vec, Tick.all, decide_eq_true_eq, pmLegT, mat]
  split
  · simp only [Tick.ops_bind, Tick.ops_pure, Fin.sum_univ_four]; omega
  · simp only [Tick.ops_bind, Tick.ops_pure, Fin.sum_univ_four]; omega

theorem tryInvertT_val [DecidableEq ι] (L : Lapack) (w : LapackOps) (a : Matrix ι ι ℝ) : (tryInvertT L w a).val = tryInvert L a := by
  unfold tryInvertT tryInvert
  split <;> rfl

theorem tryInvertT_ops [DecidableEq ι] (L : Lapack) (w : LapackOps) (a : Matrix ι ι ℝ) :
    (tryInvertT L w a).ops ≤ w.inv (Fintype.card ι) + w.pinv (Fintype.card ι) := by
  unfold tryInvertT
  split
  · exact le_rfl
  · exact Nat.le_add_right _ _

theorem quadT_val (P : Matrix ι ι ℝ) (x : ι → ℝ) : (quadT P x).val = Spec.quad P x := by
  unfold quadT Spec.quad
  simp only [Tick.val_bind, Tick.dot, dotProduct, Matrix.mulVec, Finset.sum_mul, Finset.mul_sum]
  rw [Finset.sum_comm]
  exact Finset.sum_congr rfl fun i _ => Finset.sum_congr rfl fun j _ => by ring

theorem quadT_ops (P : Matrix ι ι ℝ) (x : ι → ℝ) : (quadT P x).ops = 2 * Fintype.card ι ^ 2 + 2 * Fintype.card ι := rfl

theorem huberUpdateT_val [DecidableEq ι] (L : Lapack) (w : LapackOps) (pr : HuberParam) (s : EwaState ι ℝ) (x : ι → ℝ) :
    (huberUpdateT L w pr s x).val = huberUpdate L pr s x := by
  unfold huberUpdateT huberUpdate huberWeight
  simp only [Tick.val_bind, scalar, decide_eq_true_eq]
  split
  · rfl
  · simp only [Tick.val_bind, Tick.val_pure, vec, mat, tryInvertT_val, quadT_val, decide_eq_true_eq]
    split <;> rfl

theorem huberUpdateT_ops [DecidableEq ι] (L : Lapack) (w : LapackOps) (pr : HuberParam) (s : EwaState ι ℝ) (x : ι → ℝ) :
    (huberUpdateT L w pr s x).ops ≤
      6 * Fintype.card ι ^ 2 + 6 * Fintype.card ι + 8 + w.inv (Fintype.card ι) + w.pinv (Fintype.card ι) := by
  unfold huberUpdateT
  have ht := tryInvertT_ops L w s.cov
  simp only [Tick.ops_bind, scalar, decide_eq_true_eq]
  split
  · simp only [Tick.ops_bind, Tick.ops_pure, empUpdateT_ops]; omega
  · simp only [Tick.ops_bind, Tick.ops_pure, vec, mat, quadT_ops]
    split
    · simp only [Tick.ops_pure]
      generalize (tryInvertT L w s.cov).ops = T at ht ⊢; generalize w.inv (Fintype.card ι) = I at ht ⊢;
      generalize w.pinv (Fintype.card ι) = P at ht ⊢; generalize Fintype.card ι = N at ht ⊢; generalize N ^ 2 = M at ht ⊢; clear * - ht; linarith
    · simp only [Tick.ops_bind]
      generalize (tryInvertT L w s.cov).ops = T at ht ⊢; generalize w.inv (Fintype.card ι) = I at ht ⊢;
      generalize w.pinv (Fintype.card ι) = P at ht ⊢; generalize Fintype.card ι = N at ht ⊢; generalize N ^ 2 = M at ht ⊢; clear * - ht; linarith

theorem adaUpdateT_val [DecidableEq ι] (L : Lapack) (w : LapackOps) (s : AdaState ι) (x : ι → ℝ) :
    (adaUpdateT L w s x).val = adaUpdate L s x := by
  unfold adaUpdateT adaUpdate adaRate adaSbar
  simp only [Tick.val_bind, scalar, decide_eq_true_eq]
  split
  · rfl
  · simp only [Tick.val_bind, Tick.val_pure, vec, mat, tryInvertT_val, quadT_val, decide_eq_true_eq]
    split <;> rfl

theorem adaUpdateT_ops [DecidableEq ι] (L : Lapack) (w : LapackOps) (s : AdaState ι) (x : ι → ℝ) :
    (adaUpdateT L w s x).ops ≤
      6 * Fintype.card ι ^ 2 + 6 * Fintype.card ι + 13 + w.inv (Fintype.card ι) + w.pinv (Fintype.card ι) := by
  unfold adaUpdateT
  have ht := tryInvertT_ops L w s.cov
  simp only [Tick.ops_bind, scalar, decide_eq_true_eq]
  split
  · simp only [Tick.ops_bind, Tick.ops_pure, empUpdateT_ops]; omega
  · simp only [Tick.ops_bind, Tick.ops_pure, vec, mat, quadT_ops]
    split
    · dsimp only
      generalize (tryInvertT L w s.cov).ops = T at ht ⊢; generalize w.inv (Fintype.card ι) = I at ht ⊢;
      generalize w.pinv (Fintype.card ι) = P at ht ⊢; generalize Fintype.card ι = N at ht ⊢; generalize N ^ 2 = M at ht ⊢; clear * - ht; linarith
    · simp only [Tick.ops_pure]
      generalize (tryInvertT L w s.cov).ops = T at ht ⊢; generalize w.inv (Fintype.card ι) = I at ht ⊢;
      generalize w.pinv (Fintype.card ι) = P at ht ⊢; generalize Fintype.card ι = N at ht ⊢; generalize N ^ 2 = M at ht ⊢; clear * - ht; linarith

theorem tylerShapeT_val [DecidableEq ι] (L : Lapack) (w : LapackOps) (lr : ℝ) (C : Matrix ι ι ℝ) (dev : ι → ℝ) :
    (tylerShapeT L w lr C dev).val = tylerShape L lr C dev := by
  unfold tylerShapeT tylerShape
  simp only [Tick.val_bind, Tick.val_pure, scalar, vec, mat, tryInvertT_val, quadT_val]
  have e : ∀ q : ℝ, (Matrix.of fun i j => ((lr * (Fintype.card ι : ℝ)) • outer dev dev : Matrix ι ι ℝ) i j / q) =
      (lr * (Fintype.card ι : ℝ) / q) • outer dev dev := by
    intro q
    ext i j
    simp only [Matrix.of_apply, Matrix.smul_apply, smul_eq_mul]
    ring
  rw [e]
  generalize (1 - lr) • C + (lr * (Fintype.card ι : ℝ) / max (Spec.quad (tryInvert L C) dev) EPS) • outer dev dev = M
  split
  · rfl
  · congr 1
    ext i j
    simp only [Matrix.of_apply, Matrix.smul_apply, smul_eq_mul]
    ring

theorem tylerShapeT_ops [DecidableEq ι] (L : Lapack) (w : LapackOps) (lr : ℝ) (C : Matrix ι ι ℝ) (dev : ι → ℝ) :
    (tylerShapeT L w lr C dev).ops ≤ 9 * Fintype.card ι ^ 2 + 3 * Fintype.card ι + 3 + w.inv (Fintype.card ι) + w.pinv (Fintype.card ι) := by
  unfold tylerShapeT
  have ht := tryInvertT_ops L w C
  simp only [Tick.ops_bind, Tick.ops_pure, scalar, vec, mat, quadT_ops]
  omega

theorem tylerUpdateT_val [DecidableEq ι] (L : Lapack) (w : LapackOps) (s : TylerState ι) (x : ι → ℝ) :
    (tylerUpdateT L w s x).val = tylerUpdate L s x := by
  unfold tylerUpdateT tylerUpdate
  simp only [Tick.val_bind, Tick.val_pure, scalar, vec, decide_eq_true_eq]
  split <;> simp only [Tick.val_bind, Tick.val_pure] <;> cases s.shape <;> simp [tylerShapeT_val]

theorem tylerUpdateT_ops [DecidableEq ι] (L : Lapack) (w : LapackOps) (s : TylerState ι) (x : ι → ℝ) :
    (tylerUpdateT L w s x).ops ≤
      9 * Fintype.card ι ^ 2 + 7 * Fintype.card ι + 6 + w.inv (Fintype.card ι) + w.pinv (Fintype.card ι) := by
  unfold tylerUpdateT
  simp only [Tick.ops_bind, Tick.ops_pure, scalar, vec, decide_eq_true_eq]
  have key := fun lr C => tylerShapeT_ops L w lr C (fun i => x i - s.mean i)
  split <;> simp only [Tick.ops_bind, Tick.ops_pure, Tick.val_bind, Tick.val_pure] <;> cases s.shape <;> simp only []
  · have := key (1 / ((s.nSamples + 1 : ℕ) : ℝ)) 0; omega
  · rename_i C; have := key (1 / ((s.nSamples + 1 : ℕ) : ℝ)) C; omega
  · have := key s.r 0; omega
  · rename_i C; have := key s.r C; omega

theorem toSymmetricT_val [Field K] (a : Matrix ι ι K) : (toSymmetricT a).val = toSymmetric a := rfl
theorem toSymmetricT_ops [Field K] (a : Matrix ι ι K) : (toSymmetricT a).ops = 2 * Fintype.card ι ^ 2 := by
  simp only [toSymmetricT, Tick.ops_bind, mat]; ring

theorem eigRecomposeT_val (v : Matrix ι ι ℝ) (e : ι → ℝ) : (eigRecomposeT v e).val = eigRecompose v e := rfl
theorem eigRecomposeT_ops (v : Matrix ι ι ℝ) (e : ι → ℝ) : (eigRecomposeT v e).ops = Fintype.card ι ^ 2 + 2 * Fintype.card ι ^ 3 := rfl

theorem makePosDefT_val [DecidableEq ι] (L : Lapack) (w : LapackOps) (a : Matrix ι ι ℝ) : (makePosDefT L w a).val = makePosDef L a := rfl
theorem makePosDefT_ops [DecidableEq ι] (L : Lapack) (w : LapackOps) (a : Matrix ι ι ℝ) :
    (makePosDefT L w a).ops = 2 * Fintype.card ι ^ 3 + 5 * Fintype.card ι ^ 2 + Fintype.card ι + w.eigh (Fintype.card ι) := by
  simp only [makePosDefT, Tick.ops_bind, toSymmetricT_ops, eigRecomposeT_ops, vec]; ring

theorem geodesicStepT_val [DecidableEq ι] (L : Lapack) (w : LapackOps) (a b : Matrix ι ι ℝ) (g : ℝ) :
    (geodesicStepT L w a b g).val = geodesicStep L a b g := rfl

theorem geodesicStepT_ops [DecidableEq ι] (L : Lapack) (w : LapackOps) (a b : Matrix ι ι ℝ) (g : ℝ) :
    (geodesicStepT L w a b g).ops = 18 * Fintype.card ι ^ 3 + 17 * Fintype.card ι ^ 2 + 8 * Fintype.card ι + 4 * w.eigh (Fintype.card ι) := by
  simp only [geodesicStepT, Tick.ops_bind, toSymmetricT_ops, eigRecomposeT_ops, makePosDefT_ops, vec, Tick.mm]
  ring

theorem geodesicUpdateT_val [DecidableEq ι] (L : Lapack) (w : LapackOps) (s : EwaState ι ℝ) (x : ι → ℝ) :
    (geodesicUpdateT L w s x).val = geodesicUpdate L s x := by
  unfold geodesicUpdateT geodesicUpdate
  simp only [Tick.val_bind, scalar, decide_eq_true_eq]
  split
  · rfl
  · simp only [Tick.val_bind, Tick.val_pure, vec, mat, geodesicStepT_val]

theorem geodesicUpdateT_ops [DecidableEq ι] (L : Lapack) (w : LapackOps) (s : EwaState ι ℝ) (x : ι → ℝ) :
    (geodesicUpdateT L w s x).ops ≤
      18 * Fintype.card ι ^ 3 + 18 * Fintype.card ι ^ 2 + 12 * Fintype.card ι + 3 + 4 * w.eigh (Fintype.card ι) := by
  unfold geodesicUpdateT
  simp only [Tick.ops_bind, scalar, decide_eq_true_eq]
  split
  · simp only [Tick.ops_bind, Tick.ops_pure, empUpdateT_ops]; omega
  · simp only [Tick.ops_bind, Tick.ops_pure, vec, mat, geodesicStepT_ops]; omega

theorem dccUpdateT_val (s : DCCState ι) (x : ι → ℝ) : (dccUpdateT s x).val = dccUpdate s x := by
  unfold dccUpdateT dccUpdate
  simp only [Tick.val_bind, Tick.val_pure, scalar, vec, mat, decide_eq_true_eq]
  split
  · simp only [Tick.val_bind, Tick.val_pure]
    congr 1
    ext i j
    simp only [Matrix.add_apply, Matrix.of_apply, Matrix.smul_apply, smul_eq_mul]
    ring
  · rfl

theorem dccUpdateT_ops (s : DCCState ι) (x : ι → ℝ) : (dccUpdateT s x).ops ≤ 4 * Fintype.card ι ^ 2 + 11 * Fintype.card ι + 6 := by
  unfold dccUpdateT
  simp only [Tick.ops_bind, Tick.ops_pure, scalar, vec, mat, decide_eq_true_eq]
  split
  · simp only [Tick.ops_bind, Tick.ops_pure]; omega
  · simp only [Tick.ops_bind, Tick.ops_pure]; omega

/-! ## The claims -/

/-- C124: OAS, Shrunk, Schur and SchurConditional do the same counted update as EwaCovariance, at most `4 d² + 5 d + 4` operations. -/
theorem C124_as_ewa (L : Lapack) (p : ℕ) (s : EwaState (Fin p) ℝ) (x : Fin p → ℝ) :
    (∀ pr, (oasCls (Fin p) ℝ).updateState pr s x = (ewaUpdateT s x).val) ∧
    (∀ pr, (shrunkCls (Fin p)).updateState pr s x = (ewaUpdateT s x).val) ∧
    (∀ pr, (schurCls L p).updateState pr s x = (ewaUpdateT s x).val) ∧
    (∀ pr, (schurCondCls L p).updateState pr s x = (ewaUpdateT s x).val) ∧
    (ewaUpdateT s x).ops ≤ 4 * p ^ 2 + 5 * p + 4 := by
  refine ⟨fun pr => ?_, fun pr => ?_, fun pr => ?_, fun pr => ?_, ?_⟩
  · exact (ewaUpdateT_val s x).symm
  · exact (ewaUpdateT_val s x).symm
  · exact (ewaUpdateT_val s x).symm
  · exact (ewaUpdateT_val s x).symm
  · simpa using ewaUpdateT_ops s x

/-- C124: LedoitWolf (`7 d² + 5 d + 9`), SchurLedoitWolf (`9 d² + 5 d + 8`), PartialMoments (`16 d² + 28 d + 11`) and DCC
(`4 d² + 11 d + 6`) cost `O(d²)` per observation in every state. -/
theorem C124_quadratic (L : Lapack) (p : ℕ) (x : Fin p → ℝ) :
    (∀ pr s, (lwUpdateT s x).val = (ledoitWolfCls (Fin p) ℝ).updateState pr s x ∧ (lwUpdateT s x).ops ≤ 7 * p ^ 2 + 5 * p + 9) ∧
    (∀ pr s, (slwUpdateT pr s x).val = (schurLWCls L p).updateState pr s x ∧ (slwUpdateT pr s x).ops ≤ 9 * p ^ 2 + 5 * p + 8) ∧
    (∀ pr s, (pmUpdateT s x).val = (partialMomentsCls L (Fin p)).updateState pr s x ∧ (pmUpdateT s x).ops ≤ 16 * p ^ 2 + 28 * p + 11) ∧
    (∀ pr s, (dccUpdateT s x).val = (dccCls (Fin p)).updateState pr s x ∧ (dccUpdateT s x).ops ≤ 4 * p ^ 2 + 11 * p + 6) := by
  refine ⟨fun pr s => ⟨lwUpdateT_val s x, ?_⟩, fun pr s => ⟨slwUpdateT_val pr s x, slwUpdateT_ops pr s x⟩, fun pr s => ⟨pmUpdateT_val s x, ?_⟩,
    fun pr s => ⟨dccUpdateT_val s x, ?_⟩⟩
  · simpa using lwUpdateT_ops s x
  · simpa using pmUpdateT_ops s x
  · simpa using dccUpdateT_ops s x

/-- C124: Huber, AdaptiveEwa and Tyler spend `O(d²)` operations and at most one inversion (with its pseudo-inverse fallback) per
observation in every state; Geodesic spends `O(d³)` and at most four eigendecompositions. -/
theorem C124_lapack (L : Lapack) (w : LapackOps) (p : ℕ) (x : Fin p → ℝ) :
    (∀ pr s, (huberUpdateT L w pr s x).val = (huberCls L (Fin p)).updateState pr s x ∧
      (huberUpdateT L w pr s x).ops ≤ 6 * p ^ 2 + 6 * p + 8 + w.inv p + w.pinv p) ∧
    (∀ pr s, (adaUpdateT L w s x).val = (adaptiveCls L (Fin p)).updateState pr s x ∧
      (adaUpdateT L w s x).ops ≤ 6 * p ^ 2 + 6 * p + 13 + w.inv p + w.pinv p) ∧
    (∀ pr s, (tylerUpdateT L w s x).val = (tylerCls L (Fin p)).updateState pr s x ∧
      (tylerUpdateT L w s x).ops ≤ 9 * p ^ 2 + 7 * p + 6 + w.inv p + w.pinv p) ∧
    (∀ pr s, (geodesicUpdateT L w s x).val = (geodesicCls L (Fin p)).updateState pr s x ∧
      (geodesicUpdateT L w s x).ops ≤ 18 * p ^ 3 + 18 * p ^ 2 + 12 * p + 3 + 4 * w.eigh p) := by
  refine ⟨fun pr s => ⟨huberUpdateT_val L w pr s x, ?_⟩, fun pr s => ⟨adaUpdateT_val L w s x, ?_⟩, fun pr s => ⟨tylerUpdateT_val L w s x, ?_⟩,
    fun pr s => ⟨geodesicUpdateT_val L w s x, ?_⟩⟩
  · simpa using huberUpdateT_ops L w pr s x
  · simpa using adaUpdateT_ops L w s x
  · simpa using tylerUpdateT_ops L w s x
  · simpa using geodesicUpdateT_ops L w s x

/-- C124: what keeps the cost of HuberCovariance high: after the burn-in an inversion is paid for on every observation. -/
theorem C124_huber_inverts [DecidableEq ι] (L : Lapack) (w : LapackOps) (pr : HuberParam) (s : EwaState ι ℝ) (x : ι → ℝ)
    (h : s.nBurn ≤ s.nSamples) : w.inv (Fintype.card ι) ≤ (huberUpdateT L w pr s x).ops := by
  unfold huberUpdateT
  simp only [Tick.ops_bind, scalar, decide_eq_true_eq, if_neg (not_lt.2 h)]
  have : w.inv (Fintype.card ι) ≤ (tryInvertT L w s.cov).ops := by
    unfold tryInvertT
    split
    · exact Nat.le_add_right _ _
    · exact le_rfl
  generalize (tryInvertT L w s.cov).ops = T at this ⊢
  omega

/-- Non-vacuity: a HuberCovariance state after its burn-in, with a cubic cost of inversion, pays at least `d³`. -/
example (L : Lapack) (x : Fin 3 → ℝ) :
    27 ≤ (huberUpdateT L ⟨fun d => d ^ 3, fun d => 10 * d ^ 3, fun d => 9 * d ^ 3⟩ ⟨1 / 20, 2, false⟩
      { nSamples := 20, mean := 0, cov := 1, r := 1 / 20, nBurn := 20 } x).ops := by
  exact C124_huber_inverts L ⟨fun d => d ^ 3, fun d => 10 * d ^ 3, fun d => 9 * d ^ 3⟩ ⟨1 / 20, 2, false⟩
    { nSamples := 20, mean := 0, cov := 1, r := 1 / 20, nBurn := 20 } x le_rfl

end Precise
