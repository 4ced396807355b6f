import Verif.Props.Schur
import Verif.Props.Linalg
import Mathlib.Topology.Order.IntermediateValue
import Mathlib.Topology.Algebra.Order.Field
import Mathlib.Analysis.Real.Sqrt

/-!
# C32, C95: SchurConditionalCovariance near a singular hedge regression

`cov_to_corrcoef` adds 1e-12 to the product of the standard deviations, so the diagonal entry of a variable of tiny variance is
below one while its correlations stay near one: the "correlation matrix" is not PSD, and the matrix of the hedge regression can
have any small determinant. At determinant 0 `covariance_` raises LinAlgError; near it the covariance is as large as one likes.
-/

set_option linter.all false

open Matrix

namespace Precise

open Spec Obj

variable (L : Lapack)

/-- Ten rows `(1, t, 1)` and ten rows `(-1, -t, -1)`. -/
def nearRows (t : ℝ) : List (Fin 3 → ℝ) := List.replicate 10 ![1, t, 1] ++ List.replicate 10 ![-1, -t, -1]

theorem near_used (t : ℝ) : used false [Call.fit (.batch (nearRows t))] = nearRows t := by
  simp [used, effective, rowsSinceFit, rowsOf]

theorem near_cov (t : ℝ) : (ewaFold (1/20) (nearRows t)).cov = !![1, t, 1; t, t ^ 2, t; 1, t, 1] := by
  have hb : ewaBurnN (1/20:ℝ) = 20 := by
    have : ⌈(1:ℝ) / (1/20)⌉ = 20 := by norm_num
    unfold ewaBurnN; rw [this]; rfl
  rw [ewaFold_burn _ _ (by rw [hb]; simp [nearRows]), empFold_cov (by simp [nearRows])]
  ext i j
  fin_cases i <;> fin_cases j <;> simp [covOf, meanOf, nearRows] <;> ring

/-- The diagonal entry and the correlations of the reported "correlation matrix". -/
noncomputable def rr (x : ℝ) : ℝ := x / (x + 1 / 10 ^ 12)

theorem near_corr {t : ℝ} (ht : 0 < t) : covToCorr (ewaFold (1/20) (nearRows t)).cov
    = !![rr 1, rr t, rr 1; rr t, rr (t ^ 2), rr t; rr 1, rr t, rr 1] := by
  rw [near_cov]
  have h2 : Real.sqrt (t ^ 2 * t ^ 2) = t ^ 2 := Real.sqrt_mul_self (by positivity)
  ext i j
  fin_cases i <;> fin_cases j <;> simp [covToCorr, rr, EPS, Real.sqrt_sq ht.le, h2]

theorem sum_prev2 (f : PrevIx 3 3 2 → ℝ) : ∑ i, f i = f ⟨0, by decide⟩ + f ⟨1, by decide⟩ := by
  let e : Fin 2 ≃ PrevIx 3 3 2 := ⟨fun i => ⟨⟨i.1, by omega⟩, i.2⟩, fun i => ⟨i.1.1, i.2⟩, fun _ => rfl, fun _ => rfl⟩
  rw [← Equiv.sum_comp e, Fin.sum_univ_two]; rfl

theorem sum_prev1 (f : PrevIx 3 3 1 → ℝ) : ∑ i, f i = f ⟨0, by decide⟩ := by
  let e : Fin 1 ≃ PrevIx 3 3 1 := ⟨fun i => ⟨⟨i.1, by omega⟩, i.2⟩, fun i => ⟨i.1.1, i.2⟩, fun _ => rfl, fun _ => rfl⟩
  rw [← Equiv.sum_comp e, Fin.sum_univ_one]; rfl

theorem det_prev2 (M : Matrix (PrevIx 3 3 2) (PrevIx 3 3 2) ℝ) :
    M.det = M ⟨0, by decide⟩ ⟨0, by decide⟩ * M ⟨1, by decide⟩ ⟨1, by decide⟩ - M ⟨0, by decide⟩ ⟨1, by decide⟩ * M ⟨1, by decide⟩ ⟨0, by decide⟩ := by
  let e : Fin 2 ≃ PrevIx 3 3 2 := ⟨fun i => ⟨⟨i.1, by omega⟩, i.2⟩, fun i => ⟨i.1.1, i.2⟩, fun _ => rfl, fun _ => rfl⟩
  rw [← Matrix.det_submatrix_equiv_self e M, det_fin_two]; rfl

theorem det_prev1 (M : Matrix (PrevIx 3 3 1) (PrevIx 3 3 1) ℝ) : M.det = M ⟨0, by decide⟩ ⟨0, by decide⟩ := by
  let e : Fin 1 ≃ PrevIx 3 3 1 := ⟨fun i => ⟨⟨i.1, by omega⟩, i.2⟩, fun i => ⟨i.1.1, i.2⟩, fun _ => rfl, fun _ => rfl⟩
  rw [← Matrix.det_submatrix_equiv_self e M, det_fin_one]; rfl

/-- The determinant of the second hedge regression, as a function of `t`. -/
noncomputable def hedgeDet (t : ℝ) : ℝ := (rr 1 + 1 / 10 ^ 10) * (rr (t ^ 2) + 1 / 10 ^ 10) - (81 / 100) * rr t ^ 2

theorem hedgeDet_attains {δ : ℝ} (h0 : 0 ≤ δ) (h1 : δ ≤ 1 / 100) : ∃ t, 1 / 10 ^ 6 ≤ t ∧ t ≤ 1 ∧ hedgeDet t = δ := by
  have hc : ContinuousOn hedgeDet (Set.Icc (1 / 10 ^ 6) 1) := by
    unfold hedgeDet rr
    have p1 : ∀ t ∈ Set.Icc ((1:ℝ) / 10 ^ 6) 1, t + 1 / 10 ^ 12 ≠ 0 := fun t ht => by
      have : (0:ℝ) < 1 / 10 ^ 6 := by positivity
      have := ht.1
      positivity
    have p2 : ∀ t ∈ Set.Icc ((1:ℝ) / 10 ^ 6) 1, t ^ 2 + 1 / 10 ^ 12 ≠ 0 := fun t ht => by positivity
    refine ContinuousOn.sub (ContinuousOn.mul continuousOn_const (ContinuousOn.add ?_ continuousOn_const)) (ContinuousOn.mul continuousOn_const (ContinuousOn.pow ?_ 2))
    · exact ContinuousOn.div (continuousOn_id.pow 2) ((continuousOn_id.pow 2).add continuousOn_const) p2
    · exact ContinuousOn.div continuousOn_id (continuousOn_id.add continuousOn_const) p1
  have hl : hedgeDet (1 / 10 ^ 6) ≤ δ := by refine le_trans ?_ h0; unfold hedgeDet rr; norm_num
  have hu : δ ≤ hedgeDet 1 := by refine h1.trans ?_; unfold hedgeDet rr; norm_num
  obtain ⟨t, ht, e⟩ := intermediate_value_Icc (by norm_num : (1:ℝ) / 10 ^ 6 ≤ 1) hc ⟨hl, hu⟩
  exact ⟨t, ht.1, ht.2, e⟩

theorem near_nEff (t : ℝ) : scNEff (ewaFold (1/20) (nearRows t)) = 20 := by
  unfold scNEff
  rw [ewaFold_n, ewaFold_r]
  simp [nearRows]; norm_num

theorem near_system {t : ℝ} (ht : 0 < t) :
    scSystem 3 2 (covToCorr (ewaFold (1/20) (nearRows t)).cov) (scNEff (ewaFold (1/20) (nearRows t))) ⟨0, by decide⟩ ⟨0, by decide⟩ = rr 1 + 1 / 10 ^ 10 ∧
    scSystem 3 2 (covToCorr (ewaFold (1/20) (nearRows t)).cov) (scNEff (ewaFold (1/20) (nearRows t))) ⟨1, by decide⟩ ⟨1, by decide⟩ = rr (t ^ 2) + 1 / 10 ^ 10 ∧
    scSystem 3 2 (covToCorr (ewaFold (1/20) (nearRows t)).cov) (scNEff (ewaFold (1/20) (nearRows t))) ⟨0, by decide⟩ ⟨1, by decide⟩ = 9 / 10 * rr t ∧
    scSystem 3 2 (covToCorr (ewaFold (1/20) (nearRows t)).cov) (scNEff (ewaFold (1/20) (nearRows t))) ⟨1, by decide⟩ ⟨0, by decide⟩ = 9 / 10 * rr t := by
  rw [near_nEff, scSystem_eq _ _ _ _ (by norm_num), near_corr ht]
  have hs : ((slices 3 3).getD 2 (0, 0)).1 = 2 := by decide
  have hm : min ((((slices 3 3).getD 2 (0, 0)).1 : ℝ) / 20) (9 / 10) = 1 / 10 := by rw [hs]; norm_num
  unfold hedgeMatrix
  simp only [of_apply, hm]
  refine ⟨?_, ?_, ?_, ?_⟩
  · rw [if_pos trivial]; simp
  · rw [if_pos trivial]; simp
  · rw [if_neg (by intro h; exact absurd (congrArg (fun z => z.1.1) h) (by decide))]; simp; norm_num
  · rw [if_neg (by intro h; exact absurd (congrArg (fun z => z.1.1) h) (by decide))]; simp; norm_num

theorem near_system1 {t : ℝ} (ht : 0 < t) :
    scSystem 3 1 (covToCorr (ewaFold (1/20) (nearRows t)).cov) (scNEff (ewaFold (1/20) (nearRows t))) ⟨0, by decide⟩ ⟨0, by decide⟩ = rr 1 + 1 / 10 ^ 10 := by
  rw [near_nEff, scSystem_eq _ _ _ _ (by norm_num), near_corr ht]
  unfold hedgeMatrix
  simp only [of_apply]
  rw [if_pos trivial]; simp

theorem near_det {t : ℝ} (ht : 0 < t) :
    (scSystem 3 2 (covToCorr (ewaFold (1/20) (nearRows t)).cov) (scNEff (ewaFold (1/20) (nearRows t)))).det = hedgeDet t := by
  obtain ⟨a, b, c, d⟩ := near_system ht
  rw [det_prev2, a, b, c, d]
  unfold hedgeDet; ring

theorem near_solvable {t : ℝ} (ht : 0 < t) : scSolvable (⟨1/20, 4, false⟩ : BlockParam) (ewaFold (1/20) (nearRows t)) ↔ hedgeDet t ≠ 0 := by
  have hnb : nbClamped 4 3 = 3 := by decide
  unfold scSolvable
  show (∀ k, 1 ≤ k → k < nbClamped 4 3 → _) ↔ _
  rw [hnb]
  constructor
  · intro h
    have := h 2 (by norm_num) (by norm_num)
    change (scSystem 3 2 _ _).det ≠ 0 at this
    rwa [near_det ht] at this
  · intro h k h1 h2
    change (scSystem 3 k _ _).det ≠ 0
    interval_cases k
    · rw [det_prev1, near_system1 ht]; unfold rr; norm_num
    · rwa [near_det ht]

theorem near_entries {t : ℝ} (h0 : 0 ≤ t) (h1 : t ≤ 1) : ∀ x ∈ nearRows t, ∀ i, |x i| ≤ 1 := by
  intro x hx i
  unfold nearRows at hx
  rw [List.mem_append] at hx
  rcases hx with hx | hx <;> rw [List.eq_of_mem_replicate hx] <;> fin_cases i <;> simp [abs_le] <;> constructor <;> linarith

/-- C32: VIOLATION: there are 20 observations of three variables, with entries of size at most 1, on which SchurConditionalCovariance
with its default parameters raises LinAlgError when `covariance_` is read. -/
theorem C32_raises : ∃ rows : List (Fin 3 → ℝ), rows.length = 20 ∧ (∀ x ∈ rows, ∀ i, |x i| ≤ 1) ∧
    scCovariance? L ((new (schurCondCls L 3) ⟨1/20, 4, false⟩).run [.fit (.batch rows)]) = .error .linAlgError := by
  obtain ⟨t, h1, h2, h3⟩ := hedgeDet_attains le_rfl (by norm_num)
  have ht : 0 < t := lt_of_lt_of_le (by positivity) h1
  refine ⟨nearRows t, by simp [nearRows], near_entries ht.le h2, ?_⟩
  have hne : used (⟨1/20, 4, false⟩ : BlockParam).diff [Call.fit (.batch (nearRows t))] ≠ [] := by
    show used false _ ≠ []
    rw [near_used]; simp [nearRows]
  unfold scCovariance?
  rw [(sc_attrs L ⟨1/20, 4, false⟩ _ hne).1, (sc_attrs L ⟨1/20, 4, false⟩ _ hne).2]
  simp only []
  rw [if_neg]
  show ¬ scSolvable _ (ewaFold (1/20) (used false _))
  rw [near_used, near_solvable ht]
  simpa using h3

/-! ## Near the singularity -/

theorem toSymmetric_diag {n : ℕ} (a : Matrix (Fin n) (Fin n) ℝ) (i : Fin n) : toSymmetric a i i = a i i := by
  simp only [toSymmetric, of_apply, Matrix.smul_apply, Matrix.add_apply, transpose_apply, smul_eq_mul]; ring

theorem rr_ge {t : ℝ} (h : 1 / 10 ^ 6 ≤ t) : 99 / 100 ≤ rr t ∧ rr t ≤ 1 := by
  have ht : 0 < t := lt_of_lt_of_le (by positivity) h
  have hp : 0 < t + 1 / 10 ^ 12 := by positivity
  unfold rr
  rw [le_div_iff₀ hp, div_le_one hp]
  constructor
  · norm_num at h ⊢; linarith
  · have : (0:ℝ) < 1 / 10 ^ 12 := by positivity
    linarith

theorem near_gamma {t : ℝ} (h : 1 / 10 ^ 6 ≤ t) :
    4 / 5 ≤ scGammaOf (⟨1/20, 4, false⟩ : BlockParam) (ewaFold (1/20) (nearRows t)) ∧
    scGammaOf (⟨1/20, 4, false⟩ : BlockParam) (ewaFold (1/20) (nearRows t)) ≤ 1 := by
  have ht : 0 < t := lt_of_lt_of_le (by positivity) h
  have hnb : nbClamped 4 3 = 3 := by decide
  unfold scGammaOf
  show 4 / 5 ≤ scGamma (fun i : Fin 3 => blockId 3 (nbClamped 4 3) i) _ _ ∧ scGamma (fun i : Fin 3 => blockId 3 (nbClamped 4 3) i) _ _ ≤ 1
  rw [hnb]
  have hbid : (fun i : Fin 3 => blockId 3 3 i) = fun i => i.1 := by funext i; fin_cases i <;> decide
  rw [hbid, near_nEff]
  generalize hR : covToCorr (ewaFold (1/20) (nearRows t)).cov = R
  have hoff : ∀ i j : Fin 3, i.1 ≠ j.1 → 99 / 100 ≤ R i j := by
    intro i j hij
    rw [← hR, near_corr ht]
    have r1 := (rr_ge h).1
    have r2 := (rr_ge (show (1:ℝ) / 10 ^ 6 ≤ 1 by norm_num)).1
    fin_cases i <;> fin_cases j <;> first | exact absurd rfl hij | simpa using r1 | simpa using r2
  unfold scGamma
  rw [if_neg (by intro h; exact absurd (h 0 1) (by decide))]
  simp only []
  have hden : 0 < sumCross (fun i : Fin 3 => i.1) (Matrix.of fun i j => R i j ^ 2) := by
    unfold sumCross
    refine Finset.sum_pos' (fun i _ => Finset.sum_nonneg fun j _ => ?_) ⟨0, Finset.mem_univ _, Finset.sum_pos' (fun j _ => ?_) ⟨1, Finset.mem_univ _, ?_⟩⟩
    · split
      · exact sq_nonneg _
      · exact le_rfl
    · split
      · exact sq_nonneg _
      · exact le_rfl
    · rw [if_pos (by decide)]
      have := hoff 0 1 (by decide)
      show 0 < R 0 1 ^ 2
      positivity
  have hnum : 4 / 5 * sumCross (fun i : Fin 3 => i.1) (Matrix.of fun i j => R i j ^ 2)
      ≤ sumCross (fun i : Fin 3 => i.1) (Matrix.of fun i j => max (R i j ^ 2 - (1 + R i j ^ 2) / 20) 0) := by
    unfold sumCross
    rw [Finset.mul_sum]
    refine Finset.sum_le_sum fun i _ => ?_
    rw [Finset.mul_sum]
    refine Finset.sum_le_sum fun j _ => ?_
    split
    · rename_i hij
      have := hoff i j hij
      refine le_trans ?_ (le_max_left _ _)
      show 4 / 5 * R i j ^ 2 ≤ _
      nlinarith
    · simp
  rw [if_pos hden]
  refine ⟨le_min (le_trans ?_ (le_max_left _ _)) (by norm_num), min_le_right _ _⟩
  rwa [le_div_iff₀ hden]

/-- The hedge of the third variable on the second is a constant over the determinant. -/
theorem near_hedge {t : ℝ} (ht : 0 < t) (hd : hedgeDet t ≠ 0) :
    scB 3 2 (covToCorr (ewaFold (1/20) (nearRows t)).cov) (scNEff (ewaFold (1/20) (nearRows t))) ⟨1, by decide⟩ ⟨2, by decide⟩ * hedgeDet t
      = rr t * (1 / 10 * rr 1 + 1 / 10 ^ 10) := by
  obtain ⟨a, b, c, d⟩ := near_system ht
  have hdet := near_det ht
  have hR := near_corr ht
  generalize hb : scB 3 2 (covToCorr (ewaFold (1/20) (nearRows t)).cov) (scNEff (ewaFold (1/20) (nearRows t))) = bb
  unfold scB at hb
  generalize scSystem 3 2 (covToCorr (ewaFold (1/20) (nearRows t)).cov) (scNEff (ewaFold (1/20) (nearRows t))) = M at a b c d hdet hb
  have hu : IsUnit M.det := by rw [hdet]; exact isUnit_iff_ne_zero.2 hd
  have e : M * bb = (covToCorr (ewaFold (1/20) (nearRows t)).cov).submatrix Subtype.val Subtype.val := by
    rw [← hb, ← Matrix.mul_assoc, Matrix.mul_nonsing_inv _ hu, Matrix.one_mul]
  have e0 := congrFun (congrFun e ⟨0, by decide⟩) ⟨2, by decide⟩
  have e1 := congrFun (congrFun e ⟨1, by decide⟩) ⟨2, by decide⟩
  rw [mul_apply, sum_prev2, submatrix_apply, hR] at e0 e1
  simp only [a, b, c, d] at e0 e1
  have v0 : (!![rr 1, rr t, rr 1; rr t, rr (t ^ 2), rr t; rr 1, rr t, rr 1] : Matrix (Fin 3) (Fin 3) ℝ) 0 2 = rr 1 := by simp
  have v1 : (!![rr 1, rr t, rr 1; rr t, rr (t ^ 2), rr t; rr 1, rr t, rr 1] : Matrix (Fin 3) (Fin 3) ℝ) 1 2 = rr t := by simp
  rw [v0] at e0
  rw [v1] at e1
  unfold hedgeDet
  generalize bb ⟨0, _⟩ ⟨2, _⟩ = b0 at e0 e1
  generalize bb ⟨1, _⟩ ⟨2, _⟩ = b1 at e0 e1 ⊢
  linear_combination (rr 1 + 1 / 10 ^ 10) * e1 - 9 / 10 * rr t * e0

/-- With three variables in three blocks: the last diagonal entry of the reassembly is at least the residual variance of the second
variable times its squared hedge. -/
theorem reassemble_ge (R : Matrix (Fin 3) (Fin 3) ℝ) (n g : ℝ) (g0 : 0 ≤ g) (g1 : g ≤ 1) (hd : ∀ i, 0 ≤ R i i) :
    g ^ 3 * (1 / 10 ^ 8) * scB 3 2 R n ⟨1, by decide⟩ ⟨2, by decide⟩ ^ 2 ≤ scReassemble L 3 R n g 2 2 := by
  have hfl : ∀ k (m : Matrix (BlockIx 3 3 k) (BlockIx 3 3 k) ℝ) (i : BlockIx 3 3 k), (1:ℝ) / 10 ^ 8 ≤ (makePosDef L m) i i := by
    intro k m i
    have := minEig_makePosDef L m (1 / 10 ^ 8) (Pi.single i 1)
    rw [quad_single] at this
    simpa [normSq, Pi.single_apply, Finset.sum_ite_eq'] using this
  unfold scReassemble
  have hl : ((List.range (3 - 1)).map (· + 1)) = [1, 2] := by decide
  simp only [hl, List.foldl_cons, List.foldl_nil]
  have sl2 : (slices 3 3).getD 2 (0, 0) = (2, 3) := by decide
  have sl1 : (slices 3 3).getD 1 (0, 0) = (1, 2) := by decide
  have sl0 : (slices 3 3).getD 0 (0, 0) = (0, 1) := by decide
  generalize hRg1 : scStep L 3 R n g _ 1 = Rg1
  have r00 : Rg1 0 0 = R 0 0 := by
    rw [← hRg1, scStep_stepWith]; unfold stepWith
    simp only [of_apply]
    rw [dif_neg (by decide), dif_neg (by decide), if_pos (by decide)]
  obtain ⟨β, σ, r01, r10, r11, hσ⟩ : ∃ β σ, Rg1 0 1 = β * R 0 0 ∧ Rg1 1 0 = β * R 0 0 ∧ Rg1 1 1 = σ + β * R 0 0 * β ∧ g * (1 / 10 ^ 8) ≤ σ := by
    refine ⟨g * scB 3 1 R n ⟨0, by decide⟩ ⟨1, by decide⟩, (1 - g) * R 1 1 + g * scS L 3 1 R n ⟨1, by decide⟩ ⟨1, by decide⟩, ?_, ?_, ?_, ?_⟩
    · rw [← hRg1, scStep_stepWith]; unfold stepWith
      simp only [of_apply]
      rw [dif_neg (by decide), dif_pos (by decide), dif_pos (by decide), mul_apply, sum_prev1]
      simp only [transpose_apply, Matrix.smul_apply, smul_eq_mul, submatrix_apply, of_apply]
      rw [if_pos (by decide)]
    · rw [← hRg1, scStep_stepWith]; unfold stepWith
      simp only [of_apply]
      rw [dif_pos (by decide), dif_neg (by decide), dif_pos (by decide), mul_apply, sum_prev1]
      simp only [transpose_apply, Matrix.smul_apply, smul_eq_mul, submatrix_apply, of_apply]
      rw [if_pos (by decide)]
    · rw [← hRg1, scStep_stepWith]; unfold stepWith
      simp only [of_apply]
      rw [dif_pos (by decide), dif_pos (by decide), Matrix.add_apply, mul_apply, sum_prev1, mul_apply, sum_prev1]
      simp only [transpose_apply, Matrix.add_apply, Matrix.smul_apply, smul_eq_mul, submatrix_apply, of_apply]
      rw [if_pos (by decide)]
    · have h1 := hfl 1 (toSymmetric ((R.submatrix Subtype.val Subtype.val : Matrix (BlockIx 3 3 1) (BlockIx 3 3 1) ℝ)
        - (R.submatrix Subtype.val Subtype.val : Matrix (PrevIx 3 3 1) (BlockIx 3 3 1) ℝ)ᵀ * scB 3 1 R n)) ⟨1, by decide⟩
      have h2 := mul_le_mul_of_nonneg_left h1 g0
      have h3 := mul_nonneg (sub_nonneg.2 g1) (hd 1)
      have h4 : scS L 3 1 R n ⟨1, by decide⟩ ⟨1, by decide⟩ = _ := rfl
      unfold scS
      linarith
  rw [scStep_stepWith]; unfold stepWith
  simp only [of_apply]
  rw [dif_pos (by decide), dif_pos (by decide), Matrix.add_apply, mul_apply, sum_prev2, mul_apply, mul_apply, sum_prev2, sum_prev2]
  simp only [transpose_apply, Matrix.add_apply, Matrix.smul_apply, smul_eq_mul, submatrix_apply]
  rw [r00, r01, r10, r11]
  have h1 := hfl 2 (toSymmetric ((R.submatrix Subtype.val Subtype.val : Matrix (BlockIx 3 3 2) (BlockIx 3 3 2) ℝ)
        - (R.submatrix Subtype.val Subtype.val : Matrix (PrevIx 3 3 2) (BlockIx 3 3 2) ℝ)ᵀ * scB 3 2 R n)) ⟨2, by decide⟩
  have h3 := mul_nonneg (sub_nonneg.2 g1) (hd 2)
  unfold scS
  generalize scB 3 2 R n ⟨0, _⟩ ⟨2, _⟩ = b0
  generalize scB 3 2 R n ⟨1, _⟩ ⟨2, _⟩ = b1
  have h2 : 0 ≤ g * (makePosDef L (toSymmetric ((R.submatrix Subtype.val Subtype.val : Matrix (BlockIx 3 3 2) (BlockIx 3 3 2) ℝ)
        - (R.submatrix Subtype.val Subtype.val : Matrix (PrevIx 3 3 2) (BlockIx 3 3 2) ℝ)ᵀ * scB 3 2 R n))) ⟨2, by decide⟩ ⟨2, by decide⟩ :=
    mul_nonneg g0 (le_trans (by positivity) h1)
  have h4 := mul_le_mul_of_nonneg_right hσ (sq_nonneg (g * b1))
  have h5 := mul_nonneg (hd 0) (sq_nonneg (g * b0 + β * (g * b1)))
  nlinarith

/-- C95: VIOLATION: SchurConditionalCovariance with its default parameters has no bound: for every `M` there are 20 observations of
three variables with entries of size at most 1 on which the reported variance of the third variable exceeds `M`. -/
theorem C95_schur_conditional_unbounded (M : ℝ) : ∃ (rows : List (Fin 3 → ℝ)) (c : Matrix (Fin 3) (Fin 3) ℝ), rows.length = 20 ∧
    (∀ x ∈ rows, ∀ i, |x i| ≤ 1) ∧
    scCovariance? L ((new (schurCondCls L 3) ⟨1/20, 4, false⟩).run [.fit (.batch rows)]) = .ok c ∧ M < c 2 2 := by
  set δ : ℝ := 1 / (10 ^ 6 * (|M| + 1)) with hδ
  have hM : 0 < |M| + 1 := by positivity
  have hδ0 : 0 < δ := by positivity
  have hδ1 : δ ≤ 1 / 100 := by
    rw [hδ]
    refine one_div_le_one_div_of_le (by norm_num) ?_
    have := abs_nonneg M
    linarith
  obtain ⟨t, h1, h2, h3⟩ := hedgeDet_attains hδ0.le hδ1
  have ht : 0 < t := lt_of_lt_of_le (by positivity) h1
  have hne : used (⟨1/20, 4, false⟩ : BlockParam).diff [Call.fit (.batch (nearRows t))] ≠ [] := by
    show used false _ ≠ []
    rw [near_used]; simp [nearRows]
  have hsolv := (near_solvable ht).2 (by rw [h3]; exact hδ0.ne')
  refine ⟨nearRows t, toSymmetric (scCov L ⟨1/20, 4, false⟩ (ewaFold (1/20) (nearRows t))), by simp [nearRows], near_entries ht.le h2, ?_, ?_⟩
  · unfold scCovariance?
    rw [(sc_attrs L ⟨1/20, 4, false⟩ _ hne).1, (sc_attrs L ⟨1/20, 4, false⟩ _ hne).2]
    simp only []
    have hu : ewaFold (⟨1/20, 4, false⟩ : BlockParam).r (used (⟨1/20, 4, false⟩ : BlockParam).diff [Call.fit (.batch (nearRows t))])
        = ewaFold (1/20) (nearRows t) := congrArg (ewaFold (1/20)) (near_used t)
    rw [hu, if_pos hsolv]
  · have hge := reassemble_ge L (covToCorr (ewaFold (1/20) (nearRows t)).cov) (scNEff (ewaFold (1/20) (nearRows t)))
      (scGammaOf (⟨1/20, 4, false⟩ : BlockParam) (ewaFold (1/20) (nearRows t))) (le_trans (by norm_num) (near_gamma h1).1) (near_gamma h1).2 (by
        rw [near_corr ht]
        have a := (rr_ge (show (1:ℝ) / 10 ^ 6 ≤ 1 by norm_num)).1
        have b : 0 ≤ rr (t ^ 2) := by unfold rr; positivity
        intro i; fin_cases i
        · show 0 ≤ rr 1; linarith
        · exact b
        · show 0 ≤ rr 1; linarith)
    have hh := near_hedge ht (by rw [h3]; exact hδ0.ne')
    rw [h3] at hh
    have hg := (near_gamma h1).1
    have hr := (rr_ge h1).1
    have hr1 := (rr_ge (show (1:ℝ) / 10 ^ 6 ≤ 1 by norm_num)).1
    have e22 : toSymmetric (scCov L ⟨1/20, 4, false⟩ (ewaFold (1/20) (nearRows t))) 2 2
        = (makePosDef L (toSymmetric (scReassemble L 3 (covToCorr (ewaFold (1/20) (nearRows t)).cov) (scNEff (ewaFold (1/20) (nearRows t)))
            (scGammaOf (⟨1/20, 4, false⟩ : BlockParam) (ewaFold (1/20) (nearRows t)))))) 2 2 := by
      have hc : (ewaFold (1/20) (nearRows t)).cov 2 2 = 1 := by rw [near_cov]; simp
      have hm : max (1:ℝ) EPS = 1 := max_eq_left (by unfold EPS; norm_num)
      have hnb : nbClamped 4 3 = 3 := by decide
      have e := toSymmetric_diag (scCov L ⟨1/20, 4, false⟩ (ewaFold (1/20) (nearRows t))) 2
      rw [e]
      unfold scCov
      simp only [of_apply, hc, hm, Real.sqrt_one, mul_one]
      rw [hnb]
    rw [e22]
    have hlo := C50_loewner L (toSymmetric (scReassemble L 3 (covToCorr (ewaFold (1/20) (nearRows t)).cov) (scNEff (ewaFold (1/20) (nearRows t)))
            (scGammaOf (⟨1/20, 4, false⟩ : BlockParam) (ewaFold (1/20) (nearRows t))))) (1 / 10 ^ 8) (Pi.single 2 1)
    rw [quad_single, quad_single, toSymmetric_diag] at hlo
    refine lt_of_lt_of_le ?_ (hge.trans hlo)
    generalize scGammaOf (⟨1/20, 4, false⟩ : BlockParam) (ewaFold (1/20) (nearRows t)) = g at hg ⊢
    generalize scB 3 2 (covToCorr (ewaFold (1/20) (nearRows t)).cov) (scNEff (ewaFold (1/20) (nearRows t))) ⟨1, _⟩ ⟨2, _⟩ = b at hh ⊢
    have hb : b = rr t * (1 / 10 * rr 1 + 1 / 10 ^ 10) * (10 ^ 6 * (|M| + 1)) := by
      rw [hδ] at hh
      field_simp at hh ⊢
      linarith
    have hb1 : 9 / 100 * (10 ^ 6 * (|M| + 1)) ≤ b := by
      rw [hb]
      refine mul_le_mul_of_nonneg_right ?_ (by positivity)
      nlinarith
    have hb2 : (9 / 100 * (10 ^ 6 * (|M| + 1))) ^ 2 ≤ b ^ 2 := pow_le_pow_left₀ (by positivity) hb1 2
    have hg3 : (4 / 5 : ℝ) ^ 3 ≤ g ^ 3 := pow_le_pow_left₀ (by norm_num) hg 3
    have hk : (4 / 5 : ℝ) ^ 3 * (1 / 10 ^ 8) * (9 / 100 * (10 ^ 6 * (|M| + 1))) ^ 2 ≤ g ^ 3 * (1 / 10 ^ 8) * b ^ 2 :=
      mul_le_mul (mul_le_mul_of_nonneg_right hg3 (by positivity)) hb2 (by positivity) (by positivity)
    refine lt_of_lt_of_le ?_ hk
    have := le_abs_self M
    have := abs_nonneg M
    nlinarith

end Precise
