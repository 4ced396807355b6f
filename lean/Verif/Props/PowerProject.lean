import Verif.Model.MetricPower
import Verif.Spec.Power
import Verif.Lemmas.Linalg

/-!
# C79: `_project_pd` of `research/metric_power.py`
-/

set_option linter.all false

open Matrix

namespace Precise.Power
open Precise Spec

variable {ι : Type} [Fintype ι] [DecidableEq ι] (L : Lapack)

theorem top_spec {v : Matrix ι ι ℝ} (hv : vᵀ * v = 1) {w : ι → ℝ} {c : ℝ} (h : TopEig (spec v w) c) : c = ⨆ i, w i := by
  obtain ⟨h1, x, hx, h2⟩ := h
  have hle := fun i => eigs_le hv h1 i
  have hne : Nonempty ι := by
    by_contra hn
    rw [not_nonempty_iff] at hn
    exact hx (Subsingleton.elim _ _)
  refine le_antisymm ?_ (ciSup_le hle)
  have h3 : MaxEigLE (spec v w) (⨆ i, w i) := maxEig_spec hv fun i => le_ciSup (Finite.bddAbove_range w) i
  have := h3 x
  rw [h2] at this
  exact le_of_mul_le_mul_right this (normSq_pos hx)

theorem spec_top [Nonempty ι] {v : Matrix ι ι ℝ} (hv : vᵀ * v = 1) (w : ι → ℝ) : TopEig (spec v w) (⨆ i, w i) := by
  refine ⟨maxEig_spec hv fun i => le_ciSup (Finite.bddAbove_range w) i, ?_⟩
  obtain ⟨i, hi⟩ := exists_eq_ciSup_of_finite (f := w)
  exact ⟨fun k => v k i, col_ne_zero hv i, by rw [quad_spec_col hv, normSq_col hv, hi, mul_one]⟩

theorem topEig_toSymmetric {a : Matrix ι ι ℝ} {c : ℝ} : TopEig (toSymmetric a) c ↔ TopEig a c := by
  unfold TopEig MaxEigLE; simp only [quad_toSymmetric]

/-- Every matrix has exactly one top eigenvalue. -/
theorem topEig_exists [Nonempty ι] (a : Matrix ι ι ℝ) : ∃ c, TopEig a c := by
  have hs := symm_toSymmetric a
  have := spec_top (Lapack.exact.eigh_orth _ hs) (Lapack.exact.eigh (toSymmetric a)).1
  rw [← Lapack.exact.eigh_spec hs] at this
  exact ⟨_, topEig_toSymmetric.1 this⟩

theorem projectPd_eq {m : Matrix ι ι ℝ} {c : ℝ} (hc : TopEig m c) (f : ℝ) : projectPd L m f = makePosDef L m (f * c) := by
  have hs := symm_toSymmetric m
  rw [makePosDef_eq]
  unfold projectPd
  simp only []
  rw [eigRecompose_eq]
  have : c = ⨆ i, (L.eigh (toSymmetric m)).1 i := by
    refine top_spec (L.eigh_orth _ hs) ?_
    rw [← L.eigh_spec hs]; exact topEig_toSymmetric.2 hc
  rw [this]

theorem makePosDef_max {m : Matrix ι ι ℝ} {c : ℝ} (hc : TopEig m c) (eps : ℝ) (h : eps ≤ c) : TopEig (makePosDef L m eps) c := by
  have hs := symm_toSymmetric m
  have ho := L.eigh_orth _ hs
  have he := L.eigh_spec hs
  have hc' := topEig_toSymmetric.2 hc
  rw [he] at hc'
  have hcw := top_spec ho hc'
  have hne : Nonempty ι := by
    obtain ⟨_, x, hx, _⟩ := hc
    by_contra hn
    rw [not_nonempty_iff] at hn
    exact hx (Subsingleton.elim _ _)
  rw [makePosDef_eq]
  have := spec_top ho (fun i => max ((L.eigh (toSymmetric m)).1 i) eps)
  convert this using 1
  refine le_antisymm ?_ (ciSup_le fun i => max_le ?_ h)
  · rw [hcw]
    exact ciSup_mono (Finite.bddAbove_range _) fun i => le_max_left _ _
  · rw [hcw]; exact le_ciSup (Finite.bddAbove_range (L.eigh (toSymmetric m)).1) i

/-- C79: for any matrix with a positive top eigenvalue `c` the result of `_project_pd` is symmetric positive definite, its eigenvalues lie
between `f c` and `c`, and `c` is still the top one: condition number at most `1/f` (1000 by default). -/
theorem C79_conditioned {m : Matrix ι ι ℝ} {c : ℝ} (hc : TopEig m c) (hpos : 0 < c) (f : ℝ) (h0 : 0 < f) (h1 : f ≤ 1) :
    PD (projectPd L m f) ∧ MinEigGE (projectPd L m f) (f * c) ∧ TopEig (projectPd L m f) c := by
  rw [projectPd_eq L hc]
  refine ⟨pd_makePosDef L m (mul_pos h0 hpos), minEig_makePosDef L m _, makePosDef_max L hc _ ?_⟩
  nlinarith

/-- C79: a matrix that is already that well conditioned is only symmetrized. -/
theorem C79_id {m : Matrix ι ι ℝ} [Nonempty ι] (f c : ℝ) (h0 : 0 ≤ f) (hmin : MinEigGE m (f * c)) (hmax : MaxEigLE m c) :
    projectPd L m f = toSymmetric m := by
  obtain ⟨d, hd⟩ := topEig_exists m
  rw [projectPd_eq L hd]
  refine makePosDef_id L fun x => le_trans ?_ (hmin x)
  obtain ⟨_, y, hy, e⟩ := hd
  have h2 := hmax y
  rw [e] at h2
  have : d ≤ c := le_of_mul_le_mul_right h2 (normSq_pos hy)
  exact mul_le_mul_of_nonneg_right (mul_le_mul_of_nonneg_left this h0) (normSq_nonneg x)

/-- C79: projecting twice is projecting once (top eigenvalue not negative). -/
theorem C79_idempotent {m : Matrix ι ι ℝ} {c : ℝ} (hc : TopEig m c) (hpos : 0 ≤ c) (f : ℝ) (h0 : 0 ≤ f) (h1 : f ≤ 1) :
    projectPd L (projectPd L m f) f = projectPd L m f := by
  have hle : f * c ≤ c := by nlinarith
  rw [projectPd_eq L hc, projectPd_eq L (makePosDef_max L hc _ hle), makePosDef_id L (minEig_makePosDef L m _),
    toSymmetric_of_symm (symm_makePosDef L m _)]

/-- C79: it does not depend on the unit of measurement. -/
theorem C79_scale [Nonempty ι] (m : Matrix ι ι ℝ) (k : ℝ) (hk : 0 < k) (f : ℝ) : projectPd L (k • m) f = k • projectPd L m f := by
  obtain ⟨c, hc⟩ := topEig_exists m
  have hc' : TopEig (k • m) (k * c) := by
    obtain ⟨h1, x, hx, h2⟩ := hc
    refine ⟨fun y => ?_, x, hx, ?_⟩
    · rw [quad_smul, mul_assoc]; exact mul_le_mul_of_nonneg_left (h1 y) hk.le
    · rw [quad_smul, h2, mul_assoc]
  have hs := symm_toSymmetric m
  rw [projectPd_eq L hc, projectPd_eq L hc', makePosDef_eq L m]
  rw [makePosDef_of_spec L (L.eigh_orth _ hs) (w := fun i => k * (L.eigh (toSymmetric m)).1 i)
    (by rw [spec_smul, ← L.eigh_spec hs, toSymmetric_eq (k • m), toSymmetric_eq m, transpose_smul, ← smul_add, smul_comm]), ← spec_smul]
  congr 1; ext i
  rw [mul_max_of_nonneg _ _ hk.le]; ring_nf

/-- C79: among all matrices with eigenvalues at least `f c` none is closer to a symmetric input in Frobenius norm. -/
theorem C79_nearest {m : Matrix ι ι ℝ} (hm : Symm m) {c : ℝ} (hc : TopEig m c) (f : ℝ) (x : Matrix ι ι ℝ) (hx : MinEigGE x (f * c)) :
    frobNorm (projectPd L m f - m) ≤ frobNorm (x - m) := by
  rw [projectPd_eq L hc]
  exact Real.sqrt_le_sqrt (makePosDef_nearest L hm _ x hx)

/-- C79 (violation of the name): on a matrix without a positive eigenvalue the result is not positive definite; for `c < 0` it is the
negative multiple `f c` of the identity, for `c = 0` the zero matrix. -/
theorem C79_negative {m : Matrix ι ι ℝ} {c : ℝ} (hc : TopEig m c) (hneg : c ≤ 0) (f : ℝ) (h1 : f ≤ 1) :
    projectPd L m f = (f * c) • 1 ∧ (0 ≤ f → ¬ PD (projectPd L m f)) := by
  have e : projectPd L m f = (f * c) • 1 := by
    rw [projectPd_eq L hc, makePosDef_eq]
    have hs := symm_toSymmetric m
    have ho := L.eigh_orth _ hs
    have hmax : MaxEigLE (spec (L.eigh (toSymmetric m)).2 (L.eigh (toSymmetric m)).1) c := by
      rw [← L.eigh_spec hs]; exact (topEig_toSymmetric.2 hc).1
    have : (fun i => max ((L.eigh (toSymmetric m)).1 i) (f * c)) = fun _ => (f * c) * 1 := by
      ext i
      rw [mul_one]
      exact max_eq_right (le_trans (eigs_le ho hmax i) (by nlinarith))
    rw [this, spec_smul, spec_one ho]
  refine ⟨e, fun h0 hpd => ?_⟩
  obtain ⟨_, x, hx, _⟩ := hc
  have := hpd.2 x hx
  rw [e, quad_smul, quad_one] at this
  have h3 := normSq_pos hx
  have : f * c ≤ 0 := mul_nonpos_of_nonneg_of_nonpos h0 hneg
  nlinarith

-- the hypotheses are met: an indefinite matrix with top eigenvalue 3, a negative definite one with top eigenvalue -1
example : TopEig (!![1, 2; 2, 1] : Matrix (Fin 2) (Fin 2) ℝ) 3 ∧ TopEig (!![-1, 0; 0, -2] : Matrix (Fin 2) (Fin 2) ℝ) (-1) := by
  refine ⟨⟨fun x => ?_, ![1, 1], by simp, by simp [quad, normSq, dotProduct, mulVec, Fin.sum_univ_two]; norm_num⟩,
    ⟨fun x => ?_, ![1, 0], by simp, by simp [quad, normSq, dotProduct, mulVec, Fin.sum_univ_two]⟩⟩
  · simp [quad, normSq, dotProduct, mulVec, Fin.sum_univ_two]; nlinarith [sq_nonneg (x 0 - x 1)]
  · simp [quad, normSq, dotProduct, mulVec, Fin.sum_univ_two]; nlinarith [sq_nonneg (x 1)]

end Precise.Power
