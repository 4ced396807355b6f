import Verif.Lemmas.Matrix
import Verif.Model.Linalg
import Mathlib.Analysis.Matrix.Spectrum
import Mathlib.LinearAlgebra.Matrix.PosDef

/-! Orthogonal diagonalizations over ℝ, and that `Lapack`'s contract is satisfiable. -/

set_option linter.all false

open Matrix

namespace Precise

open Spec

variable {ι κ : Type} [Fintype ι] [Fintype κ] [DecidableEq ι] [DecidableEq κ]

/-- `v diag(w) vᵀ`. -/
def spec (v : Matrix ι ι ℝ) (w : ι → ℝ) : Matrix ι ι ℝ := v * diagonal w * vᵀ

theorem eigRecompose_eq (v : Matrix ι ι ℝ) (w : ι → ℝ) : eigRecompose v w = spec v w := by
  unfold eigRecompose spec
  congr 1
  ext i j; simp [mul_diagonal]

theorem symm_spec (v : Matrix ι ι ℝ) (w : ι → ℝ) : Symm (spec v w) := (symm_diagonal w).congr v

theorem quad_spec (v : Matrix ι ι ℝ) (w : ι → ℝ) (x : ι → ℝ) :
    quad (spec v w) x = ∑ i, w i * ((vᵀ *ᵥ x) i * (vᵀ *ᵥ x) i) := by
  unfold spec; rw [quad_congr, quad_diagonal]

/-- A square matrix with orthonormal columns has orthonormal rows. -/
theorem orth_comm {v : Matrix ι ι ℝ} (h : vᵀ * v = 1) : v * vᵀ = 1 := mul_eq_one_comm.1 h

theorem normSq_orth {v : Matrix ι ι ℝ} (h : vᵀ * v = 1) (x : ι → ℝ) : normSq (vᵀ *ᵥ x) = normSq x := by
  have h1 : quad (1 : Matrix ι ι ℝ) (vᵀ *ᵥ x) = quad (v * 1 * vᵀ) x := (quad_congr v 1 x).symm
  rw [mul_one, orth_comm h] at h1
  rw [← quad_one, ← quad_one, h1]

theorem orth_inj {v : Matrix ι ι ℝ} (h : vᵀ * v = 1) (x : ι → ℝ) (hx : vᵀ *ᵥ x = 0) : x = 0 := by
  have := normSq_orth h x
  rw [hx] at this
  exact normSq_eq_zero.1 (by rw [← this]; simp [normSq])

theorem psd_spec {v : Matrix ι ι ℝ} {w : ι → ℝ} (hw : ∀ i, 0 ≤ w i) : PSD (spec v w) :=
  (psd_diagonal hw).congr v

theorem pd_spec {v : Matrix ι ι ℝ} (hv : vᵀ * v = 1) {w : ι → ℝ} (hw : ∀ i, 0 < w i) : PD (spec v w) :=
  (pd_diagonal hw).congr_inj v (orth_inj hv)

theorem minEig_spec {v : Matrix ι ι ℝ} (hv : vᵀ * v = 1) {w : ι → ℝ} {c : ℝ} (hw : ∀ i, c ≤ w i) :
    MinEigGE (spec v w) c := by
  intro x
  rw [quad_spec, ← normSq_orth hv x, normSq, Finset.mul_sum]
  exact Finset.sum_le_sum fun i _ => mul_le_mul_of_nonneg_right (hw i) (mul_self_nonneg _)

theorem maxEig_spec {v : Matrix ι ι ℝ} (hv : vᵀ * v = 1) {w : ι → ℝ} {c : ℝ} (hw : ∀ i, w i ≤ c) :
    MaxEigLE (spec v w) c := by
  intro x
  rw [quad_spec, ← normSq_orth hv x, normSq, Finset.mul_sum]
  exact Finset.sum_le_sum fun i _ => mul_le_mul_of_nonneg_right (hw i) (mul_self_nonneg _)

/-- The quadratic form at the i-th eigenvector. -/
theorem quad_spec_col {v : Matrix ι ι ℝ} (hv : vᵀ * v = 1) (w : ι → ℝ) (i : ι) :
    quad (spec v w) (fun k => v k i) = w i := by
  have e : vᵀ *ᵥ (fun k => v k i) = Pi.single i 1 := by
    ext j
    have := congrFun (congrFun hv j) i
    simp only [mul_apply, transpose_apply] at this
    simp only [mulVec, dotProduct, transpose_apply, this, one_apply, Pi.single_apply]
  rw [quad_spec, e, Finset.sum_eq_single i]
  · simp
  · intro j _ hj; simp [Pi.single_apply, hj]
  · simp

theorem normSq_col {v : Matrix ι ι ℝ} (hv : vᵀ * v = 1) (i : ι) : normSq (fun k => v k i) = 1 := by
  have := congrFun (congrFun hv i) i
  simpa [mul_apply, normSq] using this

theorem eigs_ge {v : Matrix ι ι ℝ} (hv : vᵀ * v = 1) {w : ι → ℝ} {c : ℝ} (h : MinEigGE (spec v w) c) (i : ι) :
    c ≤ w i := by
  have := h (fun k => v k i)
  rwa [quad_spec_col hv, normSq_col hv, mul_one] at this

theorem eigs_le {v : Matrix ι ι ℝ} (hv : vᵀ * v = 1) {w : ι → ℝ} {c : ℝ} (h : MaxEigLE (spec v w) c) (i : ι) :
    w i ≤ c := by
  have := h (fun k => v k i)
  rwa [quad_spec_col hv, normSq_col hv, mul_one] at this

theorem eigs_nonneg {v : Matrix ι ι ℝ} (hv : vᵀ * v = 1) {w : ι → ℝ} (h : PSD (spec v w)) (i : ι) : 0 ≤ w i := by
  rw [← quad_spec_col hv w i]; exact h.2 _

theorem col_ne_zero {v : Matrix ι ι ℝ} (hv : vᵀ * v = 1) (i : ι) : (fun k => v k i) ≠ 0 := by
  intro h
  have := normSq_col hv i
  rw [h] at this
  simp [normSq] at this

theorem eigs_pos {v : Matrix ι ι ℝ} (hv : vᵀ * v = 1) {w : ι → ℝ} (h : PD (spec v w)) (i : ι) : 0 < w i := by
  rw [← quad_spec_col hv w i]; exact h.2 _ (col_ne_zero hv i)

theorem spec_mul {v : Matrix ι ι ℝ} (hv : vᵀ * v = 1) (w w' : ι → ℝ) :
    spec v w * spec v w' = spec v (fun i => w i * w' i) := by
  unfold spec
  have : v * diagonal w * vᵀ * (v * diagonal w' * vᵀ) = v * diagonal w * (vᵀ * v) * diagonal w' * vᵀ := by
    simp only [Matrix.mul_assoc]
  rw [this, hv, Matrix.mul_one, Matrix.mul_assoc v, diagonal_mul_diagonal]

theorem spec_one {v : Matrix ι ι ℝ} (hv : vᵀ * v = 1) : spec v (fun _ => 1) = 1 := by
  unfold spec
  rw [show (diagonal fun _ : ι => (1:ℝ)) = 1 from diagonal_one, Matrix.mul_one, orth_comm hv]

theorem spec_smul (v : Matrix ι ι ℝ) (w : ι → ℝ) (c : ℝ) : spec v (fun i => c * w i) = c • spec v w := by
  unfold spec
  rw [show (diagonal fun i => c * w i) = c • diagonal w from by
    rw [← diagonal_smul]; rfl, Matrix.mul_smul, Matrix.smul_mul]

theorem spec_add (v : Matrix ι ι ℝ) (w w' : ι → ℝ) : spec v (fun i => w i + w' i) = spec v w + spec v w' := by
  unfold spec
  rw [← diagonal_add, Matrix.mul_add, Matrix.add_mul]

theorem det_spec {v : Matrix ι ι ℝ} (hv : vᵀ * v = 1) (w : ι → ℝ) : (spec v w).det = ∏ i, w i := by
  have h : v.det * v.det = 1 := by
    have := congrArg Matrix.det hv
    rwa [det_mul, det_transpose, det_one] at this
  unfold spec
  rw [det_mul, det_mul, det_transpose, det_diagonal]
  linear_combination (∏ i, w i) * h

theorem trace_spec {v : Matrix ι ι ℝ} (hv : vᵀ * v = 1) (w : ι → ℝ) : (spec v w).trace = ∑ i, w i := by
  unfold spec
  rw [trace_mul_comm, ← Matrix.mul_assoc, hv, Matrix.one_mul, trace_diagonal]

/-- Intertwiner lemma: a matrix `T` that intertwines two diagonalized matrices intertwines any function of them. -/
theorem intertwine {v : Matrix ι ι ℝ} (hv : vᵀ * v = 1) {w : ι → ℝ} {v' : Matrix κ κ ℝ} (hv' : v'ᵀ * v' = 1)
    {w' : κ → ℝ} (T : Matrix κ ι ℝ) (h : spec v' w' * T = T * spec v w) (f : ℝ → ℝ) :
    spec v' (fun i => f (w' i)) * T = T * spec v (fun i => f (w i)) := by
  have comm : diagonal w' * (v'ᵀ * T * v) = (v'ᵀ * T * v) * diagonal w := by
    have h2 := congrArg (fun M => v'ᵀ * M * v) h
    unfold spec at h2
    have l : v'ᵀ * (v' * diagonal w' * v'ᵀ * T) * v = (v'ᵀ * v') * (diagonal w' * (v'ᵀ * T * v)) := by
      simp only [Matrix.mul_assoc]
    have r : v'ᵀ * (T * (v * diagonal w * vᵀ)) * v = (v'ᵀ * T * v) * diagonal w * (vᵀ * v) := by
      simp only [Matrix.mul_assoc]
    simp only [l, r, hv, hv', Matrix.one_mul, Matrix.mul_one] at h2
    exact h2
  have comm' : diagonal (fun i => f (w' i)) * (v'ᵀ * T * v) = (v'ᵀ * T * v) * diagonal (fun i => f (w i)) := by
    ext i j
    have := congrFun (congrFun comm i) j
    rw [diagonal_mul, mul_diagonal] at this
    rw [diagonal_mul, mul_diagonal]
    by_cases hM : (v'ᵀ * T * v) i j = 0
    · rw [hM]; simp
    · have e : w' i = w j := mul_right_cancel₀ hM (by rw [this]; ring)
      rw [e]; ring
  unfold spec
  have e1 : v' * diagonal (fun i => f (w' i)) * v'ᵀ * T
      = v' * (diagonal (fun i => f (w' i)) * (v'ᵀ * T * v)) * vᵀ := by
    have : v' * (diagonal (fun i => f (w' i)) * (v'ᵀ * T * v)) * vᵀ
      = v' * diagonal (fun i => f (w' i)) * v'ᵀ * T * (v * vᵀ) := by simp only [Matrix.mul_assoc]
    rw [this, orth_comm hv, Matrix.mul_one]
  have e2 : T * (v * diagonal (fun i => f (w i)) * vᵀ)
      = v' * ((v'ᵀ * T * v) * diagonal (fun i => f (w i))) * vᵀ := by
    have : v' * ((v'ᵀ * T * v) * diagonal (fun i => f (w i))) * vᵀ
      = (v' * v'ᵀ) * (T * (v * diagonal (fun i => f (w i)) * vᵀ)) := by simp only [Matrix.mul_assoc]
    rw [this, orth_comm hv', Matrix.one_mul]
  rw [e1, e2, comm']

/-- A function of a symmetric matrix does not depend on the diagonalization. -/
theorem spec_unique {v v' : Matrix ι ι ℝ} (hv : vᵀ * v = 1) (hv' : v'ᵀ * v' = 1) {w w' : ι → ℝ}
    (h : spec v w = spec v' w') (f : ℝ → ℝ) : spec v (fun i => f (w i)) = spec v' (fun i => f (w' i)) := by
  have := intertwine hv hv' (w := w) (w' := w') 1 (by rw [Matrix.mul_one, Matrix.one_mul, h]) f
  rw [Matrix.mul_one, Matrix.one_mul] at this
  exact this.symm

/-! ### `Lapack` facts in terms of `spec` -/

theorem Lapack.eigh_spec (L : Lapack) {a : Matrix ι ι ℝ} (h : Symm a) : a = spec (L.eigh a).2 (L.eigh a).1 :=
  L.eigh_eq a h

/-! ### Existence: the spectral theorem gives a `Lapack` -/

theorem exists_spec {a : Matrix ι ι ℝ} (h : Symm a) :
    ∃ e : (ι → ℝ) × Matrix ι ι ℝ, e.2ᵀ * e.2 = 1 ∧ a = e.2 * diagonal e.1 * e.2ᵀ := by
  have hH : a.IsHermitian := by
    rw [IsHermitian, conjTranspose_eq_transpose_of_trivial]; exact h.transpose
  refine ⟨(hH.eigenvalues, (hH.eigenvectorUnitary : Matrix ι ι ℝ)), ?_, ?_⟩
  · have := (mem_unitaryGroup_iff' (A := (hH.eigenvectorUnitary : Matrix ι ι ℝ))).1 hH.eigenvectorUnitary.2
    rwa [star_eq_conjTranspose, conjTranspose_eq_transpose_of_trivial] at this
  · have := hH.spectral_theorem
    rw [Unitary.conjStarAlgAut_apply] at this
    rw [star_eq_conjTranspose, conjTranspose_eq_transpose_of_trivial] at this
    exact this

end Precise
