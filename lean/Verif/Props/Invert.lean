import Verif.Props.Shrinkage

/-!
# C64: `affine_shrink`, and `try_invert` with all its fallbacks
-/

set_option linter.all false

open Matrix

namespace Precise

open Spec

variable {ι : Type} [Fintype ι] [DecidableEq ι]

theorem affineShrink_apply (phi lmbd : ℝ) (a : Matrix ι ι ℝ) :
    affineShrink phi lmbd a = shrinkTo lmbd (a + (phi - 1) • diagonal (fun i => a i i)) := by
  have e : (Matrix.of fun i j => if i = j then a i j * phi else a i j) = a + (phi - 1) • diagonal (fun i => a i i) := by
    ext i j
    by_cases h : i = j
    · subst h; simp; ring
    · simp [h]
  unfold affineShrink shrinkTo
  rw [e]
  rfl

theorem trace_ridge (phi : ℝ) (a : Matrix ι ι ℝ) : (a + (phi - 1) • diagonal (fun i => a i i)).trace = phi * a.trace := by
  rw [Matrix.trace_add, Matrix.trace_smul, Matrix.trace_diagonal, smul_eq_mul]
  show a.trace + (phi - 1) * a.trace = phi * a.trace
  ring

/-- C64: what `affine_shrink` does to the entries: off-diagonal entries are damped by `1 - lmbd`, a variance `v`
becomes `(1 - lmbd) phi v + lmbd phi` times the average variance; the total variance is multiplied by `phi`. -/
theorem C64_affine_shrink_entries [Nonempty ι] (phi lmbd : ℝ) (a : Matrix ι ι ℝ) :
    (∀ i j, i ≠ j → affineShrink phi lmbd a i j = (1 - lmbd) * a i j) ∧
    (∀ i, affineShrink phi lmbd a i i = (1 - lmbd) * (phi * a i i) + lmbd * (phi * ((∑ k, a k k) / (Fintype.card ι : ℝ)))) ∧
    (affineShrink phi lmbd a).trace = phi * a.trace := by
  refine ⟨fun i j h => ?_, fun i => ?_, ?_⟩
  · simp [affineShrink, h]
  · simp only [affineShrink, Matrix.add_apply, Matrix.smul_apply, Matrix.of_apply, if_true, Matrix.one_apply_eq, smul_eq_mul,
      ← Finset.sum_mul]
    ring
  · rw [affineShrink_apply, trace_shrinkTo, trace_ridge]

/-- C64: applied to a non-zero PSD matrix with `phi ≥ 1` and `0 < lmbd ≤ 1` (the defaults are 1.01 and 0.01) the result
is positive-definite: every eigenvalue is at least `lmbd * phi` times the average variance. -/
theorem C64_affine_shrink_pd [Nonempty ι] (phi lmbd : ℝ) (hphi : 1 ≤ phi) (h0 : 0 < lmbd) (h1 : lmbd ≤ 1) (a : Matrix ι ι ℝ)
    (ha : PSD a) : MinEigGE (affineShrink phi lmbd a) (lmbd * (phi * (a.trace / (Fintype.card ι : ℝ)))) ∧
      (a ≠ 0 → PD (affineShrink phi lmbd a)) := by
  have hb : PSD (a + (phi - 1) • diagonal (fun i => a i i)) :=
    ha.add ((psd_diagonal ha.diag_nonneg).smul (by linarith))
  have hmin : MinEigGE (affineShrink phi lmbd a) (lmbd * (phi * (a.trace / (Fintype.card ι : ℝ)))) := by
    intro x
    rw [affineShrink_apply, quad_shrinkTo, trace_ridge]
    have := mul_nonneg (by linarith : 0 ≤ 1 - lmbd) (hb.2 x)
    have e : lmbd * (phi * (a.trace / (Fintype.card ι : ℝ))) = lmbd * (phi * a.trace / (Fintype.card ι : ℝ)) := by ring
    rw [e]
    linarith
  refine ⟨hmin, fun hne => MinEigGE.pd ?_ ?_ hmin⟩
  · rw [affineShrink_apply]; exact symm_shrinkTo _ hb.1
  · have := psd_trace_pos ha hne
    have hc : (0:ℝ) < Fintype.card ι := card_pos'
    positivity

/-- C64: `try_invert` on a non-zero PSD estimate never raises, whichever of its routines fail, and what it returns is
symmetric PSD: the inverse if there is one, else the pseudo-inverse if the SVD converges, else the inverse of the
shrunk matrix. -/
theorem C64_try_invert_total [Nonempty ι] (L : Lapack) (svdConverges : Matrix ι ι ℝ → Prop) (phi lmbd : ℝ) (hphi : 1 ≤ phi)
    (h0 : 0 < lmbd) (h1 : lmbd ≤ 1) (a : Matrix ι ι ℝ) (ha : PSD a) (hne : a ≠ 0) :
    ∃ p, tryInvert? L svdConverges phi lmbd a = .ok p ∧ PSD p ∧
      ((a.det ≠ 0 ∧ a * p = 1) ∨ (a.det = 0 ∧ svdConverges a ∧ IsPinv a p) ∨
        (a.det = 0 ∧ ¬ svdConverges a ∧ affineShrink phi lmbd a * p = 1)) := by
  have hpd := (C64_affine_shrink_pd phi lmbd hphi h0 h1 a ha).2 hne
  unfold tryInvert?
  by_cases hd : a.det = 0
  · rw [if_neg (not_not.2 hd)]
    by_cases hs : svdConverges a
    · rw [if_pos hs]
      have h := tryInvert_psd L ha
      have e : tryInvert L a = L.pinv a := by unfold tryInvert; rw [if_pos hd]
      exact ⟨_, rfl, e ▸ h, Or.inr (Or.inl ⟨hd, hs, L.pinv_spec a ha.1⟩)⟩
    · rw [if_neg hs, if_neg hpd.det_pos.ne']
      have h := tryInvert_psd L hpd.psd
      have e : tryInvert L (affineShrink phi lmbd a) = (affineShrink phi lmbd a)⁻¹ := by
        unfold tryInvert; rw [if_neg hpd.det_pos.ne']
      exact ⟨_, rfl, e ▸ h, Or.inr (Or.inr ⟨hd, hs, Matrix.mul_nonsing_inv _ (isUnit_iff_ne_zero.2 hpd.det_pos.ne')⟩)⟩
  · rw [if_pos hd]
    have h := tryInvert_psd L ha
    have e : tryInvert L a = a⁻¹ := by unfold tryInvert; rw [if_neg hd]
    exact ⟨_, rfl, e ▸ h, Or.inl ⟨hd, Matrix.mul_nonsing_inv _ (isUnit_iff_ne_zero.2 hd)⟩⟩

/-- C64: the zero matrix (the covariance of a constant stream) is inverted to the zero matrix by the pseudo-inverse; if
the SVD does not converge, the last fallback raises LinAlgError. -/
theorem C64_try_invert_zero [Nonempty ι] (L : Lapack) (svdConverges : Matrix ι ι ℝ → Prop) (phi lmbd : ℝ) :
    tryInvert? L svdConverges phi lmbd (0 : Matrix ι ι ℝ) =
      (open Classical in if svdConverges 0 then .ok 0 else .error .linAlgError) := by
  classical
  have hd : (0 : Matrix ι ι ℝ).det = 0 := Matrix.det_zero
  have hz : affineShrink phi lmbd (0 : Matrix ι ι ℝ) = 0 := by
    rw [affineShrink_apply]
    simp [shrinkTo]
  have hp : L.pinv (0 : Matrix ι ι ℝ) = 0 := by
    have := (L.pinv_spec (0 : Matrix ι ι ℝ) symm_zero).2.1
    simpa using this.symm
  unfold tryInvert?
  rw [if_neg (not_not.2 hd), hz, if_pos hd, hp]

/-- C64: the simplified `try_invert` used in the other theorems is the full one whenever the SVD converges. -/
theorem C64_try_invert_agrees (L : Lapack) (svdConverges : Matrix ι ι ℝ → Prop) (phi lmbd : ℝ) (a : Matrix ι ι ℝ)
    (h : svdConverges a) : tryInvert? L svdConverges phi lmbd a = .ok (tryInvert L a) := by
  unfold tryInvert? tryInvert
  by_cases hd : a.det = 0
  · rw [if_neg (not_not.2 hd), if_pos h, if_pos hd]
  · rw [if_pos hd, if_neg hd]

/-- non-vacuity: a singular non-zero PSD matrix (two identical variables), no SVD convergence, default parameters -/
example (L : Lapack) : ∃ p, tryInvert? L (fun _ => False) (101/100) (1/100) (outer 1 1 : Matrix (Fin 2) (Fin 2) ℝ) = .ok p ∧ PSD p ∧
    affineShrink (101/100) (1/100) (outer 1 1 : Matrix (Fin 2) (Fin 2) ℝ) * p = 1 := by
  have hdet : (outer 1 1 : Matrix (Fin 2) (Fin 2) ℝ).det = 0 := by simp [Matrix.det_fin_two, outer]
  obtain ⟨p, h, hp, h' | h' | h'⟩ := C64_try_invert_total L (fun _ => False) (101/100) (1/100) (by norm_num) (by norm_num) (by norm_num)
    (outer 1 1 : Matrix (Fin 2) (Fin 2) ℝ) (psd_outer 1) (fun h => by
      have := congrFun (congrFun h 0) 0
      simp [outer] at this)
  · exact absurd hdet h'.1
  · exact absurd h'.2.1 id
  · exact ⟨p, h, hp, h'.2.2⟩

end Precise
