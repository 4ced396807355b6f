import Verif.Lemmas.Linalg
import Verif.Props.Base
import Mathlib.Tactic.NormNum

/-!
# C11–C13, C37 (the step function), C49, C50: `_linalg.py` and the attributes built on it

`L : Lapack` stands for numpy.linalg; every theorem holds for all backends meeting its contract.
-/

set_option linter.all false

open Matrix

namespace Precise

open Spec Obj

variable {ι κ : Type} [Fintype ι] [Fintype κ] [DecidableEq ι] [DecidableEq κ]

theorem EPS_pos : 0 < EPS := by unfold EPS; positivity

/-! ## C50 make_pos_def -/

/-- C50: the result is symmetric with every eigenvalue at least `eps`; positive-definite for `eps > 0`. -/
theorem C50_floor (L : Lapack) (a : Matrix ι ι ℝ) (eps : ℝ) :
    Symm (makePosDef L a eps) ∧ MinEigGE (makePosDef L a eps) eps ∧ (0 < eps → PD (makePosDef L a eps)) :=
  ⟨symm_makePosDef L a eps, minEig_makePosDef L a eps, fun h => pd_makePosDef L a h⟩

/-- C50: a matrix whose eigenvalues are already at least `eps` is returned symmetrized (unchanged if symmetric). -/
theorem C50_identity (L : Lapack) (a : Matrix ι ι ℝ) (eps : ℝ) (h : MinEigGE a eps) :
    makePosDef L a eps = toSymmetric a ∧ (Symm a → makePosDef L a eps = a) :=
  ⟨makePosDef_id L h, fun hs => (makePosDef_id L h).trans (toSymmetric_of_symm hs)⟩

/-- C50: idempotent. -/
theorem C50_idempotent (L : Lapack) (a : Matrix ι ι ℝ) (eps : ℝ) :
    makePosDef L (makePosDef L a eps) eps = makePosDef L a eps :=
  (C50_identity L _ eps (minEig_makePosDef L a eps)).2 (symm_makePosDef L a eps)

/-- C50: the result does not depend on the eigendecomposition the backend picks. -/
theorem C50_backend_independent (L L' : Lapack) (a : Matrix ι ι ℝ) (eps : ℝ) :
    makePosDef L a eps = makePosDef L' a eps := by
  have hs := symm_toSymmetric a
  rw [makePosDef_of_spec L (L'.eigh_orth _ hs) (L'.eigh_spec hs) eps, makePosDef_eq]

/-- C50: it is the nearest matrix (Frobenius) to the symmetrized input among all with eigenvalues at least `eps`. -/
theorem C50_nearest (L : Lapack) (a : Matrix ι ι ℝ) (eps : ℝ) (x : Matrix ι ι ℝ) (hx : MinEigGE x eps) :
    ∑ i, ∑ j, ((makePosDef L a eps - toSymmetric a) i j) ^ 2 ≤ ∑ i, ∑ j, ((x - toSymmetric a) i j) ^ 2 := by
  have h := makePosDef_nearest L (symm_toSymmetric a) eps x hx
  have e : makePosDef L (toSymmetric a) eps = makePosDef L a eps := by
    rw [makePosDef_eq, makePosDef_eq, toSymmetric_of_symm (symm_toSymmetric a)]
  rw [e] at h
  simpa only [frobSq, pow_two] using h

/-- C50: it never lowers the variance of any combination. -/
theorem C50_loewner (L : Lapack) (a : Matrix ι ι ℝ) (eps : ℝ) : Loewner a (makePosDef L a eps) := by
  intro x
  have hs := symm_toSymmetric a
  rw [makePosDef_eq, ← quad_toSymmetric a]
  conv_lhs => rw [L.eigh_spec hs]
  rw [quad_spec, quad_spec]
  exact Finset.sum_le_sum fun i _ => mul_le_mul_of_nonneg_right (le_max_left _ _) (mul_self_nonneg _)

/-! ## C49 nearest_pos_def -/

/-- C49: the loop always stops: two evaluations of its condition are enough, more fuel changes nothing, and
at most one shift (by the float spacing) is made. -/
theorem C49_terminates (L : Lapack) (a : Matrix ι ι ℝ) (fuel : ℕ) (h : 2 ≤ fuel) :
    nearestPosDef? L fuel a = some (nearestPosDef L a) ∧
    (nearestPosDef L a = makePosDef L a 0 ∨
      nearestPosDef L a = makePosDef L a 0 + L.spacing (frobNorm a) • (1 : Matrix ι ι ℝ)) := by
  classical
  constructor
  · rw [nearestPosDef?_eq L a fuel h, nearestPosDef_eq]
  · rw [nearestPosDef_eq, npdStart_eq]
    split
    · exact Or.inl rfl
    · exact Or.inr rfl

/-- C49: the loop does not rely on its start being PSD (it is only up to rounding in floating point): from any
symmetric matrix whatever it stops after at most one shift, and the result is positive-definite; the shift lifts the
smallest eigenvalue to exactly the spacing. -/
theorem C49_any_start (L : Lapack) (a3 : Matrix ι ι ℝ) (hs : Symm a3) (spacing : ℝ) (hsp : 0 < spacing) (fuel : ℕ) (h : 2 ≤ fuel) :
    ∃ m, npdFinish L fuel spacing a3 = some m ∧ PD m ∧
      ((PD a3 ∧ m = a3) ∨ (¬ PD a3 ∧ m = a3 + (spacing - minEig L a3) • (1 : Matrix ι ι ℝ))) :=
  npdFinish_pd L hs hsp fuel h

/-- non-vacuity: a start that is negative-definite -/
example (L : Lapack) : ∃ m, npdFinish L 2 1 (-1 : Matrix (Fin 2) (Fin 2) ℝ) = some m ∧ PD m :=
  have ⟨m, h, hp, _⟩ := C49_any_start L (-1 : Matrix (Fin 2) (Fin 2) ℝ) (fun i j => by simp [Matrix.one_apply, eq_comm]) 1 one_pos 2 le_rfl
  ⟨m, h, hp⟩

/-- C49: the result is symmetric positive-definite, for every input matrix. -/
theorem C49_pd (L : Lapack) (a : Matrix ι ι ℝ) : PD (nearestPosDef L a) := pd_nearestPosDef L a

/-- C49: a positive-definite input is returned unchanged (after symmetrization). -/
theorem C49_identity (L : Lapack) (a : Matrix ι ι ℝ) (h : PD a) : nearestPosDef L a = a := by
  rw [nearestPosDef_id L (by rw [toSymmetric_of_symm h.1]; exact h), toSymmetric_of_symm h.1]

/-- C49: for any input (not nec. symmetric) whose symmetric part is PD, that part is returned. -/
theorem C49_symmetric_part (L : Lapack) (a : Matrix ι ι ℝ) (h : ∀ x, x ≠ 0 → 0 < quad a x) :
    nearestPosDef L a = toSymmetric a :=
  nearestPosDef_id L ⟨symm_toSymmetric a, fun x hx => by rw [quad_toSymmetric]; exact h x hx⟩

/-- C49: up to the one-spacing shift the result is the nearest PSD matrix in Frobenius norm. -/
theorem C49_nearest (L : Lapack) (a : Matrix ι ι ℝ) (x : Matrix ι ι ℝ) (hx : PSD x) :
    ∃ n : Matrix ι ι ℝ, (nearestPosDef L a = n ∨ nearestPosDef L a = n + L.spacing (frobNorm a) • (1 : Matrix ι ι ℝ)) ∧
      ∑ i, ∑ j, ((n - toSymmetric a) i j) ^ 2 ≤ ∑ i, ∑ j, ((x - toSymmetric a) i j) ^ 2 :=
  ⟨_, (C49_terminates L a 2 le_rfl).2, C50_nearest L a 0 x fun y => by simpa using hx.2 y⟩

/-! ## C37: geodesic_step -/

section Geo
variable (L : Lapack)

/-- square root and inverse square root used by the code -/
theorem geodesic_facts (A B : Matrix ι ι ℝ) :
    ∃ R Ri : Matrix ι ι ℝ, PD R ∧ PD Ri ∧ R * R = makePosDef L A ∧ R * Ri = 1 ∧ Ri * R = 1 ∧
      ∃ (v : Matrix ι ι ℝ) (w : ι → ℝ), vᵀ * v = 1 ∧ (∀ i, 0 < w i) ∧ Ri * makePosDef L B * Ri = spec v w ∧
        ∀ g : ℝ, geodesicStep L A B g = R * spec v (fun i => w i ^ g) * R := by
  have hA : (0:ℝ) < 1 / 10 ^ 8 := by positivity
  have hSpd := pd_makePosDef L A hA
  have hEpd := pd_makePosDef L B hA
  have hSmin := minEig_makePosDef L A (1 / 10 ^ 8)
  set S := makePosDef L A with hS
  set E := makePosDef L B with hE
  have ho := L.eigh_orth S hSpd.1
  have hs := L.eigh_spec hSpd.1
  set vs := (L.eigh S).2
  set ws := (L.eigh S).1
  have hws : ∀ i, 1 / 10 ^ 8 ≤ ws i := eigs_ge ho (by rw [← hs]; exact hSmin)
  have hclip : ∀ i, max (ws i) EPS = ws i := fun i => max_eq_left (le_trans (by unfold EPS; norm_num) (hws i))
  have hpos : ∀ i, 0 < ws i := fun i => lt_of_lt_of_le hA (hws i)
  set R := spec vs (fun i => Real.sqrt (ws i)) with hR
  set Ri := spec vs (fun i => 1 / Real.sqrt (ws i)) with hRi
  have hRpd : PD R := pd_spec ho fun i => Real.sqrt_pos.2 (hpos i)
  have hRipd : PD Ri := pd_spec ho fun i => one_div_pos.2 (Real.sqrt_pos.2 (hpos i))
  have hRR : R * R = S := by
    rw [hR, spec_mul ho]
    conv_rhs => rw [hs]
    congr 1; ext i; exact Real.mul_self_sqrt (hpos i).le
  have hRRi : R * Ri = 1 := by
    rw [hR, hRi, spec_mul ho, ← spec_one ho]
    congr 1; ext i
    have := (Real.sqrt_pos.2 (hpos i)).ne'
    field_simp
  have hRiR : Ri * R = 1 := mul_eq_one_comm.1 hRRi
  have hM : PD (Ri * E * Ri) := by
    have := hEpd.congr_inj Ri fun x hx => by
      rw [hRipd.1.transpose] at hx
      have := congrArg (fun z => R *ᵥ z) hx
      simpa [mulVec_mulVec, hRRi] using this
    rwa [hRipd.1.transpose] at this
  have hMo := L.eigh_orth _ hM.1
  have hMs := L.eigh_spec hM.1
  have hMw : ∀ i, 0 < (L.eigh (Ri * E * Ri)).1 i := eigs_pos hMo (by rw [← hMs]; exact hM)
  refine ⟨R, Ri, hRpd, hRipd, hRR, hRRi, hRiR, (L.eigh (Ri * E * Ri)).2, (L.eigh (Ri * E * Ri)).1, hMo, hMw, hMs, ?_⟩
  intro g
  unfold geodesicStep
  simp only [eigRecompose_eq]
  rw [← hS, ← hE]
  have e1 : (spec (L.eigh S).2 fun i => Real.sqrt (max ((L.eigh S).1 i) EPS)) = R := by
    rw [hR]; congr 1; ext i; rw [← hclip i]
  have e2 : (spec (L.eigh S).2 fun i => 1 / Real.sqrt (max ((L.eigh S).1 i) EPS)) = Ri := by
    rw [hRi]; congr 1; ext i; rw [← hclip i]
  rw [e1, e2, toSymmetric_of_symm hM.1]
  have e3 : (spec (L.eigh (Ri * E * Ri)).2 fun i => max ((L.eigh (Ri * E * Ri)).1 i) 0 ^ g)
      = spec (L.eigh (Ri * E * Ri)).2 fun i => ((L.eigh (Ri * E * Ri)).1 i) ^ g := by
    congr 1; ext i; rw [max_eq_left (hMw i).le]
  rw [e3]
  refine toSymmetric_of_symm ?_
  have := (symm_spec (L.eigh (Ri * E * Ri)).2 fun i => ((L.eigh (Ri * E * Ri)).1 i) ^ g).congr R
  rwa [hRpd.1.transpose] at this

/-- C37: the step is symmetric positive-definite, for all inputs and every step size. -/
theorem C37_step_pd (A B : Matrix ι ι ℝ) (g : ℝ) : PD (geodesicStep L A B g) := by
  obtain ⟨R, Ri, hR, hRi, hRR, hRRi, hRiR, v, w, hv, hw, hM, hg⟩ := geodesic_facts L A B
  rw [hg g]
  have := (pd_spec hv (w := fun i => w i ^ g) fun i => Real.rpow_pos_of_pos (hw i) g).congr_inj R fun x hx => by
    rw [hR.1.transpose] at hx
    have := congrArg (fun z => Ri *ᵥ z) hx
    simpa [mulVec_mulVec, hRiR] using this
  rwa [hR.1.transpose] at this

/-- C37: step 0 returns the (floored) start, step 1 the (floored) end. -/
theorem C37_endpoints_floored (A B : Matrix ι ι ℝ) :
    geodesicStep L A B 0 = makePosDef L A ∧ geodesicStep L A B 1 = makePosDef L B := by
  obtain ⟨R, Ri, hR, hRi, hRR, hRRi, hRiR, v, w, hv, hw, hM, hg⟩ := geodesic_facts L A B
  constructor
  · rw [hg 0]; simp only [Real.rpow_zero]; rw [spec_one hv, Matrix.mul_one, hRR]
  · rw [hg 1]; simp only [Real.rpow_one]
    rw [show (spec v fun i => w i) = spec v w from rfl, ← hM]
    have : R * (Ri * makePosDef L B * Ri) * R = (R * Ri) * makePosDef L B * (Ri * R) := by
      simp only [Matrix.mul_assoc]
    rw [this, hRRi, hRiR, Matrix.one_mul, Matrix.mul_one]

/-- C37: endpoints exactly `A` and `B` when their eigenvalues are at least 1e-8. -/
theorem C37_endpoints (A B : Matrix ι ι ℝ) (hA : Symm A) (hB : Symm B) (hA' : MinEigGE A (1 / 10 ^ 8))
    (hB' : MinEigGE B (1 / 10 ^ 8)) : geodesicStep L A B 0 = A ∧ geodesicStep L A B 1 = B := by
  have := C37_endpoints_floored L A B
  rwa [(C50_identity L A _ hA').2 hA, (C50_identity L B _ hB').2 hB] at this

/-- C37: the determinant interpolates geometrically. -/
theorem C37_det (A B : Matrix ι ι ℝ) (hA : Symm A) (hB : Symm B) (hA' : MinEigGE A (1 / 10 ^ 8))
    (hB' : MinEigGE B (1 / 10 ^ 8)) (g : ℝ) : (geodesicStep L A B g).det = A.det ^ (1 - g) * B.det ^ g := by
  have hp : (0:ℝ) < 1 / 10 ^ 8 := by positivity
  have hApd : PD A := hA'.pd hA hp
  have hBpd : PD B := hB'.pd hB hp
  obtain ⟨R, Ri, hR, hRi, hRR, hRRi, hRiR, v, w, hv, hw, hM, hg⟩ := geodesic_facts L A B
  rw [(C50_identity L A _ hA').2 hA] at hRR
  rw [(C50_identity L B _ hB').2 hB] at hM
  have dR : R.det * R.det = A.det := by rw [← det_mul, hRR]
  have dRi : Ri.det * R.det = 1 := by rw [← det_mul, hRiR, det_one]
  have dw : ∏ i, w i = B.det / A.det := by
    rw [← det_spec hv, ← hM, det_mul, det_mul, eq_div_iff hApd.det_pos.ne', ← dR]
    have : Ri.det * B.det * Ri.det * (R.det * R.det) = B.det * (Ri.det * R.det) * (Ri.det * R.det) := by ring
    rw [this, dRi]; ring
  rw [hg g, det_mul, det_mul, det_spec hv, Real.finset_prod_rpow _ _ (fun i _ => (hw i).le), dw,
    Real.div_rpow hBpd.det_pos.le hApd.det_pos.le, Real.rpow_sub hApd.det_pos, Real.rpow_one]
  rw [← dR]
  ring

/-- C37: the result does not depend on the backend's eigendecompositions. -/
theorem C37_backend_independent (L' : Lapack) (A B : Matrix ι ι ℝ) (g : ℝ) :
    geodesicStep L A B g = geodesicStep L' A B g := by
  obtain ⟨R, Ri, hR, hRi, hRR, hRRi, hRiR, v, w, hv, hw, hM, hg⟩ := geodesic_facts L A B
  obtain ⟨R', Ri', hR', hRi', hRR', hRRi', hRiR', v', w', hv', hw', hM', hg'⟩ := geodesic_facts L' A B
  have hAA := C50_backend_independent L L' A (1 / 10 ^ 8)
  have hBB := C50_backend_independent L L' B (1 / 10 ^ 8)
  -- PD square roots are unique
  have hsq : R = R' := by
    have o1 := L.eigh_orth R hR.1
    have s1 := L.eigh_spec hR.1
    have o2 := L.eigh_orth R' hR'.1
    have s2 := L.eigh_spec hR'.1
    have p1 : ∀ i, 0 < (L.eigh R).1 i := eigs_pos o1 (by rw [← s1]; exact hR)
    have p2 : ∀ i, 0 < (L.eigh R').1 i := eigs_pos o2 (by rw [← s2]; exact hR')
    have h : spec (L.eigh R).2 (fun i => (L.eigh R).1 i * (L.eigh R).1 i)
        = spec (L.eigh R').2 (fun i => (L.eigh R').1 i * (L.eigh R').1 i) := by
      rw [← spec_mul o1, ← spec_mul o2, ← s1, ← s2, hRR, hRR', hAA]
    have := spec_unique o1 o2 h Real.sqrt
    simp only [Real.sqrt_mul_self (p1 _).le, Real.sqrt_mul_self (p2 _).le] at this
    rw [s1, s2]; exact this
  subst hsq
  have hii : Ri = Ri' := by
    calc Ri = Ri * (R * Ri') := by rw [hRRi', Matrix.mul_one]
      _ = Ri' := by rw [← Matrix.mul_assoc, hRiR, Matrix.one_mul]
  subst hii
  rw [hg g, hg' g]
  have h : spec v w = spec v' w' := by rw [← hM, ← hM', hBB]
  rw [spec_unique hv hv' h fun t => t ^ g]

end Geo

/-! ## C12 precision_ -/

/-- C12: whenever `covariance_` is nonsingular, `precision_` is its two-sided inverse; in every case it
satisfies the Moore–Penrose equations and is symmetric; it is PSD when `covariance_` is, PD when it is PD. -/
theorem C12_precision {C : Cls ι ℝ} (L : Lapack) (o : Obj C) (c p : Matrix ι ι ℝ) (hc : o.covariance = .ok c)
    (hp : o.precision L = .ok p) :
    (c.det ≠ 0 → p * c = 1 ∧ c * p = 1) ∧ IsPinv c p ∧ Symm p ∧ (PSD c → PSD p) ∧ (PD c → PD p) := by
  have hs : Symm c := C10_symmetric o c hc
  have e : p = tryInvert L c := by
    unfold Obj.precision at hp; rw [hc] at hp; cases hp; rfl
  subst e
  refine ⟨fun hd => ?_, tryInvert_pinv L hs, tryInvert_symm L hs, tryInvert_psd L, fun h => ?_⟩
  · have hu : IsUnit c.det := isUnit_iff_ne_zero.2 hd
    unfold tryInvert
    rw [if_neg hd]
    exact ⟨nonsing_inv_mul c hu, mul_nonsing_inv c hu⟩
  · rw [tryInvert_of_pd L h]; exact h.inv

/-- C12: `precision_` does not depend on the backend. -/
theorem C12_backend_independent {C : Cls ι ℝ} (L L' : Lapack) (o : Obj C) : o.precision L = o.precision L' := by
  unfold Obj.precision
  cases hc : o.covariance with
  | error e => rfl
  | ok c =>
    have hs : Symm c := C10_symmetric o c hc
    simp only [Except.map]
    rw [IsPinv.unique (tryInvert_pinv L hs) (tryInvert_pinv L' hs)]

/-- C06 (rest): `correlation_` and `precision_` raise NotFittedError exactly when `covariance_` does. -/
theorem C06_derived_attributes {C : Cls ι ℝ} (L : Lapack) (o : Obj C) (e : PyErr) :
    (o.correlation = .error e ↔ o.covariance = .error e) ∧ (o.precision L = .error e ↔ o.covariance = .error e) := by
  unfold Obj.correlation Obj.precision
  cases o.covariance <;> simp [Except.map]

/-! ## C11 correlation_ -/

/-- C11: if `covariance_` is PSD then `correlation_` is symmetric, its entries are in [-1, 1], and its diagonal
is `v / (v + 1e-12)`: below 1, and 0 for a constant variable. -/
theorem C11_correlation {C : Cls ι ℝ} (o : Obj C) (c r : Matrix ι ι ℝ) (hc : o.covariance = .ok c) (hpsd : PSD c)
    (hr : o.correlation = .ok r) :
    Symm r ∧ (∀ i j, |r i j| ≤ 1) ∧ (∀ i, r i i = c i i / (c i i + 1 / 10 ^ 12)) ∧ (∀ i, 0 ≤ r i i ∧ r i i < 1) ∧
    (∀ i, c i i = 0 → ∀ j, r i j = 0) := by
  have e : r = covToCorr c := by
    unfold Obj.correlation at hr; rw [hc] at hr; cases hr; rfl
  subst e
  have hnn := fun i => hpsd.diag_nonneg i
  have hE := EPS_pos
  have den : ∀ i j, 0 < Real.sqrt (c j j * c i i) + EPS := fun i j => by
    have := Real.sqrt_nonneg (c j j * c i i); linarith
  have hdiag : ∀ i, covToCorr c i i = c i i / (c i i + EPS) := fun i => by
    simp [covToCorr, Real.sqrt_mul_self (hnn i)]
  refine ⟨?_, ?_, hdiag, ?_, ?_⟩
  · intro i j
    simp only [covToCorr, of_apply]
    rw [hpsd.1 i j, mul_comm (c j j)]
  · intro i j
    simp only [covToCorr, of_apply]
    rw [abs_div, abs_of_pos (den i j), div_le_one (den i j)]
    have h1 : |c i j| ≤ Real.sqrt (c j j * c i i) := by
      refine Real.le_sqrt_of_sq_le ?_
      rw [sq_abs, pow_two]
      have := hpsd.entry_sq_le i j
      linarith [mul_comm (c j j) (c i i)]
    linarith
  · intro i
    rw [hdiag i]
    have : 0 < c i i + EPS := by have := hnn i; linarith
    refine ⟨div_nonneg (hnn i) this.le, ?_⟩
    rw [div_lt_one this]; linarith
  · intro i hi j
    simp [covToCorr, hpsd.entry_zero hi j]

/-- C11: each entry is within 1e-12/(sᵢ sⱼ) of the true correlation, for variables of positive variance. -/
theorem C11_accuracy (c : Matrix ι ι ℝ) (h : PSD c) (i j : ι) (hi : 0 < c i i) (hj : 0 < c j j) :
    let s := Real.sqrt (c i i) * Real.sqrt (c j j)
    |covToCorr c i j - c i j / s| ≤ (1 / 10 ^ 12) / s := by
  intro s
  have hs : 0 < s := mul_pos (Real.sqrt_pos.2 hi) (Real.sqrt_pos.2 hj)
  have hE := EPS_pos
  have e : Real.sqrt (c j j * c i i) = s := by rw [Real.sqrt_mul hj.le, mul_comm]
  have hcs : |c i j| ≤ s := by
    rw [← e]
    refine Real.le_sqrt_of_sq_le ?_
    rw [sq_abs, pow_two]
    have := h.entry_sq_le i j
    linarith [mul_comm (c j j) (c i i)]
  simp only [covToCorr, of_apply, e]
  have : c i j / (s + EPS) - c i j / s = -(c i j * EPS / ((s + EPS) * s)) := by
    field_simp; ring
  rw [this, abs_neg, abs_div, abs_mul, abs_of_pos hE, abs_of_pos (mul_pos (by linarith : 0 < s + EPS) hs)]
  show _ ≤ EPS / s
  rw [div_le_div_iff₀ (mul_pos (by linarith) hs) hs]
  have : |c i j| * EPS * s ≤ (s + EPS) * EPS * s := by
    have : |c i j| ≤ s + EPS := by linarith
    gcongr
  nlinarith [this]

/-- C11 (limit): `correlation_` can fail to be PSD: two perfectly correlated variables of scales 1 and 1000. -/
theorem C11_not_psd_witness : ∃ c : Matrix (Fin 2) (Fin 2) ℝ, PSD c ∧ ¬ PSD (covToCorr c) := by
  refine ⟨outer ![1, 1000] ![1, 1000], psd_outer _, fun h => ?_⟩
  have h1 := h.entry_sq_le 0 1
  have s0 : Real.sqrt (1000 * 1000) = 1000 := Real.sqrt_mul_self (by norm_num)
  simp [covToCorr, outer] at h1
  unfold EPS at h1
  norm_num at h1

/-! ## C13 mahalanobis -/

theorem mahaRow_eq (p : Matrix ι ι ℝ) (c : ι → ℝ) : mahaRow p c = quad p c := by
  rw [quad_expand]; rfl

/-- C13: for a fitted estimator with PSD `covariance_`, `mahalanobis` of any rows returns one non-negative number
per row, 0 at `location_`; with PD `covariance_` it is 0 only there. -/
theorem C13_mahalanobis {C : Cls ι ℝ} (L : Lapack) (o : Obj C) (c : Matrix ι ι ℝ) (m : ι → ℝ)
    (hc : o.covariance = .ok c) (hm : o.location = .ok m) (hpsd : PSD c) (rows : List (ι → ℝ)) :
    ∃ d, o.mahalanobis L (.batch rows) = .ok d ∧ d.length = rows.length ∧
      (∀ (k : ℕ) (hk : k < d.length) (hk' : k < rows.length), 0 ≤ d[k] ∧ (rows[k] = m → d[k] = 0) ∧
        (PD c → d[k] = 0 → rows[k] = m)) := by
  refine ⟨rows.map fun x => mahaRow (tryInvert L c) (x - m), ?_, by simp, ?_⟩
  · simp [Obj.mahalanobis, asRows, Obj.precision, hc, hm, Except.map, bind, Except.bind, pure, Except.pure]
  · intro k hk hk'
    simp only [List.getElem_map, mahaRow_eq]
    refine ⟨(tryInvert_psd L hpsd).2 _, fun h => by rw [h]; simp, fun hpd h0 => ?_⟩
    have h0 : quad c⁻¹ (rows[k] - m) = 0 := (congrArg (fun z => quad z (rows[k] - m)) (tryInvert_of_pd L hpd)).symm.trans h0
    by_contra hne
    exact absurd h0 (ne_of_gt (hpd.inv.2 _ (sub_ne_zero.2 hne)))

/-- C13: a 1d argument is one row; a bad rank raises ValueError before anything else. -/
theorem C13_inputs {C : Cls ι ℝ} (L : Lapack) (o : Obj C) (x : ι → ℝ) (n : ℕ) :
    o.mahalanobis L (.row x) = o.mahalanobis L (.batch [x]) ∧ o.mahalanobis L (.other n) = .error .valueError :=
  ⟨rfl, rfl⟩

/-! ## Concrete cases -/

section Examples

/-- numpy's contract is satisfiable, so the theorems above are about something. -/
example : Nonempty Lapack := ⟨Lapack.exact⟩

-- C50/C37: a matrix meeting the eigenvalue hypothesis, and one that does not (flooring changes it)
example : MinEigGE (2 • (1 : Matrix (Fin 2) (Fin 2) ℝ)) (1 / 10 ^ 8) := by
  intro x
  rw [show (2 • (1 : Matrix (Fin 2) (Fin 2) ℝ)) = (2:ℝ) • 1 from by ext i j; simp [Matrix.smul_apply], quad_smul, quad_one]
  have := normSq_nonneg x; nlinarith
example : makePosDef Lapack.exact (0 : Matrix (Fin 2) (Fin 2) ℝ) (1 / 10 ^ 8) ≠ 0 := by
  intro h
  have := (pd_makePosDef Lapack.exact (0 : Matrix (Fin 2) (Fin 2) ℝ) (eps := 1 / 10 ^ 8) (by positivity)).diag_pos 0
  rw [h] at this; simp at this

-- C11–C13: a fitted estimator with PD covariance: rows (±1, 0), (0, ±1)
private noncomputable def o₄ : Obj (empiricalCls (Fin 2) ℝ) :=
  ((new (empiricalCls (Fin 2) ℝ) false).partialFit (.batch [![1, 0], ![-1, 0], ![0, 1], ![0, -1]])).1

example : ∃ c m, o₄.covariance = .ok c ∧ o₄.location = .ok m ∧ PD c := by
  refine ⟨_, _, rfl, rfl, ?_⟩
  have e : toSymmetric
      (empUpdate (empUpdate (empUpdate (empUpdate empInit ![1, 0]) ![-1, 0]) ![0, 1]) ![0, -1]).cov
        = (1/2 : ℝ) • (1 : Matrix (Fin 2) (Fin 2) ℝ) := by
    ext i j
    fin_cases i <;> fin_cases j <;> norm_num [toSymmetric, empUpdate, empInit]
  exact Eq.mpr (congrArg PD e) (pd_one.smul (by norm_num))

end Examples

end Precise
