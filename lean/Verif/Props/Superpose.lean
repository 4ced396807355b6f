import Verif.Spec.Superpose
import Verif.Props.Calibration
import Verif.Props.Emp

/-!
# C139: blends of two histories
-/

set_option linter.all false

open Matrix

namespace Precise

open Spec Obj

variable {ι : Type} [Fintype ι] [DecidableEq ι]

omit [Fintype ι] [DecidableEq ι] in
theorem blend_snoc (s t : ℝ) {xs ys : List (ι → ℝ)} (h : xs.length = ys.length) (x y : ι → ℝ) :
    blend s t (xs ++ [x]) (ys ++ [y]) = blend s t xs ys ++ [fun i => s * x i + t * y i] := by
  unfold blend
  rw [List.zipWith_append h]; rfl

omit [Fintype ι] [DecidableEq ι] in
theorem blend_length (s t : ℝ) {xs ys : List (ι → ℝ)} (h : xs.length = ys.length) : (blend s t xs ys).length = xs.length := by
  simp [blend, h]

omit [DecidableEq ι] in
theorem superpose_fold (S : List (ι → ℝ) → EmpState ι ℝ) (h0c : (S []).cov = 0) (h0m : (S []).mean = 0) (α β κ : ℕ → ℝ)
    (hc : ∀ xs x, (S (xs ++ [x])).cov = α xs.length • (S xs).cov + β xs.length • outer (x - (S xs).mean) (x - (S xs).mean))
    (hm : ∀ xs x, (S (xs ++ [x])).mean = fun i => (1 - κ xs.length) * (S xs).mean i + κ xs.length * x i)
    (xs : List (ι → ℝ)) : ∀ ys : List (ι → ℝ), xs.length = ys.length → ∃ B : Matrix ι ι ℝ, Symm B ∧ ∀ s t : ℝ,
      (S (blend s t xs ys)).mean = s • (S xs).mean + t • (S ys).mean ∧
      (S (blend s t xs ys)).cov = s ^ 2 • (S xs).cov + (s * t) • B + t ^ 2 • (S ys).cov := by
  induction xs using List.reverseRecOn with
  | nil =>
    intro ys hl
    have hy : ys = [] := List.length_eq_zero_iff.1 hl.symm
    subst hy
    refine ⟨0, fun i j => rfl, fun s t => ?_⟩
    simp [blend, h0c, h0m]
  | append_singleton xs x ih =>
    intro ys hl
    rcases List.eq_nil_or_concat ys with rfl | ⟨ys, y, rfl⟩
    · simp at hl
    rw [List.concat_eq_append] at hl ⊢
    have hl' : xs.length = ys.length := by simpa using hl
    obtain ⟨B, hB, hst⟩ := ih ys hl'
    set u := x - (S xs).mean with hu
    set v := y - (S ys).mean with hv
    refine ⟨α xs.length • B + β xs.length • (outer u v + outer v u), fun i j => ?_, fun s t => ?_⟩
    · simp only [Matrix.add_apply, Matrix.smul_apply, outer, of_apply, smul_eq_mul, hB i j]; ring
    obtain ⟨e1, e2⟩ := hst s t
    rw [blend_snoc s t hl', hc, hm, hc, hm, hc, hm, blend_length s t hl', e1, e2, ← hl']
    constructor
    · funext i
      simp only [Pi.add_apply, Pi.smul_apply, smul_eq_mul]
      ring
    · have e : (fun i => s * x i + t * y i) - (s • (S xs).mean + t • (S ys).mean) = fun i => s * u i + t * v i := by
        funext i
        simp only [hu, hv, Pi.sub_apply, Pi.add_apply, Pi.smul_apply, smul_eq_mul]
        ring
      rw [e]
      ext i j
      simp only [Matrix.add_apply, Matrix.smul_apply, outer, of_apply, smul_eq_mul]
      ring

theorem superposes_of_fold {C : Cls ι ℝ} (p : C.Param) (S : List (ι → ℝ) → EmpState ι ℝ) (h0c : (S []).cov = 0) (h0m : (S []).mean = 0) (α β κ : ℕ → ℝ)
    (hcov : ∀ calls, used (C.diff p) calls ≠ [] → ((new C p).run calls).covariance = .ok (S (used (C.diff p) calls)).cov)
    (hloc : ∀ calls, used (C.diff p) calls ≠ [] → ((new C p).run calls).location = .ok (S (used (C.diff p) calls)).mean)
    (hc : ∀ xs x, (S (xs ++ [x])).cov = α xs.length • (S xs).cov + β xs.length • outer (x - (S xs).mean) (x - (S xs).mean))
    (hm : ∀ xs x, (S (xs ++ [x])).mean = fun i => (1 - κ xs.length) * (S xs).mean i + κ xs.length * x i) : Superposes C p := by
  intro cx cy hl hx
  have hy : used (C.diff p) cy ≠ [] := by
    intro h; rw [h] at hl; exact hx (List.length_eq_zero_iff.1 hl)
  obtain ⟨B, hB, h⟩ := superpose_fold S h0c h0m α β κ hc hm _ _ hl
  refine ⟨_, _, _, _, B, hloc cx hx, hloc cy hy, hcov cx hx, hcov cy hy, hB, fun s t cz hz => ?_⟩
  have hne : used (C.diff p) cz ≠ [] := by
    intro h0
    have := congrArg List.length hz
    rw [h0, blend_length s t hl] at this
    exact hx (List.length_eq_zero_iff.1 this.symm)
  rw [hloc cz hne, hcov cz hne, hz, (h s t).1, (h s t).2]
  exact ⟨rfl, rfl⟩

/-- C139: EmpiricalCovariance. -/
theorem C139_empirical (d : Bool) : Superposes (empiricalCls ι ℝ) d :=
  superposes_of_fold (C := empiricalCls ι ℝ) d (fun xs => empFold xs) rfl rfl (fun N => (N : ℝ) / (N + 1)) (fun N => (N : ℝ) / (N + 1) ^ 2) (fun N => 1 / ((N : ℝ) + 1))
    (fun calls h => by rw [(C15_batch d calls h).2.1, empFold_cov h]; rfl) (fun calls h => by rw [(C15_batch d calls h).1, empFold_mean h]; rfl)
    (fun xs x => by rw [empFold_snoc, empUpdate_cov, empFold_n]) (fun xs x => by rw [empFold_snoc, empUpdate_mean, empFold_n])

theorem ewa_rec_cov (r : ℝ) (xs : List (ι → ℝ)) (x : ι → ℝ) : (ewaFold r (xs ++ [x])).cov =
    (if ewaBurnN r ≤ xs.length then 1 - r else (xs.length : ℝ) / (xs.length + 1)) • (ewaFold r xs).cov +
    (if ewaBurnN r ≤ xs.length then r else (xs.length : ℝ) / (xs.length + 1) ^ 2) • outer (x - (ewaFold r xs).mean) (x - (ewaFold r xs).mean) := by
  by_cases hb : ewaBurnN r ≤ xs.length
  · rw [if_pos hb, if_pos hb, ewaFold_snoc, ewa_step hb]; rfl
  · rw [if_neg hb, if_neg hb, ewaFold_snoc, ewaUpdate_burn (by rw [ewaFold_n, ewaFold_nBurn]; omega), empUpdate_cov, ewaFold_n]

theorem ewa_rec_mean (r : ℝ) (xs : List (ι → ℝ)) (x : ι → ℝ) : (ewaFold r (xs ++ [x])).mean =
    fun i => (1 - if ewaBurnN r ≤ xs.length then r else 1 / ((xs.length : ℝ) + 1)) * (ewaFold r xs).mean i +
      (if ewaBurnN r ≤ xs.length then r else 1 / ((xs.length : ℝ) + 1)) * x i := by
  by_cases hb : ewaBurnN r ≤ xs.length
  · rw [if_pos hb, ewaFold_snoc, ewa_step hb]; rfl
  · rw [if_neg hb, ewaFold_snoc, ewaUpdate_burn (by rw [ewaFold_n, ewaFold_nBurn]; omega), empUpdate_mean, ewaFold_n]

theorem ewa_superpose_fold (r : ℝ) (xs ys : List (ι → ℝ)) (hl : xs.length = ys.length) : ∃ B : Matrix ι ι ℝ, Symm B ∧ ∀ s t : ℝ,
    (ewaFold r (blend s t xs ys)).mean = s • (ewaFold r xs).mean + t • (ewaFold r ys).mean ∧
    (ewaFold r (blend s t xs ys)).cov = s ^ 2 • (ewaFold r xs).cov + (s * t) • B + t ^ 2 • (ewaFold r ys).cov :=
  superpose_fold (fun xs => (ewaFold r xs).toEmpState) rfl rfl (fun N => if ewaBurnN r ≤ N then 1 - r else (N : ℝ) / (N + 1))
    (fun N => if ewaBurnN r ≤ N then r else (N : ℝ) / (N + 1) ^ 2) (fun N => if ewaBurnN r ≤ N then r else 1 / ((N : ℝ) + 1)) (ewa_rec_cov r) (ewa_rec_mean r) xs ys hl

/-- C139: EwaCovariance, at any rate. -/
theorem C139_ewa (p : RParam ℝ) : Superposes (ewaCls ι ℝ) p :=
  superposes_of_fold (C := ewaCls ι ℝ) p (fun xs => (ewaFold p.r xs).toEmpState) rfl rfl (fun N => if ewaBurnN p.r ≤ N then 1 - p.r else (N : ℝ) / (N + 1))
    (fun N => if ewaBurnN p.r ≤ N then p.r else (N : ℝ) / (N + 1) ^ 2) (fun N => if ewaBurnN p.r ≤ N then p.r else 1 / ((N : ℝ) + 1))
    (fun calls h => (ewa_attrs p calls h).2) (fun calls h => (ewa_attrs p calls h).1) (ewa_rec_cov p.r) (ewa_rec_mean p.r)

/-- a quadratic polynomial in the weights that is never negative -/
theorem sqrt_form_le {a b c : ℝ} (ha : 0 ≤ a) (hc : 0 ≤ c) (h : ∀ s t : ℝ, 0 ≤ s ^ 2 * a + s * t * b + t ^ 2 * c) (s t : ℝ) :
    Real.sqrt (s ^ 2 * a + s * t * b + t ^ 2 * c) ≤ |s| * Real.sqrt a + |t| * Real.sqrt c := by
  have hb : |b| ≤ 2 * (Real.sqrt a * Real.sqrt c) := by
    set x := Real.sqrt a with hx
    set y := Real.sqrt c with hy
    have ex : x ^ 2 = a := Real.sq_sqrt ha
    have ey : y ^ 2 = c := Real.sq_sqrt hc
    have hx0 : 0 ≤ x := Real.sqrt_nonneg _
    have hy0 : 0 ≤ y := Real.sqrt_nonneg _
    have hsq : b ^ 2 ≤ 4 * (a * c) := by
      rcases hc.eq_or_lt with h0 | hpos
      · rcases eq_or_ne b 0 with hb0 | hb0
        · rw [hb0, ← h0]; simp
        · have := h 1 (-(a + 1) / b)
          rw [← h0] at this
          have e : (1:ℝ) ^ 2 * a + 1 * (-(a + 1) / b) * b + (-(a + 1) / b) ^ 2 * 0 = -1 := by field_simp; ring
          rw [e] at this; linarith
      · have := h (2 * c) (-b)
        have e : (2 * c) ^ 2 * a + 2 * c * -b * b + (-b) ^ 2 * c = c * (4 * (a * c) - b ^ 2) := by ring
        rw [e] at this
        have := (mul_nonneg_iff_of_pos_left hpos).1 this
        linarith
    refine abs_le_of_sq_le_sq ?_ (by positivity)
    rw [← ex, ← ey] at hsq
    nlinarith
  refine Real.sqrt_le_iff.2 ⟨by positivity, ?_⟩
  have e : (|s| * Real.sqrt a + |t| * Real.sqrt c) ^ 2 = s ^ 2 * a + |s| * |t| * (2 * (Real.sqrt a * Real.sqrt c)) + t ^ 2 * c := by
    have ex : Real.sqrt a ^ 2 = a := Real.sq_sqrt ha
    have ey : Real.sqrt c ^ 2 = c := Real.sq_sqrt hc
    rw [add_sq, mul_pow, mul_pow, sq_abs, sq_abs, ex, ey]; ring
  rw [e]
  have h1 : s * t * b ≤ |s| * |t| * |b| := by rw [← abs_mul, ← abs_mul]; exact le_abs_self _
  have h2 := mul_le_mul_of_nonneg_left hb (mul_nonneg (abs_nonneg s) (abs_nonneg t))
  linarith

theorem Spec.Superposes.diversifies {C : Cls ι ℝ} {p : C.Param} (S : List (ι → ℝ) → EmpState ι ℝ)
    (hcov : ∀ calls, used (C.diff p) calls ≠ [] → ((new C p).run calls).covariance = .ok (S (used (C.diff p) calls)).cov) (hpsd : ∀ xs, PSD (S xs).cov)
    (hform : ∀ xs ys : List (ι → ℝ), xs.length = ys.length → ∃ B : Matrix ι ι ℝ, ∀ s t : ℝ,
      (S (blend s t xs ys)).cov = s ^ 2 • (S xs).cov + (s * t) • B + t ^ 2 • (S ys).cov) : Diversifies C p := by
  intro cx cy cz s t hl hx hz
  have hy : used (C.diff p) cy ≠ [] := by
    intro h; rw [h] at hl; exact hx (List.length_eq_zero_iff.1 hl)
  have hne : used (C.diff p) cz ≠ [] := by
    intro h0
    have := congrArg List.length hz
    rw [h0, blend_length s t hl] at this
    exact hx (List.length_eq_zero_iff.1 this.symm)
  refine ⟨_, _, _, hcov cx hx, hcov cy hy, hcov cz hne, fun w => ?_⟩
  obtain ⟨B, h⟩ := hform _ _ hl
  have e : ∀ s t : ℝ, quad (S (blend s t (used (C.diff p) cx) (used (C.diff p) cy))).cov w =
      s ^ 2 * quad (S (used (C.diff p) cx)).cov w + s * t * quad B w + t ^ 2 * quad (S (used (C.diff p) cy)).cov w := by
    intro s t; rw [h, quad_add, quad_add, quad_smul, quad_smul, quad_smul]
  unfold risk
  rw [hz, e]
  exact sqrt_form_le ((hpsd _).2 w) ((hpsd _).2 w) (fun s t => by rw [← e]; exact (hpsd _).2 w) s t

theorem empFold_psd' (xs : List (ι → ℝ)) : PSD (empFold xs).cov := by
  induction xs using List.reverseRecOn with
  | nil => exact psd_zero
  | append_singleton xs x ih => rw [empFold_snoc]; exact empUpdate_psd ih x

/-- C139: EmpiricalCovariance: risk is subadditive and convex. -/
theorem C139_empirical_risk (d : Bool) : Diversifies (empiricalCls ι ℝ) d :=
  Spec.Superposes.diversifies (C := empiricalCls ι ℝ) (p := d) (fun xs => empFold xs)
    (fun calls h => by rw [(C15_batch d calls h).2.1, empFold_cov h]; rfl) empFold_psd' fun xs ys hl => by
      obtain ⟨B, _, h⟩ := superpose_fold (fun xs => empFold xs) rfl rfl (fun N => (N : ℝ) / (N + 1)) (fun N => (N : ℝ) / (N + 1) ^ 2) (fun N => 1 / ((N : ℝ) + 1))
        (fun xs x => by rw [empFold_snoc, empUpdate_cov, empFold_n]) (fun xs x => by rw [empFold_snoc, empUpdate_mean, empFold_n]) xs ys hl
      exact ⟨B, fun s t => (h s t).2⟩

/-- C139: EwaCovariance. -/
theorem C139_ewa_risk (p : RParam ℝ) (h0 : 0 ≤ p.r) (h1 : p.r ≤ 1) : Diversifies (ewaCls ι ℝ) p :=
  Spec.Superposes.diversifies (C := ewaCls ι ℝ) (p := p) (fun xs => (ewaFold p.r xs).toEmpState) (fun calls h => (ewa_attrs p calls h).2)
    (fun xs => ewaFold_psd h0 h1 xs) fun xs ys hl => by
      obtain ⟨B, _, h⟩ := ewa_superpose_fold p.r xs ys hl
      exact ⟨B, fun s t => (h s t).2⟩

/-- Non-vacuity: any two batches of the same length can be blended. -/
theorem blend_used (s t : ℝ) (xs ys : List (ι → ℝ)) : used false [Call.partialFit (.batch (blend s t xs ys))] = blend s t xs ys := by
  simp [used, effective, rowsSinceFit, rowsOf]

end Precise
