import Verif.Props.Shrinkage

/-!
# C34: HuberCovariance, C35: AdaptiveEwaCovariance, C36: TylerCovariance

"One more observation": two histories of which the second has used one more row `y` than the first
(`used diff calls' = used diff calls ++ [y]`), e.g. `calls' = calls ++ [.partialFit (.row y)]` with `diff = false`.
-/

set_option linter.all false

open Matrix

namespace Precise

open Spec Obj

variable {ι : Type} [Fintype ι] [DecidableEq ι] (L : Lapack)

/-! ## C34 -/

noncomputable def huberFold (pr : HuberParam) (xs : List (ι → ℝ)) : EwaState ι ℝ := xs.foldl (huberUpdate L pr) (ewaInit pr.r)

theorem huberFold_snoc (pr : HuberParam) (xs : List (ι → ℝ)) (x : ι → ℝ) :
    huberFold L pr (xs ++ [x]) = huberUpdate L pr (huberFold L pr xs) x := by simp [huberFold]

theorem huberFold_symm (pr : HuberParam) (xs : List (ι → ℝ)) : Symm (huberFold L pr xs).cov := by
  induction xs using List.reverseRecOn with
  | nil => exact symm_zero
  | append_singleton xs x ih =>
    rw [huberFold_snoc]
    generalize huberFold L pr xs = s at ih ⊢
    unfold huberUpdate
    split
    · exact symm_empUpdate ih x
    · exact (ih.smul _).add ((symm_outer _).smul _)

theorem huber_attrs (pr : HuberParam) (calls : List (Call ι ℝ)) (C : Matrix ι ι ℝ) (m : ι → ℝ)
    (hC : ((new (huberCls L ι) pr).run calls).covariance = .ok C) (hm : ((new (huberCls L ι) pr).run calls).location = .ok m) :
    C = (huberFold L pr (used pr.diff calls)).cov ∧ m = (huberFold L pr (used pr.diff calls)).mean := by
  obtain ⟨h1, h2⟩ := run_covariance_inv (huber_lawful L ι) pr calls C hC
  obtain ⟨_, h3⟩ := run_location_inv (huber_lawful L ι) pr calls m hm
  exact ⟨h2.trans (toSymmetric_of_symm (huberFold_symm L pr _)), h3⟩

/-- C34: the update rule after the burn-in, in terms of what the estimator reports: the innovation `y - m` enters with
weight 1 while its squared Mahalanobis length is at most `c² p`, and is pulled back onto that ellipsoid otherwise. -/
theorem C34_update (pr : HuberParam) (calls calls' : List (Call ι ℝ)) (y : ι → ℝ)
    (hy : used pr.diff calls' = used pr.diff calls ++ [y]) (hb : ewaBurnN pr.r ≤ (used pr.diff calls).length)
    (C C' : Matrix ι ι ℝ) (m m' : ι → ℝ) (hpd : PD C)
    (hC : ((new (huberCls L ι) pr).run calls).covariance = .ok C) (hm : ((new (huberCls L ι) pr).run calls).location = .ok m)
    (hC' : ((new (huberCls L ι) pr).run calls').covariance = .ok C') (hm' : ((new (huberCls L ι) pr).run calls').location = .ok m') :
    ∃ w, 0 ≤ w ∧ w ≤ 1 ∧
      (quad C⁻¹ (y - m) ≤ pr.c ^ 2 * (Fintype.card ι : ℝ) → w = 1) ∧
      (pr.c ^ 2 * (Fintype.card ι : ℝ) < quad C⁻¹ (y - m) → w ^ 2 * quad C⁻¹ (y - m) = pr.c ^ 2 * (Fintype.card ι : ℝ)) ∧
      m' = m + (pr.r * w) • (y - m) ∧ C' = (1 - pr.r) • C + (pr.r * w ^ 2) • outer (y - m) (y - m) := by
  obtain ⟨e1, e2⟩ := huber_attrs L pr calls C m hC hm
  obtain ⟨e3, e4⟩ := huber_attrs L pr calls' C' m' hC' hm'
  rw [hy, huberFold_snoc] at e3 e4
  obtain ⟨hn, hr, hbn⟩ := huber_inv L pr (used pr.diff calls)
  change (huberFold L pr (used pr.diff calls)).nSamples = _ at hn
  change (huberFold L pr (used pr.diff calls)).r = _ at hr
  change (huberFold L pr (used pr.diff calls)).nBurn = _ at hbn
  generalize huberFold L pr (used pr.diff calls) = s at *
  subst e1 e2
  unfold huberUpdate at e3 e4
  rw [if_neg (by rw [hn, hbn]; omega)] at e3 e4
  simp only [] at e3 e4
  have ed : (fun i => y i - s.mean i) = y - s.mean := rfl
  rw [ed] at e3 e4
  have hw := huberWeight_range L pr.c s.cov (y - s.mean)
  have hdef : huberWeight L pr.c s.cov (y - s.mean) = if quad s.cov⁻¹ (y - s.mean) ≤ pr.c ^ 2 * (Fintype.card ι : ℝ) then 1
      else Real.sqrt (pr.c ^ 2 * (Fintype.card ι : ℝ) / quad s.cov⁻¹ (y - s.mean)) := by
    unfold huberWeight; simp only []; rw [tryInvert_of_pd L hpd]
  generalize huberWeight L pr.c s.cov (y - s.mean) = w at *
  refine ⟨w, hw.1, hw.2, fun h => by rw [hdef, if_pos h], fun h => ?_, ?_, ?_⟩
  · rw [hdef, if_neg (not_le.2 h)]
    have hpos : 0 < quad s.cov⁻¹ (y - s.mean) := lt_of_le_of_lt (by positivity) h
    rw [Real.sq_sqrt (div_nonneg (by positivity) hpos.le), div_mul_cancel₀ _ hpos.ne']
  · rw [e4, hr]; ext i; simp [Pi.add_apply, Pi.smul_apply]; ring
  · rw [e3, hr]; ext i j; simp [outer]; ring

/-- rank-one bound: `u uᵀ ⪯ (uᵀ C⁻¹ u) C` -/
theorem outer_le {C : Matrix ι ι ℝ} (hC : PD C) (u x : ι → ℝ) : (u ⬝ᵥ x) ^ 2 ≤ quad C⁻¹ u * quad C x := by
  have hdet : IsUnit C.det := (hC.det_pos.ne').isUnit
  have h := hC.psd.cauchy_schwarz (C⁻¹ *ᵥ u) x
  have e1 : quad C (C⁻¹ *ᵥ u) = quad C⁻¹ u := by
    unfold quad
    rw [mulVec_mulVec, mul_nonsing_inv _ hdet, one_mulVec, dotProduct_comm]
  have e2 : (C⁻¹ *ᵥ u) ⬝ᵥ C *ᵥ x = u ⬝ᵥ x := by
    rw [dotProduct_mulVec, ← mulVec_transpose, hC.1.transpose, mulVec_mulVec, mul_nonsing_inv _ hdet, one_mulVec]
  rw [e1, e2] at h
  nlinarith

/-- C34: bounded influence. With a positive-definite covariance `C`, one observation of any size leaves the covariance
between `(1-r) C` and `(1 - r + r c² p) C` and moves the location by at most `r c √p` in the Mahalanobis norm of `C`. -/
theorem C34_bounded_influence (pr : HuberParam) (h0 : 0 ≤ pr.r) (calls calls' : List (Call ι ℝ)) (y : ι → ℝ)
    (hy : used pr.diff calls' = used pr.diff calls ++ [y]) (hb : ewaBurnN pr.r ≤ (used pr.diff calls).length)
    (C C' : Matrix ι ι ℝ) (m m' : ι → ℝ) (hpd : PD C)
    (hC : ((new (huberCls L ι) pr).run calls).covariance = .ok C) (hm : ((new (huberCls L ι) pr).run calls).location = .ok m)
    (hC' : ((new (huberCls L ι) pr).run calls').covariance = .ok C') (hm' : ((new (huberCls L ι) pr).run calls').location = .ok m') :
    Loewner ((1 - pr.r) • C) C' ∧ Loewner C' ((1 - pr.r + pr.r * pr.c ^ 2 * (Fintype.card ι : ℝ)) • C) ∧
    quad C⁻¹ (m' - m) ≤ pr.r ^ 2 * pr.c ^ 2 * (Fintype.card ι : ℝ) := by
  obtain ⟨w, w0, w1, k1, k2, em, eC⟩ := C34_update L pr calls calls' y hy hb C C' m m' hpd hC hm hC' hm'
  have hpi : PD C⁻¹ := hpd.inv
  set q := quad C⁻¹ (y - m) with hq
  have hq0 : 0 ≤ q := hpi.psd.2 _
  have hwq : w ^ 2 * q ≤ pr.c ^ 2 * (Fintype.card ι : ℝ) := by
    rcases le_or_gt q (pr.c ^ 2 * (Fintype.card ι : ℝ)) with h | h
    · rw [k1 h]; linarith
    · exact (k2 h).le
  refine ⟨fun x => ?_, fun x => ?_, ?_⟩
  · rw [eC, quad_add, quad_smul, quad_smul, quad_outer]
    have := mul_nonneg (mul_nonneg h0 (sq_nonneg w)) (mul_self_nonneg ((y - m) ⬝ᵥ x))
    linarith
  · rw [eC, quad_add, quad_smul, quad_smul, quad_smul, quad_outer]
    have h1 := outer_le hpd (y - m) x
    have h2 : 0 ≤ quad C x := hpd.psd.2 x
    have h3 := mul_le_mul_of_nonneg_left h1 (sq_nonneg w)
    have h4 := mul_le_mul_of_nonneg_right hwq h2
    have h5 : w ^ 2 * (((y - m) ⬝ᵥ x) * ((y - m) ⬝ᵥ x)) ≤ pr.c ^ 2 * (Fintype.card ι : ℝ) * quad C x := by nlinarith
    have h6 := mul_le_mul_of_nonneg_left h5 h0
    nlinarith
  · have : m' - m = (pr.r * w) • (y - m) := by rw [em]; ext i; simp
    rw [this]
    have e : quad C⁻¹ ((pr.r * w) • (y - m)) = (pr.r * w) ^ 2 * q := by
      rw [hq]; simp only [quad, mulVec_smul, dotProduct_smul, smul_dotProduct, smul_eq_mul]; ring
    rw [e]
    have := mul_le_mul_of_nonneg_left hwq (sq_nonneg pr.r)
    nlinarith

/-- C34: `covariance_` is PSD after every stream. -/
theorem C34_psd (pr : HuberParam) (h0 : 0 ≤ pr.r) (h1 : pr.r ≤ 1) (calls : List (Call ι ℝ)) (C : Matrix ι ι ℝ)
    (hC : ((new (huberCls L ι) pr).run calls).covariance = .ok C) : PSD C := by
  obtain ⟨hne, h2⟩ := run_covariance_inv (huber_lawful L ι) pr calls C hC
  have e : C = (huberFold L pr (used pr.diff calls)).cov := h2.trans (toSymmetric_of_symm (huberFold_symm L pr _))
  rw [e]
  clear e h2 hC hne
  generalize used pr.diff calls = xs
  induction xs using List.reverseRecOn with
  | nil => exact psd_zero
  | append_singleton xs x ih =>
    rw [huberFold_snoc]
    have hr := (huber_inv L pr xs).2.1
    change (huberFold L pr xs).r = _ at hr
    generalize huberFold L pr xs = s at ih hr ⊢
    unfold huberUpdate
    split
    · exact empUpdate_psd ih x
    · show PSD ((1 - s.r) • s.cov + s.r • _)
      rw [hr]
      exact (ih.smul (by linarith)).add ((psd_outer _).smul h0)

theorem huberFold_burn (pr : HuberParam) (xs : List (ι → ℝ)) (h : xs.length ≤ ewaBurnN pr.r) :
    (huberFold L pr xs).toEmpState = empFold xs := by
  induction xs using List.reverseRecOn with
  | nil => rfl
  | append_singleton xs x ih =>
    simp only [List.length_append, List.length_singleton] at h
    obtain ⟨hn, hr, hbn⟩ := huber_inv L pr xs
    rw [huberFold_snoc]
    unfold huberUpdate
    rw [if_pos (by change (huberFold L pr xs).nSamples = _ at hn; change (huberFold L pr xs).nBurn = _ at hbn; rw [hn, hbn]; omega)]
    show empUpdate (huberFold L pr xs).toEmpState x = _
    rw [ih (by omega), empFold_snoc]

/-- C34 (finding): with a singular covariance the influence is unbounded. After a constant burn-in the covariance is 0,
its pseudo-inverse is 0, every Mahalanobis length is 0, and an observation of any size `M` has full weight: the new
variance is `r M²`. -/
theorem C34_singular_witness (pr : HuberParam) (hd : pr.diff = false) (M : ℝ) :
    ∃ C', ((new (huberCls L (Fin 1)) pr).run [.partialFit (.batch (List.replicate (ewaBurnN pr.r) 0 ++ [fun _ => M]))]).covariance = .ok C' ∧
      C' 0 0 = pr.r * M ^ 2 := by
  have hu : used pr.diff [Call.partialFit (.batch (List.replicate (ewaBurnN pr.r) 0 ++ [fun _ => M]))]
      = List.replicate (ewaBurnN pr.r) (0 : Fin 1 → ℝ) ++ [fun _ => M] := by rw [hd, used_batch]
  obtain ⟨C', hC'⟩ := run_cov_ok (huber_lawful L (Fin 1)) pr [Call.partialFit (.batch (List.replicate (ewaBurnN pr.r) 0 ++ [fun _ => M]))]
    (by show used pr.diff _ ≠ []; rw [hu]; simp)
  refine ⟨C', hC', ?_⟩
  obtain ⟨_, h2⟩ := run_covariance_inv (huber_lawful L (Fin 1)) pr _ C' hC'
  have e : C' = (huberFold L pr (used pr.diff [Call.partialFit (.batch (List.replicate (ewaBurnN pr.r) 0 ++ [fun _ => M]))])).cov :=
    h2.trans (toSymmetric_of_symm (huberFold_symm L pr _))
  rw [e, hu, huberFold_snoc]
  have hlen : (List.replicate (ewaBurnN pr.r) (0 : Fin 1 → ℝ)).length = ewaBurnN pr.r := List.length_replicate
  have hE := huberFold_burn L pr (List.replicate (ewaBurnN pr.r) (0 : Fin 1 → ℝ)) hlen.le
  obtain ⟨hn, hr, hbn⟩ := huber_inv L pr (List.replicate (ewaBurnN pr.r) (0 : Fin 1 → ℝ))
  change (huberFold L pr _).nSamples = _ at hn
  change (huberFold L pr _).r = _ at hr
  change (huberFold L pr _).nBurn = _ at hbn
  have hne : List.replicate (ewaBurnN pr.r) (0 : Fin 1 → ℝ) ≠ [] := by
    have := ewaBurnN_ge pr.r
    intro h
    rw [h, List.length_nil] at hlen; omega
  have hcov : (huberFold L pr (List.replicate (ewaBurnN pr.r) (0 : Fin 1 → ℝ))).cov = 0 := by
    rw [hE, empFold_cov hne]; ext i j; simp [covOf, meanOf]
  have hmean : (huberFold L pr (List.replicate (ewaBurnN pr.r) (0 : Fin 1 → ℝ))).mean = 0 := by
    rw [hE, empFold_mean hne]; ext i; simp [meanOf]
  rw [hlen] at hn
  generalize huberFold L pr (List.replicate (ewaBurnN pr.r) (0 : Fin 1 → ℝ)) = s at *
  unfold huberUpdate
  rw [if_neg (by omega)]
  simp only []
  have hpinv : tryInvert L (0 : Matrix (Fin 1) (Fin 1) ℝ) = 0 :=
    IsPinv.unique (tryInvert_pinv L symm_zero) ⟨by simp, by simp, by simp [symm_zero], by simp [symm_zero]⟩
  have hw : huberWeight L pr.c s.cov (fun i => (fun _ => M) i - s.mean i) = 1 := by
    unfold huberWeight
    simp only []
    rw [hcov, hpinv, quad_zero, if_pos (by positivity)]
  rw [hw, hcov, hmean, hr]
  simp [outer, pow_two]

/-! ## C35 -/

noncomputable def adaFold (pr : AdaParam) (xs : List (ι → ℝ)) : AdaState ι :=
  xs.foldl (adaUpdate L) { toEwaState := ewaInit pr.r, maxR := pr.maxR, sbar := 1 }

theorem adaFold_snoc (pr : AdaParam) (xs : List (ι → ℝ)) (x : ι → ℝ) : adaFold L pr (xs ++ [x]) = adaUpdate L (adaFold L pr xs) x := by
  simp [adaFold]

theorem adaFold_symm (pr : AdaParam) (xs : List (ι → ℝ)) : Symm (adaFold L pr xs).cov := by
  induction xs using List.reverseRecOn with
  | nil => exact symm_zero
  | append_singleton xs x ih =>
    rw [adaFold_snoc]
    generalize adaFold L pr xs = s at ih ⊢
    unfold adaUpdate
    split
    · exact symm_empUpdate ih x
    · exact (ih.smul _).add ((symm_outer _).smul _)

theorem ada_cov (pr : AdaParam) (calls : List (Call ι ℝ)) (C : Matrix ι ι ℝ)
    (hC : ((new (adaptiveCls L ι) pr).run calls).covariance = .ok C) : C = (adaFold L pr (used pr.diff calls)).cov := by
  obtain ⟨h1, h2⟩ := run_covariance_inv (adaptive_lawful L ι) pr calls C hC
  exact h2.trans (toSymmetric_of_symm (adaFold_symm L pr _))

theorem ada_loc (pr : AdaParam) (calls : List (Call ι ℝ)) (m : ι → ℝ)
    (hm : ((new (adaptiveCls L ι) pr).run calls).location = .ok m) : m = (adaFold L pr (used pr.diff calls)).mean :=
  (run_location_inv (adaptive_lawful L ι) pr calls m hm).2

/-- C35: after the burn-in each observation is blended in with one rate between `min(r, max_r)` and `max_r`, for the
location and the covariance alike. -/
theorem C35_rate (pr : AdaParam) (calls calls' : List (Call ι ℝ)) (y : ι → ℝ)
    (hy : used pr.diff calls' = used pr.diff calls ++ [y]) (hb : ewaBurnN pr.r ≤ (used pr.diff calls).length)
    (C C' : Matrix ι ι ℝ) (m m' : ι → ℝ)
    (hC : ((new (adaptiveCls L ι) pr).run calls).covariance = .ok C) (hm : ((new (adaptiveCls L ι) pr).run calls).location = .ok m)
    (hC' : ((new (adaptiveCls L ι) pr).run calls').covariance = .ok C') (hm' : ((new (adaptiveCls L ι) pr).run calls').location = .ok m') :
    ∃ ρ, min pr.r pr.maxR ≤ ρ ∧ ρ ≤ pr.maxR ∧ m' = (1 - ρ) • m + ρ • y ∧ C' = (1 - ρ) • C + ρ • outer (y - m) (y - m) := by
  have e1 := ada_cov L pr calls C hC
  have e2 := ada_loc L pr calls m hm
  have e3 := ada_cov L pr calls' C' hC'
  have e4 := ada_loc L pr calls' m' hm'
  rw [hy, adaFold_snoc] at e3 e4
  obtain ⟨hn, hr, hbn, hmx⟩ := ada_inv L pr (used pr.diff calls)
  change (adaFold L pr (used pr.diff calls)).nSamples = _ at hn
  change (adaFold L pr (used pr.diff calls)).r = _ at hr
  change (adaFold L pr (used pr.diff calls)).nBurn = _ at hbn
  change (adaFold L pr (used pr.diff calls)).maxR = _ at hmx
  generalize adaFold L pr (used pr.diff calls) = s at *
  subst e1 e2
  have hrange := adaRate_range L s (fun i => y i - s.mean i)
  rw [hr, hmx] at hrange
  unfold adaUpdate at e3 e4
  rw [if_neg (by rw [hn, hbn]; omega)] at e3 e4
  exact ⟨_, hrange.1, hrange.2, e4, e3⟩

/-- C35: PSD after every stream when `0 ≤ r` and `0 ≤ max_r ≤ 1`. -/
theorem C35_psd (pr : AdaParam) (h0 : 0 ≤ pr.r) (h1 : 0 ≤ pr.maxR) (h2 : pr.maxR ≤ 1) (calls : List (Call ι ℝ)) (C : Matrix ι ι ℝ)
    (hC : ((new (adaptiveCls L ι) pr).run calls).covariance = .ok C) : PSD C := by
  rw [ada_cov L pr calls C hC]
  clear hC
  generalize used pr.diff calls = xs
  induction xs using List.reverseRecOn with
  | nil => exact psd_zero
  | append_singleton xs x ih =>
    rw [adaFold_snoc]
    obtain ⟨_, hr, _, hmx⟩ := ada_inv L pr xs
    change (adaFold L pr xs).r = _ at hr
    change (adaFold L pr xs).maxR = _ at hmx
    generalize adaFold L pr xs = s at *
    have hrange := adaRate_range L s (fun i => x i - s.mean i)
    rw [hr, hmx] at hrange
    unfold adaUpdate
    split
    · exact empUpdate_psd ih x
    · exact ewaBlend_psd (le_trans (le_min h0 h1) hrange.1) (hrange.2.trans h2) ih x

/-- C35: with `max_r = r` it is EwaCovariance(r), on every history. -/
theorem C35_fixed_rate (pr : AdaParam) (h : pr.maxR = pr.r) (calls : List (Call ι ℝ)) :
    ((new (adaptiveCls L ι) pr).run calls).covariance = ((new (ewaCls ι ℝ) ⟨pr.r, pr.diff⟩).run calls).covariance ∧
    ((new (adaptiveCls L ι) pr).run calls).location = ((new (ewaCls ι ℝ) ⟨pr.r, pr.diff⟩).run calls).location := by
  have key : ∀ xs : List (ι → ℝ), (adaFold L pr xs).toEwaState = ewaFold pr.r xs := by
    intro xs
    induction xs using List.reverseRecOn with
    | nil => rfl
    | append_singleton xs x ih =>
      rw [adaFold_snoc, ewaFold_snoc, ← ih]
      obtain ⟨_, hr, _, hmx⟩ := ada_inv L pr xs
      change (adaFold L pr xs).r = _ at hr
      change (adaFold L pr xs).maxR = _ at hmx
      clear ih
      generalize adaFold L pr xs = s at *
      have : adaRate L s (fun i => x i - s.mean i) = s.r := by
        unfold adaRate
        rw [hmx, h, ← hr]
        exact min_eq_right (le_max_right _ _)
      unfold adaUpdate ewaUpdate
      split
      · rfl
      · simp only []; rw [this]
  by_cases hne : used pr.diff calls = []
  · have a := run_unfitted (adaptive_lawful L ι) pr calls hne
    have b := run_unfitted (ewa_lawful ι ℝ) ⟨pr.r, pr.diff⟩ calls hne
    exact ⟨a.1.trans b.1.symm, a.2.trans b.2.symm⟩
  · have a1 := run_covariance (adaptive_lawful L ι) pr calls hne
    have a2 := run_location (adaptive_lawful L ι) pr calls hne
    have b1 := run_covariance (ewa_lawful ι ℝ) ⟨pr.r, pr.diff⟩ calls hne
    have b2 := run_location (ewa_lawful ι ℝ) ⟨pr.r, pr.diff⟩ calls hne
    have k := key (used pr.diff calls)
    constructor
    · rw [a1, b1]
      show Except.ok (toSymmetric (adaFold L pr (used pr.diff calls)).cov) = Except.ok (toSymmetric (ewaFold pr.r (used pr.diff calls)).cov)
      rw [k]
    · rw [a2, b2]
      show Except.ok (adaFold L pr (used pr.diff calls)).mean = Except.ok (ewaFold pr.r (used pr.diff calls)).mean
      rw [k]

/-- the smoothed surprise along a stream -/
theorem adaFold_sbar (pr : AdaParam) (burn : List (ι → ℝ)) (hb : burn.length = ewaBurnN pr.r) (y : ℕ → ι → ℝ) (k : ℕ) (hι : Nonempty ι) :
    (adaFold L pr (burn ++ (List.range k).map y)).sbar = (9 / 10 : ℝ) ^ k + ∑ t ∈ Finset.range k, 1 / 10 * (9 / 10 : ℝ) ^ (k - 1 - t) *
      (quad (tryInvert L (adaFold L pr (burn ++ (List.range t).map y)).cov) (y t - (adaFold L pr (burn ++ (List.range t).map y)).mean) / (Fintype.card ι : ℝ)) := by
  have hburn : ∀ xs : List (ι → ℝ), xs.length ≤ ewaBurnN pr.r → (adaFold L pr xs).sbar = 1 := by
    intro xs
    induction xs using List.reverseRecOn with
    | nil => intro _; rfl
    | append_singleton xs x ih =>
      intro h
      simp only [List.length_append, List.length_singleton] at h
      obtain ⟨hn, _, hbn, _⟩ := ada_inv L pr xs
      change (adaFold L pr xs).nSamples = _ at hn
      change (adaFold L pr xs).nBurn = _ at hbn
      rw [adaFold_snoc]
      unfold adaUpdate
      rw [if_pos (by rw [hn, hbn]; omega)]
      exact ih (by omega)
  induction k with
  | zero => simp [hburn burn hb.le]
  | succ k ih =>
    rw [List.range_succ, List.map_append, ← List.append_assoc, List.map_singleton, adaFold_snoc]
    obtain ⟨hn, _, hbn, _⟩ := ada_inv L pr (burn ++ (List.range k).map y)
    change (adaFold L pr _).nSamples = _ at hn
    change (adaFold L pr _).nBurn = _ at hbn
    unfold adaUpdate
    rw [if_neg (by rw [hn, hbn]; simp [hb])]
    simp only []
    unfold adaSbar
    simp only []
    rw [if_pos Fintype.card_pos, ih, Finset.sum_range_succ, mul_add, Finset.mul_sum, add_assoc]
    congr 1
    · rw [pow_succ]; ring
    · congr 1
      · refine Finset.sum_congr rfl fun t ht => ?_
        rw [Finset.mem_range] at ht
        rw [show k + 1 - 1 - t = (k - 1 - t) + 1 by omega, pow_succ]; ring
      · rw [show k + 1 - 1 - k = 0 by omega, pow_zero, mul_one]; rfl

/-- C35: the rate used for row `k` after the burn-in is `r` times the smoothed surprise (a 0.1-exponential average, started at 1,
of the squared Mahalanobis lengths of the innovations divided by the dimension), clipped to `[r, max_r]`. `m t`, `C t` are
what the estimator itself reports before row `t`. -/
theorem C35_rate_formula [Nonempty ι] (pr : AdaParam) (hd : pr.diff = false) (burn : List (ι → ℝ)) (hb : burn.length = ewaBurnN pr.r)
    (y : ℕ → ι → ℝ) (k : ℕ) (m : ℕ → ι → ℝ) (C : ℕ → Matrix ι ι ℝ)
    (hm : ∀ t ≤ k + 1, ((new (adaptiveCls L ι) pr).run [.partialFit (.batch (burn ++ (List.range t).map y))]).location = .ok (m t))
    (hC : ∀ t ≤ k + 1, ((new (adaptiveCls L ι) pr).run [.partialFit (.batch (burn ++ (List.range t).map y))]).covariance = .ok (C t)) :
    let surprise := (9 / 10 : ℝ) ^ (k + 1) + ∑ t ∈ Finset.range (k + 1), 1 / 10 * (9 / 10 : ℝ) ^ (k - t) *
      (quad (tryInvert L (C t)) (y t - m t) / (Fintype.card ι : ℝ))
    let ρ := min (max (pr.r * surprise) pr.r) pr.maxR
    m (k + 1) = (1 - ρ) • m k + ρ • y k ∧ C (k + 1) = (1 - ρ) • C k + ρ • outer (y k - m k) (y k - m k) := by
  intro surprise ρ
  have hu : ∀ t, used pr.diff [Call.partialFit (.batch (burn ++ (List.range t).map y))] = burn ++ (List.range t).map y := by
    intro t; rw [hd, used_batch]
  have hmt : ∀ t ≤ k + 1, m t = (adaFold L pr (burn ++ (List.range t).map y)).mean := by
    intro t ht; have := ada_loc L pr _ (m t) (hm t ht); rwa [hu] at this
  have hCt : ∀ t ≤ k + 1, C t = (adaFold L pr (burn ++ (List.range t).map y)).cov := by
    intro t ht; have := ada_cov L pr _ (C t) (hC t ht); rwa [hu] at this
  have hs := adaFold_sbar L pr burn hb y (k + 1) inferInstance
  have hsur : (adaFold L pr (burn ++ (List.range (k + 1)).map y)).sbar = surprise := by
    rw [hs]
    show _ = (9 / 10 : ℝ) ^ (k + 1) + _
    congr 1
    refine Finset.sum_congr rfl fun t ht => ?_
    rw [Finset.mem_range] at ht
    rw [hmt t ht.le, hCt t ht.le, show k + 1 - 1 - t = k - t by omega]
  rw [hmt (k + 1) le_rfl, hCt (k + 1) le_rfl, hmt k (by omega), hCt k (by omega)]
  have hsplit : burn ++ (List.range (k + 1)).map y = (burn ++ (List.range k).map y) ++ [y k] := by
    rw [List.range_succ, List.map_append, ← List.append_assoc, List.map_singleton]
  rw [hsplit, adaFold_snoc] at hsur ⊢
  obtain ⟨hn, hr, hbn, hmx⟩ := ada_inv L pr (burn ++ (List.range k).map y)
  change (adaFold L pr _).nSamples = _ at hn
  change (adaFold L pr _).r = _ at hr
  change (adaFold L pr _).nBurn = _ at hbn
  change (adaFold L pr _).maxR = _ at hmx
  have hc : ¬ (adaFold L pr (burn ++ (List.range k).map y)).nSamples < (adaFold L pr (burn ++ (List.range k).map y)).nBurn := by
    rw [hn, hbn]; simp [hb]
  generalize adaFold L pr (burn ++ (List.range k).map y) = s at *
  have hrate : adaRate L s (fun i => y k i - s.mean i) = ρ := by
    unfold adaUpdate at hsur
    rw [if_neg hc] at hsur
    simp only [] at hsur
    unfold adaRate
    rw [hsur, hr, hmx]
  unfold adaUpdate
  rw [if_neg hc]
  simp only []
  rw [hrate]
  exact ⟨rfl, rfl⟩

/-! ## C36 -/

noncomputable def tylerFold (pr : RParam ℝ) (xs : List (ι → ℝ)) : TylerState ι :=
  xs.foldl (tylerUpdate L) ({ nSamples := 0, mean := fun _ => 0, shape := some 1, r := pr.r, nBurn := ewaBurnN pr.r } : TylerState ι)

theorem tylerFold_snoc (pr : RParam ℝ) (xs : List (ι → ℝ)) (x : ι → ℝ) : tylerFold L pr (xs ++ [x]) = tylerUpdate L (tylerFold L pr xs) x := by
  simp [tylerFold]

theorem tylerFold_fields (pr : RParam ℝ) (xs : List (ι → ℝ)) :
    (tylerFold L pr xs).nSamples = xs.length ∧ (tylerFold L pr xs).r = pr.r ∧ (tylerFold L pr xs).nBurn = ewaBurnN pr.r ∧
    (tylerFold L pr xs).mean = (ewaFold pr.r xs).mean := by
  refine ⟨?_, ?_, ?_, tylerFold_mean L _ _ xs rfl rfl rfl rfl⟩ <;>
  induction xs using List.reverseRecOn with
  | nil => rfl
  | append_singleton xs x ih => rw [tylerFold_snoc]; simp [tylerUpdate, ih]

/-- A shape matrix as it should be: PSD with trace equal to the number of variables (specification). -/
def IsShape (C : Matrix ι ι ℝ) : Prop := PSD C ∧ C.trace = (Fintype.card ι : ℝ)

omit [DecidableEq ι] in
theorem IsShape.ne_zero [Nonempty ι] {C : Matrix ι ι ℝ} (h : IsShape C) : 0 < C.trace := by
  rw [h.2]; exact_mod_cast Fintype.card_pos

theorem tylerShape_step [Nonempty ι] {lr : ℝ} (h0 : 0 ≤ lr) (h1 : lr ≤ 1) {C : Matrix ι ι ℝ} (hC : IsShape C) (d : ι → ℝ)
    (hd : lr < 1 ∨ d ≠ 0 ∧ 0 < lr) : ∃ C', tylerShape L lr C d = some C' ∧ IsShape C' := by
  have hp : (0:ℝ) < (Fintype.card ι : ℝ) := by exact_mod_cast Fintype.card_pos
  set q := max (quad (tryInvert L C) d) EPS with hq
  have hq0 : 0 < q := lt_of_lt_of_le (by unfold EPS; positivity) (le_max_right _ _)
  set B := (1 - lr) • C + (lr * (Fintype.card ι : ℝ) / q) • outer d d with hB
  have hBP : PSD B := (hC.1.smul (by linarith)).add ((psd_outer d).smul (div_nonneg (mul_nonneg h0 hp.le) hq0.le))
  have htr : B.trace = (1 - lr) * (Fintype.card ι : ℝ) + lr * (Fintype.card ι : ℝ) / q * normSq d := by
    rw [hB, trace_add, trace_smul, trace_smul, trace_outer, hC.2]; rfl
  have hpos : 0 < B.trace := by
    rw [htr]
    have n0 := normSq_nonneg d
    rcases hd with h | ⟨h, h'⟩
    · have : 0 < (1 - lr) * (Fintype.card ι : ℝ) := mul_pos (by linarith) hp
      have : 0 ≤ lr * (Fintype.card ι : ℝ) / q * normSq d := by positivity
      linarith
    · have : 0 ≤ (1 - lr) * (Fintype.card ι : ℝ) := mul_nonneg (by linarith) hp.le
      have := normSq_pos h
      have : 0 < lr * (Fintype.card ι : ℝ) / q * normSq d := by positivity
      linarith
  refine ⟨((Fintype.card ι : ℝ) / B.trace) • B, ?_, hBP.smul (by positivity), ?_⟩
  · unfold tylerShape
    simp only []
    rw [if_neg hpos.ne']
  · rw [trace_smul, smul_eq_mul, div_mul_cancel₀ _ hpos.ne']

theorem isShape_one : IsShape (1 : Matrix ι ι ℝ) := ⟨psd_one, by rw [trace_one]⟩

theorem tyler_shape [Nonempty ι] (pr : RParam ℝ) (h0 : 0 ≤ pr.r) (h1 : pr.r < 1) (x : ι → ℝ) (hx : x ≠ 0) (xs : List (ι → ℝ)) :
    ∃ C, (tylerFold L pr (x :: xs)).shape = some C ∧ IsShape C := by
  induction xs using List.reverseRecOn with
  | nil =>
    have e : (tylerFold L pr [x]).shape = tylerShape L 1 1 x := by
      have h1 : 1 ≤ ewaBurnN pr.r := by have := ewaBurnN_ge pr.r; omega
      show (tylerUpdate L ((tylerCls L ι).initState pr) x).shape = _
      unfold tylerUpdate
      simp [tylerCls, h1]
    rw [e]
    exact tylerShape_step L zero_le_one le_rfl isShape_one x (Or.inr ⟨hx, zero_lt_one⟩)
  | append_singleton xs y ih =>
    obtain ⟨C, hs, hC⟩ := ih
    rw [← List.cons_append, tylerFold_snoc]
    obtain ⟨f1, f2, f3, f4⟩ := tylerFold_fields L pr (x :: xs)
    generalize tylerFold L pr (x :: xs) = s at *
    unfold tylerUpdate
    simp only [hs, Option.bind_some]
    refine tylerShape_step L ?_ ?_ hC _ (Or.inl ?_)
    · split
      · positivity
      · rw [f2]; exact h0
    · split
      · exact (inv_n_mem _).2
      · rw [f2]; exact h1.le
    · split
      · rw [f1, div_lt_one (by positivity)]; simp; positivity
      · rw [f2]; exact h1

theorem tyler_attrs (pr : RParam ℝ) (calls : List (Call ι ℝ)) (h : used pr.diff calls ≠ []) :
    ((new (tylerCls L ι) pr).run calls).fittedState = .ok (tylerFold L pr (used pr.diff calls)) :=
  run_fittedState (tyler_lawful L ι) pr calls h

/-- C36: if the first observation used is not zero and `0 ≤ r < 1`, the shape matrix (key `C` of `get_state()`) is a real
PSD matrix of trace p after every further stream, and `covariance_` is its correlation matrix: symmetric, entries in
[-1,1], diagonal `C_ii/(C_ii + 1e-12)`. -/
theorem C36_shape [Nonempty ι] (pr : RParam ℝ) (h0 : 0 ≤ pr.r) (h1 : pr.r < 1) (calls : List (Call ι ℝ)) (x : ι → ℝ) (xs : List (ι → ℝ))
    (hu : used pr.diff calls = x :: xs) (hx : x ≠ 0) :
    ∃ s C c, ((new (tylerCls L ι) pr).run calls).fittedState = .ok s ∧ s.shape = some C ∧ PSD C ∧ C.trace = (Fintype.card ι : ℝ) ∧
      ((new (tylerCls L ι) pr).run calls).covariance = .ok c ∧ Symm c ∧
      (∀ i j, c i j = C i j / (Real.sqrt (C i i * C j j) + 1 / 10 ^ 12)) ∧ (∀ i j, |c i j| ≤ 1) ∧
      (∀ i, c i i = C i i / (C i i + 1 / 10 ^ 12)) := by
  have hne : used pr.diff calls ≠ [] := by rw [hu]; simp
  obtain ⟨C, hs, hC⟩ := tyler_shape L pr h0 h1 x hx xs
  have hcov := run_covariance (tyler_lawful L ι) pr calls hne
  have e : (tylerCls L ι).toCov pr (List.foldl ((tylerCls L ι).updateState pr) ((tylerCls L ι).initState pr) (used ((tylerCls L ι).diff pr) calls))
      = covToCorr C := by
    show ((tylerFold L pr (used pr.diff calls)).shape.map covToCorr).getD 0 = _
    rw [hu, hs]; rfl
  rw [e, toSymmetric_of_symm (symm_covToCorr hC.1.1)] at hcov
  have hform : ∀ i j, covToCorr C i j = C i j / (Real.sqrt (C i i * C j j) + 1 / 10 ^ 12) := by
    intro i j
    show C i j / (Real.sqrt (C j j * C i i) + EPS) = _
    rw [mul_comm (C j j)]; rfl
  refine ⟨_, C, _, tyler_attrs L pr calls hne, by rw [hu]; exact hs, hC.1, hC.2, hcov, symm_covToCorr hC.1.1, hform, ?_, ?_⟩
  · intro i j
    have hpos : 0 < Real.sqrt (C i i * C j j) + 1 / 10 ^ 12 := by positivity
    rw [hform, abs_div, abs_of_pos hpos, div_le_one hpos]
    have := hC.1.entry_sq_le i j
    have h2 : |C i j| ≤ Real.sqrt (C i i * C j j) := by
      refine Real.le_sqrt_of_sq_le ?_
      rw [sq_abs]; nlinarith
    have : (0:ℝ) < 1 / 10 ^ 12 := by positivity
    linarith
  · intro i
    rw [hform, Real.sqrt_mul_self (hC.1.diag_nonneg i)]

/-- C36: only the direction of the centered observation matters. Two histories continue the same past with `y` and with
`m + a (y - m)`, `m` the current location and `a ≠ 0`: the two covariances are equal, as long as both squared Mahalanobis
lengths (in the shape matrix `C`) are at least 1e-12. -/
theorem C36_scale_free [Nonempty ι] (pr : RParam ℝ) (past calls₁ calls₂ : List (Call ι ℝ)) (y : ι → ℝ) (a : ℝ) (ha : a ≠ 0)
    (s : TylerState ι) (C : Matrix ι ι ℝ)
    (m : ι → ℝ) (hm : ((new (tylerCls L ι) pr).run past).location = .ok m)
    (hs : ((new (tylerCls L ι) pr).run past).fittedState = .ok s) (hC : s.shape = some C)
    (h₁ : used pr.diff calls₁ = used pr.diff past ++ [y]) (h₂ : used pr.diff calls₂ = used pr.diff past ++ [m + a • (y - m)])
    (g₁ : 1 / 10 ^ 12 ≤ quad (tryInvert L C) (y - m)) (g₂ : 1 / 10 ^ 12 ≤ quad (tryInvert L C) (a • (y - m))) :
    ((new (tylerCls L ι) pr).run calls₁).covariance = ((new (tylerCls L ι) pr).run calls₂).covariance := by
  obtain ⟨hne, hm⟩ := run_location_inv (tyler_lawful L ι) pr past m hm
  change used pr.diff past ≠ [] at hne
  change m = (tylerFold L pr (used pr.diff past)).mean at hm
  rw [tyler_attrs L pr past hne] at hs
  have hs' := (Except.ok.inj hs).symm
  have hne1 : used pr.diff calls₁ ≠ [] := by rw [h₁]; simp
  have hne2 : used pr.diff calls₂ ≠ [] := by rw [h₂]; simp
  rw [run_covariance (tyler_lawful L ι) pr calls₁ hne1, run_covariance (tyler_lawful L ι) pr calls₂ hne2]
  show Except.ok (toSymmetric (((tylerFold L pr (used pr.diff calls₁)).shape.map covToCorr).getD 0)) =
    Except.ok (toSymmetric (((tylerFold L pr (used pr.diff calls₂)).shape.map covToCorr).getD 0))
  rw [h₁, h₂, tylerFold_snoc, tylerFold_snoc, ← hs']
  rw [← hs'] at hm
  have key : ∀ lr, tylerShape L lr C (y - m) = tylerShape L lr C (a • (y - m)) := by
    intro lr
    have e1 : max (quad (tryInvert L C) (y - m)) EPS = quad (tryInvert L C) (y - m) := max_eq_left g₁
    have e2 : max (quad (tryInvert L C) (a • (y - m))) EPS = a ^ 2 * quad (tryInvert L C) (y - m) := by
      rw [max_eq_left (show EPS ≤ _ from g₂)]
      simp only [quad, mulVec_smul, dotProduct_smul, smul_dotProduct, smul_eq_mul]; ring
    have hq : quad (tryInvert L C) (y - m) ≠ 0 := (lt_of_lt_of_le (by positivity) g₁).ne'
    have e3 : (lr * (Fintype.card ι : ℝ) / (a ^ 2 * quad (tryInvert L C) (y - m))) • outer (a • (y - m)) (a • (y - m))
        = (lr * (Fintype.card ι : ℝ) / quad (tryInvert L C) (y - m)) • outer (y - m) (y - m) := by
      ext i j
      simp only [Matrix.smul_apply, outer, of_apply, Pi.smul_apply, smul_eq_mul]
      field_simp
    unfold tylerShape
    simp only []
    rw [e1, e2, e3]
  have e4 : (fun i => y i - s.mean i) = y - m := by rw [hm]; rfl
  have e5 : (fun i => (m + a • (y - m)) i - s.mean i) = a • (y - m) := by rw [hm]; ext i; simp
  congr 3
  unfold tylerUpdate
  simp only [hC, Option.bind_some]
  rw [e4, e5, key]

/-- C36 (finding): if the very first observation is zero, the shape matrix is NaN in every entry, and stays NaN whatever
follows. -/
theorem C36_first_zero_nan (pr : RParam ℝ) (calls : List (Call ι ℝ)) (xs : List (ι → ℝ)) (hu : used pr.diff calls = 0 :: xs) :
    ∃ s, ((new (tylerCls L ι) pr).run calls).fittedState = .ok s ∧ s.shape = none := by
  have hne : used pr.diff calls ≠ [] := by rw [hu]; simp
  refine ⟨_, tyler_attrs L pr calls hne, ?_⟩
  rw [hu]
  clear hne hu
  induction xs using List.reverseRecOn with
  | nil =>
    have h1 : 1 ≤ ewaBurnN pr.r := by have := ewaBurnN_ge pr.r; omega
    show (tylerUpdate L ((tylerCls L ι).initState pr) 0).shape = _
    unfold tylerUpdate
    have : (outer (fun i : ι => (0 : ℝ)) (fun i => (0 : ℝ))) = 0 := by ext i j; simp [outer]
    simp [tylerCls, h1, tylerShape, this]
  | append_singleton xs y ih =>
    rw [← List.cons_append, tylerFold_snoc]
    unfold tylerUpdate
    simp only []
    rw [ih]; rfl

/-- the covariance after a single row -/
theorem tyler_first (pr : RParam ℝ) (x : ι → ℝ) (hx : 1 / 10 ^ 12 ≤ normSq x) :
    (tylerFold L pr [x]).shape = some (((Fintype.card ι : ℝ) / normSq x) • outer x x) := by
  by_cases hι : Nonempty ι
  · have h1 : 1 ≤ ewaBurnN pr.r := by have := ewaBurnN_ge pr.r; omega
    have e : (tylerFold L pr [x]).shape = tylerShape L 1 1 x := by
      show (tylerUpdate L _ x).shape = _
      unfold tylerUpdate
      simp [h1]
    have hp : (0:ℝ) < (Fintype.card ι : ℝ) := by exact_mod_cast Fintype.card_pos
    have hn : 0 < normSq x := lt_of_lt_of_le (by positivity) hx
    have hinv : tryInvert L (1 : Matrix ι ι ℝ) = 1 := by rw [tryInvert_of_pd L pd_one]; exact inv_one
    rw [e]
    unfold tylerShape
    simp only []
    rw [hinv, quad_one, max_eq_left (show EPS ≤ _ from hx), sub_self, zero_smul, zero_add, one_mul, trace_smul, trace_outer, smul_eq_mul,
      div_mul_cancel₀ _ hn.ne', if_neg hp.ne', div_self hp.ne', one_smul]
  · exfalso
    rw [not_nonempty_iff] at hι
    have : normSq x = 0 := by simp [normSq]
    rw [this] at hx
    have : (0:ℝ) < 1 / 10 ^ 12 := by positivity
    linarith

/-- C36: after one row `x` (with `|x|² ≥ 1e-12`) the shape is `p x xᵀ/|x|²`, whatever the length of `x`. -/
theorem C36_first_row (pr : RParam ℝ) (calls : List (Call ι ℝ)) (x : ι → ℝ) (hu : used pr.diff calls = [x]) (hx : 1 / 10 ^ 12 ≤ normSq x) :
    ∃ s, ((new (tylerCls L ι) pr).run calls).fittedState = .ok s ∧ s.shape = some (((Fintype.card ι : ℝ) / normSq x) • outer x x) := by
  refine ⟨_, tyler_attrs L pr calls (by rw [hu]; simp), ?_⟩
  rw [hu]; exact tyler_first L pr x hx

/-- C36 (finding): `covariance_` need not be PSD, and not by a rounding error: the correlation conversion adds 1e-12 to the
product of the standard deviations, which for the single row (1, 1e-6) makes the determinant about -1/3. -/
theorem C36_indefinite_witness (r : ℝ) :
    ∃ c, ((new (tylerCls L (Fin 2)) (⟨r, false⟩ : RParam ℝ)).run [.partialFit (.row ![1, 1 / 10 ^ 6])]).covariance = .ok c ∧
      c 0 0 * c 1 1 - c 0 1 * c 0 1 < -3 / 10 ∧ ¬ PSD c := by
  have hu : used false [Call.partialFit (.row (![1, 1 / 10 ^ 6] : Fin 2 → ℝ))] = [![1, 1 / 10 ^ 6]] := by
    simp [used, effective, rowsSinceFit, rowsOf]
  have hne : used false [Call.partialFit (.row (![1, 1 / 10 ^ 6] : Fin 2 → ℝ))] ≠ [] := by rw [hu]; simp
  have hcov := run_covariance (tyler_lawful L (Fin 2)) (⟨r, false⟩ : RParam ℝ) _ hne
  have hnorm : normSq (![1, 1 / 10 ^ 6] : Fin 2 → ℝ) = 1 + 1 / 10 ^ 12 := by simp [normSq, Fin.sum_univ_two]; norm_num
  have hf := tyler_first L (⟨r, false⟩ : RParam ℝ) (![1, 1 / 10 ^ 6] : Fin 2 → ℝ) (by rw [hnorm]; norm_num)
  rw [hnorm] at hf
  set k : ℝ := ((Fintype.card (Fin 2) : ℝ) / (1 + 1 / 10 ^ 12)) with hk
  set C := k • outer (![1, 1 / 10 ^ 6] : Fin 2 → ℝ) ![1, 1 / 10 ^ 6] with hC
  have hk' : k = 2 / (1 + 1 / 10 ^ 12) := by rw [hk]; simp
  have hkpos : 0 < k := by rw [hk']; positivity
  have hP : PSD C := (psd_outer _).smul hkpos.le
  have e : (tylerCls L (Fin 2)).toCov (⟨r, false⟩ : RParam ℝ) (List.foldl ((tylerCls L (Fin 2)).updateState (⟨r, false⟩ : RParam ℝ))
      ((tylerCls L (Fin 2)).initState (⟨r, false⟩ : RParam ℝ)) (used false [Call.partialFit (.row (![1, 1 / 10 ^ 6] : Fin 2 → ℝ))])) = covToCorr C := by
    show ((tylerFold L (⟨r, false⟩ : RParam ℝ) (used false _)).shape.map covToCorr).getD 0 = _
    rw [hu, hf]; rfl
  rw [show (tylerCls L (Fin 2)).diff (⟨r, false⟩ : RParam ℝ) = false from rfl, e, toSymmetric_of_symm (symm_covToCorr hP.1)] at hcov
  have c00 : covToCorr C 0 0 = k / (k + 1 / 10 ^ 12) := by
    show C 0 0 / (Real.sqrt (C 0 0 * C 0 0) + EPS) = _
    rw [Real.sqrt_mul_self (hP.diag_nonneg 0)]
    simp [hC, outer, EPS]
  have c11 : covToCorr C 1 1 = k / (k + 1) := by
    show C 1 1 / (Real.sqrt (C 1 1 * C 1 1) + EPS) = _
    rw [Real.sqrt_mul_self (hP.diag_nonneg 1)]
    have : C 1 1 = k * (1 / 10 ^ 12) := by simp [hC, outer]; norm_num
    rw [this, EPS]
    field_simp
  have c01 : covToCorr C 0 1 = k / (k + 1 / 10 ^ 6) := by
    show C 0 1 / (Real.sqrt (C 1 1 * C 0 0) + EPS) = _
    have e1 : C 0 1 = k * (1 / 10 ^ 6) := by simp [hC, outer]
    have e2 : C 1 1 * C 0 0 = (k * (1 / 10 ^ 6)) * (k * (1 / 10 ^ 6)) := by simp [hC, outer]; ring
    rw [e2, Real.sqrt_mul_self (by positivity), e1, EPS, div_eq_div_iff (by positivity) (by positivity)]
    ring
  have hk2 : k ≤ 2 := by rw [hk', div_le_iff₀ (by positivity)]; norm_num
  have hk1 : 199 / 100 ≤ k := by rw [hk', le_div_iff₀ (by positivity)]; norm_num
  have hneg : covToCorr C 0 0 * covToCorr C 1 1 - covToCorr C 0 1 * covToCorr C 0 1 < -3 / 10 := by
    have b0 : covToCorr C 0 0 ≤ 1 := by rw [c00, div_le_one (by positivity)]; linarith [show (0:ℝ) < 1 / 10 ^ 12 by positivity]
    have b1 : covToCorr C 1 1 ≤ 2 / 3 := by rw [c11, div_le_iff₀ (by positivity)]; linarith
    have b1' : 0 ≤ covToCorr C 1 1 := by rw [c11]; positivity
    have b2 : 99 / 100 ≤ covToCorr C 0 1 := by rw [c01, le_div_iff₀ (by positivity)]; nlinarith
    nlinarith
  refine ⟨_, hcov, hneg, fun hP' => ?_⟩
  have := hP'.entry_sq_le 0 1
  linarith

/-! ## Non-vacuity -/

/-- a positive-definite Huber state after a full burn-in: `r = 1`, five rows -/
def burnRows : List (Fin 1 → ℝ) := [fun _ => 1, fun _ => -1, fun _ => 1, fun _ => -1, fun _ => 0]

theorem burn_one : ewaBurnN (1 : ℝ) = 5 := by
  unfold ewaBurnN; norm_num
  rfl

theorem burn_cov : covOf burnRows = Matrix.of fun _ _ => 4 / 5 := by
  ext i j
  simp [covOf, meanOf, burnRows]; norm_num

/-- The hypotheses of C34_update and C34_bounded_influence hold: burn-in complete, covariance 4/5, any outlier. -/
example (y : Fin 1 → ℝ) (pr : HuberParam) (hr : pr.r = 1) (hc : pr.c = 3) (hd : pr.diff = false) : ∃ C' m', ((new (huberCls L (Fin 1)) pr).run
      ([.partialFit (.batch burnRows)] ++ [.partialFit (.row y)])).covariance = .ok C' ∧
    ((new (huberCls L (Fin 1)) pr).run
      ([.partialFit (.batch burnRows)] ++ [.partialFit (.row y)])).location = .ok m' ∧ C' 0 0 ≤ 36 / 5 := by
  have u1 : used pr.diff [Call.partialFit (.batch burnRows)] = burnRows := by rw [hd]; exact used_batch _
  have u2 : used pr.diff ([Call.partialFit (.batch burnRows)] ++ [.partialFit (.row y)]) = burnRows ++ [y] := by
    rw [hd]; simp [used, effective, rowsSinceFit, rowsOf]
  have n1 : used pr.diff [Call.partialFit (.batch burnRows)] ≠ [] := by rw [u1]; simp [burnRows]
  have n2 : used pr.diff ([Call.partialFit (.batch burnRows)] ++ [.partialFit (.row y)]) ≠ [] := by rw [u2]; simp
  obtain ⟨C, a1⟩ : ∃ C, ((new (huberCls L (Fin 1)) pr).run [.partialFit (.batch burnRows)]).covariance = .ok C :=
    ⟨_, run_covariance (huber_lawful L (Fin 1)) pr _ n1⟩
  obtain ⟨m, a2⟩ : ∃ m, ((new (huberCls L (Fin 1)) pr).run [.partialFit (.batch burnRows)]).location = .ok m :=
    ⟨_, run_location (huber_lawful L (Fin 1)) pr _ n1⟩
  obtain ⟨C', a3⟩ : ∃ C, ((new (huberCls L (Fin 1)) pr).run
      ([.partialFit (.batch burnRows)] ++ [.partialFit (.row y)])).covariance = .ok C :=
    ⟨_, run_covariance (huber_lawful L (Fin 1)) pr _ n2⟩
  obtain ⟨m', a4⟩ : ∃ m, ((new (huberCls L (Fin 1)) pr).run
      ([.partialFit (.batch burnRows)] ++ [.partialFit (.row y)])).location = .ok m :=
    ⟨_, run_location (huber_lawful L (Fin 1)) pr _ n2⟩
  refine ⟨C', m', a3, a4, ?_⟩
  have hC := (huber_attrs L pr _ _ _ a1 a2).1
  have hC2 : C = Matrix.of fun _ _ => 4 / 5 := by
    rw [hC]
    rw [u1, huberFold_burn L _ _ (by rw [hr, burn_one]; simp [burnRows]), empFold_cov (by simp [burnRows]), burn_cov]
  have hpd : PD C := by
    rw [hC2]
    exact ⟨fun i j => rfl, fun x hx => by
      have h0 : x 0 ≠ 0 := fun h => hx (by ext i; fin_cases i; exact h)
      rw [quad_expand]; simp
      have := mul_self_pos.2 h0
      nlinarith⟩
  have h1 : used pr.diff ([Call.partialFit (.batch burnRows)] ++ [.partialFit (.row y)]) =
      used pr.diff [Call.partialFit (.batch burnRows)] ++ [y] := by rw [u1, u2]
  have h2 : ewaBurnN pr.r ≤ (used pr.diff [Call.partialFit (.batch burnRows)]).length := by rw [hr, burn_one, u1]; simp [burnRows]
  have := (C34_bounded_influence L pr (by rw [hr]; exact zero_le_one) [Call.partialFit (.batch burnRows)] _ y h1 h2 C C' m m' hpd a1 a2 a3 a4).2.1 (Pi.single 0 1)
  rw [quad_single, quad_smul, quad_single, hC2] at this
  refine this.trans ?_
  rw [hr, hc]
  simp; norm_num

example := C36_shape L (⟨1/20, false⟩ : RParam ℝ) (by norm_num) (by norm_num) [Call.partialFit (.batch demoRows)] ![2, 1] _ demo_used
  (by intro h; have := congrFun h 0; simp at this)
example : ∃ C, ((new (adaptiveCls L (Fin 2)) (⟨1/20, 1/2, false⟩ : AdaParam)).run [.partialFit (.batch demoRows)]).covariance = .ok C ∧ PSD C := by
  obtain ⟨C, hC⟩ := run_cov_ok (adaptive_lawful L (Fin 2)) (⟨1/20, 1/2, false⟩ : AdaParam) _ demo_ne
  exact ⟨C, hC, C35_psd L _ (by norm_num) (by norm_num) (by norm_num) _ C hC⟩

end Precise
