import Verif.Props.Stability
import Verif.Props.Factor
import Verif.Props.Masking
import Verif.Props.Translate

/-!
# C98: neutral settings and a single variable

Which classes coincide when their extra parameter is switched off, or when there is nothing to shrink, damp or rotate.
-/

set_option linter.all false

open Matrix

namespace Precise

open Spec Obj

/-- Two classes whose states and hooks agree on the stream report the same covariance, fitted or not. -/
theorem cov_eq_of_fold {ι : Type} [Fintype ι] {C D : Cls ι ℝ} (hC : Lawful C) (hD : Lawful D) (p : C.Param) (q : D.Param)
    (calls : List (Call ι ℝ)) (hd : C.diff p = D.diff q)
    (h : used (D.diff q) calls ≠ [] → toSymmetric (C.toCov p ((used (D.diff q) calls).foldl (C.updateState p) (C.initState p)))
      = toSymmetric (D.toCov q ((used (D.diff q) calls).foldl (D.updateState q) (D.initState q)))) :
    ((new C p).run calls).covariance = ((new D q).run calls).covariance := by
  by_cases hne : used (D.diff q) calls = []
  · exact (run_unfitted hC p calls (by rw [hd]; exact hne)).1.trans (run_unfitted hD q calls hne).1.symm
  · rw [run_covariance hC p calls (by rw [hd]; exact hne), run_covariance hD q calls hne, hd, h hne]

section any
variable {ι : Type} [Fintype ι] [DecidableEq ι]

/-- C98: ShrunkCovariance(delta=0) is EwaCovariance, whatever the target. -/
theorem C98_shrunk_zero (p : ShrunkParam) (h : p.delta = 0) (calls : List (Call ι ℝ)) :
    ((new (shrunkCls ι) p).run calls).covariance = ((new (ewaCls ι ℝ) ⟨p.r, p.diff⟩).run calls).covariance := by
  refine cov_eq_of_fold (shrunk_lawful ι) (ewa_lawful ι ℝ) p (⟨p.r, p.diff⟩ : RParam ℝ) calls rfl fun _ => ?_
  congr 1
  show shrunkCov p (ewaFold p.r (used p.diff calls)) = (ewaFold p.r (used p.diff calls)).cov
  unfold shrunkCov
  simp [h]

/-- C98: HuberCovariance is EwaCovariance as long as no observation is an outlier for EwaCovariance: if every observation after the
burn-in is within squared distance `c² p` of the EWA estimate of the observations before it, both report the same. -/
theorem C98_huber_inliers (L : Lapack) (pr : HuberParam) (calls : List (Call ι ℝ))
    (h : ∀ pre x post, used pr.diff calls = pre ++ x :: post → ewaBurnN pr.r ≤ pre.length → ∀ q,
      ((new (ewaCls ι ℝ) ⟨pr.r, false⟩).run [.partialFit (.batch pre)]).mahalanobis L (.row x) = .ok [q] →
        q ≤ pr.c ^ 2 * (Fintype.card ι : ℝ)) :
    ((new (huberCls L ι) pr).run calls).covariance = ((new (ewaCls ι ℝ) ⟨pr.r, pr.diff⟩).run calls).covariance ∧
    ((new (huberCls L ι) pr).run calls).location = ((new (ewaCls ι ℝ) ⟨pr.r, pr.diff⟩).run calls).location := by
  have key : ∀ xs : List (ι → ℝ), (∀ pre x post, xs = pre ++ x :: post → ewaBurnN pr.r ≤ pre.length → ∀ q,
      ((new (ewaCls ι ℝ) ⟨pr.r, false⟩).run [.partialFit (.batch pre)]).mahalanobis L (.row x) = .ok [q] →
        q ≤ pr.c ^ 2 * (Fintype.card ι : ℝ)) → huberFold L pr xs = ewaFold pr.r xs := by
    intro xs
    induction xs using List.reverseRecOn with
    | nil => intro _; rfl
    | append_singleton xs x ih =>
      intro hx
      have e := ih fun pre y post hp => hx pre y (post ++ [x]) (by rw [hp]; simp)
      rw [huberFold_snoc, ewaFold_snoc, e]
      unfold huberUpdate ewaUpdate
      split
      · rfl
      · rename_i hb
        have hb' : ewaBurnN pr.r ≤ xs.length := by
          have := not_lt.1 hb
          rwa [ewaFold_nBurn, ewaFold_n] at this
        have hb5 : 1 ≤ ewaBurnN pr.r := by unfold ewaBurnN; omega
        have hne : xs ≠ [] := by intro h0; rw [h0] at hb'; simp at hb'; omega
        have hu : used false [Call.partialFit (Input.batch xs)] = xs := by simp [used, effective, rowsSinceFit, rowsOf]
        obtain ⟨hm, hc⟩ := ewa_attrs (⟨pr.r, false⟩ : RParam ℝ) [Call.partialFit (Input.batch xs)] (by rw [hu]; exact hne)
        have hm' : ((new (ewaCls ι ℝ) ⟨pr.r, false⟩).run [.partialFit (.batch xs)]).location = .ok (ewaFold pr.r xs).mean := by
          rw [hm]; show Except.ok (ewaFold pr.r (used false _)).mean = _; rw [hu]
        have hc' : ((new (ewaCls ι ℝ) ⟨pr.r, false⟩).run [.partialFit (.batch xs)]).covariance = .ok (ewaFold pr.r xs).cov := by
          rw [hc]; show Except.ok (ewaFold pr.r (used false _)).cov = _; rw [hu]
        have hq := hx xs x [] rfl hb' _ (maha_eq L _ _ _ hc' hm' [x])
        have hw : huberWeight L pr.c (ewaFold pr.r xs).cov (fun i => x i - (ewaFold pr.r xs).mean i) = 1 := by
          unfold huberWeight
          exact if_pos hq
        simp only [hw, one_mul]
        have : (ewaBlend (ewaFold pr.r xs).r (ewaFold pr.r xs).toEmpState x) =
          { nSamples := (ewaFold pr.r xs).nSamples + 1, mean := fun i => (ewaFold pr.r xs).mean i + (ewaFold pr.r xs).r * (x i - (ewaFold pr.r xs).mean i),
            cov := (1 - (ewaFold pr.r xs).r) • (ewaFold pr.r xs).cov + (ewaFold pr.r xs).r • outer (fun i => x i - (ewaFold pr.r xs).mean i) (fun i => x i - (ewaFold pr.r xs).mean i) } := by
          unfold ewaBlend
          rw [EmpState.mk.injEq]
          exact ⟨rfl, by funext i; ring, rfl⟩
        rw [this]
  have k := key _ h
  constructor
  · refine cov_eq_of_fold (huber_lawful L ι) (ewa_lawful ι ℝ) pr (⟨pr.r, pr.diff⟩ : RParam ℝ) calls rfl fun _ => ?_
    show toSymmetric (huberFold L pr (used pr.diff calls)).cov = toSymmetric (ewaFold pr.r (used pr.diff calls)).cov
    rw [k]
  · by_cases hne : used pr.diff calls = []
    · exact (run_unfitted (huber_lawful L ι) pr calls hne).2.trans (run_unfitted (ewa_lawful ι ℝ) ⟨pr.r, pr.diff⟩ calls hne).2.symm
    · rw [run_location (huber_lawful L ι) pr calls hne, run_location (ewa_lawful ι ℝ) ⟨pr.r, pr.diff⟩ calls hne]
      show Except.ok (huberFold L pr (used pr.diff calls)).mean = Except.ok (ewaFold pr.r (used pr.diff calls)).mean
      rw [k]

/-- C98: FactorCovariance(k=0) has no factors: it is diagonal, with the recency-weighted mean squared innovations (no burn-in beyond
the first observation). -/
theorem C98_factor_zero (pr : FactorParam) (hk : pr.k = 0) (h0 : 0 ≤ pr.r) (h1 : pr.r ≤ 1) (calls : List (Call ι ℝ)) (c : Matrix ι ι ℝ)
    (hc : ((new (factorCls ι) pr).run calls).covariance = .ok c) : c = diagonal (trackedVar pr.r 1 (used pr.diff calls)) := by
  have h := C39_factors pr calls c hc
  simp only [hk, Nat.zero_min, zero_add, factorSum, Finset.range_zero, Finset.sum_empty, Matrix.zero_apply, sub_zero] at h
  rw [h]
  congr 1
  funext i
  apply max_eq_left
  refine Finset.sum_nonneg fun t _ => mul_nonneg ?_ (sq_nonneg _)
  have : 0 ≤ 1 - pr.r := by linarith
  unfold recencyWeight
  split
  · positivity
  · split <;> positivity

/-- C98: EwaCovariance(r=1) has no memory beyond one observation: after the burn-in of five, `location_` is the last observation; from
the second observation after the burn-in on, `covariance_` is the outer product of the last change. -/
theorem C98_ewa_rate_one (d : Bool) (calls : List (Call ι ℝ)) (xs : List (ι → ℝ)) (y x : ι → ℝ) :
    (used d calls = xs ++ [x] → 5 ≤ xs.length → ((new (ewaCls ι ℝ) ⟨1, d⟩).run calls).location = .ok x) ∧
    (used d calls = xs ++ [y, x] → 5 ≤ xs.length →
      ((new (ewaCls ι ℝ) ⟨1, d⟩).run calls).covariance = .ok (outer (x - y) (x - y))) := by
  have hb : ewaBurnN (1:ℝ) = 5 := by
    have : ⌈(1:ℝ) / 1⌉ = 1 := by norm_num
    unfold ewaBurnN; rw [this]; rfl
  have step : ∀ (xs : List (ι → ℝ)) (x : ι → ℝ), 5 ≤ xs.length →
      (ewaFold (1:ℝ) (xs ++ [x])).toEmpState = ewaBlend 1 (ewaFold (1:ℝ) xs).toEmpState x := by
    intro xs x h
    rw [ewaFold_snoc, ewaUpdate_post (by rw [ewaFold_nBurn, ewaFold_n, hb]; exact h), ewaFold_r]
  have loc : ∀ (xs : List (ι → ℝ)) (x : ι → ℝ), 5 ≤ xs.length → (ewaFold (1:ℝ) (xs ++ [x])).mean = x := by
    intro xs x h
    rw [step xs x h]; ext i; simp [ewaBlend]
  constructor
  · intro hu h5
    have hne : used d calls ≠ [] := by rw [hu]; simp
    rw [(ewa_attrs (⟨1, d⟩ : RParam ℝ) calls hne).1]
    show Except.ok (ewaFold 1 (used d calls)).mean = _
    rw [hu, loc xs x h5]
  · intro hu h5
    have hne : used d calls ≠ [] := by rw [hu]; simp
    rw [(ewa_attrs (⟨1, d⟩ : RParam ℝ) calls hne).2]
    show Except.ok (ewaFold 1 (used d calls)).cov = _
    have e : xs ++ [y, x] = (xs ++ [y]) ++ [x] := by simp
    rw [hu, e, step (xs ++ [y]) x (by simp; omega)]
    congr 1
    simp only [ewaBlend, loc xs y h5]
    ext i j; simp [outer]

end any

section one

/-- A matrix with one entry. -/
theorem fin1_ext {a b : Matrix (Fin 1) (Fin 1) ℝ} (h : a 0 0 = b 0 0) : a = b := by
  ext i j; rw [Subsingleton.elim i 0, Subsingleton.elim j 0]; exact h

theorem makePosDef_fin1 (L : Lapack) (a : Matrix (Fin 1) (Fin 1) ℝ) (eps : ℝ) : makePosDef L a eps 0 0 = max (a 0 0) eps := by
  have e : toSymmetric a = spec 1 (fun i => a i i) := by
    apply fin1_ext
    simp [spec, toSymmetric]
  rw [makePosDef_of_spec L (v := 1) (by simp) e eps]
  simp [spec]

/-- C98: with one variable there is nothing to shrink: LedoitWolfCovariance, OASCovariance and ShrunkCovariance (any `delta`, any target)
are EwaCovariance. -/
theorem C98_one_variable_shrinkage (p : RParam ℝ) (delta : ℝ) (target : String) (calls : List (Call (Fin 1) ℝ)) :
    ((new (ledoitWolfCls (Fin 1) ℝ) p).run calls).covariance = ((new (ewaCls (Fin 1) ℝ) p).run calls).covariance ∧
    ((new (oasCls (Fin 1) ℝ) p).run calls).covariance = ((new (ewaCls (Fin 1) ℝ) p).run calls).covariance ∧
    ((new (shrunkCls (Fin 1)) ⟨p.r, delta, target, p.diff⟩).run calls).covariance = ((new (ewaCls (Fin 1) ℝ) p).run calls).covariance := by
  refine ⟨cov_eq_of_fold (ledoitWolf_lawful (Fin 1) ℝ) (ewa_lawful (Fin 1) ℝ) p p calls rfl fun _ => ?_,
    cov_eq_of_fold (oas_lawful (Fin 1) ℝ) (ewa_lawful (Fin 1) ℝ) p p calls rfl fun _ => ?_,
    cov_eq_of_fold (shrunk_lawful (Fin 1)) (ewa_lawful (Fin 1) ℝ) ⟨p.r, delta, target, p.diff⟩ p calls rfl fun _ => ?_⟩
  · congr 1
    show lwCov (lwFold p.r (used p.diff calls)) = (ewaFold p.r (used p.diff calls)).cov
    have e : (lwFold p.r (used p.diff calls)).cov = (ewaFold p.r (used p.diff calls)).cov := by
      have := lwFold_toEwa p.r (used p.diff calls)
      rw [this]
    apply fin1_ext
    rw [← e]
    unfold lwCov
    simp [Matrix.trace_fin_one]
  · congr 1
    show oasCov (ewaFold p.r (used p.diff calls)) = (ewaFold p.r (used p.diff calls)).cov
    apply fin1_ext
    unfold oasCov
    simp only [Matrix.add_apply, Matrix.smul_apply, Matrix.one_apply_eq, smul_eq_mul, Matrix.trace_fin_one, Fintype.card_fin, Nat.cast_one, div_one]
    ring
  · congr 1
    show shrunkCov ⟨p.r, delta, target, p.diff⟩ (ewaFold p.r (used p.diff calls)) = (ewaFold p.r (used p.diff calls)).cov
    apply fin1_ext
    unfold shrunkCov
    simp only [Matrix.add_apply, Matrix.smul_apply, smul_eq_mul]
    split
    · simp [Matrix.trace_fin_one]; ring
    · simp; ring

/-- C98: with one variable SchurCovariance (linear interpolation, any `gamma`), BlockCovariance and SchurLedoitWolfCovariance report the EWA
variance floored at 1e-8. -/
theorem C98_one_variable_blocks (L : Lapack) (p : RParam ℝ) (nb : ℤ) (hn : 1 ≤ nb) (gamma : ℝ) (interp : String) (hi : interp ≠ "geodesic")
    (calls : List (Call (Fin 1) ℝ)) (S : Matrix (Fin 1) (Fin 1) ℝ) (hS : ((new (ewaCls (Fin 1) ℝ) p).run calls).covariance = .ok S) :
    (∃ c, ((new (schurCls L 1) ⟨p.r, nb, gamma, interp, p.diff⟩).run calls).covariance = .ok c ∧ c 0 0 = max (S 0 0) (1 / 10 ^ 8)) ∧
    (∃ c, ((new (blockCls L 1) ⟨p.r, nb, p.diff⟩).run calls).covariance = .ok c ∧ c 0 0 = max (S 0 0) (1 / 10 ^ 8)) ∧
    (∃ c, ((new (schurLWCls L 1) ⟨p.r, nb, p.diff⟩).run calls).covariance = .ok c ∧ c 0 0 = max (S 0 0) (1 / 10 ^ 8)) := by
  have key : ∀ (g : ℝ) (it : String), it ≠ "geodesic" →
      ∃ c, ((new (schurCls L 1) ⟨p.r, nb, g, it, p.diff⟩).run calls).covariance = .ok c ∧ c 0 0 = max (S 0 0) (1 / 10 ^ 8) := by
    intro g it hit
    refine ⟨_, (C30_linear L ⟨p.r, nb, g, it, p.diff⟩ hit hn le_rfl calls S hS).1, ?_⟩
    rw [show (makePosDef L (damped (slices 1 (schurNb nb 1)) g S)) 0 0 = max (damped (slices 1 (schurNb nb 1)) g S 0 0) (1 / 10 ^ 8) from
      makePosDef_fin1 L _ _]
    simp only [damped, of_apply]
    rw [if_pos (sameBlock_refl nb hn le_rfl 0)]
  refine ⟨key gamma interp hi, ?_, ?_⟩
  · rw [(C26_is_schur L ⟨p.r, nb, p.diff⟩ hn le_rfl "linear" calls).1]
    exact key 0 "linear" (by decide)
  · have hne : used p.diff calls ≠ [] := (ewa_attrs_inv p calls S hS).1
    obtain ⟨c, hc⟩ := run_cov_ok (schurLW_lawful L 1) (⟨p.r, nb, p.diff⟩ : BlockParam) calls hne
    obtain ⟨_, g, _, h1, _⟩ := C31_is_schur L ⟨p.r, nb, p.diff⟩ calls c hc
    obtain ⟨c', h2, h3⟩ := key g "linear" (by decide)
    refine ⟨c, hc, ?_⟩
    have : c = c' := by rw [h2] at h1; exact (Except.ok.inj h1).symm
    rw [this, h3]


/-- C98: with one variable TylerCovariance always reports 1/(1 + 1e-12) (it keeps no scale), if its first observation is not 0. -/
theorem C98_one_variable_tyler (L : Lapack) (p : RParam ℝ) (h0 : 0 ≤ p.r) (h1 : p.r < 1) (calls : List (Call (Fin 1) ℝ)) (x : Fin 1 → ℝ)
    (xs : List (Fin 1 → ℝ)) (hu : used p.diff calls = x :: xs) (hx : x ≠ 0) :
    ∃ c, ((new (tylerCls L (Fin 1)) p).run calls).covariance = .ok c ∧ c 0 0 = 1 / (1 + 1 / 10 ^ 12) := by
  obtain ⟨s, C, c, _, _, _, ht, hc, _, _, _, hd⟩ := C36_shape L p h0 h1 calls x xs hu hx
  refine ⟨c, hc, ?_⟩
  rw [hd 0]
  rw [Matrix.trace_fin_one] at ht
  rw [ht]; simp

/-- C98: with one variable PartialMomentsCovariance is DiagonalCovariance whenever the EWA variance is positive. -/
theorem C98_one_variable_partial_moments (L : Lapack) (p : RParam ℝ) (h0 : 0 ≤ p.r) (h1 : p.r ≤ 1) (calls : List (Call (Fin 1) ℝ))
    (e : Matrix (Fin 1) (Fin 1) ℝ) (he : ((new (ewaCls (Fin 1) ℝ) p).run calls).covariance = .ok e) (hv : 0 < e 0 0) :
    ((new (partialMomentsCls L (Fin 1)) p).run calls).covariance = ((new (diagonalCls (Fin 1) ℝ) p).run calls).covariance := by
  have hne : used p.diff calls ≠ [] := (ewa_attrs_inv p calls e he).1
  obtain ⟨c, hc⟩ := run_cov_ok (partialMoments_lawful L (Fin 1)) p calls hne
  obtain ⟨d, hd⟩ := run_cov_ok (diagonal_lawful (Fin 1) ℝ) p calls hne
  have hpd : PD e := by
    refine ⟨fun i j => by rw [Subsingleton.elim i 0, Subsingleton.elim j 0], fun u hu => ?_⟩
    have hu0 : u 0 ≠ 0 := fun h => hu (by ext i; rw [Subsingleton.elim i 0]; exact h)
    simp only [quad, dotProduct, mulVec, Finset.univ_unique, Fin.default_eq_zero, Finset.sum_singleton]
    have := mul_pos hv (mul_self_pos.2 hu0)
    nlinarith
  have := (C33_no_repair L p h0 h1 calls c e d hc he hpd hd).1 0
  rw [hc, hd, fin1_ext this]

/-- C98: with one variable a step of GeodesicEwaCovariance after the burn-in is a geometric average: the variance `v` (at least 1e-8) becomes
`v^(1-r) · max(δ², 1e-8)^r`, `δ` the innovation. -/
theorem C98_one_variable_geodesic (L : Lapack) (pr : RParam ℝ) (calls calls' : List (Call (Fin 1) ℝ)) (y : Fin 1 → ℝ)
    (hy : used pr.diff calls' = used pr.diff calls ++ [y]) (hb : ewaBurnN pr.r ≤ (used pr.diff calls).length)
    (C C' : Matrix (Fin 1) (Fin 1) ℝ) (m : Fin 1 → ℝ) (hmin : 1 / 10 ^ 8 ≤ C 0 0)
    (hC : ((new (geodesicCls L (Fin 1)) pr).run calls).covariance = .ok C) (hm : ((new (geodesicCls L (Fin 1)) pr).run calls).location = .ok m)
    (hC' : ((new (geodesicCls L (Fin 1)) pr).run calls').covariance = .ok C') :
    C' 0 0 = C 0 0 ^ (1 - pr.r) * max ((y 0 - m 0) ^ 2) (1 / 10 ^ 8) ^ pr.r := by
  have hmin' : MinEigGE C (1 / 10 ^ 8) := by
    intro u
    simp only [quad, normSq, dotProduct, mulVec, Finset.univ_unique, Fin.default_eq_zero, Finset.sum_singleton]
    have := mul_le_mul_of_nonneg_right hmin (mul_self_nonneg (u 0))
    nlinarith
  have := C37_det_update L pr calls calls' y hy hb C C' m hmin' hC hm hC'
  rw [Matrix.det_fin_one, Matrix.det_fin_one] at this
  rw [this]
  simp [normSq, dotProduct, sq]

end one

/-- Non-vacuous: after the demo rows the three shrinkage classes and EwaCovariance agree on one variable. -/
example : ∃ c, ((new (ledoitWolfCls (Fin 1) ℝ) (⟨1/20, false⟩ : RParam ℝ)).run [.partialFit (.batch [fun _ => 1, fun _ => 3])]).covariance = .ok c ∧ c 0 0 = 1 := by
  have hu : used false [Call.partialFit (Input.batch [fun _ : Fin 1 => (1:ℝ), fun _ => 3])] = [fun _ => 1, fun _ => 3] := by
    simp [used, effective, rowsSinceFit, rowsOf]
  refine ⟨_, (C98_one_variable_shrinkage ⟨1/20, false⟩ 0 "identity" _).1.trans (ewa_attrs _ _ (by rw [hu]; simp)).2, ?_⟩
  show (ewaFold (1/20 : ℝ) (used false _)).cov 0 0 = 1
  rw [hu, ewaFold_burn _ _ (by show 2 ≤ ewaBurnN _; unfold ewaBurnN; omega), empFold_cov (by simp)]
  simp [covOf, meanOf]; norm_num

/-- Non-vacuous: C98_huber_inliers on the demo rows with a wide threshold: no row comes after the burn-in. -/
example (L : Lapack) : ((new (huberCls L (Fin 2)) ⟨1/20, 3, false⟩).run [.partialFit (.batch demoRows)]).covariance
    = ((new (ewaCls (Fin 2) ℝ) ⟨1/20, false⟩).run [.partialFit (.batch demoRows)]).covariance := by
  refine (C98_huber_inliers L ⟨1/20, 3, false⟩ _ fun pre x post hp hb => ?_).1
  exfalso
  have h1 : (used false [Call.partialFit (Input.batch demoRows)]).length = pre.length + (1 + post.length) := by
    rw [show used false [Call.partialFit (Input.batch demoRows)] = pre ++ x :: post from hp]; simp; omega
  rw [demo_used] at h1
  have h2 : ewaBurnN (1/20 : ℝ) = 20 := by
    have : ⌈(1:ℝ) / (1/20)⌉ = 20 := by norm_num
    unfold ewaBurnN; rw [this]; rfl
  have h3 : demoRows.length ≤ 10 := by simp [demoRows]
  have : ewaBurnN (1/20 : ℝ) ≤ pre.length := hb
  omega

/-- Non-vacuous after the burn-in too: five zeros and a sixth: the covariance is 0, its pseudo-inverse 0, the distance 0. -/
example (L : Lapack) (v : ℝ) : ((new (huberCls L (Fin 1)) ⟨1, 2, false⟩).run [.partialFit (.batch (List.replicate 5 0 ++ [fun _ => v]))]).covariance
    = ((new (ewaCls (Fin 1) ℝ) ⟨1, false⟩).run [.partialFit (.batch (List.replicate 5 0 ++ [fun _ => v]))]).covariance := by
  have hb5 : ewaBurnN (1:ℝ) = 5 := by
    have : ⌈(1:ℝ) / 1⌉ = 1 := by norm_num
    unfold ewaBurnN; rw [this]; rfl
  have hu : ∀ rows : List (Fin 1 → ℝ), used false [Call.partialFit (Input.batch rows)] = rows := fun rows => by
    simp [used, effective, rowsSinceFit, rowsOf]
  refine (C98_huber_inliers L ⟨1, 2, false⟩ _ fun pre x post hp hb q hq => ?_).1
  have hp' : List.replicate 5 0 ++ [fun _ => v] = pre ++ x :: post := (hu _).symm.trans hp
  have hb' : 5 ≤ pre.length := by rw [← hb5]; exact hb
  have hpre : pre = List.replicate 5 0 := by
    have hl := congrArg List.length hp'
    simp at hl
    have hpl : pre.length = 5 := by omega
    have := congrArg (List.take 5) hp'
    rw [List.take_append_of_le_length (by simp), List.take_append_of_le_length (by omega), List.take_of_length_le (by simp),
      List.take_of_length_le (by omega)] at this
    exact this.symm
  subst hpre
  obtain ⟨hm, hc⟩ := ewa_attrs (⟨1, false⟩ : RParam ℝ) [Call.partialFit (Input.batch (List.replicate 5 (0 : Fin 1 → ℝ)))] (by
    show used false _ ≠ []; rw [hu]; simp)
  have e := maha_eq L _ _ _ hc hm [x]
  have hq' : (Except.ok [q] : Except PyErr (List ℝ)) = _ := hq.symm.trans e
  have hz : (ewaFold (1:ℝ) (used false [Call.partialFit (Input.batch (List.replicate 5 (0 : Fin 1 → ℝ)))])).cov = 0 := by
    rw [hu, ewaFold_burn _ _ (by rw [hb5]; simp), empFold_cov (by simp)]
    apply fin1_ext
    simp [covOf, meanOf]
  have := Except.ok.inj hq'
  simp only [List.map_cons, List.map_nil, List.cons.injEq, and_true] at this
  rw [this]
  have hpinv := tryInvert_pinv L (a := (0 : Matrix (Fin 1) (Fin 1) ℝ)) symm_zero
  have h0 : tryInvert L (0 : Matrix (Fin 1) (Fin 1) ℝ) = 0 := by
    have := hpinv.2.1
    simpa using this.symm
  change quad (tryInvert L (ewaFold (1:ℝ) (used false _)).cov) _ ≤ _
  rw [hz, h0]
  simp [quad]

end Precise
