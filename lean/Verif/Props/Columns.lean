import Verif.Spec.Columns
import Verif.Props.Relabel
import Verif.Props.DynUniverse

/-!
# C125: watching fewer columns

`f : κ → ι` selects columns (`κ` the watched ones). Does what an estimator says about them depend on the other columns it is fed?
-/

set_option linter.all false

open Matrix

namespace Precise

open Spec Obj

variable {ι κ : Type} [Fintype ι] [Fintype κ] [DecidableEq ι] [DecidableEq κ]

theorem pick_used (f : κ → ι) (d : Bool) (calls : List (Call ι ℝ)) :
    used d (calls.map (mapCall (cols f))) = (used d calls).map (cols f) :=
  used_map_additive _ (fun _ _ => rfl) d calls

/-- A simulation that keeps the means apart from the rest. -/
theorem location_of_sim {C : Cls ι ℝ} {C' : Cls κ ℝ} (hC : Lawful C) (hC' : Lawful C') {p : C.Param} {p' : C'.Param}
    (hd : C'.diff p' = C.diff p) (f : κ → ι) (R : C.State → C'.State → Prop) (hi : R (C.initState p) (C'.initState p'))
    (hs : ∀ s s' x, R s s' → R (C.updateState p s x) (C'.updateState p' s' (cols f x)))
    (hm : ∀ s s', R s s' → C'.toMean p' s' = cols f (C.toMean p s)) : LocationPicks C C' p p' f := by
  intro calls
  have hu' := pick_used f (C.diff p) calls
  have hR : ∀ xs : List (ι → ℝ), R (xs.foldl (C.updateState p) (C.initState p))
      ((xs.map (cols f)).foldl (C'.updateState p') (C'.initState p')) := by
    intro xs
    induction xs using List.reverseRecOn with
    | nil => exact hi
    | append_singleton xs x ih =>
      simp only [List.map_append, List.map_cons, List.map_nil, List.foldl_append, List.foldl_cons, List.foldl_nil]
      exact hs _ _ _ ih
  by_cases h : used (C.diff p) calls = []
  · have h' : used (C'.diff p') (calls.map (mapCall (cols f))) = [] := by rw [hd, hu', h]; rfl
    rw [(run_unfitted hC p calls h).2, (run_unfitted hC' p' _ h').2]; rfl
  · have h' : used (C'.diff p') (calls.map (mapCall (cols f))) ≠ [] := by
      rw [hd, hu']; simpa using h
    rw [run_location hC p calls h, run_location hC' p' _ h', hd, hu', hm _ _ (hR _)]; rfl

/-! ## Estimators for which the other columns do not matter -/

theorem ewa_pick (f : κ → ι) (s : EwaState ι ℝ) (x : ι → ℝ) :
    ewaUpdate (⟨⟨s.nSamples, cols f s.mean, colsMat f s.cov⟩, s.r, s.nBurn⟩ : EwaState κ ℝ) (cols f x) =
      ⟨⟨(ewaUpdate s x).nSamples, cols f (ewaUpdate s x).mean, colsMat f (ewaUpdate s x).cov⟩, (ewaUpdate s x).r, (ewaUpdate s x).nBurn⟩ := by
  unfold ewaUpdate
  by_cases h : s.nSamples < s.nBurn
  · simp only [if_pos h]; rfl
  · simp only [if_neg h]; rfl

/-- C125: EmpiricalCovariance and EwaCovariance on a selection of columns (repetitions allowed) report exactly the selected part of what
they report on all columns. -/
theorem C125_empirical_ewa (f : κ → ι) (d : Bool) (p : RParam ℝ) :
    Transports (empiricalCls ι ℝ) (empiricalCls κ ℝ) d d (cols f) (cols f) (colsMat f) ∧
    Transports (ewaCls ι ℝ) (ewaCls κ ℝ) p p (cols f) (cols f) (colsMat f) := by
  constructor
  · refine transports_of_sim (empirical_lawful ι ℝ) (empirical_lawful κ ℝ) rfl (pick_used f _)
      (fun (s : EmpState ι ℝ) (t : EmpState κ ℝ) => t = ⟨s.nSamples, cols f s.mean, colsMat f s.cov⟩) rfl ?_ ?_ ?_
    · rintro (s : EmpState ι ℝ) t x rfl; rfl
    · rintro (s : EmpState ι ℝ) t rfl _; rfl
    · rintro (s : EmpState ι ℝ) t rfl _; rfl
  · refine transports_of_sim (ewa_lawful ι ℝ) (ewa_lawful κ ℝ) rfl (pick_used f _)
      (fun (s : EwaState ι ℝ) (t : EwaState κ ℝ) => t = ⟨⟨s.nSamples, cols f s.mean, colsMat f s.cov⟩, s.r, s.nBurn⟩) rfl ?_ ?_ ?_
    · rintro (s : EwaState ι ℝ) t x rfl; exact ewa_pick f s x
    · rintro (s : EwaState ι ℝ) t rfl _; rfl
    · rintro (s : EwaState ι ℝ) t rfl _; rfl

/-- C125: so does DiagonalCovariance, for distinct columns. -/
theorem C125_diagonal (f : κ → ι) (hf : Function.Injective f) (p : RParam ℝ) :
    Transports (diagonalCls ι ℝ) (diagonalCls κ ℝ) p p (cols f) (cols f) (colsMat f) := by
  refine transports_of_sim (diagonal_lawful ι ℝ) (diagonal_lawful κ ℝ) rfl (pick_used f _)
    (fun (s : DiagState ι ℝ) (t : DiagState κ ℝ) => t = ⟨s.nSamples, cols f s.mean, cols f s.var, s.r, s.nBurn⟩) rfl ?_ ?_ ?_
  · rintro (s : DiagState ι ℝ) t x rfl
    show diagUpdate _ _ = DiagState.mk (diagUpdate s x).nSamples (cols f (diagUpdate s x).mean) (cols f (diagUpdate s x).var) (diagUpdate s x).r (diagUpdate s x).nBurn
    unfold diagUpdate
    by_cases h : s.nSamples + 1 ≤ s.nBurn
    · simp only [if_pos h]; rfl
    · simp only [if_neg h]; rfl
  · rintro (s : DiagState ι ℝ) t rfl _; rfl
  · rintro (s : DiagState ι ℝ) t rfl _
    ext k l
    simp [toSymmetric, colsMat, cols, Matrix.diagonal_apply, diagonalCls, hf.eq_iff]

/-- C125: so does DCCCovariance, for distinct columns. -/
theorem C125_dcc (f : κ → ι) (hf : Function.Injective f) (p : DCCParam) :
    Transports (dccCls ι) (dccCls κ) p p (cols f) (cols f) (colsMat f) := by
  refine transports_of_sim (dcc_lawful ι) (dcc_lawful κ) rfl (pick_used f _)
    (fun (s : DCCState ι) (t : DCCState κ) => t = ⟨s.nSamples, cols f s.mean, cols f s.h, colsMat f s.Q, s.r, s.volR, s.nBurn⟩) ?_ ?_ ?_ ?_
  · show dccInit p = _
    have : (dccInit p : DCCState κ).Q = colsMat f (dccInit p : DCCState ι).Q := by
      ext k l
      simp [dccInit, colsMat, Matrix.one_apply, hf.eq_iff]
    unfold dccInit at this ⊢
    simp only at this
    show DCCState.mk _ _ _ _ _ _ _ = DCCState.mk _ _ _ _ _ _ _
    rw [this]; rfl
  · rintro (s : DCCState ι) t x rfl
    show dccUpdate _ _ = DCCState.mk (dccUpdate s x).nSamples (cols f (dccUpdate s x).mean) (cols f (dccUpdate s x).h) (colsMat f (dccUpdate s x).Q) (dccUpdate s x).r (dccUpdate s x).volR (dccUpdate s x).nBurn
    unfold dccUpdate
    by_cases h : s.nSamples + 1 ≤ s.nBurn
    · simp only [if_pos h]; rfl
    · simp only [if_neg h]; rfl
  · rintro (s : DCCState ι) t rfl _; rfl
  · rintro (s : DCCState ι) t rfl _; rfl

/-- State of PartialMomentsCovariance cut down to the selected columns. -/
def PMState.pick (f : κ → ι) (s : PMState ι) : PMState κ :=
  ⟨s.nSamples, Spec.cols f s.mean, fun q => colsMat f (s.quadrants q), s.r, s.nBurn⟩

theorem pm_pick (f : κ → ι) (s : PMState ι) (x : ι → ℝ) : pmUpdate (s.pick f) (Spec.cols f x) = (pmUpdate s x).pick f := by
  unfold pmUpdate PMState.pick
  by_cases h : s.nSamples + 1 ≤ s.nBurn
  · simp only [if_pos h]; rfl
  · simp only [if_neg h]; rfl

theorem pm_fold_pick (f : κ → ι) (r : ℝ) (xs : List (ι → ℝ)) :
    (xs.map (Spec.cols f)).foldl pmUpdate (pmInit r) = (xs.foldl pmUpdate (pmInit r)).pick f := by
  induction xs using List.reverseRecOn with
  | nil => rfl
  | append_singleton xs x ih =>
    simp only [List.map_append, List.map_cons, List.map_nil, List.foldl_append, List.foldl_cons, List.foldl_nil, ih, pm_pick]

/-- C125: PartialMomentsCovariance too, as long as no repair was needed: if the sum of the four quadrants it holds is positive-definite, its
`covariance_` on distinct columns is the selected part. -/
theorem C125_partialMoments (L : Lapack) (f : κ → ι) (hf : Function.Injective f) (p : RParam ℝ) (calls : List (Call ι ℝ)) (s : PMState ι)
    (hst : ((new (partialMomentsCls L ι) p).run calls).state = some s) (hpd : PD (toSymmetric (∑ q, s.quadrants q))) :
    ((new (partialMomentsCls L κ) p).run (calls.map (mapCall (cols f)))).covariance =
      ((new (partialMomentsCls L ι) p).run calls).covariance.map (colsMat f) := by
  have hu := pick_used f p.diff calls
  have hst := (run_new_state (C := partialMomentsCls L ι) p calls).symm.trans hst
  have e : effective ((partialMomentsCls L ι).diff p) (rowsSinceFit calls []) = used p.diff calls := rfl
  have hboth : used p.diff calls ≠ [] ∧ s = (used p.diff calls).foldl pmUpdate (pmInit p.r) := by
    rw [e] at hst
    generalize used p.diff calls = xs at hst
    cases xs with
    | nil => simp at hst
    | cons y ys => exact ⟨by simp, (Option.some.inj hst).symm⟩
  obtain ⟨hne, hs⟩ := hboth
  have hne' : used p.diff (calls.map (mapCall (cols f))) ≠ [] := by rw [hu]; simpa using hne
  have a := run_covariance (partialMoments_lawful L ι) p calls hne
  have b := run_covariance (partialMoments_lawful L κ) p _ hne'
  rw [a, b]
  change Except.ok (toSymmetric (pmCov L ((used p.diff (calls.map (mapCall (cols f)))).foldl pmUpdate (pmInit p.r)))) =
    Except.ok (colsMat f (toSymmetric (pmCov L ((used p.diff calls).foldl pmUpdate (pmInit p.r)))))
  rw [hu, pm_fold_pick, ← hs]
  congr 1
  have hpd' : PD (toSymmetric (∑ q, (s.pick f).quadrants q)) := by
    have := hpd.submatrix_inj f hf
    convert this using 1
    ext k l
    simp [toSymmetric, PMState.pick, colsMat, Matrix.sum_apply]
  unfold pmCov
  rw [C49_identity L _ hpd, C49_identity L _ hpd']
  ext k l
  simp [toSymmetric, PMState.pick, colsMat, Matrix.sum_apply]

/-! ## Locations -/

/-- C125: `location_` of LedoitWolf, OAS, Shrunk, PartialMoments, Tyler and Geodesic is the selected part of the location on all columns. -/
theorem C125_location (L : Lapack) (f : κ → ι) (p : RParam ℝ) (ps : ShrunkParam) :
    LocationPicks (ledoitWolfCls ι ℝ) (ledoitWolfCls κ ℝ) p p f ∧
    LocationPicks (oasCls ι ℝ) (oasCls κ ℝ) p p f ∧
    LocationPicks (shrunkCls ι) (shrunkCls κ) ps ps f ∧
    LocationPicks (partialMomentsCls L ι) (partialMomentsCls L κ) p p f ∧
    LocationPicks (tylerCls L ι) (tylerCls L κ) p p f ∧
    LocationPicks (geodesicCls L ι) (geodesicCls L κ) p p f := by
  refine ⟨?_, ?_, ?_, ?_, ?_, ?_⟩
  · refine location_of_sim (ledoitWolf_lawful ι ℝ) (ledoitWolf_lawful κ ℝ) rfl f
      (fun (s : LWState ι ℝ) (t : LWState κ ℝ) => t.nSamples = s.nSamples ∧ t.nBurn = s.nBurn ∧ t.r = s.r ∧ t.mean = cols f s.mean)
      ⟨rfl, rfl, rfl, rfl⟩ ?_ ?_
    · rintro (s : LWState ι ℝ) (t : LWState κ ℝ) x ⟨h1, h2, h3, h4⟩
      change (lwUpdate t (cols f x)).nSamples = (lwUpdate s x).nSamples ∧ (lwUpdate t (cols f x)).nBurn = (lwUpdate s x).nBurn ∧
        (lwUpdate t (cols f x)).r = (lwUpdate s x).r ∧ (lwUpdate t (cols f x)).mean = cols f (lwUpdate s x).mean
      unfold lwUpdate
      rw [h1, h2]
      by_cases h : s.nSamples < s.nBurn
      · simp only [if_pos h, ewaBurnStep, empUpdate, h1, h2, h3, h4, true_and]; rfl
      · simp only [if_neg h, ewaBlend, h1, h2, h3, h4, true_and]; rfl
    · rintro s t ⟨-, -, -, h⟩; exact h
  · refine location_of_sim (oas_lawful ι ℝ) (oas_lawful κ ℝ) rfl f
      (fun (s : EwaState ι ℝ) (t : EwaState κ ℝ) => t = ⟨⟨s.nSamples, cols f s.mean, colsMat f s.cov⟩, s.r, s.nBurn⟩) rfl ?_ ?_
    · rintro (s : EwaState ι ℝ) t x rfl; exact ewa_pick f s x
    · rintro (s : EwaState ι ℝ) t rfl; rfl
  · refine location_of_sim (shrunk_lawful ι) (shrunk_lawful κ) rfl f
      (fun (s : EwaState ι ℝ) (t : EwaState κ ℝ) => t = ⟨⟨s.nSamples, cols f s.mean, colsMat f s.cov⟩, s.r, s.nBurn⟩) rfl ?_ ?_
    · rintro (s : EwaState ι ℝ) t x rfl; exact ewa_pick f s x
    · rintro (s : EwaState ι ℝ) t rfl; rfl
  · refine location_of_sim (partialMoments_lawful L ι) (partialMoments_lawful L κ) rfl f
      (fun (s : PMState ι) (t : PMState κ) => t = s.pick f) rfl ?_ ?_
    · rintro (s : PMState ι) t x rfl; exact pm_pick f s x
    · rintro (s : PMState ι) t rfl; rfl
  · refine location_of_sim (tyler_lawful L ι) (tyler_lawful L κ) rfl f
      (fun (s : TylerState ι) (t : TylerState κ) => t.nSamples = s.nSamples ∧ t.nBurn = s.nBurn ∧ t.r = s.r ∧ t.mean = cols f s.mean)
      ⟨rfl, rfl, rfl, rfl⟩ ?_ ?_
    · rintro (s : TylerState ι) (t : TylerState κ) x ⟨h1, h2, h3, h4⟩
      change t.nSamples + 1 = s.nSamples + 1 ∧ t.nBurn = s.nBurn ∧ t.r = s.r ∧
        (if t.nSamples + 1 ≤ t.nBurn then fun i => t.mean i + (cols f x i - t.mean i) / ((t.nSamples + 1 : ℕ) : ℝ)
          else fun i => (1 - t.r) * t.mean i + t.r * cols f x i) =
        cols f (if s.nSamples + 1 ≤ s.nBurn then fun i => s.mean i + (x i - s.mean i) / ((s.nSamples + 1 : ℕ) : ℝ)
          else fun i => (1 - s.r) * s.mean i + s.r * x i)
      rw [h1, h2, h3, h4]
      refine ⟨rfl, rfl, rfl, ?_⟩
      split <;> rfl
    · rintro s t ⟨-, -, -, h⟩; exact h
  · refine location_of_sim (geodesic_lawful L ι) (geodesic_lawful L κ) rfl f
      (fun (s : EwaState ι ℝ) (t : EwaState κ ℝ) => t.nSamples = s.nSamples ∧ t.nBurn = s.nBurn ∧ t.r = s.r ∧ t.mean = cols f s.mean)
      ⟨rfl, rfl, rfl, rfl⟩ ?_ ?_
    · rintro (s : EwaState ι ℝ) (t : EwaState κ ℝ) x ⟨h1, h2, h3, h4⟩
      change (geodesicUpdate L t (cols f x)).nSamples = (geodesicUpdate L s x).nSamples ∧ (geodesicUpdate L t (cols f x)).nBurn = (geodesicUpdate L s x).nBurn ∧
        (geodesicUpdate L t (cols f x)).r = (geodesicUpdate L s x).r ∧ (geodesicUpdate L t (cols f x)).mean = cols f (geodesicUpdate L s x).mean
      unfold geodesicUpdate
      rw [h1, h2]
      by_cases h : s.nSamples < s.nBurn
      · simp only [if_pos h, ewaBurnStep, empUpdate, h1, h2, h3, h4, true_and]; rfl
      · simp only [if_neg h, h1, h2, h3, h4, true_and]; rfl
    · rintro s t ⟨-, -, -, h⟩; exact h

/-- C125: also the locations of SchurCovariance, SchurConditionalCovariance and SchurLedoitWolfCovariance. -/
theorem C125_location_blocks (L : Lapack) {p q : ℕ} (f : Fin q → Fin p) (ps : SchurParam) (pb : BlockParam) :
    LocationPicks (schurCls L p) (schurCls L q) ps ps f ∧
    LocationPicks (schurCondCls L p) (schurCondCls L q) pb pb f ∧
    LocationPicks (schurLWCls L p) (schurLWCls L q) pb pb f := by
  refine ⟨?_, ?_, ?_⟩
  · refine location_of_sim (schur_lawful L p) (schur_lawful L q) rfl f
      (fun (s : EwaState (Fin p) ℝ) (t : EwaState (Fin q) ℝ) => t = ⟨⟨s.nSamples, cols f s.mean, colsMat f s.cov⟩, s.r, s.nBurn⟩) rfl ?_ ?_
    · rintro (s : EwaState (Fin p) ℝ) t x rfl; exact ewa_pick f s x
    · rintro (s : EwaState (Fin p) ℝ) t rfl; rfl
  · refine location_of_sim (schurCond_lawful L p) (schurCond_lawful L q) rfl f
      (fun (s : EwaState (Fin p) ℝ) (t : EwaState (Fin q) ℝ) => t = ⟨⟨s.nSamples, cols f s.mean, colsMat f s.cov⟩, s.r, s.nBurn⟩) rfl ?_ ?_
    · rintro (s : EwaState (Fin p) ℝ) t x rfl; exact ewa_pick f s x
    · rintro (s : EwaState (Fin p) ℝ) t rfl; rfl
  · refine location_of_sim (schurLW_lawful L p) (schurLW_lawful L q) rfl f
      (fun (s : SLWState (Fin p)) (t : SLWState (Fin q)) => t.nSamples = s.nSamples ∧ t.nBurn = s.nBurn ∧ t.r = s.r ∧ t.mean = cols f s.mean)
      ⟨rfl, rfl, rfl, rfl⟩ ?_ ?_
    · rintro (s : SLWState (Fin p)) (t : SLWState (Fin q)) x ⟨h1, h2, h3, h4⟩
      change (slwUpdate pb t (cols f x)).nSamples = (slwUpdate pb s x).nSamples ∧ (slwUpdate pb t (cols f x)).nBurn = (slwUpdate pb s x).nBurn ∧
        (slwUpdate pb t (cols f x)).r = (slwUpdate pb s x).r ∧ (slwUpdate pb t (cols f x)).mean = cols f (slwUpdate pb s x).mean
      unfold slwUpdate
      rw [h1, h2]
      by_cases h : s.nSamples < s.nBurn
      · simp only [if_pos h, ewaBurnStep, empUpdate, h1, h2, h3, h4, true_and]; rfl
      · simp only [if_neg h, ewaBlend, h1, h2, h3, h4, true_and]; rfl
    · rintro s t ⟨-, -, -, h⟩; exact h

/-- C125: `location_` of FactorCovariance, if at least `k` columns are kept (its burn-in lasts `min(k, d) + 1` rows). -/
theorem C125_location_factor (f : κ → ι) (p : FactorParam) (hι : p.k ≤ Fintype.card ι) (hκ : p.k ≤ Fintype.card κ) :
    LocationPicks (factorCls ι) (factorCls κ) p p f := by
  refine location_of_sim (factor_lawful ι) (factor_lawful κ) rfl f
    (fun (s : FactorState ι) (t : FactorState κ) => t.nSamples = s.nSamples ∧ t.nBurn = s.nBurn ∧ t.r = s.r ∧ t.mean = cols f s.mean)
    ⟨rfl, ?_, rfl, rfl⟩ ?_ ?_
  · show min p.k (Fintype.card κ) + 1 = min p.k (Fintype.card ι) + 1
    rw [min_eq_left hι, min_eq_left hκ]
  · rintro (s : FactorState ι) (t : FactorState κ) x ⟨h1, h2, h3, h4⟩
    change t.nSamples + 1 = s.nSamples + 1 ∧ t.nBurn = s.nBurn ∧ t.r = s.r ∧
      (if t.nSamples + 1 ≤ t.nBurn then fun i => t.mean i + (cols f x i - t.mean i) / ((t.nSamples + 1 : ℕ) : ℝ)
        else fun i => (1 - t.r) * t.mean i + t.r * cols f x i) =
      cols f (if s.nSamples + 1 ≤ s.nBurn then fun i => s.mean i + (x i - s.mean i) / ((s.nSamples + 1 : ℕ) : ℝ)
        else fun i => (1 - s.r) * s.mean i + s.r * x i)
    rw [h1, h2, h3, h4]
    refine ⟨rfl, rfl, rfl, ?_⟩
    split <;> rfl
  · rintro s t ⟨-, -, -, h⟩; exact h

/-- C125: the variances ShrunkCovariance reports (constant-correlation target) depend on their own columns only. -/
theorem C125_shrunk_variances (f : κ → ι) (ps : ShrunkParam) (ht : ps.target ≠ "identity") (calls : List (Call ι ℝ)) (c : Matrix ι ι ℝ)
    (hc : ((new (shrunkCls ι) ps).run calls).covariance = .ok c) :
    ∃ c' : Matrix κ κ ℝ, ((new (shrunkCls κ) ps).run (calls.map (mapCall (cols f)))).covariance = .ok c' ∧ ∀ k, c' k k = c (f k) (f k) := by
  obtain ⟨hne, rfl⟩ := run_covariance_inv (shrunk_lawful ι) ps calls c hc
  have hu := pick_used f ps.diff calls
  have hne' : used ((shrunkCls κ).diff ps) (calls.map (mapCall (cols f))) ≠ [] := by
    show used ps.diff _ ≠ []
    rw [hu]
    change used ps.diff calls ≠ [] at hne
    simpa using hne
  refine ⟨_, run_covariance (shrunk_lawful κ) ps _ hne', fun k => ?_⟩
  have hfold : ∀ xs : List (ι → ℝ), (xs.map (cols f)).foldl ewaUpdate (ewaInit ps.r : EwaState κ ℝ) =
      (let s := xs.foldl ewaUpdate (ewaInit ps.r : EwaState ι ℝ)
       (⟨⟨s.nSamples, cols f s.mean, colsMat f s.cov⟩, s.r, s.nBurn⟩ : EwaState κ ℝ)) := by
    intro xs
    induction xs using List.reverseRecOn with
    | nil => rfl
    | append_singleton xs x ih =>
      simp only [List.map_append, List.map_cons, List.map_nil, List.foldl_append, List.foldl_cons, List.foldl_nil, ih]
      exact ewa_pick f _ x
  change toSymmetric (shrunkCov ps ((used ps.diff (calls.map (mapCall (cols f)))).foldl ewaUpdate (ewaInit ps.r))) k k =
    toSymmetric (shrunkCov ps ((used ps.diff calls).foldl ewaUpdate (ewaInit ps.r))) (f k) (f k)
  rw [hu, hfold]
  generalize (used ps.diff calls).foldl ewaUpdate (ewaInit ps.r) = s
  simp [shrunkCov, toSymmetric, ht, colsMat]

/-! ## Estimators for which a column of zeros matters -/

/-- Rows `a * u`, one after the other, all in the direction `u`. -/
def along (u : ι → ℝ) (as : List ℝ) : List (ι → ℝ) := as.map fun a i => a * u i

theorem burn_fifth : ewaBurnN (1 / 5 : ℝ) = 5 := by unfold ewaBurnN; norm_num; rfl

/-- Five rows with mean 0 and variance 1 in the direction `u`. -/
theorem emp_along (u : ι → ℝ) :
    (along u [3 / 2, -3 / 2, 1 / 2, -1 / 2, 0]).foldl empUpdate (empInit : EmpState ι ℝ) = ⟨5, fun _ => 0, outer u u⟩ := by
  simp only [along, List.map_cons, List.map_nil, List.foldl_cons, List.foldl_nil, empUpdate, empInit]
  congr 1
  · funext i; norm_num; ring
  · ext i j
    simp only [outer, of_apply, Matrix.zero_apply]
    norm_num
    ring

theorem unit_pinv (L : Lapack) {u : ι → ℝ} (hu : ∑ i, u i * u i = 1) : tryInvert L (outer u u) = outer u u := by
  have hs : Symm (outer u u) := fun i j => by simp [outer, mul_comm]
  have hm : outer u u * outer u u = outer u u := by
    ext i j
    simp only [outer, Matrix.mul_apply, of_apply]
    have : ∀ k, u i * u k * (u k * u j) = (u i * u j) * (u k * u k) := fun k => by ring
    simp only [this, ← Finset.mul_sum, hu, mul_one]
  refine IsPinv.unique (tryInvert_pinv L hs) ⟨?_, ?_, ?_, ?_⟩ <;> simp only [hm]
  · exact hs
  · exact hs

theorem unit_quad {u : ι → ℝ} (hu : ∑ i, u i * u i = 1) (a : ℝ) : Spec.quad (outer u u) (fun i => a * u i) = a ^ 2 := by
  have h1 : ∀ i, (outer u u *ᵥ fun i => a * u i) i = a * u i := by
    intro i
    simp only [Matrix.mulVec, dotProduct, outer, of_apply]
    have : ∀ k, u i * u k * (a * u k) = (a * u i) * (u k * u k) := fun k => by ring
    simp only [this, ← Finset.mul_sum, hu, mul_one]
  simp only [Spec.quad, dotProduct, h1]
  have : ∀ k, a * u k * (a * u k) = a ^ 2 * (u k * u k) := fun k => by ring
  simp only [this, ← Finset.mul_sum, hu, mul_one]

theorem huber_burn_fold (L : Lapack) (pr : HuberParam) (xs : List (ι → ℝ)) (s : EwaState ι ℝ) (h : s.nSamples + xs.length ≤ s.nBurn) :
    xs.foldl (huberUpdate L pr) s = { s with toEmpState := xs.foldl empUpdate s.toEmpState } := by
  induction xs generalizing s with
  | nil => rfl
  | cons x xs ih =>
    simp only [List.length_cons] at h
    have e : huberUpdate L pr s x = ewaBurnStep s x := by unfold huberUpdate; rw [if_pos (by omega)]
    simp only [List.foldl_cons, e]
    rw [ih _ (by show s.nSamples + 1 + xs.length ≤ s.nBurn; omega)]
    rfl

theorem ada_burn_fold (L : Lapack) (xs : List (ι → ℝ)) (s : AdaState ι) (h : s.nSamples + xs.length ≤ s.nBurn) :
    xs.foldl (adaUpdate L) s = { s with toEmpState := xs.foldl empUpdate s.toEmpState } := by
  induction xs generalizing s with
  | nil => rfl
  | cons x xs ih =>
    simp only [List.length_cons] at h
    have e : adaUpdate L s x = { s with toEwaState := ewaBurnStep s.toEwaState x } := by unfold adaUpdate; rw [if_pos (by omega)]
    simp only [List.foldl_cons, e]
    rw [ih _ (by show s.nSamples + 1 + xs.length ≤ s.nBurn; omega)]
    rfl

/-- HuberCovariance fed `3/2, -3/2, 1/2, -1/2, 0, 5/4` in a unit direction of a `d`-column stream. -/
theorem huber_along (L : Lapack) {u : ι → ℝ} (hu : ∑ i, u i * u i = 1) :
    ((new (huberCls L ι) ⟨1 / 5, 1, false⟩).run [.partialFit (.batch (along u [3 / 2, -3 / 2, 1 / 2, -1 / 2, 0] ++ along u [5 / 4]))]).location =
      .ok fun i => 1 / 5 * ((if (5 / 4 : ℝ) ^ 2 ≤ Fintype.card ι then 1 else Real.sqrt ((Fintype.card ι : ℝ) / (5 / 4) ^ 2)) * (5 / 4 * u i)) := by
  have hused : used false [.partialFit (.batch (along u [3 / 2, -3 / 2, 1 / 2, -1 / 2, 0] ++ along u [5 / 4]))] =
      along u [3 / 2, -3 / 2, 1 / 2, -1 / 2, 0] ++ along u [5 / 4] := by
    simp [used, effective, rowsSinceFit, rowsOf]
  refine (run_location (huber_lawful L ι) _ _ (by
    show used false _ ≠ []
    rw [hused]; simp [along])).trans ?_
  change Except.ok ((used false _).foldl (huberUpdate L ⟨1 / 5, 1, false⟩) (ewaInit (1 / 5))).mean = _
  rw [hused, List.foldl_append, huber_burn_fold L _ (along u [3 / 2, -3 / 2, 1 / 2, -1 / 2, 0]) _ (by
    show 0 + 5 ≤ ewaBurnN (1 / 5 : ℝ)
    rw [burn_fifth])]
  rw [show (ewaInit (1 / 5) : EwaState ι ℝ).toEmpState = empInit from rfl, emp_along]
  simp only [along, List.map_cons, List.map_nil, List.foldl_cons, List.foldl_nil, huberUpdate, ewaInit, burn_fifth, lt_irrefl, if_false,
    huberWeight, unit_pinv L hu, sub_zero, unit_quad hu, one_pow, one_mul, zero_add]

/-- AdaptiveEwaCovariance fed `3/2, -3/2, 1/2, -1/2, 0, 3` in a unit direction of a `d`-column stream. -/
theorem ada_along (L : Lapack) {u : ι → ℝ} (hu : ∑ i, u i * u i = 1) :
    ((new (adaptiveCls L ι) ⟨1 / 5, 1, false⟩).run [.partialFit (.batch (along u [3 / 2, -3 / 2, 1 / 2, -1 / 2, 0] ++ along u [3]))]).location =
      .ok fun i => min (max (1 / 5 * ((1 - 1 / 10) * 1 + 1 / 10 * (if 0 < Fintype.card ι then (3 : ℝ) ^ 2 / Fintype.card ι else 1))) (1 / 5)) 1 * (3 * u i) := by
  have hused : used false [.partialFit (.batch (along u [3 / 2, -3 / 2, 1 / 2, -1 / 2, 0] ++ along u [3]))] =
      along u [3 / 2, -3 / 2, 1 / 2, -1 / 2, 0] ++ along u [3] := by
    simp [used, effective, rowsSinceFit, rowsOf]
  refine (run_location (adaptive_lawful L ι) _ _ (by
    show used false _ ≠ []
    rw [hused]; simp [along])).trans ?_
  change Except.ok ((used false _).foldl (adaUpdate L) { toEwaState := ewaInit (1 / 5), maxR := 1, sbar := 1 }).mean = _
  rw [hused, List.foldl_append, ada_burn_fold L (along u [3 / 2, -3 / 2, 1 / 2, -1 / 2, 0]) _ (by
    show 0 + 5 ≤ ewaBurnN (1 / 5 : ℝ)
    rw [burn_fifth])]
  rw [show (AdaState.mk (ewaInit (1 / 5)) 1 1 : AdaState ι).toEwaState.toEmpState = empInit from rfl, emp_along]
  simp only [along, List.map_cons, List.map_nil, List.foldl_cons, List.foldl_nil, adaUpdate, ewaInit, burn_fifth, lt_irrefl, if_false,
    adaRate, adaSbar, unit_pinv L hu, sub_zero, unit_quad hu, ewaBlend, mul_zero, zero_add]

/-- C125, finding: a column that is always zero changes what HuberCovariance and AdaptiveEwaCovariance say about the other column. On the
same observations of one asset the location is 1/5 when it is watched alone and 1/4 beside the dead column (Huber), 27/25 and 81/100 (Adaptive). -/
theorem C125_dead_column_huber_adaptive (L : Lapack) :
    (∃ (m : Fin 1 → ℝ) (m' : Fin 2 → ℝ),
      ((new (huberCls L (Fin 1)) ⟨1 / 5, 1, false⟩).run [.partialFit (.batch [![3 / 2], ![-3 / 2], ![1 / 2], ![-1 / 2], ![0], ![5 / 4]])]).location = .ok m ∧
      ((new (huberCls L (Fin 2)) ⟨1 / 5, 1, false⟩).run [.partialFit (.batch [![3 / 2, 0], ![-3 / 2, 0], ![1 / 2, 0], ![-1 / 2, 0], ![0, 0], ![5 / 4, 0]])]).location = .ok m' ∧
      m 0 = 1 / 5 ∧ m' 0 = 1 / 4) ∧
    (∃ (m : Fin 1 → ℝ) (m' : Fin 2 → ℝ),
      ((new (adaptiveCls L (Fin 1)) ⟨1 / 5, 1, false⟩).run [.partialFit (.batch [![3 / 2], ![-3 / 2], ![1 / 2], ![-1 / 2], ![0], ![3]])]).location = .ok m ∧
      ((new (adaptiveCls L (Fin 2)) ⟨1 / 5, 1, false⟩).run [.partialFit (.batch [![3 / 2, 0], ![-3 / 2, 0], ![1 / 2, 0], ![-1 / 2, 0], ![0, 0], ![3, 0]])]).location = .ok m' ∧
      m 0 = 27 / 25 ∧ m' 0 = 81 / 100) := by
  have r1 : ∀ a : ℝ, (fun i => a * (![1] : Fin 1 → ℝ) i) = ![a] := fun a => by funext i; fin_cases i; simp
  have r2 : ∀ a : ℝ, (fun i => a * (![1, 0] : Fin 2 → ℝ) i) = ![a, 0] := fun a => by funext i; fin_cases i <;> simp
  have u1 : ∑ i, (![1] : Fin 1 → ℝ) i * (![1] : Fin 1 → ℝ) i = 1 := by simp
  have u2 : ∑ i, (![1, 0] : Fin 2 → ℝ) i * (![1, 0] : Fin 2 → ℝ) i = 1 := by simp
  have h1 := huber_along L u1
  have h2 := huber_along L u2
  have a1 := ada_along L u1
  have a2 := ada_along L u2
  simp only [along, r1, r2, List.map_cons, List.map_nil, List.cons_append, List.nil_append] at h1 h2 a1 a2
  have hsq : Real.sqrt (16 / 25) = 4 / 5 := by
    rw [show (16 / 25 : ℝ) = (4 / 5) ^ 2 by norm_num]; exact Real.sqrt_sq (by norm_num)
  refine ⟨⟨_, _, h1, h2, ?_, ?_⟩, ⟨_, _, a1, a2, ?_, ?_⟩⟩
  · norm_num [hsq]
  · norm_num
  · norm_num
  · norm_num

/-- C125, finding: the mean of FactorCovariance(k=2, r=1/2) after `0, 0, 1` is 1/2 for one column alone and 1/3 beside a column of zeros. -/
theorem C125_dead_column_factor :
    ∃ (m : Fin 1 → ℝ) (m' : Fin 2 → ℝ),
      ((new (factorCls (Fin 1)) ⟨2, 1 / 2, false⟩).run [.partialFit (.batch [![0], ![0], ![1]])]).location = .ok m ∧
      ((new (factorCls (Fin 2)) ⟨2, 1 / 2, false⟩).run [.partialFit (.batch [![0, 0], ![0, 0], ![1, 0]])]).location = .ok m' ∧
      m 0 = 1 / 2 ∧ m' 0 = 1 / 3 := by
  have e1 : used false [.partialFit (.batch [![0], ![0], ![(1 : ℝ)]])] = [![0], ![0], ![(1 : ℝ)]] := by
    simp [used, effective, rowsSinceFit, rowsOf]
  have e2 : used false [.partialFit (.batch [![0, 0], ![0, 0], ![(1 : ℝ), 0]])] = [![0, 0], ![0, 0], ![(1 : ℝ), 0]] := by
    simp [used, effective, rowsSinceFit, rowsOf]
  refine ⟨_, _, run_location (factor_lawful (Fin 1)) _ _ (by show used false _ ≠ []; rw [e1]; simp),
    run_location (factor_lawful (Fin 2)) _ _ (by show used false _ ≠ []; rw [e2]; simp), ?_, ?_⟩
  · show ((used false [.partialFit (.batch [![0], ![0], ![(1 : ℝ)]])]).foldl factorUpdate (factorInit ⟨2, 1 / 2, false⟩)).mean 0 = 1 / 2
    rw [e1]
    norm_num [factorUpdate, factorInit]
  · show ((used false [.partialFit (.batch [![0, 0], ![0, 0], ![(1 : ℝ), 0]])]).foldl factorUpdate (factorInit ⟨2, 1 / 2, false⟩)).mean 0 = 1 / 3
    rw [e2]
    norm_num [factorUpdate, factorInit]

/-- C125, finding: the variance OASCovariance reports for the observations `1, -1` of one column is 1 when it is watched alone and less than 1
beside a column of zeros (which is given the difference). -/
theorem C125_dead_column_oas :
    ∃ (c : Matrix (Fin 1) (Fin 1) ℝ) (c' : Matrix (Fin 2) (Fin 2) ℝ),
      ((new (oasCls (Fin 1) ℝ) ⟨1 / 10, false⟩).run [.partialFit (.batch [![1], ![-1]])]).covariance = .ok c ∧
      ((new (oasCls (Fin 2) ℝ) ⟨1 / 10, false⟩).run [.partialFit (.batch [![1, 0], ![-1, 0]])]).covariance = .ok c' ∧
      c 0 0 = 1 ∧ c' 0 0 = 9 / 10 ∧ c' 1 1 = 1 / 10 := by
  have e1 : used false [.partialFit (.batch [![1], ![(-1 : ℝ)]])] = [![1], ![(-1 : ℝ)]] := by
    simp [used, effective, rowsSinceFit, rowsOf]
  have e2 : used false [.partialFit (.batch [![1, 0], ![(-1 : ℝ), 0]])] = [![1, 0], ![(-1 : ℝ), 0]] := by
    simp [used, effective, rowsSinceFit, rowsOf]
  have hb : ewaBurnN (1 / 10 : ℝ) = 10 := by unfold ewaBurnN; norm_num; rfl
  have c1 : (ewaUpdate (ewaUpdate (ewaInit (1 / 10)) ![1]) ![-1] : EwaState (Fin 1) ℝ).cov = !![1] := by
    ext i j; fin_cases i; fin_cases j
    norm_num [ewaUpdate, ewaInit, hb, ewaBurnStep, empUpdate, empInit]
  have c2 : (ewaUpdate (ewaUpdate (ewaInit (1 / 10)) ![1, 0]) ![-1, 0] : EwaState (Fin 2) ℝ).cov = !![1, 0; 0, 0] := by
    ext i j; fin_cases i <;> fin_cases j <;> norm_num [ewaUpdate, ewaInit, hb, ewaBurnStep, empUpdate, empInit]
  have d1 : (ewaUpdate (ewaUpdate (ewaInit (1 / 10)) ![1]) ![-1] : EwaState (Fin 1) ℝ).r = 1 / 10 := by
    norm_num [ewaUpdate, ewaInit, hb, ewaBurnStep, empUpdate, empInit]
  have d2 : (ewaUpdate (ewaUpdate (ewaInit (1 / 10)) ![1, 0]) ![-1, 0] : EwaState (Fin 2) ℝ).r = 1 / 10 := by
    norm_num [ewaUpdate, ewaInit, hb, ewaBurnStep, empUpdate, empInit]
  refine ⟨_, _, run_covariance (oas_lawful (Fin 1) ℝ) _ _ (by show used false _ ≠ []; rw [e1]; simp),
    run_covariance (oas_lawful (Fin 2) ℝ) _ _ (by show used false _ ≠ []; rw [e2]; simp), ?_, ?_⟩
  · show toSymmetric (oasCov ((used false [.partialFit (.batch [![1], ![(-1 : ℝ)]])]).foldl ewaUpdate (ewaInit (1 / 10)))) 0 0 = 1
    rw [e1]
    simp only [List.foldl_cons, List.foldl_nil]
    generalize (ewaUpdate (ewaUpdate (ewaInit (1 / 10)) ![1]) ![-1] : EwaState (Fin 1) ℝ) = s at *
    norm_num [toSymmetric, oasCov, c1, d1, Matrix.trace]
  · show toSymmetric (oasCov ((used false [.partialFit (.batch [![1, 0], ![(-1 : ℝ), 0]])]).foldl ewaUpdate (ewaInit (1 / 10)))) 0 0 = 9 / 10 ∧
      toSymmetric (oasCov ((used false [.partialFit (.batch [![1, 0], ![(-1 : ℝ), 0]])]).foldl ewaUpdate (ewaInit (1 / 10)))) 1 1 = 1 / 10
    rw [e2]
    simp only [List.foldl_cons, List.foldl_nil]
    generalize (ewaUpdate (ewaUpdate (ewaInit (1 / 10)) ![1, 0]) ![-1, 0] : EwaState (Fin 2) ℝ) = s at *
    norm_num [toSymmetric, oasCov, c2, d2, Matrix.trace, Fin.sum_univ_two, Matrix.mul_apply]

/-! Non-vacuity -/

/-- The hypotheses of `C125_location_factor`: `k = 1`, one of two columns. -/
example : LocationPicks (factorCls (Fin 2)) (factorCls (Fin 1)) ⟨1, 1 / 2, false⟩ ⟨1, 1 / 2, false⟩ (fun _ => 1) :=
  C125_location_factor _ _ (by simp) (by simp)

/-- EwaCovariance on the second of two columns. -/
example : ((new (ewaCls (Fin 1) ℝ) ⟨1 / 10, true⟩).run [.partialFit (.batch [![3], ![5], ![1]])]).covariance =
    ((new (ewaCls (Fin 2) ℝ) ⟨1 / 10, true⟩).run [.partialFit (.batch [![7, 3], ![1, 5], ![2, 1]])]).covariance.map (colsMat fun _ : Fin 1 => (1 : Fin 2)) := by
  have h := ((C125_empirical_ewa (fun _ : Fin 1 => (1 : Fin 2)) true ⟨1 / 10, true⟩).2 [.partialFit (.batch [![7, 3], ![1, 5], ![2, 1]])]).2.2
  simp only [List.map_cons, List.map_nil, mapCall] at h
  have e : ∀ a b : ℝ, cols (fun _ : Fin 1 => (1 : Fin 2)) ![a, b] = ![b] := fun a b => by funext i; fin_cases i; rfl
  simpa only [e] using h

end Precise
