import Verif.Props.Translate
import Verif.Props.Base

/-!
# C100: what `diff=True` makes irrelevant: the level of the series, and (for the translation-invariant classes) a linear trend
-/

set_option linter.all false

open Matrix

namespace Precise

namespace Spec

/-- The rows `x₀, x₁ + b, x₂ + 2b, …` (starting the count at `k`): a linear trend with slope `b` added to the series. -/
def addTrendFrom {ι : Type} (b : ι → ℝ) : ℕ → List (ι → ℝ) → List (ι → ℝ)
  | _, [] => []
  | k, x :: xs => (x + (k : ℝ) • b) :: addTrendFrom b (k + 1) xs

/-- The rows `x₀, x₁ + b, x₂ + 2b, …`. -/
def addTrend {ι : Type} (b : ι → ℝ) (xs : List (ι → ℝ)) : List (ι → ℝ) := addTrendFrom b 0 xs

/-- Estimating on the rows with a linear trend of slope `b` (however the rows are cut into calls) gives the same sample count and
`covariance_`, and a `location_` larger by `b`. -/
def Detrends {ι : Type} [Fintype ι] (C : Cls ι ℝ) (p : C.Param) : Prop :=
  ∀ (b : ι → ℝ) (calls calls' : List (Call ι ℝ)), rowsSinceFit calls' [] = addTrend b (rowsSinceFit calls []) →
    ((Obj.new C p).run calls').nSamples = ((Obj.new C p).run calls).nSamples ∧
    ((Obj.new C p).run calls').location = ((Obj.new C p).run calls).location.map (fun m => m + b) ∧
    ((Obj.new C p).run calls').covariance = ((Obj.new C p).run calls).covariance

end Spec

open Spec Obj

section Generic
variable {ι K : Type} [Fintype ι] [Field K]

theorem diffs_add_right (b : ι → K) (xs : List (ι → K)) : diffs (xs.map fun x => x + b) = diffs xs := by
  induction xs with
  | nil => rfl
  | cons x xs ih =>
    cases xs with
    | nil => rfl
    | cons y t => simp only [List.map_cons, diffs] at ih ⊢; rw [ih]; simp

/-- C100: with `diff=True` the level of the series is irrelevant: adding the same constant row to every row, in every call, changes
neither the state nor anything read from it. For every estimator class. -/
theorem C100_level {C : Cls ι K} (p : C.Param) (hd : C.diff p = true) (b : ι → K) (calls : List (Call ι K)) :
    let o := (new C p).run calls
    let o' := (new C p).run (calls.map (mapCall fun x => x + b))
    o'.state = o.state ∧ o'.nSamples = o.nSamples ∧ o'.location = o.location ∧ o'.covariance = o.covariance := by
  intro o o'
  have hu : used (C.diff p) (calls.map (mapCall fun x => x + b)) = used (C.diff p) calls := by
    have h := rowsSinceFit_map (fun x : ι → K => x + b) calls []
    simp only [List.map_nil] at h
    simp only [used, hd, effective, if_true, h, diffs_add_right]
  have hs : o'.state = o.state := by
    have h1 := run_new_state p calls
    have h2 := run_new_state p (calls.map (mapCall fun x => x + b))
    change _ = match Spec.used (C.diff p) calls with | [] => none | ys => _ at h1
    change _ = match Spec.used (C.diff p) (calls.map (mapCall fun x => x + b)) with | [] => none | ys => _ at h2
    rw [hu] at h2
    exact h2.trans h1.symm
  have hp : o'.params = o.params := ((run_new p _).1).trans ((run_new p calls).1).symm
  refine ⟨hs, ?_, ?_, ?_⟩
  · simp only [Obj.nSamples, hs]
  · simp only [Obj.location, fittedState, hs, hp]
  · simp only [Obj.covariance, fittedState, hs, hp]

end Generic

variable {ι : Type} [Fintype ι] [DecidableEq ι]

theorem diffs_addTrendFrom (b : ι → ℝ) (k : ℕ) (xs : List (ι → ℝ)) : diffs (addTrendFrom b k xs) = (diffs xs).map fun x => x + b := by
  induction xs generalizing k with
  | nil => rfl
  | cons x xs ih =>
    cases xs with
    | nil => rfl
    | cons y t =>
      have := ih (k + 1)
      simp only [addTrendFrom, diffs, List.map_cons] at this ⊢
      rw [this]
      congr 1
      ext i; simp; ring

/-- C100: for every class that is invariant under a change of origin when it does not difference, differencing removes a linear
trend. -/
theorem C100_detrends {C : Cls ι ℝ} (hC : Lawful C) (p : C.Param) (hd : C.diff p = true)
    (hT : ∀ b : ι → ℝ, Transports C C (C.withDiff false p) (C.withDiff false p) (fun x => x + b) (fun m => m + b) id) :
    Detrends C p := by
  intro b calls calls' h
  have hdf : diffs (rowsSinceFit calls' []) = (diffs (rowsSinceFit calls [])).map fun x => x + b := by
    rw [h]; exact diffs_addTrendFrom b 0 _
  have h1 := C05_diff hC p hd calls
  have h2 := C05_diff hC p hd calls'
  simp only at h1 h2
  rw [hdf] at h2
  have h3 := hT b [.partialFit (.batch (diffs (rowsSinceFit calls [])))]
  simp only [List.map_cons, List.map_nil, mapCall, run, List.foldl_cons, List.foldl_nil, Obj.call] at h3
  refine ⟨?_, ?_, ?_⟩
  · exact h2.2.1.trans (h3.1.trans h1.2.1.symm)
  · exact h2.2.2.1.trans (h3.2.1.trans (by rw [← h1.2.2.1]))
  · refine h2.2.2.2.trans (h3.2.2.trans ?_)
    rw [← h1.2.2.2]
    show Except.map id ((new C p).run calls).covariance = ((new C p).run calls).covariance
    cases ((new C p).run calls).covariance <;> rfl

theorem orth_one : Orth (1 : Matrix ι ι ℝ) := by
  exact ⟨by simp, by simp⟩

/-- a similarity theorem at the identity, as a translation theorem -/
theorem translation_of_similarity {C : Cls ι ℝ} {p : C.Param} {d : Bool} (hd : d = false)
    (h : ∀ b : ι → ℝ, Transports C C p p (affine ((1 : ℝ) • (1 : Matrix ι ι ℝ)) b) (affine ((1 : ℝ) • (1 : Matrix ι ι ℝ)) (offset d b))
      (fun a => (1 : ℝ) ^ 2 • ((1 : Matrix ι ι ℝ) * a * (1 : Matrix ι ι ℝ)ᵀ))) (b : ι → ℝ) :
    Transports C C p p (fun x => x + b) (fun m => m + b) id := by
  have := h b
  subst hd
  have e : ∀ c : ι → ℝ, affine ((1:ℝ) • (1 : Matrix ι ι ℝ)) c = fun x => x + c := fun c => funext fun x => by rw [one_smul]; exact affine_one c x
  rw [e, e] at this
  have e2 : (fun a : Matrix ι ι ℝ => (1 : ℝ) ^ 2 • ((1 : Matrix ι ι ℝ) * a * (1 : Matrix ι ι ℝ)ᵀ)) = id := by ext a; simp
  rw [e2] at this
  exact this

/-- C100: EmpiricalCovariance(diff=True) removes a linear trend. -/
theorem C100_empirical_trend : Detrends (empiricalCls ι ℝ) true := by
  refine C100_detrends (empirical_lawful ι ℝ) true rfl fun b => ?_
  have hu : ∀ calls : List (Call ι ℝ), used false (calls.map (mapCall fun x => x + b)) = (used false calls).map (fun x => x + b) :=
    fun calls => by have := used_shift false b calls; exact this
  refine transports_of_sim (empirical_lawful ι ℝ) (empirical_lawful ι ℝ) rfl (g₁ := fun x => x + b) hu
    (fun (s t : EmpState ι ℝ) => t.nSamples = s.nSamples ∧ t.cov = s.cov ∧ (0 < s.nSamples → t.mean = s.mean + b)) ⟨rfl, rfl, fun h => absurd (show (0:ℕ) < 0 from h) (lt_irrefl 0)⟩
    ?_ (fun s t h h0 => h.2.2 h0) (fun s t h h0 => by
      show toSymmetric (EmpState.cov t) = toSymmetric (EmpState.cov s)
      rw [h.2.1])
  rintro (s : EmpState ι ℝ) (t : EmpState ι ℝ) x ⟨hn, hc, hm⟩
  have hn1 : (empUpdate t (x + b)).nSamples = (empUpdate s x).nSamples := by simp [empUpdate, hn]
  refine ⟨hn1, ?_, fun _ => ?_⟩
  · show (empUpdate t (x + b)).cov = (empUpdate s x).cov
    rw [empUpdate_cov, empUpdate_cov, hn, hc]
    rcases Nat.eq_zero_or_pos s.nSamples with h0 | h0
    · simp [h0]
    · rw [hm h0]; congr 3 <;> (ext i; simp)
  · show (empUpdate t (x + b)).mean = (empUpdate s x).mean + b
    rw [empUpdate_mean, empUpdate_mean, hn]
    ext i
    rcases Nat.eq_zero_or_pos s.nSamples with h0 | h0
    · simp [h0]
    · rw [hm h0]; simp only [Pi.add_apply]; ring

/-- C100: EwaCovariance(diff=True). -/
theorem C100_ewa_trend (r : ℝ) : Detrends (ewaCls ι ℝ) (⟨r, true⟩ : RParam ℝ) := by
  refine C100_detrends (ewa_lawful ι ℝ) _ rfl fun b => ?_
  show Transports (ewaCls ι ℝ) (ewaCls ι ℝ) (⟨r, false⟩ : RParam ℝ) (⟨r, false⟩ : RParam ℝ) _ _ _
  refine transports_of_sim (ewa_lawful ι ℝ) (ewa_lawful ι ℝ) rfl (g₁ := fun x => x + offset false b) (fun calls => used_shift false b calls)
    (EwaRel (1 : Matrix ι ι ℝ) (offset false b)) (ewaRel_init r) (fun s t x h => h.update_one x)
    (fun s t h h0 => h.mean_one h0) ?_
  intro (s : EwaState ι ℝ) (t : EwaState ι ℝ) h h0
  show toSymmetric t.cov = toSymmetric s.cov
  rw [h.cov_one]

/-- C100: LedoitWolfCovariance(diff=True). -/
theorem C100_ledoitWolf_trend (r : ℝ) : Detrends (ledoitWolfCls ι ℝ) (⟨r, true⟩ : RParam ℝ) :=
  C100_detrends (ledoitWolf_lawful ι ℝ) _ rfl
    (translation_of_similarity (d := false) rfl fun b => C65_ledoitWolf_similarity orth_one one_ne_zero b (⟨r, false⟩ : RParam ℝ))

/-- C100: OASCovariance(diff=True). -/
theorem C100_oas_trend (r : ℝ) : Detrends (oasCls ι ℝ) (⟨r, true⟩ : RParam ℝ) :=
  C100_detrends (oas_lawful ι ℝ) _ rfl
    (translation_of_similarity (d := false) rfl fun b => C65_oas_similarity orth_one one_ne_zero b (⟨r, false⟩ : RParam ℝ))

variable (L : Lapack)

/-- C100: HuberCovariance(diff=True). -/
theorem C100_huber_trend (p : HuberParam) : Detrends (huberCls L ι) { p with diff := true } :=
  C100_detrends (huber_lawful L ι) _ rfl
    (translation_of_similarity (d := false) rfl fun b => C65_huber_similarity orth_one one_ne_zero b L { p with diff := false })

/-- C100: AdaptiveEwaCovariance(diff=True). -/
theorem C100_adaptive_trend (p : AdaParam) : Detrends (adaptiveCls L ι) { p with diff := true } :=
  C100_detrends (adaptive_lawful L ι) _ rfl
    (translation_of_similarity (d := false) rfl fun b => C65_adaptive_similarity orth_one one_ne_zero b L { p with diff := false })

/-- C100: GeodesicEwaCovariance(diff=True). -/
theorem C100_geodesic_trend (r : ℝ) : Detrends (geodesicCls L ι) (⟨r, true⟩ : RParam ℝ) := by
  refine C100_detrends (geodesic_lawful L ι) _ rfl (translation_of_similarity (d := false) rfl fun b => ?_)
  have := C65_geodesic_rigid L orth_one b (⟨r, false⟩ : RParam ℝ)
  show Transports (geodesicCls L ι) (geodesicCls L ι) (⟨r, false⟩ : RParam ℝ) (⟨r, false⟩ : RParam ℝ) _ _ _
  simpa only [one_smul, one_pow] using this

/-- C100: EmpiricalCovariance(diff=True): `location_` is the total change divided by the number of steps, whatever happened in
between. -/
theorem C100_drift (calls : List (Call ι ℝ)) (x y : ι → ℝ) (mid : List (ι → ℝ)) (h : rowsSinceFit calls [] = x :: (mid ++ [y])) :
    ((new (empiricalCls ι ℝ) true).run calls).location = .ok ((1 / (mid.length + 1 : ℝ)) • (y - x)) := by
  have hu : used true calls = diffs (x :: (mid ++ [y])) := by simp [used, effective, h]
  have hl : (diffs (x :: (mid ++ [y]))).length = mid.length + 1 := by rw [diffs_length]; simp
  have hs : ∀ (mid : List (ι → ℝ)) (x : ι → ℝ) (i : ι), ((diffs (x :: (mid ++ [y]))).map fun z => z i).sum = y i - x i := by
    intro mid
    induction mid with
    | nil => intro x i; simp [diffs]
    | cons z mid ih => intro x i; simp only [List.cons_append, diffs, List.map_cons, List.sum_cons, ih z i, Pi.sub_apply]; ring
  have hne : used true calls ≠ [] := by
    rw [hu]; intro h0; rw [h0] at hl; simp at hl
  rw [(C15_batch true calls hne).1, hu]
  congr 1
  ext i
  simp only [meanOf, hl, hs]
  simp
  ring

/-- C100: SchurCovariance(diff=True), SchurLedoitWolfCovariance(diff=True) and BlockCovariance(diff=True). -/
theorem C100_blocks_trend {p : ℕ} (hp : 1 ≤ p) (ps : SchurParam) (pb : BlockParam) :
    Detrends (schurCls L p) { ps with diff := true } ∧ Detrends (schurLWCls L p) { pb with diff := true } ∧
    Detrends (blockCls L p) { pb with diff := true } :=
  ⟨C100_detrends (schur_lawful L p) _ rfl fun b => C65_schur_translation L b { ps with diff := false },
   C100_detrends (schurLW_lawful L p) _ rfl fun b => C65_schurLW_translation L b { pb with diff := false },
   C100_detrends (block_lawful L p) _ rfl fun b => C65_block_translation L b hp { pb with diff := false }⟩

/-- C100 (limit): PartialMomentsCovariance(diff=True) does not remove a trend: its first innovation is measured from 0 (C67). -/
theorem C100_partialMoments_keeps_trend (r : ℝ) : ¬ Detrends (partialMomentsCls L (Fin 1)) (⟨r, true⟩ : RParam ℝ) := by
  intro h
  have key : ∀ a : ℝ, a ≠ 0 → ((new (partialMomentsCls L (Fin 1)) (⟨r, true⟩ : RParam ℝ)).run [.partialFit (.batch [![0], ![a]])]).covariance = .ok !![a ^ 2] := by
    intro a ha
    have h1 := (C05_diff (partialMoments_lawful L (Fin 1)) (⟨r, true⟩ : RParam ℝ) rfl [.partialFit (.batch [![0], ![a]])]).2.2.2
    rw [h1]
    have h2 := C67_first_partialMoments L r a ha
    have e : diffs (rowsSinceFit [Call.partialFit (.batch [![0], ![a]])] []) = [(![a] : Fin 1 → ℝ)] := by
      simp [rowsSinceFit, rowsOf, diffs]
    rw [e]
    exact h2
  have := (h ![1] [.partialFit (.batch [![0], ![1]])] [.partialFit (.batch [![0], ![2]])] (by
    simp [rowsSinceFit, rowsOf, addTrend, addTrendFrom]; norm_num)).2.2
  rw [key 1 one_ne_zero, key 2 two_ne_zero] at this
  have := congrFun (congrFun (Except.ok.inj this) 0) 0
  norm_num at this

/-! ## the hypotheses are met -/

/-- the random walk 0, 1, 3, 2 with the trend `10 t` and the level 5 added, fed in other chunks -/
example : ((new (empiricalCls (Fin 1) ℝ) true).run [.partialFit (.batch [![5], ![16]]), .partialFit (.row ![28]), .partialFit (.row ![37])]).covariance =
    ((new (empiricalCls (Fin 1) ℝ) true).run [.partialFit (.batch [![5], ![6], ![8], ![7]])]).covariance :=
  (C100_empirical_trend ![10] _ _ (by
    simp [rowsSinceFit, rowsOf, addTrend, addTrendFrom]
    refine ⟨?_, ?_, ?_⟩ <;> norm_num)).2.2

example : ((new (empiricalCls (Fin 1) ℝ) true).run [.partialFit (.batch [![5], ![6], ![8], ![7]])]).location = .ok ((1 / 3 : ℝ) • (![7] - ![5])) := by
  have := C100_drift [.partialFit (.batch [![5], ![6], ![8], ![7]])] (![5] : Fin 1 → ℝ) ![7] [![6], ![8]] (by simp [rowsSinceFit, rowsOf])
  rw [this]; norm_num

example (b : Fin 2 → ℝ) := C100_level (C := tylerCls L (Fin 2)) (⟨1/20, true⟩ : RParam ℝ) rfl b [.partialFit (.batch demoRows)]

end Precise
