import Verif.Props.Schur

/-!
# C22 (rest): `location_` of every estimator class

The classes that keep the EWA running mean report exactly EwaCovariance's `location_`; the others average with
their own rates and stay inside the range of the data.
-/

set_option linter.all false

open Matrix

namespace Precise

open Spec Obj

/-! ## The classes with EwaCovariance's mean -/

section Same

variable {ι K : Type} [Fintype ι] [DecidableEq ι] [Field K] [LinearOrder K] [IsStrictOrderedRing K] [FloorRing K]

/-- Two classes that agree on the mean after any nonempty stream report the same `location_` after any calls. -/
theorem location_eq {C D : Cls ι K} (hC : Lawful C) (hD : Lawful D) (p : C.Param) (q : D.Param) (hd : C.diff p = D.diff q)
    (h : ∀ xs : List (ι → K), xs ≠ [] → C.toMean p (xs.foldl (C.updateState p) (C.initState p)) = D.toMean q (xs.foldl (D.updateState q) (D.initState q)))
    (calls : List (Call ι K)) : ((new C p).run calls).location = ((new D q).run calls).location := by
  by_cases hne : used (C.diff p) calls = []
  · rw [(run_unfitted hC p calls hne).2, (run_unfitted hD q calls (by rw [← hd]; exact hne)).2]
  · rw [run_location hC p calls hne, run_location hD q calls (by rw [← hd]; exact hne), h _ hne, hd]

/-- C22: DiagonalCovariance, LedoitWolfCovariance and OASCovariance report EwaCovariance's `location_` after any calls. -/
theorem C22_same_location (p : RParam K) (calls : List (Call ι K)) :
    ((new (diagonalCls ι K) p).run calls).location = ((new (ewaCls ι K) p).run calls).location ∧
    ((new (ledoitWolfCls ι K) p).run calls).location = ((new (ewaCls ι K) p).run calls).location ∧
    ((new (oasCls ι K) p).run calls).location = ((new (ewaCls ι K) p).run calls).location := by
  refine ⟨?_, ?_, ?_⟩
  · exact location_eq (diagonal_lawful ι K) (ewa_lawful ι K) p p rfl (fun xs _ => diagFold_mean _ _ xs rfl rfl rfl rfl) calls
  · exact location_eq (ledoitWolf_lawful ι K) (ewa_lawful ι K) p p rfl
      (fun xs _ => congrArg (fun s : EwaState ι K => s.mean) (lwFold_ewa _ xs)) calls
  · exact location_eq (oas_lawful ι K) (ewa_lawful ι K) p p rfl (fun xs _ => rfl) calls

end Same

section SameReal

variable {ι : Type} [Fintype ι] [DecidableEq ι] (L : Lapack)

/-- C22: so do ShrunkCovariance, PartialMomentsCovariance, TylerCovariance and GeodesicEwaCovariance. -/
theorem C22_same_location_real (p : RParam ℝ) (delta : ℝ) (target : String) (calls : List (Call ι ℝ)) :
    ((new (shrunkCls ι) ⟨p.r, delta, target, p.diff⟩).run calls).location = ((new (ewaCls ι ℝ) p).run calls).location ∧
    ((new (partialMomentsCls L ι) p).run calls).location = ((new (ewaCls ι ℝ) p).run calls).location ∧
    ((new (tylerCls L ι) p).run calls).location = ((new (ewaCls ι ℝ) p).run calls).location ∧
    ((new (geodesicCls L ι) p).run calls).location = ((new (ewaCls ι ℝ) p).run calls).location := by
  refine ⟨?_, ?_, ?_, ?_⟩
  · exact location_eq (shrunk_lawful ι) (ewa_lawful ι ℝ) (⟨p.r, delta, target, p.diff⟩ : ShrunkParam) p rfl (fun xs _ => rfl) calls
  · exact location_eq (partialMoments_lawful L ι) (ewa_lawful ι ℝ) p p rfl (fun xs _ => pmFold_mean _ _ xs rfl rfl rfl rfl) calls
  · exact location_eq (tyler_lawful L ι) (ewa_lawful ι ℝ) p p rfl (fun xs _ => tylerFold_mean L _ _ xs rfl rfl rfl rfl) calls
  · exact location_eq (geodesic_lawful L ι) (ewa_lawful ι ℝ) p p rfl (fun xs _ => geodesicFold_mean L _ _ xs rfl rfl rfl rfl) calls

/-- C22: and so do BlockCovariance, SchurCovariance, SchurLedoitWolfCovariance and SchurConditionalCovariance. -/
theorem C22_same_location_blocks {d : ℕ} (hd : 1 ≤ d) (p : RParam ℝ) (nb : ℤ) (gamma : ℝ) (interp : String) (calls : List (Call (Fin d) ℝ)) :
    ((new (blockCls L d) ⟨p.r, nb, p.diff⟩).run calls).location = ((new (ewaCls (Fin d) ℝ) p).run calls).location ∧
    ((new (schurCls L d) ⟨p.r, nb, gamma, interp, p.diff⟩).run calls).location = ((new (ewaCls (Fin d) ℝ) p).run calls).location ∧
    ((new (schurLWCls L d) ⟨p.r, nb, p.diff⟩).run calls).location = ((new (ewaCls (Fin d) ℝ) p).run calls).location ∧
    ((new (schurCondCls L d) ⟨p.r, nb, p.diff⟩).run calls).location = ((new (ewaCls (Fin d) ℝ) p).run calls).location := by
  refine ⟨?_, ?_, ?_, ?_⟩
  · by_cases hne : used p.diff calls = []
    · rw [(run_unfitted (ewa_lawful _ _) p calls hne).2]
      exact (run_unfitted (block_lawful L d) (⟨p.r, nb, p.diff⟩ : BlockParam) calls hne).2
    · rw [(ewa_attrs p calls hne).1]
      exact (block_attrs L ⟨p.r, nb, p.diff⟩ hd calls hne).1
  · exact location_eq (schur_lawful L d) (ewa_lawful _ ℝ) (⟨p.r, nb, gamma, interp, p.diff⟩ : SchurParam) p rfl (fun xs _ => rfl) calls
  · exact location_eq (schurLW_lawful L d) (ewa_lawful _ ℝ) (⟨p.r, nb, p.diff⟩ : BlockParam) p rfl
      (fun xs _ => congrArg (fun s : EwaState (Fin d) ℝ => s.mean) (slwFold_ewa ⟨p.r, nb, p.diff⟩ _ xs)) calls
  · exact location_eq (schurCond_lawful L d) (ewa_lawful _ ℝ) (⟨p.r, nb, p.diff⟩ : BlockParam) p rfl (fun xs _ => rfl) calls

/-! ## The classes with their own rates -/

/-- A state whose mean is averaged with every observation (weight 1 on the first) stays in the range of the data. -/
theorem averaging_range {σ : Type} (upd : σ → (ι → ℝ) → σ) (mean : σ → ι → ℝ) (s0 : σ) (xs : List (ι → ℝ)) (hne : xs ≠ []) (i : ι)
    (hstep : ∀ (ys : List (ι → ℝ)) (x : ι → ℝ), ∃ t : ℝ, 0 ≤ t ∧ t ≤ 1 ∧ (ys = [] → t = 1) ∧
      mean (upd (ys.foldl upd s0) x) i = (1 - t) * mean (ys.foldl upd s0) i + t * x i)
    (lo hi : ℝ) (hx : ∀ x ∈ xs, lo ≤ x i ∧ x i ≤ hi) : lo ≤ mean (xs.foldl upd s0) i ∧ mean (xs.foldl upd s0) i ≤ hi := by
  induction xs using List.reverseRecOn with
  | nil => exact absurd rfl hne
  | append_singleton ys x ih =>
    rw [List.foldl_append, List.foldl_cons, List.foldl_nil]
    obtain ⟨t, t0, t1, t2, e⟩ := hstep ys x
    have hxi := hx x (by simp)
    rw [e]
    by_cases hy : ys = []
    · rw [t2 hy]; simpa using hxi
    · have := ih hy fun y hy => hx y (by simp [hy])
      constructor <;> nlinarith [this.1, this.2, hxi.1, hxi.2]

theorem inv_n_mem (n : ℕ) : (0:ℝ) ≤ 1 / ((n + 1 : ℕ) : ℝ) ∧ 1 / ((n + 1 : ℕ) : ℝ) ≤ 1 := by
  constructor
  · positivity
  · rw [div_le_one (by positivity)]; push_cast; linarith [Nat.cast_nonneg (α := ℝ) n]

/-- the burn-in step averages with weight `1/n` -/
theorem burn_avg (n : ℕ) (m x : ℝ) : m + (x - m) / ((n + 1 : ℕ) : ℝ) = (1 - 1 / ((n + 1 : ℕ) : ℝ)) * m + 1 / ((n + 1 : ℕ) : ℝ) * x := by
  field_simp; ring

theorem huberWeight_range (c : ℝ) (cov : Matrix ι ι ℝ) (d : ι → ℝ) : 0 ≤ huberWeight L c cov d ∧ huberWeight L c cov d ≤ 1 := by
  unfold huberWeight
  simp only []
  split
  · exact ⟨zero_le_one, le_rfl⟩
  · rename_i h
    push Not at h
    refine ⟨Real.sqrt_nonneg _, ?_⟩
    rw [Real.sqrt_le_left zero_le_one, one_pow, div_le_one (lt_of_le_of_lt (by positivity) h)]
    exact h.le

theorem huber_inv (pr : HuberParam) (ys : List (ι → ℝ)) :
    (ys.foldl (huberUpdate L pr) (ewaInit pr.r)).nSamples = ys.length ∧ (ys.foldl (huberUpdate L pr) (ewaInit pr.r)).r = pr.r ∧
    (ys.foldl (huberUpdate L pr) (ewaInit pr.r)).nBurn = ewaBurnN pr.r := by
  induction ys using List.reverseRecOn with
  | nil => exact ⟨rfl, rfl, rfl⟩
  | append_singleton ys x ih =>
    rw [List.foldl_append, List.foldl_cons, List.foldl_nil]
    generalize List.foldl (huberUpdate L pr) (ewaInit pr.r : EwaState ι ℝ) ys = s at ih ⊢
    unfold huberUpdate
    split
    · exact ⟨by simp [ewaBurnStep, empUpdate, ih.1], ih.2⟩
    · exact ⟨by simp [ih.1], ih.2⟩

/-- C22: HuberCovariance's `location_` stays in the range of the data for rates in (0,1]. -/
theorem C22_huber_range (pr : HuberParam) (h0 : 0 < pr.r) (h1 : pr.r ≤ 1) (calls : List (Call ι ℝ)) (m : ι → ℝ)
    (h : ((new (huberCls L ι) pr).run calls).location = .ok m) (i : ι) (lo hi : ℝ)
    (hx : ∀ x ∈ used pr.diff calls, lo ≤ x i ∧ x i ≤ hi) : lo ≤ m i ∧ m i ≤ hi := by
  obtain ⟨hne, rfl⟩ := run_location_inv (huber_lawful L ι) pr calls m h
  refine averaging_range (huberUpdate L pr) (fun s => s.mean) (ewaInit pr.r) _ hne i (fun ys x => ?_) lo hi hx
  obtain ⟨hn, hr, hb⟩ := huber_inv L pr ys
  set s := ys.foldl (huberUpdate L pr) (ewaInit pr.r)
  unfold huberUpdate
  by_cases hc : s.nSamples < s.nBurn
  · rw [if_pos hc]
    refine ⟨1 / ((s.nSamples + 1 : ℕ) : ℝ), (inv_n_mem _).1, (inv_n_mem _).2, fun hy => ?_, ?_⟩
    · rw [hn, hy]; simp
    · exact burn_avg _ _ _
  · rw [if_neg hc]
    simp only []
    have hw := huberWeight_range L pr.c s.cov (fun i => x i - s.mean i)
    set w := huberWeight L pr.c s.cov (fun i => x i - s.mean i)
    refine ⟨s.r * w, ?_, ?_, fun hy => ?_, ?_⟩
    · rw [hr]; exact mul_nonneg h0.le hw.1
    · rw [hr]; nlinarith [hw.1, hw.2]
    · exfalso
      rw [hn, hy, hb] at hc
      have := (C19_burn_length pr.r h0).2.2.1
      simp at hc; omega
    · show s.mean i + s.r * (w * (x i - s.mean i)) = _
      ring

theorem ada_inv (pr : AdaParam) (ys : List (ι → ℝ)) :
    let s := ys.foldl (adaUpdate L) { toEwaState := ewaInit pr.r, maxR := pr.maxR, sbar := 1 }
    s.nSamples = ys.length ∧ s.r = pr.r ∧ s.nBurn = ewaBurnN pr.r ∧ s.maxR = pr.maxR := by
  induction ys using List.reverseRecOn with
  | nil => exact ⟨rfl, rfl, rfl, rfl⟩
  | append_singleton ys x ih =>
    simp only [List.foldl_append, List.foldl_cons, List.foldl_nil]
    simp only [] at ih
    generalize List.foldl (adaUpdate L) ({ toEwaState := ewaInit pr.r, maxR := pr.maxR, sbar := 1 } : AdaState ι) ys = s at ih ⊢
    unfold adaUpdate
    split
    · exact ⟨by simp [ewaBurnStep, empUpdate, ih.1], ih.2⟩
    · exact ⟨by simp [ewaBlend, ih.1], ih.2⟩

theorem adaRate_range (s : AdaState ι) (d : ι → ℝ) : min s.r s.maxR ≤ adaRate L s d ∧ adaRate L s d ≤ s.maxR := by
  unfold adaRate
  exact ⟨min_le_min_right _ (le_max_right _ _), min_le_right _ _⟩

/-- C22: AdaptiveEwaCovariance's `location_` stays in the range of the data for `0 < r ≤ 1`, `0 ≤ max_r ≤ 1`. -/
theorem C22_adaptive_range (pr : AdaParam) (h0 : 0 < pr.r) (hm0 : 0 ≤ pr.maxR) (hm1 : pr.maxR ≤ 1) (calls : List (Call ι ℝ)) (m : ι → ℝ)
    (h : ((new (adaptiveCls L ι) pr).run calls).location = .ok m) (i : ι) (lo hi : ℝ)
    (hx : ∀ x ∈ used pr.diff calls, lo ≤ x i ∧ x i ≤ hi) : lo ≤ m i ∧ m i ≤ hi := by
  obtain ⟨hne, rfl⟩ := run_location_inv (adaptive_lawful L ι) pr calls m h
  refine averaging_range (adaUpdate L) (fun s => s.mean) ({ toEwaState := ewaInit pr.r, maxR := pr.maxR, sbar := 1 } : AdaState ι) _ hne i (fun ys x => ?_) lo hi hx
  obtain ⟨hn, hr, hb, hm⟩ := ada_inv L pr ys
  set s := ys.foldl (adaUpdate L) { toEwaState := ewaInit pr.r, maxR := pr.maxR, sbar := 1 }
  unfold adaUpdate
  by_cases hc : s.nSamples < s.nBurn
  · rw [if_pos hc]
    refine ⟨1 / ((s.nSamples + 1 : ℕ) : ℝ), (inv_n_mem _).1, (inv_n_mem _).2, fun hy => ?_, ?_⟩
    · rw [hn, hy]; simp
    · exact burn_avg _ _ _
  · rw [if_neg hc]
    simp only []
    have hw := adaRate_range L s (fun i => x i - s.mean i)
    rw [hr, hm] at hw
    refine ⟨adaRate L s (fun i => x i - s.mean i), le_trans (le_min h0.le hm0) hw.1, hw.2.trans hm1, fun hy => ?_, rfl⟩
    exfalso
    rw [hn, hy, hb] at hc
    have := (C19_burn_length pr.r h0).2.2.1
    simp at hc; omega

theorem dcc_inv (pr : DCCParam) (ys : List (ι → ℝ)) :
    let s := ys.foldl dccUpdate (dccInit pr : DCCState ι)
    s.nSamples = ys.length ∧ s.r = pr.r ∧ s.volR = pr.volR.getD pr.r ∧ s.nBurn = ewaBurnN (min pr.r (pr.volR.getD pr.r)) := by
  induction ys using List.reverseRecOn with
  | nil => exact ⟨rfl, rfl, rfl, rfl⟩
  | append_singleton ys x ih =>
    simp only [List.foldl_append, List.foldl_cons, List.foldl_nil]
    simp only [] at ih
    generalize List.foldl dccUpdate (dccInit pr : DCCState ι) ys = s at ih ⊢
    exact ⟨by rw [List.length_append, ← ih.1]; rfl, ih.2⟩

/-- C22: DCCCovariance's `location_` stays in the range of the data for volatility rates in [0,1]. -/
theorem C22_dcc_range (pr : DCCParam) (hr : 0 < pr.r) (h0 : 0 < pr.volR.getD pr.r) (h1 : pr.volR.getD pr.r ≤ 1) (calls : List (Call ι ℝ)) (m : ι → ℝ)
    (h : ((new (dccCls ι) pr).run calls).location = .ok m) (i : ι) (lo hi : ℝ)
    (hx : ∀ x ∈ used pr.diff calls, lo ≤ x i ∧ x i ≤ hi) : lo ≤ m i ∧ m i ≤ hi := by
  obtain ⟨hne, rfl⟩ := run_location_inv (dcc_lawful ι) pr calls m h
  refine averaging_range dccUpdate (fun s => s.mean) (dccInit pr : DCCState ι) _ hne i (fun ys x => ?_) lo hi hx
  obtain ⟨hn, hr', hv, hb⟩ := dcc_inv pr ys
  set s := ys.foldl dccUpdate (dccInit pr : DCCState ι)
  unfold dccUpdate
  simp only []
  by_cases hc : s.nSamples + 1 ≤ s.nBurn
  · rw [if_pos hc]
    refine ⟨1 / ((s.nSamples + 1 : ℕ) : ℝ), (inv_n_mem _).1, (inv_n_mem _).2, fun hy => ?_, ?_⟩
    · rw [hn, hy]; simp
    · exact burn_avg _ _ _
  · rw [if_neg hc]
    refine ⟨s.volR, by rw [hv]; exact h0.le, by rw [hv]; exact h1, fun hy => ?_, rfl⟩
    exfalso
    rw [hn, hy, hb] at hc
    have := (C19_burn_length (min pr.r (pr.volR.getD pr.r)) (lt_min hr h0)).2.2.1
    simp at hc; omega

theorem factor_inv (pr : FactorParam) (ys : List (ι → ℝ)) :
    let s := ys.foldl factorUpdate (factorInit pr : FactorState ι)
    s.nSamples = ys.length ∧ s.r = pr.r ∧ s.k = min pr.k (Fintype.card ι) ∧ s.nBurn = min pr.k (Fintype.card ι) + 1 := by
  induction ys using List.reverseRecOn with
  | nil => exact ⟨rfl, rfl, rfl, rfl⟩
  | append_singleton ys x ih =>
    simp only [List.foldl_append, List.foldl_cons, List.foldl_nil]
    simp only [] at ih
    generalize List.foldl factorUpdate (factorInit pr : FactorState ι) ys = s at ih ⊢
    exact ⟨by rw [List.length_append, ← ih.1]; rfl, ih.2⟩

/-- C22: FactorCovariance's `location_` stays in the range of the data for rates in [0,1]. -/
theorem C22_factor_range (pr : FactorParam) (h0 : 0 ≤ pr.r) (h1 : pr.r ≤ 1) (calls : List (Call ι ℝ)) (m : ι → ℝ)
    (h : ((new (factorCls ι) pr).run calls).location = .ok m) (i : ι) (lo hi : ℝ)
    (hx : ∀ x ∈ used pr.diff calls, lo ≤ x i ∧ x i ≤ hi) : lo ≤ m i ∧ m i ≤ hi := by
  obtain ⟨hne, rfl⟩ := run_location_inv (factor_lawful ι) pr calls m h
  refine averaging_range factorUpdate (fun s => s.mean) (factorInit pr : FactorState ι) _ hne i (fun ys x => ?_) lo hi hx
  obtain ⟨hn, hr', hk, hb⟩ := factor_inv pr ys
  set s := ys.foldl factorUpdate (factorInit pr : FactorState ι)
  unfold factorUpdate
  simp only []
  by_cases hc : s.nSamples + 1 ≤ s.nBurn
  · rw [if_pos hc]
    refine ⟨1 / ((s.nSamples + 1 : ℕ) : ℝ), (inv_n_mem _).1, (inv_n_mem _).2, fun hy => ?_, ?_⟩
    · rw [hn, hy]; simp
    · exact burn_avg _ _ _
  · rw [if_neg hc]
    refine ⟨s.r, by rw [hr']; exact h0, by rw [hr']; exact h1, fun hy => ?_, rfl⟩
    exfalso
    rw [hn, hy, hb] at hc
    simp at hc

end SameReal

section Examples
variable (L : Lapack)

-- each of the four classes reports a location inside [-2, 2] × [-1, 1] on the demo stream
example : ∃ m, ((new (huberCls L (Fin 2)) ⟨1/20, 3, false⟩).run [.partialFit (.batch demoRows)]).location = .ok m ∧ m 0 ≤ 2 := by
  have hu : used (⟨1/20, 3, false⟩ : HuberParam).diff [Call.partialFit (.batch demoRows)] = demoRows := demo_used
  refine ⟨_, run_location (huber_lawful L (Fin 2)) (⟨1/20, 3, false⟩ : HuberParam) _ (by
    show used false _ ≠ []; rw [demo_used]; simp [demoRows]), ?_⟩
  refine (C22_huber_range L ⟨1/20, 3, false⟩ (by norm_num) (by norm_num) _ _ (run_location (huber_lawful L (Fin 2)) (⟨1/20, 3, false⟩ : HuberParam) _ (by
    show used false _ ≠ []; rw [demo_used]; simp [demoRows])) 0 (-2) 2 ?_).2
  intro x hx
  rw [hu] at hx
  simp [demoRows] at hx
  rcases hx with rfl | rfl | rfl | rfl <;> norm_num

end Examples

end Precise
