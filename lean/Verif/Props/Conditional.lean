import Verif.Props.Dynamic
import Verif.Spec.Conditional

/-!
# C40: ConditionalCovariance
-/

set_option linter.all false

open Matrix

namespace Precise

open Spec

variable {ι : Type} [Fintype ι] {V : Cls (Fin 1) ℝ} {Sk : Type} {C : Cls ι ℝ}

/-! ### the volatility models -/

theorem nSamples_pos_iff {C : Cls ι ℝ} (o : Obj C) : 0 < o.nSamples ↔ ∃ s, o.fittedState = .ok s := by
  unfold Obj.nSamples Obj.fittedState
  cases o.state with
  | none => simp
  | some s =>
    simp only []
    split
    · constructor
      · intro h; omega
      · rintro ⟨_, h⟩; cases h
    · constructor
      · intro _; exact ⟨s, rfl⟩
      · intro _; omega

theorem volMean_eq (e : Obj V) : (VolModel.precise (Sk := Sk) e).mean = match e.location with | .ok m => m 0 | .error _ => 0 := by
  unfold VolModel.mean
  simp only []
  split
  · rfl
  · rename_i h
    rw [nSamples_pos_iff] at h
    unfold Obj.location
    rcases hs : e.fittedState with _ | s
    · rfl
    · exact absurd ⟨s, hs⟩ h

theorem volVar_eq (e : Obj V) : (VolModel.precise (Sk := Sk) e).variance = match e.covariance with | .ok c => c 0 0 | .error _ => 1 := by
  unfold VolModel.variance
  simp only []
  split
  · rfl
  · rename_i h
    rw [nSamples_pos_iff] at h
    unfold Obj.covariance
    rcases hs : e.fittedState with _ | s
    · rfl
    · exact absurd ⟨s, hs⟩ h

/-- the model of series `i` after the values `ys` -/
noncomputable def volFold (vm : VolModel V Sk) (ys : List ℝ) : VolModel V Sk := ys.foldl VolModel.push vm

theorem volFold_snoc (vm : VolModel V Sk) (ys : List ℝ) (y : ℝ) : volFold vm (ys ++ [y]) = (volFold vm ys).push y := by
  simp [volFold]

theorem volFold_spec (vol : VolArg V Sk) (vm : VolModel V Sk) (h : makeVol vol = .ok vm) (ys : List ℝ) :
    (volFold vm ys).mean = forecastMean vol ys ∧ (volFold vm ys).variance = forecastVar vol ys := by
  cases vol with
  | est o =>
    cases h
    have : volFold (VolModel.precise (Sk := Sk) o.clone) ys = .precise (volAfter o.params ys) := by
      induction ys using List.reverseRecOn with
      | nil => rfl
      | append_singleton ys y ih =>
        rw [volFold_snoc, ih]
        simp [VolModel.push, volAfter, Obj.run, Obj.call]
    rw [this, volMean_eq, volVar_eq]
    exact ⟨rfl, rfl⟩
  | skater f =>
    cases h
    have : volFold (VolModel.skater (V := V) f none 0 1) ys = .skater f ((skaterAfter f ys).map Prod.snd)
        (forecastMean (V := V) (.skater f) ys) (forecastVar (V := V) (.skater f) ys) := by
      induction ys using List.reverseRecOn with
      | nil => rfl
      | append_singleton ys y ih =>
        rw [volFold_snoc, ih]
        simp [VolModel.push, forecastMean, forecastVar, skaterAfter]
    rw [this]
    exact ⟨rfl, rfl⟩
  | other => cases h

/-! ### the object -/

theorem cond_step (vol : VolArg V Sk) (corr : Obj C) (vm : VolModel V Sk) (h : makeVol vol = .ok vm) (o : CondObj V Sk C)
    (hv : o.vol = vol) (hc : o.corr = corr) (x : ι → ℝ) :
    ∃ o', o.stepRow x = (o', .ok ()) ∧ o'.vol = vol ∧ o'.corr = corr ∧
      o'.state = some (CondObj.stepState (o.state.getD (CondObj.initState ⟨vol, corr, none, none⟩ vm)) x) := by
  unfold CondObj.stepRow
  subst hv hc
  rcases hs : o.state with _ | s
  · simp only [h]
    exact ⟨_, rfl, rfl, rfl, rfl⟩
  · exact ⟨_, rfl, rfl, rfl, rfl⟩

theorem cond_feed (vol : VolArg V Sk) (corr : Obj C) (vm : VolModel V Sk) (h : makeVol vol = .ok vm) (xs : List (ι → ℝ)) :
    ∀ o : CondObj V Sk C, o.vol = vol → o.corr = corr →
    ∃ o', o.feedRows xs = (o', .ok ()) ∧ o'.vol = vol ∧ o'.corr = corr ∧
      (xs = [] → o' = o) ∧
      (xs ≠ [] → o'.state = some (xs.foldl CondObj.stepState (o.state.getD (CondObj.initState ⟨vol, corr, none, none⟩ vm)))) := by
  induction xs with
  | nil => intro o hv hc; exact ⟨o, rfl, hv, hc, fun _ => rfl, fun h => absurd rfl h⟩
  | cons x xs ih =>
    intro o hv hc
    obtain ⟨o1, e1, v1, c1, s1⟩ := cond_step vol corr vm h o hv hc x
    obtain ⟨o2, e2, v2, c2, s2, s3⟩ := ih o1 v1 c1
    refine ⟨o2, (by unfold CondObj.feedRows; rw [e1]; exact e2), v2, c2, (fun h => absurd h (List.cons_ne_nil _ _)), fun _ => ?_⟩
    rcases eq_or_ne xs [] with rfl | hx
    · rw [s2 rfl, s1]; rfl
    · rw [s3 hx, s1]; rfl

/-- the state after the rows `xs` since the last reset -/
noncomputable def condAfter (vol : VolArg V Sk) (corr : Obj C) (vm : VolModel V Sk) (xs : List (ι → ℝ)) : Option (CondState V Sk C) :=
  match xs with
  | [] => none
  | x :: xs => some ((x :: xs).foldl CondObj.stepState (CondObj.initState ⟨vol, corr, none, none⟩ vm))

theorem condAfter_ne (vol : VolArg V Sk) (corr : Obj C) (vm : VolModel V Sk) {xs : List (ι → ℝ)} (hx : xs ≠ []) :
    condAfter vol corr vm xs = some (xs.foldl CondObj.stepState (CondObj.initState ⟨vol, corr, none, none⟩ vm)) := by
  cases xs with
  | nil => exact absurd rfl hx
  | cons x xs => rfl

theorem cond_run (vol : VolArg V Sk) (corr : Obj C) (vm : VolModel V Sk) (h : makeVol vol = .ok vm) (calls : List (Call ι ℝ)) :
    ∀ (o : CondObj V Sk C) (acc : List (ι → ℝ)), o.vol = vol → o.corr = corr → o.state = condAfter vol corr vm acc →
      (o.run calls).vol = vol ∧ (o.run calls).corr = corr ∧ (o.run calls).state = condAfter vol corr vm (rowsSinceFit calls acc) := by
  classical
  have feed : ∀ (o : CondObj V Sk C) (acc xs : List (ι → ℝ)), o.vol = vol → o.corr = corr → o.state = condAfter vol corr vm acc →
      (o.feedRows xs).1.vol = vol ∧ (o.feedRows xs).1.corr = corr ∧ (o.feedRows xs).1.state = condAfter vol corr vm (acc ++ xs) := by
    intro o acc xs hv hc hs
    obtain ⟨o', e, v', c', s1, s2⟩ := cond_feed vol corr vm h xs o hv hc
    rw [e]
    refine ⟨v', c', ?_⟩
    rcases eq_or_ne xs [] with rfl | hx
    · rw [s1 rfl, hs, List.append_nil]
    · show o'.state = _
      rw [s2 hx, hs]
      rw [condAfter_ne vol corr vm (by simp [hx] : acc ++ xs ≠ [])]
      rcases eq_or_ne acc [] with rfl | ha
      · rfl
      · rw [condAfter_ne vol corr vm ha, List.foldl_append]; rfl
  induction calls with
  | nil => intro o acc hv hc hs; exact ⟨hv, hc, hs⟩
  | cons c calls ih =>
    intro o acc hv hc hs
    have reset : ({ o with state := none } : CondObj V Sk C).state = condAfter vol corr vm [] := rfl
    show ((o.call c).run calls).vol = vol ∧ ((o.call c).run calls).corr = corr ∧ _
    cases c with
    | partialFit X =>
      cases X with
      | row x => obtain ⟨a, b, d⟩ := feed o acc [x] hv hc hs; exact ih _ _ a b d
      | batch xs => obtain ⟨a, b, d⟩ := feed o acc xs hv hc hs; exact ih _ _ a b d
      | other n => exact ih _ _ hv hc (by rw [show rowsOf (Input.other n : Input ι ℝ) = [] from rfl, List.append_nil]; exact hs)
    | fit X =>
      cases X with
      | row x => exact ih ({ o with state := none }) [] hv hc reset
      | batch xs => obtain ⟨a, b, d⟩ := feed { o with state := none } [] xs hv hc reset; exact ih _ _ a b d
      | other n => exact ih ({ o with state := none }) [] hv hc reset

theorem condFold (vol : VolArg V Sk) (corr : Obj C) (vm : VolModel V Sk) (h : makeVol vol = .ok vm) (xs : List (ι → ℝ)) :
    let s := xs.foldl CondObj.stepState (CondObj.initState ⟨vol, corr, none, none⟩ vm : CondState V Sk C)
    (∀ i, s.vols i = volFold vm (xs.map fun x => x i)) ∧
    s.corrModel = (Obj.new C corr.params).run (feedCalls ((List.range xs.length).map (standardized vol xs))) ∧ s.nSamples = xs.length ∧
    (xs ≠ [] → s.mean = fun i => forecastMean vol (xs.map fun x => x i)) ∧
    (xs ≠ [] → s.var = fun i => max (forecastVar vol (xs.map fun x => x i)) (1 / 10 ^ 12)) := by
  induction xs using List.reverseRecOn with
  | nil => exact ⟨fun i => rfl, rfl, rfl, fun h => absurd rfl h, fun h => absurd rfl h⟩
  | append_singleton xs x ih =>
    simp only [List.foldl_append, List.foldl_cons, List.foldl_nil]
    simp only [] at ih
    generalize List.foldl CondObj.stepState (CondObj.initState ⟨vol, corr, none, none⟩ vm : CondState V Sk C) xs = s at ih ⊢
    obtain ⟨h1, h2, h3, -, -⟩ := ih
    have hvols : ∀ i, (s.vols i).push (x i) = volFold vm ((xs ++ [x]).map fun x => x i) := fun i => by
      rw [h1, List.map_append, List.map_singleton, volFold_snoc]
    refine ⟨hvols, ?_, by simp [CondObj.stepState, h3], fun _ => ?_, fun _ => ?_⟩
    · have e1 : (List.range (xs ++ [x]).length).map (standardized vol (xs ++ [x])) =
          (List.range xs.length).map (standardized vol xs) ++ [fun i => (x i - (s.vols i).mean) / Real.sqrt (max (s.vols i).variance EPS)] := by
        rw [List.length_append, List.length_singleton, List.range_succ, List.map_append, List.map_singleton]
        congr 1
        · refine List.map_congr_left fun t ht => ?_
          have ht' := List.mem_range.1 ht
          ext i
          unfold standardized
          rw [List.take_append_of_le_length ht'.le]
          congr 2
          simp [List.getD_eq_getElem?_getD, List.getElem?_append_left ht']
        · congr 1
          ext i
          unfold standardized
          rw [List.take_left, ← (volFold_spec vol vm h _).1, ← (volFold_spec vol vm h _).2, ← h1]
          simp [List.getD_eq_getElem?_getD, EPS]
      rw [e1]
      simp only [feedCalls, List.map_append, List.map_singleton, Obj.run, List.foldl_append, List.foldl_cons, List.foldl_nil]
      show ((s.corrModel).partialFit _).1 = _
      rw [h2]; rfl
    · ext i
      show ((s.vols i).push (x i)).mean = _
      rw [hvols, (volFold_spec vol vm h _).1]
    · ext i
      show max ((s.vols i).push (x i)).variance EPS = _
      rw [hvols, (volFold_spec vol vm h _).2]; rfl

/-- C40: what a ConditionalCovariance reports after any calls, in terms of its sub-models used on their own. With
`xs` the rows since the last `fit`: nothing before the first row; then `n_samples_` is their number, `location_` is the
volatility models' forecast, and `covariance_` is `D R D` where `R` is the `correlation_` of a new correlation
estimator fed the residuals standardized by the forecasts made before each row, and `D` the current volatilities. If the
correlation estimator has nothing to report, its NotFittedError is passed on. -/
theorem C40_composition (vol : VolArg V Sk) (hvol : vol ≠ .other) (corr : Obj C) (calls : List (Call ι ℝ)) :
    let xs := rowsSinceFit calls []
    let o := (CondObj.new vol corr).run calls
    let R := (Obj.new C corr.params).run (feedCalls ((List.range xs.length).map (standardized vol xs)))
    let sd : ι → ℝ := fun i => Real.sqrt (max (forecastVar vol (xs.map fun x => x i)) (1 / 10 ^ 12))
    o.nSamples = xs.length ∧
    (xs = [] → o.location = .error .notFitted ∧ o.covariance = .error .notFitted) ∧
    (xs ≠ [] → o.location = .ok (fun i => forecastMean vol (xs.map fun x => x i)) ∧
      (∀ e, R.correlation = .error e → o.covariance = .error e) ∧
      (∀ r, R.correlation = .ok r → o.covariance = .ok (Matrix.of fun i j => sd i * r i j * sd j))) := by
  classical
  obtain ⟨vm, h⟩ : ∃ vm, makeVol vol = .ok vm := by
    cases vol with
    | est o => exact ⟨_, rfl⟩
    | skater f => exact ⟨_, rfl⟩
    | other => exact absurd rfl hvol
  obtain ⟨-, -, hs⟩ := cond_run vol corr vm h calls (CondObj.new vol corr) [] rfl rfl rfl
  intro xs o R sd
  obtain ⟨-, f2, f3, f4, f5⟩ := condFold vol corr vm h xs
  change o.state = condAfter vol corr vm xs at hs
  rcases eq_or_ne xs [] with hx | hx
  · rw [hx] at hs
    change o.state = none at hs
    refine ⟨by simp [CondObj.nSamples, hs, hx], fun _ => ?_, fun h => absurd hx h⟩
    have : o.fittedState = .error .notFitted := by simp [CondObj.fittedState, hs]
    simp [CondObj.location, CondObj.covariance, this, Except.map]
    rfl
  · rw [condAfter_ne vol corr vm hx] at hs
    generalize List.foldl CondObj.stepState (CondObj.initState ⟨vol, corr, none, none⟩ vm : CondState V Sk C) xs = s at *
    have hfit : o.fittedState = .ok s := by
      have : 0 < xs.length := List.length_pos_of_ne_nil hx
      simp only [CondObj.fittedState, hs]
      rw [if_neg (by omega)]
    refine ⟨by simp [CondObj.nSamples, hs, f3], fun h => absurd h hx, fun _ => ⟨?_, fun e he => ?_, fun r hr => ?_⟩⟩
    · simp [CondObj.location, hfit, Except.map, f4 hx]
    · unfold CondObj.covariance
      rw [hfit]
      show (do let R ← s.corrModel.correlation; _) = _
      rw [f2, he]; rfl
    · unfold CondObj.covariance
      rw [hfit]
      show (do let R ← s.corrModel.correlation; _) = _
      rw [f2, hr]
      show Except.ok _ = Except.ok _
      congr 1
      have hrs : Symm r := by
        unfold Obj.correlation Obj.covariance at hr
        rcases hf : R.fittedState with _ | st
        · rw [hf] at hr; cases hr
        · rw [hf] at hr; cases hr; exact symm_covToCorr (symm_toSymmetric _)
      rw [toSymmetric_of_symm]
      · ext i j
        simp only [Matrix.of_apply, f5 hx, EPS, max_assoc, max_self]
        ring
      · intro i j
        simp only [Matrix.of_apply, hrs i j]; ring

/-- C40: the composed matrix is PSD exactly when the correlation model's `correlation_` is, and its diagonal is the
volatility models' variance (floored at 1e-12) shrunk by the factor `c/(c + 1e-12)` of `correlation_`'s diagonal. -/
theorem C40_psd [DecidableEq ι] (vol : VolArg V Sk) (hvol : vol ≠ .other) (corr : Obj C) (calls : List (Call ι ℝ)) (c H : Matrix ι ι ℝ) :
    let xs := rowsSinceFit calls []
    let R := (Obj.new C corr.params).run (feedCalls ((List.range xs.length).map (standardized vol xs)))
    xs ≠ [] → R.covariance = .ok c → ((CondObj.new vol corr).run calls).covariance = .ok H →
    Symm H ∧ (PSD H ↔ PSD (covToCorr c)) ∧
    (PSD c → ∀ i, H i i = max (forecastVar vol (xs.map fun x => x i)) (1 / 10 ^ 12) * (c i i / (c i i + 1 / 10 ^ 12))) := by
  intro xs R hx hc hH
  have hR : R.correlation = .ok (covToCorr c) := by unfold Obj.correlation; rw [hc]; rfl
  have e := ((C40_composition vol hvol corr calls).2.2 hx).2.2 (covToCorr c) hR
  rw [hH] at e
  set sd : ι → ℝ := fun i => Real.sqrt (max (forecastVar vol (xs.map fun x => x i)) (1 / 10 ^ 12)) with hsd
  have eH : H = Matrix.of fun i j => sd i * covToCorr c i j * sd j := Except.ok.inj e
  have hpos : ∀ i, 0 < sd i := fun i => Real.sqrt_pos.2 (lt_of_lt_of_le (by positivity) (le_max_right _ _))
  have eH' : H = diagonal sd * covToCorr c * (diagonal sd)ᵀ := by
    rw [eH]; ext i j
    rw [diagonal_transpose, mul_diagonal, diagonal_mul]; rfl
  have eR : covToCorr c = diagonal (fun i => (sd i)⁻¹) * H * (diagonal fun i => (sd i)⁻¹)ᵀ := by
    rw [eH]; ext i j
    rw [diagonal_transpose, mul_diagonal, diagonal_mul]
    simp only [Matrix.of_apply]
    have h1 := (hpos i).ne'
    have h2 := (hpos j).ne'
    field_simp
  have hcs : Symm c := by
    unfold Obj.covariance at hc
    rcases hf : R.fittedState with _ | st
    · rw [hf] at hc; cases hc
    · rw [hf] at hc; cases hc; exact symm_toSymmetric _
  refine ⟨?_, ⟨fun h => ?_, fun h => ?_⟩, fun hpsd i => ?_⟩
  · rw [eH]; intro i j
    simp only [Matrix.of_apply, symm_covToCorr hcs i j]; ring
  · rw [eR]; exact h.congr _
  · rw [eH']; exact h.congr _
  · rw [eH]
    simp only [Matrix.of_apply, covToCorr]
    rw [Real.sqrt_mul_self (hpsd.diag_nonneg i)]
    have : sd i * sd i = max (forecastVar vol (xs.map fun x => x i)) (1 / 10 ^ 12) :=
      Real.mul_self_sqrt (le_trans (by positivity) (le_max_right _ _))
    rw [← this]; unfold EPS; ring

/-- C40: the prototypes are left alone: after any calls the object holds the same `vol` and `corr`, and what it
reports depends only on their parameters, not on anything they have been fitted to. -/
theorem C40_prototypes (v v' : Obj V) (c c' : Obj C) (hv : v.params = v'.params) (hc : c.params = c'.params) (calls : List (Call ι ℝ)) :
    let o := (CondObj.new (Sk := Sk) (.est v) c).run calls
    let o' := (CondObj.new (Sk := Sk) (.est v') c').run calls
    o.vol = .est v ∧ o.corr = c ∧ o.nSamples = o'.nSamples ∧ o.location = o'.location ∧ o.covariance = o'.covariance := by
  intro o o'
  obtain ⟨a1, a2, -⟩ := cond_run (.est v) c _ (rfl : makeVol (.est v : VolArg V Sk) = .ok _) calls (CondObj.new (.est v) c) [] rfl rfl rfl
  have hm : forecastMean (.est v : VolArg V Sk) = forecastMean (.est v' : VolArg V Sk) := by ext ys; simp only [forecastMean, hv]
  have hw : forecastVar (.est v : VolArg V Sk) = forecastVar (.est v' : VolArg V Sk) := by ext ys; simp only [forecastVar, hv]
  have hst : ∀ xs : List (ι → ℝ), standardized (.est v : VolArg V Sk) xs = standardized (.est v' : VolArg V Sk) xs := fun xs => by
    unfold standardized; rw [hm, hw]
  have e1 := C40_composition (.est v : VolArg V Sk) (by simp) c calls
  have e2 := C40_composition (.est v' : VolArg V Sk) (by simp) c' calls
  simp only [hm, hw, hst, hc] at e1
  simp only [] at e2
  refine ⟨a1, a2, e1.1.trans e2.1.symm, ?_⟩
  rcases eq_or_ne (rowsSinceFit calls ([] : List (ι → ℝ))) [] with hx | hx
  · exact ⟨(e1.2.1 hx).1.trans (e2.2.1 hx).1.symm, (e1.2.1 hx).2.trans (e2.2.1 hx).2.symm⟩
  · refine ⟨(e1.2.2 hx).1.trans (e2.2.2 hx).1.symm, ?_⟩
    generalize hR : ((Obj.new C c'.params).run (feedCalls ((List.range (rowsSinceFit calls ([] : List (ι → ℝ))).length).map
      (standardized (.est v' : VolArg V Sk) (rowsSinceFit calls []))))).correlation = rc at e1 e2
    rcases rc with e | r
    · exact ((e1.2.2 hx).2.1 e rfl).trans ((e2.2.2 hx).2.1 e rfl).symm
    · exact ((e1.2.2 hx).2.2 r rfl).trans ((e2.2.2 hx).2.2 r rfl).symm

/-- C40: a `vol` that is neither an estimator instance nor a factory is only rejected when the first row arrives. -/
theorem C40_bad_vol (corr : Obj C) (x : ι → ℝ) (xs : List (ι → ℝ)) :
    ((CondObj.new (V := V) (Sk := Sk) .other corr).partialFit (.batch (x :: xs))).2 = .error .typeError ∧
    ((CondObj.new (V := V) (Sk := Sk) .other corr).partialFit (.batch (x :: xs))).1.nSamples = 0 ∧
    ((CondObj.new (V := V) (Sk := Sk) .other corr).partialFit (.batch [])).2 = .ok () := ⟨rfl, rfl, rfl⟩

theorem rowsSinceFit_feedCalls (es : List (ι → ℝ)) : ∀ acc, rowsSinceFit (feedCalls es) acc = acc ++ es := by
  induction es with
  | nil => intro acc; simp [feedCalls, rowsSinceFit]
  | cons e es ih =>
    intro acc
    have : feedCalls (e :: es) = .partialFit (.row e) :: feedCalls es := rfl
    rw [this]
    simp only [rowsSinceFit, rowsOf]
    rw [ih, List.append_assoc]; rfl

/-- C40, the unprotected case: a correlation model with `diff=True` swallows the first residual, so after one row
`n_samples_` is 1 and `location_` is there but `covariance_` raises NotFittedError. -/
theorem C40_diff_corr (hC : Lawful C) (vol : VolArg V Sk) (hvol : vol ≠ .other) (corr : Obj C) (hd : C.diff corr.params = true) (x : ι → ℝ) :
    let o := (CondObj.new vol corr).run [.partialFit (.row x)]
    o.nSamples = 1 ∧ (∃ m, o.location = .ok m) ∧ o.covariance = .error .notFitted := by
  intro o
  have h := C40_composition vol hvol corr [.partialFit (.row x)]
  have h2 := h.2.2 (by simp [rowsSinceFit, rowsOf])
  refine ⟨h.1, ⟨_, h2.1⟩, h2.2.1 _ ?_⟩
  unfold Obj.correlation
  rw [(run_unfitted hC corr.params _ ?_).1]
  · rfl
  · rw [hd]
    unfold used
    rw [rowsSinceFit_feedCalls]
    simp [rowsSinceFit, rowsOf, effective, diffs]

theorem used_feedCalls (es : List (ι → ℝ)) : used false (feedCalls es) = es := by
  unfold used; rw [rowsSinceFit_feedCalls]; rfl

theorem emp_cov_of (p : (empiricalCls ι ℝ).Param) (hp : (empiricalCls ι ℝ).diff p = false) (es : List (ι → ℝ)) (he : es ≠ []) :
    ((Obj.new (empiricalCls ι ℝ) p).run (feedCalls es)).covariance = .ok (covOf es) ∧
    ((Obj.new (empiricalCls ι ℝ) p).run (feedCalls es)).location = .ok (meanOf es) := by
  have hp' : p = false := hp
  have h := C15_batch (ι := ι) (K := ℝ) p (feedCalls es) (by rw [hp', used_feedCalls]; exact he)
  have hu : used p (feedCalls es) = es := by rw [hp', used_feedCalls]
  rw [hu] at h
  exact ⟨h.2.1, h.1⟩

/-- C40, the unprotected case: with sample covariance for both parts (whose own estimates are always PSD) the
composed matrix need not be PSD, because `correlation_` is not (see C11). -/
theorem C40_not_psd_witness : ∃ (v : Obj (empiricalCls (Fin 1) ℝ)) (c : Obj (empiricalCls (Fin 2) ℝ)) (calls : List (Call (Fin 2) ℝ)) (H : Matrix (Fin 2) (Fin 2) ℝ),
    ((CondObj.new (Sk := Unit) (.est v) c).run calls).covariance = .ok H ∧ ¬ PSD H := by
  obtain ⟨p1, hp1⟩ : ∃ p : (empiricalCls (Fin 1) ℝ).Param, (empiricalCls (Fin 1) ℝ).diff p = false := ⟨false, rfl⟩
  obtain ⟨p2, hp2⟩ : ∃ p : (empiricalCls (Fin 2) ℝ).Param, (empiricalCls (Fin 2) ℝ).diff p = false := ⟨false, rfl⟩
  obtain ⟨xs, hxs⟩ : ∃ xs : List (Fin 2 → ℝ), xs = [0, ![1 / 10 ^ 6, 1 / 10 ^ 3]] := ⟨_, rfl⟩
  obtain ⟨v, hv⟩ : ∃ v : Obj (empiricalCls (Fin 1) ℝ), v.params = p1 := ⟨Obj.new _ p1, rfl⟩
  obtain ⟨c, hc⟩ : ∃ v : Obj (empiricalCls (Fin 2) ℝ), v.params = p2 := ⟨Obj.new _ p2, rfl⟩
  have hrows : rowsSinceFit (feedCalls xs) [] = xs := by rw [rowsSinceFit_feedCalls]; rfl
  have hva : ∀ ys, volAfter v.params ys = (Obj.new (empiricalCls (Fin 1) ℝ) p1).run (feedCalls (ys.map fun y _ => y)) := fun ys => by
    unfold volAfter feedCalls; rw [hv, List.map_map]; rfl
  have fm0 : forecastMean (.est v : VolArg (empiricalCls (Fin 1) ℝ) Unit) [] = 0 := rfl
  have fv0 : forecastVar (.est v : VolArg (empiricalCls (Fin 1) ℝ) Unit) [] = 1 := rfl
  have h1 := emp_cov_of p1 hp1 (([0] : List ℝ).map fun y _ => y) (by simp)
  have fm1 : forecastMean (.est v : VolArg (empiricalCls (Fin 1) ℝ) Unit) [0] = 0 := by
    simp only [forecastMean]; rw [hva, h1.2]; simp [meanOf]
  have fv1 : forecastVar (.est v : VolArg (empiricalCls (Fin 1) ℝ) Unit) [0] = 0 := by
    simp only [forecastVar]; rw [hva, h1.1]; simp [covOf, meanOf]
  have s6 : Real.sqrt (1 / 10 ^ 12) = 1 / 10 ^ 6 := by
    rw [show (1 / 10 ^ 12 : ℝ) = (1 / 10 ^ 6) ^ 2 by norm_num, Real.sqrt_sq (by positivity)]
  have hst : (List.range xs.length).map (standardized (.est v : VolArg (empiricalCls (Fin 1) ℝ) Unit) xs) = [0, ![1, 1000]] := by
    rw [hxs]
    simp only [List.length_cons, List.length_nil, List.range_succ, List.range_zero, List.map_append, List.map_singleton, List.map_nil, List.nil_append]
    show [_, _] = _
    congr 1
    · ext i; simp [standardized, fm0]
    · congr 1
      ext i
      have m1 : (0:ℝ) ⊔ 1 / 10 ^ 12 = 1 / 10 ^ 12 := max_eq_right (by positivity)
      unfold standardized
      simp only [List.take_succ_cons, List.take_zero, List.map_cons, List.map_nil, Pi.zero_apply, fm1, fv1]
      rw [m1, s6]
      fin_cases i
      · simp
      · simp; norm_num
  obtain ⟨cc, hcc⟩ : ∃ m, m = covOf ([0, ![1, 1000]] : List (Fin 2 → ℝ)) := ⟨_, rfl⟩
  have hcov := (emp_cov_of p2 hp2 ([0, ![1, 1000]] : List (Fin 2 → ℝ)) (by simp)).1
  rw [← hcc, ← hst, ← hc] at hcov
  have hcorr : ((Obj.new (empiricalCls (Fin 2) ℝ) c.params).run (feedCalls ((List.range xs.length).map
      (standardized (.est v : VolArg (empiricalCls (Fin 1) ℝ) Unit) xs)))).correlation = .ok (covToCorr cc) := by
    unfold Obj.correlation; rw [hcov]; rfl
  have hne : rowsSinceFit (feedCalls xs) [] ≠ [] := by rw [hrows, hxs]; simp
  have hH := ((C40_composition (.est v : VolArg (empiricalCls (Fin 1) ℝ) Unit) (by simp) c (feedCalls xs)).2.2 hne).2.2 (covToCorr cc)
    (by rw [hrows]; exact hcorr)
  refine ⟨v, c, feedCalls xs, _, hH, fun hpsd => ?_⟩
  have hP := (C40_psd (.est v : VolArg (empiricalCls (Fin 1) ℝ) Unit) (by simp) c (feedCalls xs) cc _ hne (by rw [hrows]; exact hcov) hH).2.1.1 hpsd
  have h01 := hP.entry_sq_le 0 1
  have c00 : cc 0 0 = 1 / 4 := by rw [hcc]; simp [covOf, meanOf]; norm_num
  have c01 : cc 0 1 = 250 := by rw [hcc]; simp [covOf, meanOf]; norm_num
  have c11 : cc 1 1 = 250000 := by rw [hcc]; simp [covOf, meanOf]; norm_num
  have q00 : Real.sqrt (1 / 4 * (1 / 4)) = 1 / 4 := Real.sqrt_mul_self (by norm_num)
  have q11 : Real.sqrt (250000 * 250000) = 250000 := Real.sqrt_mul_self (by norm_num)
  have q01 : Real.sqrt (250000 * (1 / 4)) = 250 := by rw [show (250000 * (1 / 4) : ℝ) = 250 * 250 by norm_num, Real.sqrt_mul_self (by norm_num)]
  simp only [covToCorr, Matrix.of_apply, c00, c01, c11, q00, q01, q11, EPS] at h01
  norm_num at h01

end Precise
