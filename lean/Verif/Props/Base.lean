import Verif.Lemmas.Base
import Verif.Lemmas.State
import Verif.Spec.Matrix
import Mathlib.Tactic.NormNum
import Mathlib.Tactic.Ring
import Mathlib.Data.Rat.Floor
import Mathlib.Tactic.FinCases

/-!
# C01–C10: the object protocol, for every estimator class

A class is any `Cls`; where a property needs something of the class it is the hypothesis `Lawful C`,
proved for each of the 17 shipped classes in `Props/Shipped.lean`.
-/

set_option linter.all false

namespace Precise

open Obj

variable {ι K : Type} [Fintype ι] [Sub K] {C : Cls ι K}

/-! ## C01 chunking -/

/-- C01: for every class, object (parameters, history, diff on or off) and sequence of 1d rows, 2d batches
and rejected inputs, the object afterwards is exactly the object after one 2d batch of all the rows. -/
theorem C01_chunking (o : Obj C) (chunks : List (Input ι K)) :
    chunks.foldl (fun o X => (o.partialFit X).1) o
      = (o.partialFit (.batch (chunks.flatMap Spec.rowsOf))).1 := by
  rw [partialFit_fst]
  show _ = o.feedRows (chunks.flatMap Spec.rowsOf)
  induction chunks generalizing o with
  | nil => rfl
  | cons X cs ih => rw [List.foldl_cons, ih, partialFit_fst, List.flatMap_cons, feedRows_append]

/-- C01: a 0-row batch changes nothing. -/
theorem C01_empty_batch (o : Obj C) : o.partialFit (.batch []) = (o, .ok ()) := rfl

/-- C01: two streams of calls that carry the same rows are indistinguishable, now and after any further calls. -/
theorem C01_same_rows_same_future (o : Obj C) (a b : List (Input ι K)) (future : List (Call ι K))
    (h : a.flatMap Spec.rowsOf = b.flatMap Spec.rowsOf) :
    (a.foldl (fun o X => (o.partialFit X).1) o).run future
      = (b.foldl (fun o X => (o.partialFit X).1) o).run future := by
  rw [C01_chunking, C01_chunking, h]

/-! ## C02 fit forgets -/

/-- C02: whatever happened to `o` before, `fit(X)` leaves the state, reference row and parameters of
`fit(X)` on a new instance, and raises exactly when that raises. -/
theorem C02_fit_forgets (o : Obj C) (X : Input ι K) :
    (o.fit X).1.state = ((new C o.params).fit X).1.state ∧
    (o.fit X).1.prevX = ((new C o.params).fit X).1.prevX ∧
    (o.fit X).1.params = o.params ∧
    (o.fit X).2 = ((new C o.params).fit X).2 := by
  cases X with
  | batch xs =>
    have h := run_eq o.params [.fit (.batch xs)] { o with state := none, prevX := none } [] rfl rfl rfl
    have h' := run_eq o.params [.fit (.batch xs)] (new C o.params) [] rfl rfl rfl
    refine ⟨h.2.1.trans h'.2.1.symm, h.2.2.trans h'.2.2.symm, h.1, rfl⟩
  | row x => exact ⟨rfl, rfl, rfl, rfl⟩
  | other n => exact ⟨rfl, rfl, rfl, rfl⟩

/-- C02: hence all fitted attributes agree, after `fit` and after any continuation. -/
theorem C02_fit_forgets_observably [Add K] [Div K] [OfNat K 2] (o : Obj C) (X : Input ι K)
    (future : List (Call ι K)) :
    let a := (o.fit X).1.run future
    let b := ((new C o.params).fit X).1.run future
    a.nSamples = b.nSamples ∧ a.location = b.location ∧ a.covariance = b.covariance ∧ a.getState = b.getState := by
  intro a b
  obtain ⟨h1, h2, h3, -⟩ := C02_fit_forgets o X
  have hcong : a.state = b.state ∧ a.params = b.params := by
    have A := run_eq o.params (Call.fit X :: future) o (Spec.rowsSinceFit [] []) rfl
    -- both objects have the state of the rows since this fit
    have e1 : ∀ (o' : Obj C), o'.params = o.params →
        (o'.run (Call.fit X :: future)).state =
          ((new C o.params).feedRows (Spec.rowsSinceFit (Call.fit X :: future) [])).state ∧
        (o'.run (Call.fit X :: future)).params = o.params := by
      intro o' hp
      have h := run_eq o.params (Call.fit X :: future) { o' with state := none, prevX := none } [] hp rfl rfl
      have e : ({ o' with state := none, prevX := none } : Obj C).run (Call.fit X :: future)
          = o'.run (Call.fit X :: future) := by
        cases X <;> rfl
      rw [e] at h
      exact ⟨h.2.1, h.1⟩
    have ha := e1 o rfl
    have hb := e1 (new C o.params) rfl
    exact ⟨ha.1.trans hb.1.symm, ha.2.trans hb.2.symm⟩
  obtain ⟨hs, hp⟩ := hcong
  refine ⟨?_, ?_, ?_, ?_⟩
  · simp [Obj.nSamples, hs]
  · simp [Obj.location, fittedState, hs, hp]
  · simp [Obj.covariance, fittedState, hs, hp]
  · simp [Obj.getState, hs]

/-- C02: `n_features_in_` agrees too, and is the dimension, when the batch has an effective observation. -/
theorem C02_n_features (o : Obj C) (xs : List (ι → K)) (h : Spec.effective (C.diff o.params) xs ≠ []) :
    (o.fit (.batch xs)).1.nFeatures = some (Fintype.card ι) := by
  -- the first feed sets it, later ones keep it
  have keep : ∀ (ys : List (ι → K)) (a : Obj C), a.state.isSome → (a.feedRows ys).nFeatures = a.nFeatures := by
    intro ys
    induction ys with
    | nil => intro a _; rfl
    | cons y ys ih =>
      intro a ha
      obtain ⟨s, hs⟩ := Option.isSome_iff_exists.1 ha
      have e : (a.stepRow y).state.isSome ∧ (a.stepRow y).nFeatures = a.nFeatures := by
        unfold stepRow
        split
        · split
          · exact ⟨ha, rfl⟩
          · simp [feed, hs]
        · simp [feed, hs]
      rw [feedRows_cons, ih _ e.1, e.2]
  show (({ o with state := none, prevX := none } : Obj C).feedRows xs).nFeatures = _
  cases hd : C.diff o.params with
  | false =>
    cases xs with
    | nil => simp [Spec.effective, hd] at h
    | cons x xs =>
      rw [feedRows_cons, keep] <;> simp [stepRow, hd, feed]
  | true =>
    cases xs with
    | nil => simp [Spec.effective, Spec.diffs, hd] at h
    | cons x xs =>
      cases xs with
      | nil => simp [Spec.effective, Spec.diffs, hd] at h
      | cons y ys =>
        rw [feedRows_cons, feedRows_cons, keep] <;> simp [stepRow, hd, feed]

/-- C02 (limit): a `fit` on a batch without effective observations keeps the stale `n_features_in_`,
although the estimator is unfitted again. -/
theorem C02_stale_n_features (o : Obj C) :
    (o.fit (.batch [])).1.nFeatures = o.nFeatures ∧ (o.fit (.batch [])).1.state = none := ⟨rfl, rfl⟩

/-! ## C03 rejected inputs -/

/-- C03: `partial_fit` on a bad rank raises ValueError and leaves the object untouched; no other input raises. -/
theorem C03_partial_fit_rejects (o : Obj C) (X : Input ι K) :
    ((∃ n, X = .other n) → o.partialFit X = (o, .error .valueError)) ∧
    ((∀ n, X ≠ .other n) → (o.partialFit X).2 = .ok ()) := by
  cases X with
  | row x => exact ⟨fun ⟨n, h⟩ => by simp at h, fun _ => rfl⟩
  | batch xs => exact ⟨fun ⟨n, h⟩ => by simp at h, fun _ => rfl⟩
  | other n => exact ⟨fun _ => rfl, fun h => absurd rfl (h n)⟩

/-- C03, violated by `fit`: whenever `fit` raises, the fitted state and the reference row are already gone. -/
theorem C03_fit_destroys (o : Obj C) (X : Input ι K) (h : (o.fit X).2 = .error .valueError) :
    (o.fit X).1.state = none ∧ (o.fit X).1.prevX = none ∧ (o.fit X).1.nSamples = 0 ∧
    (o.fit X).1.params = o.params ∧ (o.fit X).1.nFeatures = o.nFeatures := by
  cases X with
  | batch xs => simp [Obj.fit, partialFit, asRows] at h
  | row x => exact ⟨rfl, rfl, rfl, rfl, rfl⟩
  | other n => exact ⟨rfl, rfl, rfl, rfl, rfl⟩

/-- C03: `fit` raises exactly on inputs that are not 2d. -/
theorem C03_fit_raises_iff (o : Obj C) (X : Input ι K) :
    (o.fit X).2 = .error .valueError ↔ ∀ xs, X ≠ .batch xs := by
  cases X <;> simp [Obj.fit, partialFit, asRows]

/-! ## C04 counting, C05 differencing, C06 NotFitted -/

/-- C04: after any history of `partial_fit`/`fit` calls (rejected ones included), `n_samples_` is the number
of rows since construction or the last `fit`; with `diff=True` one less, floored at 0. -/
theorem C04_n_samples (hC : Lawful C) (p : C.Param) (calls : List (Call ι K)) :
    ((new C p).run calls).nSamples =
      let n := (Spec.rowsSinceFit calls []).length
      if C.diff p then n - 1 else n := by
  have h := run_new_state p calls
  have hl := effective_length (C.diff p) (Spec.rowsSinceFit calls [])
  show _ = if C.diff p = true then _ else _
  rw [← hl]
  unfold Obj.nSamples
  split at h
  · rename_i he; rw [he, h]; rfl
  · simp only [h, hC.fold_nSamples, hC.n_init]; simp

/-- C05: after any history with `diff=True` the estimator has the state, dimension, sample count, location
and covariance of the same estimator with `diff=False` fed the first differences of the rows since the
last `fit`. -/
theorem C05_diff [Add K] [Div K] [OfNat K 2] (hC : Lawful C) (p : C.Param) (hd : C.diff p = true)
    (calls : List (Call ι K)) :
    let a := (new C p).run calls
    let b := ((new C (C.withDiff false p)).partialFit (.batch (Spec.diffs (Spec.rowsSinceFit calls [])))).1
    a.state = b.state ∧ a.nSamples = b.nSamples ∧ a.location = b.location ∧ a.covariance = b.covariance := by
  intro a b
  have hs : a.state = b.state := by
    show ((new C p).run calls).state = ((new C (C.withDiff false p)).partialFit _).1.state
    rw [run_new_state, hd, partialFit_fst, new_feedRows_state, hC.diff_withDiff]
    simp [Spec.effective, Spec.rowsOf, hC.init_withDiff, hC.update_withDiff]
  have hpa : a.params = p := (run_new p calls).1
  have hpb : b.params = C.withDiff false p := by
    show ((new C (C.withDiff false p)).partialFit _).1.params = _
    rw [partialFit_fst, feedRows_params]; rfl
  refine ⟨hs, by simp [Obj.nSamples, hs], ?_, ?_⟩
  · simp [Obj.location, fittedState, hs, hpa, hpb, hC.toMean_withDiff]
  · simp [Obj.covariance, fittedState, hs, hpa, hpb, hC.toCov_withDiff]

/-- C06: after any history, `location_` and `covariance_` raise NotFittedError iff no effective row was seen
iff `n_samples_` is 0, and no other error is raised. -/
theorem C06_not_fitted_iff [Add K] [Div K] [OfNat K 2] (hC : Lawful C) (p : C.Param) (calls : List (Call ι K)) :
    let o := (new C p).run calls
    (o.nSamples = 0 ↔ Spec.effective (C.diff p) (Spec.rowsSinceFit calls []) = []) ∧
    (o.nSamples = 0 → o.location = .error .notFitted ∧ o.covariance = .error .notFitted) ∧
    (o.nSamples ≠ 0 → (∃ m, o.location = .ok m) ∧ (∃ c, o.covariance = .ok c)) := by
  intro o
  have hn := C04_n_samples hC p calls
  have hl := effective_length (C.diff p) (Spec.rowsSinceFit calls [])
  have hiff : o.nSamples = 0 ↔ Spec.effective (C.diff p) (Spec.rowsSinceFit calls []) = [] := by
    rw [← List.length_eq_zero_iff, hl]
    show Obj.nSamples _ = 0 ↔ _
    rw [hn]
  refine ⟨hiff, ?_, ?_⟩
  · intro h
    have hs : o.state = none := by
      have := run_new_state p calls
      rw [hiff.1 h] at this
      exact this
    simp [Obj.location, Obj.covariance, fittedState, hs, Except.map]
  · intro h
    cases hs : o.state with
    | none => exact absurd (by simp [Obj.nSamples, hs]) h
    | some s =>
      have : ¬ C.nSamples s < 1 := by
        have : o.nSamples = C.nSamples s := by simp [Obj.nSamples, hs]
        omega
      simp [Obj.location, Obj.covariance, fittedState, hs, Except.map, this]

/-- C06: with `diff=True` one row is not enough. -/
theorem C06_diff_needs_two_rows [Add K] [Div K] [OfNat K 2] (p : C.Param) (hd : C.diff p = true) (x : ι → K) :
    ((new C p).partialFit (.row x)).1.covariance = .error .notFitted := by
  simp [partialFit, asRows, feedRows, stepRow, new, hd, Obj.covariance, fittedState, Except.map]

/-! ## C07 checkpoint, C08 pickle -/

/-- C07: with `diff=False`, restoring the checkpoint of any reachable estimator into any instance with the
same parameters (new or used) and continuing with any calls gives the same fitted attributes, at every
point of the continuation. -/
theorem C07_checkpoint_resume [Add K] [Div K] [OfNat K 2] (hC : Lawful C) (p : C.Param)
    (hd : C.diff p = false) (past future : List (Call ι K)) (target : Obj C) (ht : target.params = p) :
    let a := ((new C p).run past).run future
    let b := (target.setState ((new C p).run past).getState).run future
    a.state = b.state ∧ a.nSamples = b.nSamples ∧ a.location = b.location ∧ a.covariance = b.covariance ∧
      a.getState = b.getState := by
  intro a b
  -- with diff = false the reference row plays no role
  have cong : ∀ (cs : List (Call ι K)) (u v : Obj C), u.params = p → v.params = p → u.state = v.state →
      (u.run cs).state = (v.run cs).state ∧ (u.run cs).params = p ∧ (v.run cs).params = p := by
    have feedc : ∀ (ys : List (ι → K)) (u v : Obj C), u.params = p → v.params = p → u.state = v.state →
        (u.feedRows ys).state = (v.feedRows ys).state := by
      intro ys u v hu hv h
      rw [feedRows_nodiff _ (by rw [hu]; exact hd), feedRows_nodiff _ (by rw [hv]; exact hd),
        fold_feed_state, fold_feed_state, h, hu, hv]
    intro cs
    induction cs with
    | nil => intro u v hu hv h; exact ⟨h, hu, hv⟩
    | cons c cs ih =>
      intro u v hu hv h
      refine ih (u.call c) (v.call c) ?_ ?_ ?_
      · cases c with
        | partialFit X => simp [call, partialFit_fst, hu]
        | fit X => cases X <;> simp [call, Obj.fit, partialFit_fst, hu]
      · cases c with
        | partialFit X => simp [call, partialFit_fst, hv]
        | fit X => cases X <;> simp [call, Obj.fit, partialFit_fst, hv]
      · cases c with
        | partialFit X => simp only [call, partialFit_fst]; exact feedc _ _ _ hu hv h
        | fit X =>
          cases X with
          | batch xs =>
            simp only [call, Obj.fit, partialFit_fst]
            exact feedc _ _ _ hu hv rfl
          | row x => rfl
          | other n => rfl
  have hstate : (target.setState ((new C p).run past).getState).state = ((new C p).run past).state := by
    unfold getState
    cases hs : ((new C p).run past).state with
    | none => rfl
    | some s =>
      simp only [Option.map_some, setState, hC.load_dump s (run_new_reachable p past s hs)]
  have hparams : (target.setState ((new C p).run past).getState).params = p := by
    unfold setState; split <;> exact ht
  obtain ⟨hs, hpa, hpb⟩ := cong future _ _ (run_new p past).1 hparams hstate.symm
  refine ⟨hs, ?_, ?_, ?_, ?_⟩
  · simp only [Obj.nSamples, a, b, hs]
  · simp only [Obj.location, fittedState, a, b, hs, hpa, hpb]
  · simp only [Obj.covariance, fittedState, a, b, hs, hpa, hpb]
  · simp only [Obj.getState, a, b, hs]

/-- C07: the checkpoint also restores `n_features_in_` of a fitted estimator, so for a new target the whole
object is restored. -/
theorem C07_restores_object (hC : Lawful C) (p : C.Param) (hd : C.diff p = false) (past : List (Call ι K))
    (rows : Spec.rowsSinceFit past [] ≠ []) :
    (new C p).setState ((new C p).run past).getState = (new C p).run past := by
  obtain ⟨hp, -, hq⟩ := run_new p past
  have hf := run_new_nFeatures p past
  have hst := run_new_state p past
  rw [hd, Spec.effective] at hst
  simp only [Bool.false_eq_true, if_false] at hst
  have hq' : ((new C p).run past).prevX = none := by
    rw [hq, feedRows_prevX]; simp [new, hd]
  cases hs : ((new C p).run past).state with
  | none => rw [hs] at hst; simp at hst
  | some s =>
    have hl := hC.load_dump s (run_new_reachable p past s hs)
    unfold getState
    rw [hs]
    generalize (new C p).run past = o at *
    cases o
    simp_all [setState, new]

/-- C07 (limit), for every class with `diff=True`: the checkpoint lacks the reference row. A restored
new instance swallows the first row of the continuation: it uses one observation less than the original
(the difference across the cut is lost), at every cut and for every nonempty continuation. -/
theorem C07_diff_loses_a_row (hC : Lawful C) (p : C.Param) (hd : C.diff p = true) (past : List (Call ι K))
    (hpast : 2 ≤ (Spec.rowsSinceFit past []).length) (xs : List (ι → K)) (hx : xs ≠ []) :
    let o := (new C p).run past
    let r := (new C p).setState o.getState
    r.nSamples = o.nSamples ∧
    (o.partialFit (.batch xs)).1.nSamples = o.nSamples + xs.length ∧
    (r.partialFit (.batch xs)).1.nSamples = o.nSamples + xs.length - 1 := by
  intro o r
  obtain ⟨hp, hst, hq⟩ := run_new p past
  have hne : Spec.effective (C.diff p) (Spec.rowsSinceFit past []) ≠ [] := by
    rw [← List.length_pos_iff, effective_length, hd]; simp; omega
  obtain ⟨s, hs⟩ : ∃ s, o.state = some s := by
    have := run_new_state p past
    cases h : o.state with
    | some s => exact ⟨s, rfl⟩
    | none => rw [show ((new C p).run past).state = none from h] at this; split at this <;> simp_all
  have hl := hC.load_dump s (run_new_reachable p past s hs)
  have hrs : r.state = some s := by
    show (setState _ (getState o)).state = _
    simp [getState, hs, setState, hl]
  have hrp : r.params = p := by
    show (setState _ (getState o)).params = _
    simp [getState, hs, setState, new]
  have hrq : r.prevX = none := by
    show (setState _ (getState o)).prevX = _
    simp [getState, hs, setState, new]
  obtain ⟨q, hoq⟩ : ∃ q, o.prevX = some q := by
    have : o.prevX = _ := hq
    rw [feedRows_prevX] at this
    simp only [new, hd, if_true] at this
    have hne' : Spec.rowsSinceFit past [] ≠ [] := by
      intro h; rw [h] at hpast; simp at hpast
    rw [List.getLast?_eq_some_getLast hne'] at this
    exact ⟨_, by simpa using this⟩
  have cnt : ∀ (ys : List (ι → K)) (u : Obj C) (t : C.State) (z : ι → K), u.params = p → u.state = some t →
      u.prevX = some z → (u.feedRows ys).nSamples = C.nSamples t + ys.length := by
    intro ys u t z hu ht hz
    have := (feedRows_diff_state u (by rw [hu]; exact hd) z hz ys).1
    rw [fold_feed_state] at this
    unfold Obj.nSamples
    have hlen : (Spec.diffs (z :: ys)).length = ys.length := by simp [diffs_length]
    split at this
    · rename_i he
      rw [this, ht]; simp [← hlen, he]
    · rw [this]; simp only [ht, Option.getD_some]; rw [hC.fold_nSamples, hlen]
  have ho : o.nSamples = C.nSamples s := by simp [Obj.nSamples, hs]
  refine ⟨?_, ?_, ?_⟩
  · rw [ho]; simp [Obj.nSamples, hrs]
  · rw [partialFit_fst, ho]; exact cnt xs o s q hp hs hoq
  · rw [partialFit_fst, ho]
    cases xs with
    | nil => exact absurd rfl hx
    | cons x xs =>
      show (r.feedRows (x :: xs)).nSamples = _
      have e : r.stepRow x = { r with prevX := some x } := by simp [stepRow, hrp, hd, hrq]
      rw [feedRows_cons, e, cnt xs { r with prevX := some x } s x hrp hrs rfl]
      simp

/-- C07 (limit): a target with `diff=True` that has been used keeps its own last row `q`. After `set_state` the continuation `xs` is
differenced against `q`: the fitted attributes are those of the original continued with the rows moved by `l - q`, where `l` is
the original's last row. They agree with the true continuation only if the jump `l - q` does no harm. -/
theorem C07_diff_used_target {K : Type} [AddCommGroup K] [Div K] [OfNat K 2] {C : Cls ι K} (hC : Lawful C) (p : C.Param) (hd : C.diff p = true)
    (past before : List (Call ι K)) (l q : ι → K) (hpast : 2 ≤ (Spec.rowsSinceFit past []).length)
    (hl : (Spec.rowsSinceFit past []).getLast? = some l) (hq : (Spec.rowsSinceFit before []).getLast? = some q) (xs : List (ι → K)) :
    let a := (((new C p).run past).partialFit (.batch (xs.map fun x => x + (l - q)))).1
    let b := ((((new C p).run before).setState ((new C p).run past).getState).partialFit (.batch xs)).1
    a.state = b.state ∧ a.nSamples = b.nSamples ∧ a.location = b.location ∧ a.covariance = b.covariance := by
  intro a b
  obtain ⟨hp, hst, hpr⟩ := run_new p past
  obtain ⟨hp', -, hpr'⟩ := run_new p before
  rw [feedRows_prevX] at hpr hpr'
  simp only [new, hd, if_true] at hpr hpr'
  rw [hl] at hpr
  rw [hq] at hpr'
  simp only [Option.some_or] at hpr hpr'
  have hne : Spec.effective (C.diff p) (Spec.rowsSinceFit past []) ≠ [] := by
    rw [← List.length_pos_iff, effective_length, hd]; simp; omega
  obtain ⟨s, hs⟩ : ∃ s, ((new C p).run past).state = some s := by
    have := run_new_state p past
    cases h : ((new C p).run past).state with
    | some s => exact ⟨s, rfl⟩
    | none =>
      rw [h] at this
      clear hst
      split at this
      · rename_i he; exact absurd he hne
      · cases this
  have hld := hC.load_dump s (run_new_reachable p past s hs)
  set T := ((new C p).run before).setState ((new C p).run past).getState with hT
  have hTs : T.state = some s := by rw [hT]; unfold getState; rw [hs]; simp [setState, hld]
  have hTp : T.params = p := by rw [hT]; unfold getState; rw [hs]; simp only [Option.map_some, setState]; exact hp'
  have hTq : T.prevX = some q := by rw [hT]; unfold getState; rw [hs]; simp only [Option.map_some, setState]; exact hpr'
  have hdiff : ∀ (xs : List (ι → K)) (q : ι → K) (d : ι → K), Spec.diffs ((q + d) :: xs.map fun x => x + d) = Spec.diffs (q :: xs) := by
    intro xs
    induction xs with
    | nil => intro q d; rfl
    | cons x xs ih =>
      intro q d
      rw [List.map_cons]
      simp only [Spec.diffs]
      rw [ih]
      congr 1
      abel
  have ha := (feedRows_diff_state ((new C p).run past) (by rw [hp]; exact hd) l hpr (xs.map fun x => x + (l - q))).1
  have hb := (feedRows_diff_state T (by rw [hTp]; exact hd) q hTq xs).1
  have e := hdiff xs q (l - q)
  rw [show q + (l - q) = l by abel] at e
  have hstate : a.state = b.state := by
    show (Obj.partialFit _ _).1.state = (Obj.partialFit _ _).1.state
    rw [partialFit_fst, partialFit_fst]
    show (Obj.feedRows _ (xs.map fun x => x + (l - q))).state = (Obj.feedRows _ xs).state
    rw [ha, hb, e, fold_feed_state, fold_feed_state, hs, hTs, hp, hTp]
  have hap : a.params = p := by show (Obj.partialFit _ _).1.params = p; rw [partialFit_fst, feedRows_params, hp]
  have hbp : b.params = p := by show (Obj.partialFit _ _).1.params = p; rw [partialFit_fst, feedRows_params, hTp]
  refine ⟨hstate, ?_, ?_, ?_⟩
  · simp only [Obj.nSamples, hstate]
  · simp only [Obj.location, fittedState, hstate, hap, hbp]
  · simp only [Obj.covariance, fittedState, hstate, hap, hbp]

/-- C08: unpickling the pickle of any reachable estimator gives back the identical object — parameters,
state, `n_features_in_` and diff reference — hence the same behaviour under every continuation. -/
theorem C08_pickle_roundtrip (hC : Lawful C) (p : C.Param) (past : List (Call ι K)) :
    ofPickle (toPickle ((new C p).run past)) = (new C p).run past := by
  cases hs : ((new C p).run past).state with
  | none =>
    generalize (new C p).run past = o at *
    cases o; simp_all [ofPickle, toPickle, getState, setState, new]
  | some s =>
    have hl := hC.load_dump s (run_new_reachable p past s hs)
    generalize (new C p).run past = o at *
    cases o; simp_all [ofPickle, toPickle, getState, setState, new]

/-- C08: behaviour on every continuation. -/
theorem C08_pickle_resume (hC : Lawful C) (p : C.Param) (past future : List (Call ι K)) :
    (ofPickle (toPickle ((new C p).run past))).run future = ((new C p).run past).run future := by
  rw [C08_pickle_roundtrip hC]

/-! ## C09 parameters, C10 symmetry -/

/-- C09: a clone has the same parameters, is unfitted, and behaves like a new instance; the original is a
separate object. -/
theorem C09_clone (o : Obj C) :
    o.clone.params = o.params ∧ o.clone.nSamples = 0 ∧ o.clone.prevX = none ∧ o.clone.nFeatures = none ∧
    o.clone = new C o.params := ⟨rfl, rfl, rfl, rfl, rfl⟩

/-- A class reads a change of parameters `chg` only in `_init_state` (e.g. the decay rate, captured there). -/
structure FrozenParam (C : Cls ι K) (chg : C.Param → C.Param) : Prop where
  diff : ∀ p, C.diff (chg p) = C.diff p
  update : ∀ p, C.updateState (chg p) = C.updateState p
  toCov : ∀ p, C.toCov (chg p) = C.toCov p
  toMean : ∀ p, C.toMean (chg p) = C.toMean p

/-- C09: changing a parameter that is captured at the first observation has no effect on a fitted estimator:
all fitted attributes stay the same through any further rows. (Each shipped class with a decay rate
is shown to be `FrozenParam` for it in `Props/Shipped.lean`.) -/
theorem C09_frozen [Add K] [Div K] [OfNat K 2] (chg : C.Param → C.Param) (hF : FrozenParam C chg)
    (o : Obj C) (hfit : o.state.isSome) (chunks : List (Input ι K)) :
    let feed := fun o : Obj C => chunks.foldl (fun o X => (o.partialFit X).1) o
    (feed (o.setParams (chg o.params))).state = (feed o).state ∧
    (feed (o.setParams (chg o.params))).location = (feed o).location ∧
    (feed (o.setParams (chg o.params))).covariance = (feed o).covariance := by
  intro feed
  have hfeed : ∀ u : Obj C, feed u = u.feedRows (chunks.flatMap Spec.rowsOf) := by
    intro u
    show chunks.foldl _ u = _
    rw [C01_chunking, partialFit_fst]; rfl
  have cong : ∀ (ys : List (ι → K)) (u : Obj C), u.state.isSome →
      (u.setParams (chg u.params)).feedRows ys = (u.feedRows ys).setParams (chg u.params) := by
    intro ys
    induction ys with
    | nil => intro u _; rfl
    | cons y ys ih =>
      intro u hu
      obtain ⟨s, hs⟩ := Option.isSome_iff_exists.1 hu
      rw [feedRows_cons, feedRows_cons]
      have e : (u.setParams (chg u.params)).stepRow y = (u.stepRow y).setParams (chg u.params) := by
        unfold stepRow
        simp only [setParams, hF.diff]
        split
        · split <;> simp_all [Obj.feed, hF.update]
        · simp_all [Obj.feed, hF.update]
      have hss : (u.stepRow y).state.isSome := by
        unfold stepRow
        split
        · split <;> simp [Obj.feed, hs]
        · simp [Obj.feed, hs]
      rw [e]
      have := ih (u.stepRow y) hss
      rw [stepRow_params] at this
      exact this
  rw [hfeed, hfeed, cong _ _ hfit]
  refine ⟨rfl, ?_, ?_⟩
  · simp [Obj.location, fittedState, setParams, hF.toMean]
  · simp [Obj.covariance, fittedState, setParams, hF.toCov]

/-- C09: on an unfitted estimator without reference row, `set_params` is the same as constructing with the
new parameters. -/
theorem C09_unfitted (p p' : C.Param) : (new C p).setParams p' = new C p' := rfl

/-- C09: after `fit` the new parameters are in force. -/
theorem C09_effective_after_fit (o : Obj C) (p' : C.Param) (X : Input ι K) :
    ((o.setParams p').fit X).1.state = ((new C p').fit X).1.state :=
  (C02_fit_forgets (o.setParams p') X).1

/-- C10: whatever the class's hook returns, `covariance_` is symmetric. -/
theorem C10_symmetric [AddCommMagma K] [Div K] [OfNat K 2] (o : Obj C) (c : Matrix ι ι K)
    (h : o.covariance = .ok c) : Spec.Symm c := by
  unfold Obj.covariance at h
  cases hf : o.fittedState with
  | error e => rw [hf] at h; cases h
  | ok s =>
    rw [hf] at h
    cases h
    intro i j
    simp [toSymmetric, add_comm]

/-- C10: symmetrizing does not change a symmetric hook result. -/
theorem C10_symmetrize_id [Field K] [CharZero K] (a : Matrix ι ι K) (h : Spec.Symm a) : toSymmetric a = a := by
  ext i j
  simp only [toSymmetric, Matrix.of_apply, h j i]
  exact add_self_div_two _

/-! ## The hypotheses are met: concrete instances over ℚ -/

section Examples

/-- a stream of three observations of two variables -/
private def xs₃ : List (Fin 2 → ℚ) := [![1, 2], ![3, 5], ![4, 4]]

-- C01: rows, an empty batch, a rejected 3d input and a batch, against one batch
example : [Input.row ![1, 2], .batch [], .other 3, .batch [![3, 5], ![4, 4]]].foldl
    (fun o X => (o.partialFit X).1) (new (ewaCls (Fin 2) ℚ) ⟨1/10, true⟩)
    = ((new (ewaCls (Fin 2) ℚ) ⟨1/10, true⟩).partialFit (.batch xs₃)).1 := C01_chunking _ _

-- C02: an effective observation exists, with diff on
example : Spec.effective ((empiricalCls (Fin 2) ℚ).diff true) xs₃ ≠ [] := by
  simp [Spec.effective, empiricalCls, xs₃, Spec.diffs]

-- C03: the destructive rejection happens on a fitted estimator with 3 samples
example : (((new (empiricalCls (Fin 2) ℚ) false).partialFit (.batch xs₃)).1.nSamples = 3) ∧
    ((((new (empiricalCls (Fin 2) ℚ) false).partialFit (.batch xs₃)).1.fit (.row ![0, 0])).1.nSamples = 0) := by
  constructor <;> rfl

-- C04, C06: partial fits, a rejected call, and a fit in the middle
example : ((new (ewaCls (Fin 2) ℚ) ⟨1/10, true⟩).run
    [.partialFit (.row ![9, 9]), .fit (.batch xs₃), .partialFit (.other 0), .partialFit (.row ![0, 1])]).nSamples = 3 :=
  C04_n_samples (ewa_lawful _ _) _ _

-- C05: the hypotheses hold for EWA with diff on
example := C05_diff (ewa_lawful (Fin 2) ℚ) ⟨1/10, true⟩ rfl [.partialFit (.batch xs₃)]

-- C07: checkpoint after 3 rows, target a used instance
example := C07_checkpoint_resume (ewa_lawful (Fin 2) ℚ) ⟨1/10, false⟩ rfl [.partialFit (.batch xs₃)]
  [.partialFit (.row ![7, 7])] ((new (ewaCls (Fin 2) ℚ) ⟨1/10, false⟩).run [.partialFit (.row ![5, 5])]) rfl

-- C07 (limit): the lost row, on concrete data
example : let o := (new (empiricalCls (Fin 2) ℚ) true).run [.partialFit (.batch xs₃)]
    (o.partialFit (.batch [![9, 9]])).1.nSamples = 3 ∧
    (((new (empiricalCls (Fin 2) ℚ) true).setState o.getState).partialFit (.batch [![9, 9]])).1.nSamples = 2 := by
  have h := C07_diff_loses_a_row (empirical_lawful (Fin 2) ℚ) true rfl [.partialFit (.batch xs₃)] (by decide)
    [![9, 9]] (by simp)
  exact h.2

-- C07 (limit): checkpoint of a stream ending at (4,4), restored into an instance that last saw (5,5)
example := C07_diff_used_target (empirical_lawful (Fin 2) ℚ) true rfl [.partialFit (.batch xs₃)] [.partialFit (.row ![5, 5])]
  (xs₃.getLast (by simp [xs₃])) ![5, 5] (by decide) rfl rfl [![9, 9], ![7, 1]]

-- C08
example := C08_pickle_resume (ewa_lawful (Fin 2) ℚ) ⟨1/10, true⟩ [.partialFit (.batch xs₃)] [.partialFit (.row ![7, 7])]

-- C09: the decay rate of a fitted EWA is frozen
example : FrozenParam (ewaCls (Fin 2) ℚ) (fun p => { p with r := 9/10 }) := ⟨fun _ => rfl, fun _ => rfl, fun _ => rfl, fun _ => rfl⟩

-- C10: a fitted covariance exists
example : ∃ c, ((new (empiricalCls (Fin 2) ℚ) false).run [.partialFit (.batch xs₃)]).covariance = .ok c := ⟨_, rfl⟩

end Examples

end Precise
