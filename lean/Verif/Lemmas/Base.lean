import Verif.Model.Base
import Verif.Spec.Stream

/-! Helper lemmas about the object protocol. -/

set_option linter.all false

namespace Precise

open Obj

variable {ι K : Type} [Fintype ι] [Sub K] {C : Cls ι K}

/-- States a class can reach from `_init_state` by updates (with any parameters in force at each step). -/
inductive Reachable (C : Cls ι K) : C.State → Prop
  | init (p : C.Param) : Reachable C (C.initState p)
  | step (p : C.Param) (s : C.State) (x : ι → K) : Reachable C s → Reachable C (C.updateState p s x)

/-- What every shipped class satisfies (proved for each of them in `Props/Shipped.lean`). -/
structure Lawful (C : Cls ι K) : Prop where
  n_init : ∀ p, C.nSamples (C.initState p) = 0
  n_update : ∀ p s x, C.nSamples (C.updateState p s x) = C.nSamples s + 1
  load_dump : ∀ s, Reachable C s → C.load (C.dump s) = s
  diff_withDiff : ∀ b p, C.diff (C.withDiff b p) = b
  init_withDiff : ∀ b p, C.initState (C.withDiff b p) = C.initState p
  update_withDiff : ∀ b p, C.updateState (C.withDiff b p) = C.updateState p
  toCov_withDiff : ∀ b p, C.toCov (C.withDiff b p) = C.toCov p
  toMean_withDiff : ∀ b p, C.toMean (C.withDiff b p) = C.toMean p

omit [Sub K] in
@[simp] theorem feed_params (o : Obj C) (x : ι → K) : (o.feed x).params = o.params := by
  unfold feed; split <;> rfl
omit [Sub K] in
@[simp] theorem feed_prevX (o : Obj C) (x : ι → K) : (o.feed x).prevX = o.prevX := by
  unfold feed; split <;> rfl

@[simp] theorem stepRow_params (o : Obj C) (x : ι → K) : (o.stepRow x).params = o.params := by
  unfold stepRow; split
  · split <;> simp
  · simp

@[simp] theorem feedRows_params (o : Obj C) (xs : List (ι → K)) : (o.feedRows xs).params = o.params := by
  induction xs generalizing o with
  | nil => rfl
  | cons x xs ih => exact (ih (o.stepRow x)).trans (stepRow_params o x)

@[simp] theorem feedRows_nil (o : Obj C) : o.feedRows [] = o := rfl
theorem feedRows_cons (o : Obj C) (x : ι → K) (xs : List (ι → K)) :
    o.feedRows (x :: xs) = (o.stepRow x).feedRows xs := rfl
theorem feedRows_append (o : Obj C) (xs ys : List (ι → K)) :
    o.feedRows (xs ++ ys) = (o.feedRows xs).feedRows ys := by
  simp [feedRows, List.foldl_append]

theorem partialFit_fst (o : Obj C) (X : Input ι K) : (o.partialFit X).1 = o.feedRows (Spec.rowsOf X) := by
  cases X <;> rfl

omit [Fintype ι] in
/-- The effective stream fed to the hooks, as a fold over states. -/
theorem fold_feed_state [Fintype ι] (o : Obj C) (xs : List (ι → K)) :
    (xs.foldl Obj.feed o).state =
      match xs with
      | [] => o.state
      | _ => some (xs.foldl (C.updateState o.params) (o.state.getD (C.initState o.params))) := by
  induction xs generalizing o with
  | nil => rfl
  | cons x xs ih =>
    rw [List.foldl_cons, ih]
    cases hs : o.state <;> cases xs <;> simp [feed, hs]

theorem feedRows_nodiff (o : Obj C) (h : C.diff o.params = false) (xs : List (ι → K)) :
    o.feedRows xs = xs.foldl Obj.feed o := by
  induction xs generalizing o with
  | nil => rfl
  | cons x xs ih =>
    have hx : o.stepRow x = o.feed x := by simp [stepRow, h]
    rw [feedRows_cons, List.foldl_cons, hx]
    exact ih _ (by simpa using h)

/-- State after feeding rows to an object that already holds a reference row. -/
theorem feedRows_diff_state (o : Obj C) (h : C.diff o.params = true) (q : ι → K) (hq : o.prevX = some q)
    (xs : List (ι → K)) :
    (o.feedRows xs).state = ((Spec.diffs (q :: xs)).foldl Obj.feed o).state ∧
    (o.feedRows xs).nFeatures = ((Spec.diffs (q :: xs)).foldl Obj.feed o).nFeatures := by
  induction xs generalizing o q with
  | nil => simp [Spec.diffs]
  | cons x xs ih =>
    have hx : o.stepRow x = feed { o with prevX := some x } (x - q) := by simp [stepRow, h, hq]
    rw [feedRows_cons, hx]
    have := ih (feed { o with prevX := some x } (x - q)) (by simpa using h) x (by simp)
    rw [this.1, this.2, Spec.diffs, List.foldl_cons]
    -- `prevX` does not influence `feed`'s state
    have key : ∀ (ys : List (ι → K)) (a b : Obj C), a.params = b.params → a.state = b.state →
        a.nFeatures = b.nFeatures →
        (ys.foldl Obj.feed a).state = (ys.foldl Obj.feed b).state ∧
        (ys.foldl Obj.feed a).nFeatures = (ys.foldl Obj.feed b).nFeatures := by
      intro ys
      induction ys with
      | nil => intro a b _ h2 h3; exact ⟨h2, h3⟩
      | cons y ys ih2 =>
        intro a b h1 h2 h3
        refine ih2 _ _ (by simpa using h1) ?_ ?_
        · unfold feed; cases hb : b.state <;> simp [h2, hb, h1]
        · unfold feed; cases hb : b.state <;> simp [h2, hb, h3]
    refine key _ _ _ (by simp) ?_ ?_
    · unfold feed; cases hb : o.state <;> simp
    · unfold feed; cases hb : o.state <;> simp

/-- State of a new object fed any stream, in terms of the effective observations. -/
theorem new_feedRows_state (p : C.Param) (xs : List (ι → K)) :
    ((new C p).feedRows xs).state =
      match Spec.effective (C.diff p) xs with
      | [] => none
      | ys => some (ys.foldl (C.updateState p) (C.initState p)) := by
  cases hd : C.diff p with
  | false =>
    rw [feedRows_nodiff _ (by simpa [new] using hd), fold_feed_state]
    cases xs <;> simp [Spec.effective, new]
  | true =>
    cases xs with
    | nil => simp [Spec.effective, Spec.diffs, new]
    | cons x xs =>
      have hx : (new C p).stepRow x = { new C p with prevX := some x } := by
        simp [stepRow, new, hd]
      rw [feedRows_cons, hx, (feedRows_diff_state _ (by simpa [new] using hd) x rfl xs).1, fold_feed_state]
      simp only [Spec.effective, if_true]
      split <;> simp_all [new]

/-- `n_features_in_` of a new object fed any stream. -/
theorem new_feedRows_nFeatures (p : C.Param) (xs : List (ι → K)) :
    ((new C p).feedRows xs).nFeatures =
      if Spec.effective (C.diff p) xs = [] then none else some (Fintype.card ι) := by
  have inv : ∀ (ys : List (ι → K)) (o : Obj C), o.state.isSome → (ys.foldl Obj.feed o).nFeatures = o.nFeatures := by
    intro ys
    induction ys with
    | nil => intro o _; rfl
    | cons y ys ih =>
      intro o ho
      rw [List.foldl_cons, ih]
      · cases hs : o.state <;> simp_all [feed]
      · unfold feed; split <;> rfl
  have base : ∀ (ys : List (ι → K)) (o : Obj C), o.state = none → o.nFeatures = none →
      (ys.foldl Obj.feed o).nFeatures = if ys = [] then none else some (Fintype.card ι) := by
    intro ys o h1 h2
    cases ys with
    | nil => simpa using h2
    | cons y ys =>
      rw [List.foldl_cons, inv]
      · simp [feed, h1]
      · simp [feed, h1]
  cases hd : C.diff p with
  | false =>
    rw [feedRows_nodiff _ (by simpa [new] using hd), base _ _ rfl rfl]
    simp [Spec.effective]
  | true =>
    cases xs with
    | nil => simp [Spec.effective, Spec.diffs, new]
    | cons x xs =>
      have hx : (new C p).stepRow x = { new C p with prevX := some x } := by
        simp [stepRow, new, hd]
      rw [feedRows_cons, hx, (feedRows_diff_state _ (by simpa [new] using hd) x rfl xs).2, base _ _ rfl rfl]
      simp [Spec.effective]

/-- The kept reference row is the last row (or the earlier one). -/
theorem feedRows_prevX (o : Obj C) (xs : List (ι → K)) :
    (o.feedRows xs).prevX = if C.diff o.params then (xs.getLast?.or o.prevX) else o.prevX := by
  induction xs generalizing o with
  | nil => simp
  | cons x xs ih =>
    rw [feedRows_cons, ih, stepRow_params]
    cases hd : C.diff o.params with
    | false => simp [stepRow, hd]
    | true =>
      have : (o.stepRow x).prevX = some x := by
        simp only [stepRow, hd, if_true]; split <;> simp
      rw [this]
      cases xs with
      | nil => simp
      | cons y t =>
        rw [List.getLast?_cons_cons, List.getLast?_eq_some_getLast (List.cons_ne_nil y t)]
        simp

omit [Fintype ι] in
theorem diffs_length (xs : List (ι → K)) : (Spec.diffs xs).length = xs.length - 1 := by
  induction xs with
  | nil => rfl
  | cons x xs ih =>
    cases xs with
    | nil => rfl
    | cons y t => simp [Spec.diffs, ih]

omit [Fintype ι] in
theorem effective_length (d : Bool) (xs : List (ι → K)) :
    (Spec.effective d xs).length = if d then xs.length - 1 else xs.length := by
  cases d <;> simp [Spec.effective, diffs_length]

theorem Lawful.fold_nSamples (hC : Lawful C) (p : C.Param) (s : C.State) (xs : List (ι → K)) :
    C.nSamples (xs.foldl (C.updateState p) s) = C.nSamples s + xs.length := by
  induction xs generalizing s with
  | nil => rfl
  | cons x xs ih => rw [List.foldl_cons, ih, hC.n_update, List.length_cons]; omega

theorem reachable_fold (p : C.Param) (s : C.State) (hs : Reachable C s) (xs : List (ι → K)) :
    Reachable C (xs.foldl (C.updateState p) s) := by
  induction xs generalizing s with
  | nil => exact hs
  | cons x xs ih => exact ih _ (.step p s x hs)

end Precise

namespace Precise
open Obj
variable {ι K : Type} [Fintype ι] [Sub K] {C : Cls ι K}

/-- Every object reached from a new one: state and reference row are those of the rows since the last fit. -/
theorem run_eq (p : C.Param) (cs : List (Call ι K)) (o : Obj C) (acc : List (ι → K))
    (hp : o.params = p) (hs : o.state = ((new C p).feedRows acc).state)
    (hq : o.prevX = ((new C p).feedRows acc).prevX) :
    (o.run cs).params = p ∧
    (o.run cs).state = ((new C p).feedRows (Spec.rowsSinceFit cs acc)).state ∧
    (o.run cs).prevX = ((new C p).feedRows (Spec.rowsSinceFit cs acc)).prevX := by
  have cong : ∀ (ys : List (ι → K)) (a b : Obj C), a.params = b.params → a.state = b.state →
      a.prevX = b.prevX → (a.feedRows ys).state = (b.feedRows ys).state ∧
        (a.feedRows ys).prevX = (b.feedRows ys).prevX := by
    intro ys
    induction ys with
    | nil => intro a b _ h2 h3; exact ⟨h2, h3⟩
    | cons y ys ih =>
      intro a b h1 h2 h3
      rw [feedRows_cons, feedRows_cons]
      refine ih _ _ (by simp [h1]) ?_ ?_
      · unfold stepRow
        rw [h1, h3]
        split
        · split
          · exact h2
          · unfold feed; simp only [h2, h1]; split <;> rfl
        · unfold feed; simp only [h2, h1]; split <;> rfl
      · unfold stepRow
        rw [h1, h3]
        split
        · split <;> simp
        · simp [h3]
  induction cs generalizing o acc with
  | nil => exact ⟨hp, hs, hq⟩
  | cons c cs ih =>
    cases c with
    | partialFit X =>
      refine ih _ _ (by simp [call, partialFit_fst, hp]) ?_ ?_
      · simp only [call, partialFit_fst, feedRows_append]
        exact (cong _ _ _ (by simp [hp, new]) hs hq).1
      · simp only [call, partialFit_fst, feedRows_append]
        exact (cong _ _ _ (by simp [hp, new]) hs hq).2
    | fit X =>
      cases X with
      | batch xs =>
        refine ih _ xs (by simp [call, Obj.fit, partialFit_fst, hp]) ?_ ?_
        · exact (cong xs { o with state := none, prevX := none } (new C p) hp rfl rfl).1
        · exact (cong xs { o with state := none, prevX := none } (new C p) hp rfl rfl).2
      | row x => exact ih _ [] hp rfl rfl
      | other n => exact ih _ [] hp rfl rfl

theorem run_new (p : C.Param) (cs : List (Call ι K)) :
    ((new C p).run cs).params = p ∧
    ((new C p).run cs).state = ((new C p).feedRows (Spec.rowsSinceFit cs [])).state ∧
    ((new C p).run cs).prevX = ((new C p).feedRows (Spec.rowsSinceFit cs [])).prevX :=
  run_eq p cs (new C p) [] rfl rfl rfl

/-- The state after any history, in closed form. -/
theorem run_new_state (p : C.Param) (cs : List (Call ι K)) :
    ((new C p).run cs).state =
      match Spec.effective (C.diff p) (Spec.rowsSinceFit cs []) with
      | [] => none
      | ys => some (ys.foldl (C.updateState p) (C.initState p)) := by
  rw [(run_new p cs).2.1, new_feedRows_state]

theorem run_new_reachable (p : C.Param) (cs : List (Call ι K)) (s : C.State)
    (h : ((new C p).run cs).state = some s) : Reachable C s := by
  rw [run_new_state] at h
  split at h
  · cases h
  · cases h; exact reachable_fold _ _ (.init p) _

/-- A fitted object of any history: its state is the fold over a nonempty list. -/
theorem run_new_some (p : C.Param) (cs : List (Call ι K)) (s : C.State)
    (h : ((new C p).run cs).state = some s) :
    Spec.effective (C.diff p) (Spec.rowsSinceFit cs []) ≠ [] ∧
    s = (Spec.effective (C.diff p) (Spec.rowsSinceFit cs [])).foldl (C.updateState p) (C.initState p) := by
  rw [run_new_state] at h
  split at h
  · cases h
  · rename_i hne; cases h; exact ⟨hne, rfl⟩

/-- A fitted object knows its dimension. -/
theorem run_nFeatures (cs : List (Call ι K)) (o : Obj C)
    (h : o.state.isSome → o.nFeatures = some (Fintype.card ι)) :
    (o.run cs).state.isSome → (o.run cs).nFeatures = some (Fintype.card ι) := by
  have feedc : ∀ (ys : List (ι → K)) (u : Obj C), (u.state.isSome → u.nFeatures = some (Fintype.card ι)) →
      (u.feedRows ys).state.isSome → (u.feedRows ys).nFeatures = some (Fintype.card ι) := by
    intro ys
    induction ys with
    | nil => intro u h; exact h
    | cons y ys ih =>
      intro u h
      rw [feedRows_cons]
      refine ih _ ?_
      have hf : ∀ (v : Obj C) z, (v.state.isSome → v.nFeatures = some (Fintype.card ι)) →
          (v.feed z).nFeatures = some (Fintype.card ι) := by
        intro v z hv
        cases hs : v.state <;> simp_all [feed]
      unfold stepRow
      split
      · split
        · exact h
        · intro _; exact hf _ _ h
      · intro _; exact hf _ _ h
  induction cs generalizing o with
  | nil => exact h
  | cons c cs ih =>
    refine ih _ ?_
    cases c with
    | partialFit X => simp only [call, partialFit_fst]; exact feedc _ _ h
    | fit X =>
      cases X with
      | batch xs => simp only [call, Obj.fit, partialFit_fst]; exact feedc _ _ (by simp)
      | row x => simp [call, Obj.fit]
      | other n => simp [call, Obj.fit]

theorem run_new_nFeatures (p : C.Param) (cs : List (Call ι K)) :
    ((new C p).run cs).state.isSome → ((new C p).run cs).nFeatures = some (Fintype.card ι) :=
  run_nFeatures cs (new C p) (by simp [new])

/-- Fitted attributes after any history that used at least one observation. -/
theorem run_location (hC : Lawful C) (p : C.Param) (calls : List (Call ι K)) (h : Spec.used (C.diff p) calls ≠ []) :
    ((new C p).run calls).location
      = .ok (C.toMean p ((Spec.used (C.diff p) calls).foldl (C.updateState p) (C.initState p))) := by
  have hs := run_new_state p calls
  have hp := (run_new p calls).1
  change _ = match Spec.used (C.diff p) calls with | [] => none | ys => _ at hs
  have hs' : ((new C p).run calls).state
      = some ((Spec.used (C.diff p) calls).foldl (C.updateState p) (C.initState p)) := by
    rw [hs]; split
    · exact absurd ‹_› h
    · rfl
  have hn : ¬ C.nSamples ((Spec.used (C.diff p) calls).foldl (C.updateState p) (C.initState p)) < 1 := by
    rw [hC.fold_nSamples, hC.n_init]
    have := List.length_pos_iff.2 h
    omega
  unfold Obj.location fittedState
  rw [hs']
  simp only [if_neg hn, Except.map, hp]

theorem run_covariance [Add K] [Div K] [OfNat K 2] (hC : Lawful C) (p : C.Param) (calls : List (Call ι K))
    (h : Spec.used (C.diff p) calls ≠ []) :
    ((new C p).run calls).covariance
      = .ok (toSymmetric (C.toCov p ((Spec.used (C.diff p) calls).foldl (C.updateState p) (C.initState p)))) := by
  have hs := run_new_state p calls
  have hp := (run_new p calls).1
  change _ = match Spec.used (C.diff p) calls with | [] => none | ys => _ at hs
  have hs' : ((new C p).run calls).state
      = some ((Spec.used (C.diff p) calls).foldl (C.updateState p) (C.initState p)) := by
    rw [hs]; split
    · exact absurd ‹_› h
    · rfl
  have hn : ¬ C.nSamples ((Spec.used (C.diff p) calls).foldl (C.updateState p) (C.initState p)) < 1 := by
    rw [hC.fold_nSamples, hC.n_init]
    have := List.length_pos_iff.2 h
    omega
  unfold Obj.covariance fittedState
  rw [hs']
  simp only [if_neg hn, Except.map, hp]

/-- A fitted attribute exists only after an observation. -/
theorem run_covariance_inv [Add K] [Div K] [OfNat K 2] (hC : Lawful C) (p : C.Param) (calls : List (Call ι K))
    (c : Matrix ι ι K) (h : ((new C p).run calls).covariance = .ok c) :
    Spec.used (C.diff p) calls ≠ [] ∧
    c = toSymmetric (C.toCov p ((Spec.used (C.diff p) calls).foldl (C.updateState p) (C.initState p))) := by
  have hne : Spec.used (C.diff p) calls ≠ [] := by
    intro he
    have hs := run_new_state p calls
    change _ = match Spec.used (C.diff p) calls with | [] => none | ys => _ at hs
    rw [he] at hs
    simp [Obj.covariance, fittedState, hs, Except.map] at h
  rw [run_covariance hC p calls hne] at h
  exact ⟨hne, (Except.ok.inj h).symm⟩

theorem run_location_inv (hC : Lawful C) (p : C.Param) (calls : List (Call ι K))
    (m : ι → K) (h : ((new C p).run calls).location = .ok m) :
    Spec.used (C.diff p) calls ≠ [] ∧
    m = C.toMean p ((Spec.used (C.diff p) calls).foldl (C.updateState p) (C.initState p)) := by
  have hne : Spec.used (C.diff p) calls ≠ [] := by
    intro he
    have hs := run_new_state p calls
    change _ = match Spec.used (C.diff p) calls with | [] => none | ys => _ at hs
    rw [he] at hs
    simp [Obj.location, fittedState, hs, Except.map] at h
  rw [run_location hC p calls hne] at h
  exact ⟨hne, (Except.ok.inj h).symm⟩

end Precise
