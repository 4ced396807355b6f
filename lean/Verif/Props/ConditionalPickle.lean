import Verif.Props.Conditional

/-!
# C74: saving a ConditionalCovariance
-/

set_option linter.all false

namespace Precise

open Spec

variable {ι : Type} [Fintype ι] {V : Cls (Fin 1) ℝ} {Sk : Type} {C : Cls ι ℝ}

/-- the estimator was made by its constructor and then used -/
def Used {ι : Type} [Fintype ι] {C : Cls ι ℝ} (o : Obj C) : Prop := ∃ p calls, o = (Obj.new C p).run calls

theorem Used.clone {o : Obj C} (h : Used o) : Used o.clone := ⟨o.params, [], rfl⟩

theorem Used.partialFit {o : Obj C} (h : Used o) (X : Input ι ℝ) : Used (o.partialFit X).1 := by
  obtain ⟨p, calls, rfl⟩ := h
  exact ⟨p, calls ++ [.partialFit X], by simp [Obj.run, Obj.call]⟩

theorem Used.pickle {o : Obj C} (hC : Lawful C) (h : Used o) : Obj.ofPickle o.toPickle = o := by
  obtain ⟨p, calls, rfl⟩ := h
  exact C08_pickle_roundtrip hC p calls

/-- the volatility prototype is a used estimator or a skater -/
def GoodVol : VolArg V Sk → Prop
  | .est o => Used o
  | _ => True

def GoodModel : VolModel V Sk → Prop
  | .precise e => Used e
  | _ => True

theorem goodModel_make {v : VolArg V Sk} {m : VolModel V Sk} (hv : GoodVol v) (h : makeVol v = .ok m) : GoodModel m := by
  cases v with
  | est o => injection h with h; subst h; exact Used.clone hv
  | skater f => injection h with h; subst h; trivial
  | other => cases h

theorem goodModel_push {m : VolModel V Sk} (h : GoodModel m) (y : ℝ) : GoodModel (m.push y) := by
  cases m with
  | precise e => exact Used.partialFit h _
  | skater f st a b => trivial

def GoodCond (o : CondObj V Sk C) : Prop :=
  GoodVol o.vol ∧ Used o.corr ∧ ∀ s, o.state = some s → (∀ i, GoodModel (s.vols i)) ∧ Used s.corrModel

theorem goodCond_stepRow {o : CondObj V Sk C} (h : GoodCond o) (x : ι → ℝ) : GoodCond (o.stepRow x).1 := by
  obtain ⟨h1, h2, h3⟩ := h
  unfold CondObj.stepRow
  cases hs : o.state with
  | some s =>
    refine ⟨h1, h2, fun s' e => ?_⟩
    injection e with e; subst e
    obtain ⟨a, b⟩ := h3 s hs
    exact ⟨fun i => goodModel_push (a i) _, b.partialFit _⟩
  | none =>
    simp only []
    cases hm : makeVol o.vol with
    | error e => exact ⟨h1, h2, fun s' e => by simp [hs] at e⟩
    | ok vm =>
      refine ⟨h1, h2, fun s' e => ?_⟩
      injection e with e; subst e
      exact ⟨fun i => goodModel_push (goodModel_make h1 hm) _, (h2.clone).partialFit _⟩

theorem goodCond_feed (xs : List (ι → ℝ)) : ∀ {o : CondObj V Sk C}, GoodCond o → GoodCond (o.feedRows xs).1 := by
  induction xs with
  | nil => intro o h; exact h
  | cons x xs ih =>
    intro o h
    have := goodCond_stepRow h x
    unfold CondObj.feedRows
    split
    · rename_i o' e; rw [e] at this; exact ih this
    · rename_i o' err e; rw [e] at this; exact this

theorem goodCond_partialFit {o : CondObj V Sk C} (h : GoodCond o) (X : Input ι ℝ) : GoodCond (o.partialFit X).1 := by
  unfold CondObj.partialFit
  split
  · exact h
  · exact goodCond_feed _ h

theorem goodCond_call {o : CondObj V Sk C} (h : GoodCond o) (c : Call ι ℝ) : GoodCond (o.call c) := by
  cases c with
  | partialFit X => exact goodCond_partialFit h X
  | fit X =>
    have h' : GoodCond { o with state := none } := ⟨h.1, h.2.1, fun s e => by cases e⟩
    show GoodCond (o.fit X).1
    unfold CondObj.fit
    simp only []
    split
    · exact goodCond_partialFit h' _
    · exact h'

theorem goodCond_run (calls : List (Call ι ℝ)) : ∀ {o : CondObj V Sk C}, GoodCond o → GoodCond (o.run calls) := by
  induction calls with
  | nil => intro o h; exact h
  | cons c cs ih => intro o h; exact ih (goodCond_call h c)

theorem pickled_good (hV : Lawful V) (hC : Lawful C) {o : CondObj V Sk C} (h : GoodCond o) : o.pickled = o := by
  obtain ⟨h1, h2, h3⟩ := h
  have e1 : CondObj.pickleVolArg o.vol = o.vol := by
    cases hv : o.vol with
    | est e => rw [hv] at h1; simp only [CondObj.pickleVolArg]; rw [Used.pickle hV h1]
    | skater f => rfl
    | other => rfl
  have e3 : (o.state.map fun s => { s with vols := fun i => CondObj.pickleVol (s.vols i), corrModel := Obj.ofPickle s.corrModel.toPickle }) = o.state := by
    cases hs : o.state with
    | none => rfl
    | some s =>
      obtain ⟨a, b⟩ := h3 s hs
      have e4 : (fun i => CondObj.pickleVol (s.vols i)) = s.vols := by
        funext i
        have := a i
        cases hm : s.vols i with
        | precise e => rw [hm] at this; simp only [CondObj.pickleVol]; rw [Used.pickle hV this]
        | skater f st m v => rfl
      simp only [Option.map_some, e4, Used.pickle hC b]
  show CondObj.mk _ _ _ _ = _
  rw [e1, Used.pickle hC h2, e3]

/-- C74: pickling a ConditionalCovariance at any moment gives back the same object, so continuing with the copy gives the same results
as continuing with the original — every volatility model and the correlation model keep their state, and so do the prototypes. -/
theorem C74_pickle (hV : Lawful V) (hC : Lawful C) (vol : VolArg V Sk) (corr : Obj C) (hvol : GoodVol vol) (hcorr : Used corr)
    (past future : List (Call ι ℝ)) :
    ((CondObj.new vol corr).run past).pickled = (CondObj.new vol corr).run past ∧
    (((CondObj.new vol corr).run past).pickled).run future = (CondObj.new vol corr).run (past ++ future) := by
  have h := pickled_good hV hC (goodCond_run past (o := CondObj.new vol corr) ⟨hvol, hcorr, fun s e => by cases e⟩)
  refine ⟨h, ?_⟩
  rw [h]
  simp [CondObj.run]

/-- C74: `get_state` and `set_state` refuse, in every state, and change nothing. -/
theorem C74_get_state (o : CondObj V Sk C) : o.getState = .error .notImplemented ∧ o.setState = .error .notImplemented := ⟨rfl, rfl⟩

theorem nFeatures_stepRow (o : CondObj V Sk C) (x : ι → ℝ) (h : o.state.isSome → o.nFeatures = some (Fintype.card ι)) :
    (o.stepRow x).1.nFeatures = some (Fintype.card ι) := by
  unfold CondObj.stepRow
  cases hs : o.state with
  | some s => exact h (by simp [hs])
  | none => simp only []; cases makeVol o.vol <;> rfl

theorem nFeatures_feed (xs : List (ι → ℝ)) : ∀ (o : CondObj V Sk C), (o.state.isSome → o.nFeatures = some (Fintype.card ι)) →
    ((o.feedRows xs).1.state.isSome → (o.feedRows xs).1.nFeatures = some (Fintype.card ι)) ∧ (xs ≠ [] → (o.feedRows xs).1.nFeatures = some (Fintype.card ι)) := by
  induction xs with
  | nil => intro o h; exact ⟨h, fun h => absurd rfl h⟩
  | cons x xs ih =>
    intro o h
    have := nFeatures_stepRow o x h
    unfold CondObj.feedRows
    split
    · rename_i o' e
      rw [e] at this
      obtain ⟨a, b⟩ := ih o' fun _ => this
      refine ⟨a, fun _ => ?_⟩
      by_cases hx : xs = []
      · subst hx; exact this
      · exact b hx
    · rename_i o' err e; rw [e] at this; exact ⟨fun _ => this, fun _ => this⟩

/-- C74: inputs. A new object has no `n_features_in_`; `partial_fit` of an array that is not 1d or 2d raises ValueError and changes
nothing; `fit` of anything but a 2d array raises ValueError and leaves the object unfitted; an empty batch changes nothing. -/
theorem C74_inputs (vol : VolArg V Sk) (corr : Obj C) (o : CondObj V Sk C) (n : ℕ) (x : ι → ℝ) :
    (CondObj.new vol corr).nFeatures = none ∧ (CondObj.new vol corr).nSamples = 0 ∧
    o.partialFit (.other n) = (o, .error .valueError) ∧ o.partialFit (.batch []) = (o, .ok ()) ∧
    ((o.fit (.other n)).2 = .error .valueError ∧ (o.fit (.other n)).1.nSamples = 0 ∧ (o.fit (.other n)).1.covariance = .error .notFitted) ∧
    ((o.fit (.row x)).2 = .error .valueError ∧ (o.fit (.row x)).1.nSamples = 0 ∧ (o.fit (.row x)).1.covariance = .error .notFitted) ∧
    o.partialFit (.row x) = o.partialFit (.batch [x]) :=
  ⟨rfl, rfl, rfl, rfl, ⟨rfl, rfl, rfl⟩, ⟨rfl, rfl, rfl⟩, rfl⟩

/-- C74: whenever something has been fed, `n_features_in_` is the number of series — also when the row raised TypeError because of
a bad `vol`. -/
theorem C74_n_features (vol : VolArg V Sk) (corr : Obj C) (calls : List (Call ι ℝ)) (X : Input ι ℝ) (hX : rowsOf X ≠ []) :
    ((((CondObj.new vol corr).run calls).partialFit X).1).nFeatures = some (Fintype.card ι) := by
  have inv : ∀ (calls : List (Call ι ℝ)) (o : CondObj V Sk C), (o.state.isSome → o.nFeatures = some (Fintype.card ι)) →
      (o.run calls).state.isSome → (o.run calls).nFeatures = some (Fintype.card ι) := by
    intro calls
    induction calls with
    | nil => intro o h; exact h
    | cons c cs ih =>
      intro o h
      refine ih (o.call c) ?_
      cases c with
      | partialFit X =>
        show (o.partialFit X).1.state.isSome → (o.partialFit X).1.nFeatures = _
        unfold CondObj.partialFit
        split
        · exact h
        · exact (nFeatures_feed _ o h).1
      | fit X =>
        show (o.fit X).1.state.isSome → (o.fit X).1.nFeatures = _
        unfold CondObj.fit
        simp only []
        split
        · unfold CondObj.partialFit
          split
          · simp
          · exact (nFeatures_feed _ _ (by simp)).1
        · simp
  have h0 := inv calls (CondObj.new vol corr) (by simp [CondObj.new])
  unfold CondObj.partialFit
  cases X with
  | row x => exact (nFeatures_feed [x] _ h0).2 (by simp)
  | batch xs => exact (nFeatures_feed xs _ h0).2 hX
  | other n => exact absurd rfl hX

/-- Non-vacuity: a used prototype, the empirical estimator for volatility and correlation. -/
example : GoodVol (Sk := Unit) (VolArg.est (Obj.new (empiricalCls (Fin 1) ℝ) false)) ∧ Used (Obj.new (empiricalCls (Fin 2) ℝ) true) :=
  ⟨⟨_, [], rfl⟩, ⟨_, [], rfl⟩⟩

end Precise
