import Verif.Props.Interrupted
import Verif.Props.Conditional

/-!
# C111, part 3: ConditionalCovariance with a skater that may fail
-/

set_option linter.all false

open Matrix

namespace Precise

open Spec

variable {Sk : Type} {d : ℕ} {C : Cls (Fin d) ℝ}

/-- A new `ConditionalCovariance(from_skater(f), corr)`. -/
def RawCond.new (f : RawSkater Sk) (corr : Obj C) : RawCond Sk C := ⟨f, corr, none⟩

namespace RawCond

theorem pushAll_ok (x : Fin d → ℝ) (is : List (Fin d)) : ∀ (vols : Fin d → RawVol Sk), is.Nodup →
    (∀ i ∈ is, ((vols i).push (x i)).2 = .ok ()) →
    pushAll x is vols = (fun i => if i ∈ is then ((vols i).push (x i)).1 else vols i, .ok ()) := by
  induction is with
  | nil => intro vols _ _; simp [pushAll]
  | cons i is ih =>
    intro vols hnd h
    rw [List.nodup_cons] at hnd
    rw [pushAll]
    have hi := h i (by simp)
    rcases hp : (vols i).push (x i) with ⟨v, r⟩
    rw [hp] at hi
    simp only at hi
    subst hi
    simp only []
    have hne : ∀ j ∈ is, Function.update vols i v j = vols j := fun j hj =>
      Function.update_of_ne (fun e => hnd.1 (by rw [← e]; exact hj)) _ _
    rw [ih _ hnd.2 (fun j hj => by rw [hne j hj]; exact h j (List.mem_cons_of_mem _ hj))]
    congr 1
    funext j
    by_cases hj : j ∈ is
    · rw [if_pos hj, if_pos (List.mem_cons_of_mem _ hj), hne j hj]
    · rw [if_neg hj]
      by_cases hji : j = i
      · subst hji
        rw [if_pos (by simp), Function.update_self, hp]
      · rw [Function.update_of_ne hji, if_neg (by simp [hji, hj])]

theorem pushAll_bad (x : Fin d → ℝ) (pre post : List (Fin d)) (k : Fin d) (e : PyErr) : ∀ (vols : Fin d → RawVol Sk), (pre ++ k :: post).Nodup →
    (∀ i ∈ pre, ((vols i).push (x i)).2 = .ok ()) → ((vols k).push (x k)).2 = .error e →
    pushAll x (pre ++ k :: post) vols = (fun i => if i ∈ pre ∨ i = k then ((vols i).push (x i)).1 else vols i, .error e) := by
  induction pre with
  | nil =>
    intro vols _ _ hk
    rw [List.nil_append, pushAll]
    rcases hp : (vols k).push (x k) with ⟨v, r⟩
    rw [hp] at hk
    simp only at hk
    subst hk
    simp only []
    congr 1
    funext j
    by_cases hj : j = k
    · subst hj; simp [hp]
    · simp [hj, Function.update_of_ne hj]
  | cons i is ih =>
    intro vols hnd h hk
    rw [List.cons_append, List.nodup_cons] at hnd
    rw [List.cons_append, pushAll]
    have hi := h i (by simp)
    rcases hp : (vols i).push (x i) with ⟨v, r⟩
    rw [hp] at hi
    simp only at hi
    subst hi
    simp only []
    have hne : ∀ j ∈ is ++ k :: post, Function.update vols i v j = vols j := fun j hj =>
      Function.update_of_ne (fun e => hnd.1 (by rw [← e]; exact hj)) _ _
    rw [ih _ hnd.2 (fun j hj => by rw [hne j (by simp [hj])]; exact h j (List.mem_cons_of_mem _ hj)) (by rw [hne k (by simp)]; exact hk)]
    congr 1
    funext j
    by_cases hj : j ∈ is ∨ j = k
    · rw [if_pos hj, if_pos (by rcases hj with hj | hj <;> simp [hj]), hne j (by rcases hj with hj | hj <;> simp [hj])]
    · rw [if_neg hj]
      push Not at hj
      by_cases hji : j = i
      · subst hji
        rw [if_pos (by simp), Function.update_self, hp]
      · rw [Function.update_of_ne hji, if_neg (by simp [hji, hj.1, hj.2])]

end RawCond

open RawCond

/-- The row the correlation model is fed: the observation standardized by the forecasts in force. -/
noncomputable def RawCondState.residual (s : RawCondState Sk C) (x : Fin d → ℝ) : Fin d → ℝ := fun i =>
  (x i - (s.vols i).mean) / Real.sqrt (max (s.vols i).var EPS)

theorem stepState_corr (s : RawCondState Sk C) (x : Fin d → ℝ) :
    (stepState s x).1.corrModel = (s.corrModel.partialFit (.row (s.residual x))).1 := by
  unfold stepState
  simp only []
  split <;> rfl

theorem stepState_count (s : RawCondState Sk C) (x : Fin d → ℝ) :
    ((stepState s x).2 = .ok () → (stepState s x).1.nSamples = s.nSamples + 1) ∧
    ((stepState s x).2 ≠ .ok () → (stepState s x).1.nSamples = s.nSamples ∧ (stepState s x).1.mean = s.mean ∧ (stepState s x).1.var = s.var) := by
  unfold stepState
  simp only []
  split
  · exact ⟨fun h => (by cases h), fun _ => ⟨rfl, rfl, rfl⟩⟩
  · exact ⟨fun _ => rfl, fun h => absurd rfl h⟩

/-- C111: when no skater call fails (each returns at least one forecast), `ConditionalCovariance` is the one of C40, for all rows. -/
theorem C111_cond_no_failure {V : Cls (Fin 1) ℝ} (f : RawSkater Sk) (g : Skater Sk) (hfg : ∀ y st, ∃ rest, f y st = .ok ((g y st).1 :: rest, (g y st).2))
    (corr : Obj C) (xs : List (Fin d → ℝ)) :
    let o := (RawCond.new f corr).feedRows xs
    let o' := ((CondObj.new (.skater g : VolArg V Sk) corr).feedRows xs).1
    o.2 = .ok () ∧ o.1.nSamples = o'.nSamples ∧ o.1.location = o'.location ∧ o.1.covariance = o'.covariance := by
  -- the simulation relation
  let emb : RawVol Sk → VolModel V Sk := fun v => .skater g v.state v.mean v.var
  let R : RawCondState Sk C → CondState V Sk C → Prop := fun s t =>
    (∀ i, (s.vols i).f = f) ∧ t.vols = (fun i => emb (s.vols i)) ∧ t.corrModel = s.corrModel ∧ t.nSamples = s.nSamples ∧ t.mean = s.mean ∧ t.var = s.var
  have hpush : ∀ (v : RawVol Sk) y, v.f = f → (v.push y).2 = .ok () ∧ (v.push y).1.f = f ∧ emb (v.push y).1 = (emb v).push y := by
    intro v y hv
    obtain ⟨rest, hr⟩ := hfg y v.state
    unfold RawVol.push
    rw [hv, hr]
    exact ⟨rfl, rfl, rfl⟩
  have hstep : ∀ s t x, R s t → (stepState s x).2 = .ok () ∧ R (stepState s x).1 (CondObj.stepState t x) := by
    rintro s t x ⟨h1, h2, h3, h4, h5, h6⟩
    have hp := pushAll_ok x (List.finRange d) s.vols (List.nodup_finRange d) fun i _ => (hpush _ _ (h1 i)).1
    have hs : stepState s x = ({ s with
        corrModel := (s.corrModel.partialFit (.row (s.residual x))).1
        vols := fun i => ((s.vols i).push (x i)).1
        mean := fun i => ((s.vols i).push (x i)).1.mean
        var := fun i => max ((s.vols i).push (x i)).1.var EPS
        nSamples := s.nSamples + 1 }, .ok ()) := by
      unfold stepState
      simp only []
      rw [hp]
      simp only [List.mem_finRange, if_true]
      rfl
    rw [hs]
    refine ⟨rfl, fun i => (hpush _ _ (h1 i)).2.1, ?_, ?_, ?_, ?_, ?_⟩
    · show (fun i => (t.vols i).push (x i)) = _
      rw [h2]
      funext i
      exact ((hpush _ _ (h1 i)).2.2).symm
    · show (t.corrModel.partialFit (.row fun i => (x i - (t.vols i).mean) / Real.sqrt (max (t.vols i).variance EPS))).1 = _
      rw [h2, h3]; rfl
    · show t.nSamples + 1 = s.nSamples + 1
      rw [h4]
    · show (fun i => ((t.vols i).push (x i)).mean) = _
      rw [h2]
      funext i
      show ((emb (s.vols i)).push (x i)).mean = _
      rw [← (hpush _ (x i) (h1 i)).2.2]; rfl
    · show (fun i => max ((t.vols i).push (x i)).variance EPS) = _
      rw [h2]
      funext i
      show max ((emb (s.vols i)).push (x i)).variance EPS = _
      rw [← (hpush _ (x i) (h1 i)).2.2]; rfl
  have key : ∀ (xs : List (Fin d → ℝ)) (o : RawCond Sk C) (o' : CondObj V Sk C), o.f = f → o'.vol = .skater g → o.corr = o'.corr →
      ((o.state = none ∧ o'.state = none) ∨ ∃ s t, o.state = some s ∧ o'.state = some t ∧ R s t) →
      (o.feedRows xs).2 = .ok () ∧ (((o.feedRows xs).1.state = none ∧ (o'.feedRows xs).1.state = none) ∨
        ∃ s t, (o.feedRows xs).1.state = some s ∧ (o'.feedRows xs).1.state = some t ∧ R s t) := by
    intro xs
    induction xs with
    | nil => intro o o' _ _ _ h; exact ⟨rfl, h⟩
    | cons x xs ih =>
      intro o o' hf hv hc h
      obtain ⟨s, t, hs, ht, hR⟩ : ∃ s t, o.state.getD o.initState = s ∧
          o'.stepRow x = ({ o' with nFeatures := (o'.stepRow x).1.nFeatures, state := some (CondObj.stepState t x) }, .ok ()) ∧ R s t := by
        rcases h with ⟨h1, h2⟩ | ⟨s, t, h1, h2, hR⟩
        · refine ⟨_, CondObj.initState o' (.skater g none 0 1), rfl, ?_, ?_⟩
          · unfold CondObj.stepRow
            rw [h2]
            simp only []
            rw [hv]; rfl
          · rw [h1]
            refine ⟨fun _ => hf, rfl, ?_, rfl, rfl, rfl⟩
            show o'.corr.clone = o.corr.clone
            rw [hc]
        · refine ⟨s, t, by rw [h1]; rfl, ?_, hR⟩
          unfold CondObj.stepRow
          rw [h2]
      have hst := hstep s t x hR
      have ho : o.partialFit x = ({ o with state := some (stepState s x).1 }, .ok ()) := by
        unfold RawCond.partialFit
        simp only []
        rw [hs, hst.1]
      rw [RawCond.feedRows, ho, CondObj.feedRows, ht]
      exact ih _ _ hf hv hc (Or.inr ⟨_, _, rfl, rfl, hst.2⟩)
  intro o o'
  obtain ⟨h1, h2⟩ := key xs (RawCond.new f corr) (CondObj.new (.skater g) corr) rfl rfl rfl (Or.inl ⟨rfl, rfl⟩)
  refine ⟨h1, ?_⟩
  rcases h2 with ⟨h, h'⟩ | ⟨s, t, h, h', -, h2, h3, h4, h5, h6⟩
  · refine ⟨?_, ?_, ?_⟩
    · unfold RawCond.nSamples CondObj.nSamples
      rw [h, h']
    · unfold RawCond.location CondObj.location RawCond.fittedState CondObj.fittedState
      rw [h, h']; rfl
    · unfold RawCond.covariance CondObj.covariance RawCond.fittedState CondObj.fittedState
      rw [h, h']; rfl
  · refine ⟨?_, ?_, ?_⟩
    · unfold RawCond.nSamples CondObj.nSamples
      rw [h, h']
      exact h4.symm
    · unfold RawCond.location CondObj.location RawCond.fittedState CondObj.fittedState
      rw [h, h']
      simp only []
      rw [h4]
      split
      · rfl
      · show Except.ok s.mean = Except.ok t.mean
        rw [h5]
    · unfold RawCond.covariance CondObj.covariance RawCond.fittedState CondObj.fittedState
      rw [h, h']
      simp only []
      rw [h4]
      split
      · rfl
      · show (s.corrModel.correlation >>= fun R => _) = (t.corrModel.correlation >>= fun R => _)
        rw [h3, h6]

/-- C111 (finding): a volatility model that fails tears the object. If the skater fails at series `k` (raises, or returns no forecast),
the call raises, and `n_samples_` and `location_` have not moved; but the correlation model has already been fed the row, the series
before `k` have moved on, and the ones after `k` have not. Series `k` keeps its forecast; its skater state too, if the skater itself
raised, but not if the skater returned no forecast. -/
theorem C111_cond_torn (o : RawCond Sk C) (s : RawCondState Sk C) (hs : o.state = some s) (x : Fin d → ℝ) (k : Fin d) (e : PyErr)
    (hpre : ∀ i, i < k → ((s.vols i).push (x i)).2 = .ok ()) (hk : ((s.vols k).push (x k)).2 = .error e) :
    (o.partialFit x).2 = .error e ∧ (o.partialFit x).1.nSamples = o.nSamples ∧ (o.partialFit x).1.location = o.location ∧
    ∃ s', (o.partialFit x).1.state = some s' ∧ s'.corrModel = (s.corrModel.partialFit (.row (s.residual x))).1 ∧
      (∀ i, i < k → s'.vols i = ((s.vols i).push (x i)).1) ∧ (∀ i, k < i → s'.vols i = s.vols i) ∧
      (s'.vols k).mean = (s.vols k).mean ∧ (s'.vols k).var = (s.vols k).var ∧
      (∀ e', (s.vols k).f (x k) (s.vols k).state = .error e' → s'.vols k = s.vols k) ∧
      (∀ st, (s.vols k).f (x k) (s.vols k).state = .ok ([], st) → (s'.vols k).state = some st) := by
  have hsplit : List.finRange d = (List.finRange d).take k.1 ++ k :: (List.finRange d).drop (k.1 + 1) := by
    conv_lhs => rw [← List.take_append_drop k.1 (List.finRange d)]
    congr 1
    rw [List.drop_eq_getElem_cons (by simpa using k.2)]
    simp
  have hmem : ∀ i : Fin d, i ∈ (List.finRange d).take k.1 ↔ i < k := by
    intro i
    rw [List.mem_take_iff_getElem]
    constructor
    · rintro ⟨j, hj, e⟩
      rw [← e, Fin.lt_def]; simp at hj ⊢; omega
    · intro hi
      rw [Fin.lt_def] at hi
      exact ⟨i.1, by simp; omega, by simp⟩
  have hp := pushAll_bad x ((List.finRange d).take k.1) ((List.finRange d).drop (k.1 + 1)) k e s.vols
    (by rw [← hsplit]; exact List.nodup_finRange d) (fun i hi => hpre i ((hmem i).1 hi)) hk
  rw [← hsplit] at hp
  have hst : stepState s x = ({ s with
      corrModel := (s.corrModel.partialFit (.row (s.residual x))).1
      vols := fun i => if i ∈ (List.finRange d).take k.1 ∨ i = k then ((s.vols i).push (x i)).1 else s.vols i }, .error e) := by
    unfold stepState
    simp only []
    rw [hp]
    rfl
  have ho : o.partialFit x = ({ o with state := some { s with
      corrModel := (s.corrModel.partialFit (.row (s.residual x))).1
      vols := fun i => if i ∈ (List.finRange d).take k.1 ∨ i = k then ((s.vols i).push (x i)).1 else s.vols i } }, .error e) := by
    unfold RawCond.partialFit
    simp only []
    rw [hs, Option.getD_some, hst]
  rw [ho]
  refine ⟨rfl, ?_, ?_, _, rfl, rfl, fun i hi => ?_, fun i hi => ?_, ?_, ?_, fun e' he' => ?_, fun st hst => ?_⟩
  · unfold RawCond.nSamples; rw [hs]
  · unfold RawCond.location RawCond.fittedState
    rw [hs]
    simp only []
    split <;> rfl
  · simp only []
    rw [if_pos (Or.inl ((hmem i).2 hi))]
  · simp only []
    rw [if_neg]
    rintro (h | h)
    · exact absurd ((hmem i).1 h) (not_lt.2 hi.le)
    · exact absurd h (ne_of_gt hi)
  · simp only [or_true, if_true]
    unfold RawVol.push
    unfold RawVol.push at hk
    rcases h : (s.vols k).f (x k) (s.vols k).state with e' | ⟨_ | ⟨a, l⟩, st⟩
    · rfl
    · rfl
    · rw [h] at hk; cases hk
  · simp only [or_true, if_true]
    unfold RawVol.push
    unfold RawVol.push at hk
    rcases h : (s.vols k).f (x k) (s.vols k).state with e' | ⟨_ | ⟨a, l⟩, st⟩
    · rfl
    · rfl
    · rw [h] at hk; cases hk
  · simp only [or_true, if_true]
    unfold RawVol.push
    rw [he']
  · simp only [or_true, if_true]
    unfold RawVol.push
    rw [hst]

/-- C111 (finding): after a failed call `covariance_` combines the correlations that include the rejected row with the volatilities that
do not. -/
theorem C111_cond_mixed (o : RawCond Sk C) (s : RawCondState Sk C) (hs : o.state = some s) (hn : 1 ≤ s.nSamples) (x : Fin d → ℝ)
    (h : (o.partialFit x).2 ≠ .ok ()) (R : Matrix (Fin d) (Fin d) ℝ)
    (hR : (s.corrModel.partialFit (.row (s.residual x))).1.correlation = .ok R) :
    (o.partialFit x).1.covariance = .ok (toSymmetric (Matrix.of fun i j => R i j * (Real.sqrt (max (s.var i) EPS) * Real.sqrt (max (s.var j) EPS)))) := by
  have hst : (o.partialFit x).1.state = some (stepState s x).1 := by
    unfold RawCond.partialFit; simp only []; rw [hs]; rfl
  have hres : (o.partialFit x).2 = (stepState s x).2 := by
    unfold RawCond.partialFit; simp only []; rw [hs]; rfl
  obtain ⟨h1, h2, h3⟩ := (stepState_count s x).2 (by rw [← hres]; exact h)
  have hf : (o.partialFit x).1.fittedState = .ok (stepState s x).1 := by
    unfold RawCond.fittedState
    rw [hst]
    simp only []
    rw [if_neg (by omega)]
  unfold RawCond.covariance
  rw [hf]
  show ((stepState s x).1.corrModel.correlation >>= fun R => _) = _
  rw [stepState_corr, hR, h3]
  rfl

/-- C111: `fit` and a batch `partial_fit` stop at the first row that fails: the rows before it are learned, the ones after it are not
looked at. -/
theorem C111_cond_batch (o : RawCond Sk C) (xs ys : List (Fin d → ℝ)) (x : Fin d → ℝ) (e : PyErr) (hxs : (o.feedRows xs).2 = .ok ())
    (hx : ((o.feedRows xs).1.partialFit x).2 = .error e) :
    o.feedRows (xs ++ x :: ys) = (((o.feedRows xs).1.partialFit x).1, .error e) := by
  induction xs generalizing o with
  | nil =>
    rw [List.nil_append]
    change (o.partialFit x).2 = .error e at hx
    show _ = ((o.partialFit x).1, _)
    rcases h : o.partialFit x with ⟨o', r⟩
    rw [h] at hx
    simp only at hx
    subst hx
    rw [RawCond.feedRows, h]
  | cons z zs ih =>
    rw [List.cons_append, RawCond.feedRows]
    rw [RawCond.feedRows] at hxs hx ⊢
    rcases h : o.partialFit z with ⟨o', e' | u⟩
    · rw [h] at hxs; cases hxs
    · rw [h] at hxs hx
      exact ih o' hxs hx

/-- The number of calls `partial_fit(x)` for the rows `xs`, one after the other, that do not raise. -/
noncomputable def successes (o : RawCond Sk C) : List (Fin d → ℝ) → ℕ
  | [] => 0
  | x :: xs => (match (o.partialFit x).2 with
    | .ok () => 1
    | .error _ => 0) + successes (o.partialFit x).1 xs

/-- The object after these calls, whatever they raised. -/
noncomputable def attempts (o : RawCond Sk C) (xs : List (Fin d → ℝ)) : RawCond Sk C := xs.foldl (fun o x => (o.partialFit x).1) o

/-- C111 (finding): the two counts drift apart for good. After any sequence of rows, some of which raised, `n_samples_` counts the
calls that succeeded, while the correlation model has counted every attempt; so a row that is sent again after a failure weighs twice
in the correlations. -/
theorem C111_cond_counts (hC : Lawful C) (f : RawSkater Sk) (corr : Obj C) (hdiff : C.diff corr.params = false) (xs : List (Fin d → ℝ)) (hx : xs ≠ []) :
    let o := attempts (RawCond.new f corr) xs
    o.nSamples = successes (RawCond.new f corr) xs ∧ ∃ s, o.state = some s ∧ s.corrModel.nSamples = xs.length := by
  have hfeed : ∀ (c : Obj C) (y : Fin d → ℝ), C.diff c.params = false →
      (c.partialFit (.row y)).1.nSamples = c.nSamples + 1 ∧ (c.partialFit (.row y)).1.params = c.params := by
    intro c y hc
    show (Obj.stepRow c y).nSamples = _ ∧ (Obj.stepRow c y).params = _
    unfold Obj.stepRow
    rw [if_neg (by rw [hc]; simp)]
    unfold Obj.feed Obj.nSamples
    rcases h : c.state with _ | s
    · simp [hC.n_update, hC.n_init]
    · simp [hC.n_update]
  have key : ∀ (xs : List (Fin d → ℝ)) (o : RawCond Sk C) (s : RawCondState Sk C), o.state = some s → C.diff s.corrModel.params = false →
      (attempts o xs).nSamples = s.nSamples + successes o xs ∧
      ∃ s', (attempts o xs).state = some s' ∧ s'.corrModel.nSamples = s.corrModel.nSamples + xs.length := by
    intro xs
    induction xs with
    | nil =>
      intro o s hs _
      refine ⟨?_, s, hs, rfl⟩
      show o.nSamples = s.nSamples + 0
      unfold RawCond.nSamples; rw [hs]; rfl
    | cons x xs ih =>
      intro o s hs hd
      have hst : (o.partialFit x).1.state = some (stepState s x).1 := by
        unfold RawCond.partialFit; simp only []; rw [hs]; rfl
      have hres : (o.partialFit x).2 = (stepState s x).2 := by
        unfold RawCond.partialFit; simp only []; rw [hs]; rfl
      have hcorr := stepState_corr s x
      obtain ⟨hf1, hf2⟩ := hfeed s.corrModel (s.residual x) hd
      obtain ⟨h1, s', h2, h3⟩ := ih (o.partialFit x).1 _ hst (by rw [hcorr, hf2]; exact hd)
      refine ⟨?_, s', h2, ?_⟩
      · show (attempts (o.partialFit x).1 xs).nSamples = _
        rw [h1, successes, hres]
        rcases hr : (stepState s x).2 with e | u
        · rw [((stepState_count s x).2 (by rw [hr]; intro h; cases h)).1]
          simp only []; omega
        · rw [(stepState_count s x).1 hr]
          simp only []; omega
      · rw [h3, hcorr, hf1, List.length_cons]; omega
  intro o
  obtain ⟨x, xs, rfl⟩ := List.exists_cons_of_ne_nil hx
  set o0 := RawCond.new f corr with ho0
  have hst : (o0.partialFit x).1.state = some (stepState o0.initState x).1 := rfl
  have hres : (o0.partialFit x).2 = (stepState o0.initState x).2 := rfl
  have hcorr := stepState_corr o0.initState x
  have hcl : o0.initState.corrModel.nSamples = 0 ∧ o0.initState.corrModel.params = corr.params := ⟨rfl, rfl⟩
  obtain ⟨hf1, hf2⟩ := hfeed o0.initState.corrModel (o0.initState.residual x) (by rw [hcl.2]; exact hdiff)
  obtain ⟨h1, s', h2, h3⟩ := key xs (o0.partialFit x).1 _ hst (by rw [hcorr, hf2, hcl.2]; exact hdiff)
  refine ⟨?_, s', h2, ?_⟩
  · show (attempts (o0.partialFit x).1 xs).nSamples = _
    rw [h1, successes, hres]
    rcases hr : (stepState o0.initState x).2 with e | u
    · rw [((stepState_count _ x).2 (by rw [hr]; intro h; cases h)).1]
      show 0 + _ = _
      simp only []
    · rw [(stepState_count _ x).1 hr]
      show 0 + 1 + _ = _
      simp only []
      first | done | omega
  · rw [h3, hcorr, hf1, hcl.1, List.length_cons]; omega

/-- C111: until some call has succeeded the fitted attributes raise NotFittedError, whatever the failed calls did inside; and `fit`
recovers completely: it gives the object and the outcome it would have given without the calls before. -/
theorem C111_cond_recovers (f : RawSkater Sk) (corr : Obj C) (xs : List (Fin d → ℝ)) :
    let o := attempts (RawCond.new f corr) xs
    (∀ X, o.fit X = (RawCond.new f corr).fit X) ∧
    (o.nSamples = 0 → o.location = .error .notFitted ∧ o.covariance = .error .notFitted) := by
  intro o
  constructor
  · intro X
    have key : ∀ (xs : List (Fin d → ℝ)) (o : RawCond Sk C), (attempts o xs).f = o.f ∧ (attempts o xs).corr = o.corr := by
      intro xs
      induction xs with
      | nil => intro o; exact ⟨rfl, rfl⟩
      | cons x xs ih => intro o; exact ih _
    unfold RawCond.fit
    obtain ⟨h1, h2⟩ := key xs (RawCond.new f corr)
    show RawCond.feedRows ⟨o.f, o.corr, none⟩ X = RawCond.feedRows ⟨f, corr, none⟩ X
    rw [show o.f = f from h1, show o.corr = corr from h2]
  · intro h
    have hf : o.fittedState = .error .notFitted := by
      unfold RawCond.fittedState
      unfold RawCond.nSamples at h
      rcases ho : o.state with _ | s
      · rfl
      · rw [ho] at h
        simp only at h ⊢
        rw [if_pos (by omega)]
    constructor
    · unfold RawCond.location; rw [hf]; rfl
    · unfold RawCond.covariance; rw [hf]; rfl

/-! ### Witness -/

/-- A skater that always forecasts mean 0 and std 1 but raises on values above 100. -/
noncomputable def touchySkater : RawSkater Unit := fun y _ => if 100 < y then .error .valueError else .ok ([(0, 1)], ())

/-- (1, 0), (0, 1), (-1, 0), (0, -1) -/
def demoCross : List (Fin 2 → ℝ) := [![1, 0], ![0, 1], ![-1, 0], ![0, -1]]

theorem touchy_push (st : Option Unit) (y : ℝ) (hy : y ≤ 100) :
    RawVol.push ⟨touchySkater, st, 0, 1⟩ y = (⟨touchySkater, some (), 0, 1⟩, .ok ()) := by
  have h : touchySkater y st = .ok ([(0, 1)], ()) := by
    unfold touchySkater; rw [if_neg (not_lt.2 hy)]
  unfold RawVol.push
  simp only [h]
  norm_num

theorem touchy_residual {C : Cls (Fin 2) ℝ} (s : RawCondState Unit C) (hs : ∀ i, (s.vols i).mean = 0 ∧ (s.vols i).var = 1) (x : Fin 2 → ℝ) :
    s.residual x = x := by
  funext i
  unfold RawCondState.residual
  rw [(hs i).1, (hs i).2, max_eq_left (by unfold EPS; norm_num)]
  simp

theorem touchy_attempts {C : Cls (Fin 2) ℝ} (corr : Obj C) (xs : List (Fin 2 → ℝ)) : (∀ x ∈ xs, ∀ i, x i ≤ 100) →
    ∀ (o : RawCond Unit C) (s : RawCondState Unit C), o.state.getD o.initState = s → (∀ i, ∃ st, s.vols i = ⟨touchySkater, st, 0, 1⟩) → xs ≠ [] →
    ∃ s', (attempts o xs).state = some s' ∧ (∀ i, ∃ st, s'.vols i = ⟨touchySkater, st, 0, 1⟩) ∧
      s'.corrModel = s.corrModel.run (feedCalls xs) ∧ s'.nSamples = s.nSamples + xs.length ∧ s'.var = fun _ => 1 := by
  induction xs with
  | nil => intro _ o s _ _ h; exact absurd rfl h
  | cons x xs ih =>
    intro hle o s hos hv _
    have hp : ∀ i, (s.vols i).push (x i) = (⟨touchySkater, some (), 0, 1⟩, .ok ()) := by
      intro i
      obtain ⟨st, h⟩ := hv i
      rw [h]; exact touchy_push st _ (hle x (by simp) i)
    have hmv : ∀ i, (s.vols i).mean = 0 ∧ (s.vols i).var = 1 := by
      intro i
      obtain ⟨st, h⟩ := hv i
      rw [h]; exact ⟨rfl, rfl⟩
    have hpa := pushAll_ok x (List.finRange 2) s.vols (List.nodup_finRange 2) fun i _ => by rw [hp i]
    have hs1 : stepState s x = ({ s with
        corrModel := (s.corrModel.partialFit (.row x)).1
        vols := fun _ => ⟨touchySkater, some (), 0, 1⟩
        mean := fun _ => 0
        var := fun _ => 1
        nSamples := s.nSamples + 1 }, .ok ()) := by
      have hr : (fun i => (x i - (s.vols i).mean) / Real.sqrt (max (s.vols i).var EPS)) = x := touchy_residual s hmv x
      unfold stepState
      simp only []
      rw [hpa, hr]
      simp only [List.mem_finRange, if_true, hp]
      rw [max_eq_left (by unfold EPS; norm_num)]
    have ho : (o.partialFit x).1.state = some (stepState s x).1 := by
      unfold RawCond.partialFit; simp only []; rw [hos]
    by_cases hxs : xs = []
    · subst hxs
      refine ⟨_, ho, ?_⟩
      rw [hs1]
      exact ⟨fun i => ⟨_, rfl⟩, rfl, rfl, rfl⟩
    · obtain ⟨s', h1, h2, h3, h4, h5⟩ := ih (fun y hy => hle y (List.mem_cons_of_mem _ hy)) (o.partialFit x).1 (stepState s x).1
        (by rw [ho]; rfl) (by rw [hs1]; exact fun i => ⟨_, rfl⟩) hxs
      refine ⟨s', h1, h2, ?_, ?_, h5⟩
      · rw [h3, hs1]; rfl
      · rw [h4, hs1, List.length_cons]; show s.nSamples + 1 + _ = _; omega

/-- C111 (finding), the numbers: two uncorrelated series of unit variance (reported covariance 0). The row (200, 200) is rejected;
`n_samples_` is still 4, and the reported covariance has jumped to more than 0.9. -/
theorem C111_cond_witness : let o := attempts (RawCond.new touchySkater (Obj.new (empiricalCls (Fin 2) ℝ) false)) demoCross
    (∃ H : Matrix (Fin 2) (Fin 2) ℝ, o.nSamples = 4 ∧ o.covariance = .ok H ∧ H 0 1 = 0) ∧
    (o.partialFit ![200, 200]).2 = .error .valueError ∧
    ∃ H : Matrix (Fin 2) (Fin 2) ℝ, (o.partialFit ![200, 200]).1.nSamples = 4 ∧ (o.partialFit ![200, 200]).1.covariance = .ok H ∧ 9 / 10 < H 0 1 := by
  intro o
  obtain ⟨s, h1, h2, h3, h4, h5⟩ := touchy_attempts (Obj.new (empiricalCls (Fin 2) ℝ) false) demoCross (by
      intro x hx i
      simp only [demoCross, List.mem_cons, List.not_mem_nil, or_false] at hx
      rcases hx with rfl | rfl | rfl | rfl <;> fin_cases i <;> norm_num) (RawCond.new touchySkater (Obj.new (empiricalCls (Fin 2) ℝ) false)) _ rfl
    (fun i => ⟨none, rfl⟩) (by simp [demoCross])
  have ho : o.state = some s := h1
  have hcorr : s.corrModel = (Obj.new (empiricalCls (Fin 2) ℝ) false).run (feedCalls demoCross) := h3
  have hn : s.nSamples = 4 := h4
  have hmv : ∀ i, (s.vols i).mean = 0 ∧ (s.vols i).var = 1 := by
    intro i
    obtain ⟨st, h⟩ := h2 i
    rw [h]; exact ⟨rfl, rfl⟩
  have hk : ((s.vols 0).push ((![200, 200] : Fin 2 → ℝ) 0)).2 = .error .valueError := by
    obtain ⟨st, h⟩ := h2 0
    rw [h]
    unfold RawVol.push
    simp only [touchySkater]
    norm_num
  obtain ⟨t1, t2, -, s', t4, t5, -⟩ := C111_cond_torn o s ho ![200, 200] 0 .valueError (fun i hi => absurd hi (by simp)) hk
  have tvar : s'.var = (fun _ => 1) ∧ s'.nSamples = 4 := by
    have hst : (o.partialFit ![200, 200]).1.state = some (stepState s ![200, 200]).1 := by
      unfold RawCond.partialFit; simp only []; rw [ho]; rfl
    have hres : (o.partialFit ![200, 200]).2 = (stepState s ![200, 200]).2 := by
      unfold RawCond.partialFit; simp only []; rw [ho]; rfl
    have hc := (stepState_count s ![200, 200]).2 (by rw [← hres, t1]; intro h; cases h)
    rw [t4] at hst
    cases hst
    exact ⟨hc.2.2.trans h5, hc.1.trans hn⟩
  rw [touchy_residual s hmv, hcorr] at t5
  have hcorr' : s'.corrModel = (Obj.new (empiricalCls (Fin 2) ℝ) false).run (feedCalls (demoCross ++ [![200, 200]])) := by
    rw [t5]; rfl
  have cov : ∀ (q : RawCond Unit (empiricalCls (Fin 2) ℝ)) (u : RawCondState Unit (empiricalCls (Fin 2) ℝ)) (xs : List (Fin 2 → ℝ)), q.state = some u →
      u.nSamples = 4 → u.var = (fun _ => 1) → xs ≠ [] → u.corrModel = (Obj.new (empiricalCls (Fin 2) ℝ) false).run (feedCalls xs) →
      q.covariance = .ok (toSymmetric (Matrix.of fun i j => covToCorr (covOf xs) i j)) := by
    intro q u xs hq hn hv hx hc
    have he := (emp_cov_of (ι := Fin 2) false rfl xs hx).1
    have hf : q.fittedState = .ok u := by
      unfold RawCond.fittedState
      rw [hq]; simp only []
      rw [if_neg (by omega)]
    unfold RawCond.covariance
    rw [hf]
    show (u.corrModel.correlation >>= fun R => _) = _
    rw [hc]
    unfold Obj.correlation
    rw [he, hv]
    have h1 : max (1:ℝ) EPS = 1 := max_eq_left (by unfold EPS; norm_num)
    show Except.ok _ = Except.ok _
    simp [h1]
  refine ⟨⟨_, ?_, cov o s demoCross ho hn h5 (by simp [demoCross]) hcorr, ?_⟩, t1, ⟨_, ?_, cov _ s' _ t4 tvar.2 tvar.1 (by simp) hcorr', ?_⟩⟩
  · unfold RawCond.nSamples; rw [ho]; exact hn
  · simp [toSymmetric, covToCorr, covOf, meanOf, demoCross]
  · unfold RawCond.nSamples; rw [t4]; exact tvar.2
  · have e00 : covOf (demoCross ++ [![200, 200]]) 0 0 = 64004 / 10 := by
      simp [covOf, meanOf, demoCross]; norm_num
    have e11 : covOf (demoCross ++ [![200, 200]]) 1 1 = 64004 / 10 := by
      simp [covOf, meanOf, demoCross]; norm_num
    have e01 : covOf (demoCross ++ [![200, 200]]) 0 1 = 6400 := by
      simp [covOf, meanOf, demoCross]; norm_num
    have e10 : covOf (demoCross ++ [![200, 200]]) 1 0 = 6400 := by
      simp [covOf, meanOf, demoCross]; norm_num
    have hsq : Real.sqrt (64004 / 10 * (64004 / 10)) = 64004 / 10 := Real.sqrt_mul_self (by norm_num)
    simp only [toSymmetric, covToCorr, Matrix.of_apply, e00, e11, e01, e10, hsq]
    have : (9 : ℝ) / 10 < 6400 / (64004 / 10 + EPS) := by
      rw [lt_div_iff₀ (by unfold EPS; norm_num)]
      unfold EPS; norm_num
    linarith

end Precise
