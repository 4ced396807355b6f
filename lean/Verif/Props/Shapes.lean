import Verif.Lemmas.Shapes
import Mathlib.Tactic.NormNum
import Mathlib.Data.Rat.Floor

/-!
# C61: observation lengths (numpy broadcasting) for `EmpiricalCovariance` and `EwaCovariance`

`ObjL` is the estimator with run-time lengths; a typed observation `Fin d → K` is passed as the list of its
entries (`List.ofFn`), a matrix is read back as the list of its rows (`embM`).
-/

set_option linter.all false

namespace Precise.Shapes

variable {K : Type}

/-- A typed call, with its argument as nested lists. -/
def embCall {d : ℕ} : Call (Fin d) K → CallL K
  | .partialFit X => .partialFit (embIn X)
  | .fit X => .fit (embIn X)

section
variable [Field K] {d : ℕ}

/-- `EmpiricalCovariance` on `d`-dimensional data. -/
def simEmp (diff : Bool) : SimI (empiricalL K) (empiricalCls (Fin d) K) diff diff where
  emb := embEmp d
  diff := rfl
  init := by show Except.ok _ = _; rw [empInitL_eq]; rfl
  upd s x := empUpdateL_rep (embEmp_rep d s True) (rep_full x) (.inr rfl)
  upd_one s a := empUpdateL_rep (embEmp_rep d s True) (.inr ⟨a, rfl, rfl⟩) (.inl trivial)
  upd_bad s x h h1 hd := empUpdateL_bad (by simpa [embEmp] using h) h1 (by simpa [embEmp] using hd)
  n s := rfl
  mean s := rfl
  cov s := rfl

variable [LinearOrder K] [FloorRing K]

/-- `EwaCovariance` on `d`-dimensional data. -/
def simEwa (p : RParam K) (hr : p.r ≠ 0) : SimI (ewaL K) (ewaCls (Fin d) K) p p where
  emb := embEwa d
  diff := rfl
  init := by
    show ewaInitL p.r d = _
    simp only [ewaInitL, ewaBurnN?, hr, if_false, bind, Except.bind, pure, Except.pure, empInitL_eq]
    rfl
  upd s x := ewaUpdateL_rep (embEmp_rep d s.toEmpState True) rfl rfl (rep_full x) (.inr rfl)
  upd_one s a := ewaUpdateL_rep (embEmp_rep d s.toEmpState True) rfl rfl (.inr ⟨a, rfl, rfl⟩) (.inl trivial)
  upd_bad s x h h1 hd := ewaUpdateL_bad (by simpa [embEwa, embEmp] using h) h1 (by simpa [embEwa, embEmp] using hd)
  n s := rfl
  mean s := rfl
  cov s := rfl

end

/-! ## Right length -/

section
variable [Field K] {d : ℕ} {L : ClsL K} {C : Cls (Fin d) K} {p : L.Param} {q : C.Param}

theorem SimI.call (S : SimI L C p q) (o : Obj C) (hq : o.params = q) (c : Call (Fin d) K) :
    ((S.obj o).call (embCall c)).1 = S.obj (o.call c) := by
  cases c with
  | partialFit X => exact congrArg Prod.fst (S.partialFit o hq X)
  | fit X => exact congrArg Prod.fst (S.fit o hq X)

theorem call_params (o : Obj C) (c : Call (Fin d) K) : (o.call c).params = o.params := by
  cases c with
  | partialFit X => show (o.partialFit X).1.params = _; rw [partialFit_fst, feedRows_params]
  | fit X =>
    cases X with
    | row x => rfl
    | batch xs => exact feedRows_params _ xs
    | other n => rfl

theorem SimI.run (S : SimI L C p q) (calls : List (Call (Fin d) K)) (o : Obj C) (hq : o.params = q) :
    (S.obj o).run (calls.map embCall) = S.obj (o.run calls) := by
  induction calls generalizing o with
  | nil => rfl
  | cons c cs ih =>
    show ObjL.run ((S.obj o).call (embCall c)).1 _ = _
    rw [S.call o hq]
    exact ih (o.call c) ((call_params o c).trans hq)

theorem transposeL_embM (M : Matrix (Fin d) (Fin d) K) : ObjL.transposeL (embM M) = embM M.transpose := by
  cases d with
  | zero => rfl
  | succ d =>
    have hl : ((embM M).headD []).length = d + 1 := by rw [embM, List.ofFn_succ]; simp
    rw [ObjL.transposeL, hl, ← List.map_coe_finRange_eq_range, List.map_map]
    show _ = List.ofFn _
    rw [List.ofFn_eq_map]
    apply List.map_congr_left
    intro j _
    show (embM M).map (fun row => row.getD j.val 0) = List.ofFn fun i => M i j
    rw [embM, List.map_ofFn]
    congr 1
    funext i
    show (List.ofFn fun j => M i j).getD j.val 0 = M i j
    rw [List.getD_eq_getElem?_getD, List.getElem?_ofFn]
    simp

theorem Sim.observe (S : Sim L C p q) (o : Obj C) (hq : o.params = q) :
    (S.obj o).nSamples = o.nSamples ∧ (S.obj o).location = o.location.map List.ofFn ∧
    (S.obj o).covariance = o.covariance.map embM := by
  obtain ⟨pp, st, nf, pv⟩ := o
  subst hq
  cases st with
  | none => exact ⟨rfl, rfl, rfl⟩
  | some s =>
    refine ⟨S.n s, ?_, ?_⟩
    · simp only [ObjL.location, ObjL.fittedState, Obj.location, Obj.fittedState, Sim.obj, Option.map_some, S.n]
      split
      · rfl
      · exact congrArg Except.ok (S.mean s)
    · simp only [ObjL.covariance, ObjL.fittedState, Obj.covariance, Obj.fittedState, Sim.obj, Option.map_some, S.n]
      split
      · rfl
      · simp only [bind, Except.bind, S.cov, transposeL_embM, mat2_rep (· + ·) (.inl rfl) rfl, embM_map]
        rfl

/-- After any history of `d`-dimensional calls the object with run-time lengths shows exactly what the typed
object shows, and every further `d`-dimensional call has the same outcome. -/
theorem SimI.right_length (S : SimI L C p q) (calls : List (Call (Fin d) K)) (X : Input (Fin d) K) :
    let o := (ObjL.new L p).run (calls.map embCall)
    let t := (Obj.new C q).run calls
    o.nSamples = t.nSamples ∧ o.location = t.location.map List.ofFn ∧ o.covariance = t.covariance.map embM ∧
    o.nFeatures = t.nFeatures ∧ (o.partialFit (embIn X)).2 = (t.partialFit X).2 ∧
    (o.fit (embIn X)).2 = (t.fit X).2 := by
  intro o t
  have ho : o = S.obj t := S.run calls (Obj.new C q) rfl
  have ht : t.params = q := (run_new q calls).1
  obtain ⟨h1, h2, h3⟩ := S.observe t ht
  rw [ho]
  exact ⟨h1, h2, h3, rfl, congrArg Prod.snd (S.partialFit t ht X), congrArg Prod.snd (S.fit t ht X)⟩

end

/-- C61: as long as every row has the length of the first, the list model is the typed model: all histories of
`partial_fit`/`fit` calls, `diff` on or off. -/
theorem C61_right_length_emp [Field K] (d : ℕ) (diff : Bool) (calls : List (Call (Fin d) K)) (X : Input (Fin d) K) :
    let o := (ObjL.new (empiricalL K) diff).run (calls.map embCall)
    let t := (Obj.new (empiricalCls (Fin d) K) diff).run calls
    o.nSamples = t.nSamples ∧ o.location = t.location.map List.ofFn ∧ o.covariance = t.covariance.map embM ∧
    o.nFeatures = t.nFeatures ∧ (o.partialFit (embIn X)).2 = (t.partialFit X).2 ∧
    (o.fit (embIn X)).2 = (t.fit X).2 :=
  (simEmp diff).right_length calls X

/-- C61: the same for `EwaCovariance`. -/
theorem C61_right_length_ewa [Field K] [LinearOrder K] [FloorRing K] (d : ℕ) (p : RParam K) (hr : p.r ≠ 0)
    (calls : List (Call (Fin d) K)) (X : Input (Fin d) K) :
    let o := (ObjL.new (ewaL K) p).run (calls.map embCall)
    let t := (Obj.new (ewaCls (Fin d) K) p).run calls
    o.nSamples = t.nSamples ∧ o.location = t.location.map List.ofFn ∧ o.covariance = t.covariance.map embM ∧
    o.nFeatures = t.nFeatures ∧ (o.partialFit (embIn X)).2 = (t.partialFit X).2 ∧
    (o.fit (embIn X)).2 = (t.fit X).2 :=
  (simEwa p hr).right_length calls X

/-- C61: `EwaCovariance(r=0)` raises ZeroDivisionError at the first used row; only `n_features_in_` is set. -/
theorem C61_zero_rate [Field K] [LinearOrder K] [FloorRing K] (x : List K) :
    (ObjL.new (ewaL K) ⟨0, false⟩).partialFit (.row x)
      = ({ ObjL.new (ewaL K) ⟨0, false⟩ with nFeatures := some x.length }, .error .zeroDivision) := by
  have : (ewaL K).initState ⟨0, false⟩ x.length = .error .zeroDivision := by
    show ewaInitL _ _ = _
    simp [ewaInitL, ewaBurnN?, bind, Except.bind]
    rfl
  simp only [ObjL.partialFit, asRowsL, ObjL.feedRows, ObjL.stepRow, ObjL.feed, ObjL.new]
  rw [this]
  rfl

/-! ## Wrong length -/

section
variable [Field K] {d : ℕ} {L : ClsL K} {C : Cls (Fin d) K} {p : L.Param} {q : C.Param}

theorem Sim.bad_step (S : Sim L C p q) (t : Obj C) (ht : t.params = q)
    (h : if C.diff q then t.prevX.isSome else t.state.isSome) (x : List K) (hx : x.length ≠ d) (h1 : x.length ≠ 1)
    (hd : d ≠ 1) : (S.obj t).stepRow x = (S.obj t, .error .valueError) := by
  rw [ObjL.stepRow]
  have e : L.diff (S.obj t).params = C.diff q := S.diff
  rw [e]
  split
  · rename_i hdf
    simp only [hdf, if_true] at h
    obtain ⟨y, hy⟩ := Option.isSome_iff_exists.mp h
    have : (S.obj t).prevX = some (List.ofFn y) := by simp [Sim.obj, hy]
    rw [this]
    have hb : vec2 (· - ·) x (List.ofFn y) = .error .valueError := bcast_bad _ _ _ (by simpa using hx) h1 (by simpa using hd)
    simp only [hb]
  · rename_i hdf
    simp only [hdf, if_false] at h
    obtain ⟨s, hs⟩ := Option.isSome_iff_exists.mp h
    have : (S.obj t).state = some (S.emb s) := by simp [Sim.obj, hs]
    simp only [ObjL.feed, this, ObjL.update]
    have hb : L.updateState (S.obj t).params (S.emb s) x = .error .valueError := S.upd_bad s x hx h1 hd
    rw [hb]

theorem Sim.ready (q : C.Param) (calls : List (Call (Fin d) K)) (h : Spec.rowsSinceFit calls [] ≠ []) :
    if C.diff q then ((Obj.new C q).run calls).prevX.isSome else ((Obj.new C q).run calls).state.isSome := by
  split
  · rename_i hd
    rw [(run_new q calls).2.2, feedRows_prevX]
    have : C.diff (Obj.new C q).params = true := hd
    rw [this]
    have hl := List.getLast?_eq_some_getLast h
    rw [hl]; rfl
  · rename_i hd
    rw [run_new_state]
    have : C.diff q = false := by simpa using hd
    rw [this]
    generalize Spec.rowsSinceFit calls [] = l at h
    cases l with
    | nil => exact absurd rfl h
    | cons a l => rfl

theorem SimI.wrong_length (S : SimI L C p q) (calls : List (Call (Fin d) K)) (h : Spec.rowsSinceFit calls [] ≠ [])
    (hd : d ≠ 1) :
    let o := (ObjL.new L p).run (calls.map embCall)
    (∀ x : List K, x.length ≠ d → x.length ≠ 1 → o.partialFit (.row x) = (o, .error .valueError)) ∧
    (∀ xs : List (List K), xs ≠ [] → (∀ x ∈ xs, x.length ≠ d ∧ x.length ≠ 1) →
      o.partialFit (.batch xs) = (o, .error .valueError)) := by
  intro o
  have ho : o = S.obj ((Obj.new C q).run calls) := S.run calls (Obj.new C q) rfl
  have hb := S.bad_step _ (run_new q calls).1 (Sim.ready q calls h)
  refine ⟨fun x hx h1 => ?_, fun xs hne hx => ?_⟩
  · rw [ho]
    simp only [ObjL.partialFit, asRowsL, ObjL.feedRows, hb x hx h1 hd]
  · rw [ho]
    simp only [ObjL.partialFit, asRowsL]
    cases xs with
    | nil => exact absurd rfl hne
    | cons x xs =>
      have hxx := hx x (by simp)
      split
      · rename_i e; split at e <;> cases e; rfl
      · rename_i e
        split at e
        · cases e; simp only [ObjL.feedRows, hb x hxx.1 hxx.2 hd]
        · cases e

end

/-- C61: once a `d`-dimensional row has been seen since the last `fit` (`d ≠ 1`), a row or batch whose rows have
a length other than `d` and 1 makes `partial_fit` raise ValueError, and the whole object is unchanged. -/
theorem C61_wrong_length_emp [Field K] {d : ℕ} (hd : d ≠ 1) (diff : Bool) (calls : List (Call (Fin d) K))
    (h : Spec.rowsSinceFit calls [] ≠ []) :
    let o := (ObjL.new (empiricalL K) diff).run (calls.map embCall)
    (∀ x : List K, x.length ≠ d → x.length ≠ 1 → o.partialFit (.row x) = (o, .error .valueError)) ∧
    (∀ xs : List (List K), xs ≠ [] → (∀ x ∈ xs, x.length ≠ d ∧ x.length ≠ 1) →
      o.partialFit (.batch xs) = (o, .error .valueError)) :=
  (simEmp diff).wrong_length calls h hd

/-- C61: the same for `EwaCovariance`. -/
theorem C61_wrong_length_ewa [Field K] [LinearOrder K] [FloorRing K] {d : ℕ} (hd : d ≠ 1) (p : RParam K)
    (hr : p.r ≠ 0) (calls : List (Call (Fin d) K)) (h : Spec.rowsSinceFit calls [] ≠ []) :
    let o := (ObjL.new (ewaL K) p).run (calls.map embCall)
    (∀ x : List K, x.length ≠ d → x.length ≠ 1 → o.partialFit (.row x) = (o, .error .valueError)) ∧
    (∀ xs : List (List K), xs ≠ [] → (∀ x ∈ xs, x.length ≠ d ∧ x.length ≠ 1) →
      o.partialFit (.batch xs) = (o, .error .valueError)) :=
  (simEwa p hr).wrong_length calls h hd

/-! ## Length 1 is broadcast -/

/-- A row a caller may pass to a `d`-dimensional estimator: full length, or of length 1. -/
inductive Row (d : ℕ) (K : Type)
  | full (x : Fin d → K)
  | one (a : K)

/-- The list passed. -/
def Row.list {d : ℕ} : Row d K → List K
  | .full x => List.ofFn x
  | .one a => [a]

/-- The observation it is treated as: a single number is repeated in every coordinate. -/
def Row.repeated {d : ℕ} : Row d K → Fin d → K
  | .full x => x
  | .one a => fun _ => a

section
variable [Field K] {d : ℕ} {L : ClsL K} {C : Cls (Fin d) K} {p : L.Param} {q : C.Param}

theorem Sim.broadcast (S : Sim L C p q) (hdf : C.diff q = false) (rows : List (Row d K)) (t : Obj C)
    (ht : t.params = q) (hs : t.state.isSome) :
    (S.obj t).feedRows (rows.map Row.list) = (S.obj (t.feedRows (rows.map Row.repeated)), .ok ()) := by
  induction rows generalizing t with
  | nil => rfl
  | cons r rows ih =>
    have e : L.diff (S.obj t).params = false := S.diff.trans hdf
    have e' : C.diff t.params = false := by rw [ht, hdf]
    obtain ⟨s, hs⟩ := Option.isSome_iff_exists.mp hs
    have hst : (S.obj t).state = some (S.emb s) := by simp [Sim.obj, hs]
    have step : (S.obj t).stepRow r.list = (S.obj (t.stepRow r.repeated), .ok ()) := by
      have hu : L.updateState (S.obj t).params (S.emb s) r.list = .ok (S.emb (C.updateState t.params s r.repeated)) := by
        rw [ht]
        cases r with
        | full x => exact S.upd s x
        | one a => exact S.upd_one s a
      simp only [ObjL.stepRow, e, Obj.stepRow, e', ObjL.feed, hst, Obj.feed, hs, ObjL.update, hu]
      simp [Sim.obj]
    rw [List.map_cons, ObjL.feedRows, step, List.map_cons]
    have hs' : (t.stepRow r.repeated).state.isSome := by
      simp only [Obj.stepRow, e', Obj.feed, hs]; rfl
    exact ih _ ((stepRow_params _ _).trans ht) hs'

theorem SimI.length_one (S : SimI L C p q) (hdf : C.diff q = false) (calls : List (Call (Fin d) K))
    (h : Spec.rowsSinceFit calls [] ≠ []) (rows : List (Row d K)) :
    let o := ((ObjL.new L p).run (calls.map embCall)).feedRows (rows.map Row.list)
    let t := ((Obj.new C q).run calls).feedRows (rows.map Row.repeated)
    o.2 = .ok () ∧ o.1.nSamples = t.nSamples ∧ o.1.location = t.location.map List.ofFn ∧
    o.1.covariance = t.covariance.map embM := by
  intro o t
  have ho : (ObjL.new L p).run (calls.map embCall) = S.obj ((Obj.new C q).run calls) := S.run calls (Obj.new C q) rfl
  have hr := Sim.ready q calls h
  rw [hdf] at hr
  have hb := S.broadcast hdf rows _ (run_new q calls).1 hr
  have hoo : o = (S.obj t, .ok ()) := by
    show ObjL.feedRows _ _ = _
    rw [ho, hb]
  have ht : t.params = q := (feedRows_params _ _).trans (run_new q calls).1
  rw [hoo]
  exact ⟨rfl, S.observe t ht⟩

end

/-- C61: with `diff=False`, after at least one `d`-dimensional row, a row of length 1 never raises: it is treated
as the observation with that number in every coordinate, in any mixture with full rows. -/
theorem C61_length_one_emp [Field K] {d : ℕ} (calls : List (Call (Fin d) K))
    (h : Spec.rowsSinceFit calls [] ≠ []) (rows : List (Row d K)) :
    let o := ((ObjL.new (empiricalL K) false).run (calls.map embCall)).feedRows (rows.map Row.list)
    let t := ((Obj.new (empiricalCls (Fin d) K) false).run calls).feedRows (rows.map Row.repeated)
    o.2 = .ok () ∧ o.1.nSamples = t.nSamples ∧ o.1.location = t.location.map List.ofFn ∧
    o.1.covariance = t.covariance.map embM :=
  (simEmp false).length_one rfl calls h rows

/-- C61: the same for `EwaCovariance`. -/
theorem C61_length_one_ewa [Field K] [LinearOrder K] [FloorRing K] {d : ℕ} (r : K) (hr : r ≠ 0)
    (calls : List (Call (Fin d) K)) (h : Spec.rowsSinceFit calls [] ≠ []) (rows : List (Row d K)) :
    let o := ((ObjL.new (ewaL K) ⟨r, false⟩).run (calls.map embCall)).feedRows (rows.map Row.list)
    let t := ((Obj.new (ewaCls (Fin d) K) ⟨r, false⟩).run calls).feedRows (rows.map Row.repeated)
    o.2 = .ok () ∧ o.1.nSamples = t.nSamples ∧ o.1.location = t.location.map List.ofFn ∧
    o.1.covariance = t.covariance.map embM :=
  (simEwa ⟨r, false⟩ hr).length_one rfl calls h rows

/-! ## `diff=True`: a length-1 row followed by a wrong length wedges the estimator -/

section
variable [Field K] {d : ℕ} {L : ClsL K} {C : Cls (Fin d) K} {p : L.Param} {q : C.Param}

theorem feedRows_single (o : ObjL L) (x : List K) : o.partialFit (.row x) = o.stepRow x := by
  simp only [ObjL.partialFit, asRowsL, ObjL.feedRows]
  generalize o.stepRow x = r
  obtain ⟨o', e⟩ := r
  cases e <;> rfl

theorem Sim.wedge (S : Sim L C p q) (hdf : C.diff q = true) (t : Obj C) (ht : t.params = q)
    (s : C.State) (hs : t.state = some s) (y : Fin d → K) (hy : t.prevX = some y) (hd : d ≠ 1)
    (a : K) (bad : List K) (hb : bad.length ≠ d) (hb1 : bad.length ≠ 1) :
    let o1 := ((S.obj t).partialFit (.row [a])).1
    let o2 := (o1.partialFit (.row bad)).1
    ((S.obj t).partialFit (.row [a])).2 = .ok () ∧
    (o1.partialFit (.row bad)).2 = .error .valueError ∧
    ∀ x : Fin d → K, o2.partialFit (.row (List.ofFn x)) = (o2, .error .valueError) := by
  intro o1 o2
  have e : L.diff p = true := S.diff.trans hdf
  have e0 : L.diff (S.obj t).params = true := e
  have hprev : (S.obj t).prevX = some (List.ofFn y) := by simp [Sim.obj, hy]
  have hst : (S.obj t).state = some (S.emb s) := by simp [Sim.obj, hs]
  have hsub : vec2 (· - ·) [a] (List.ofFn y) = .ok (List.ofFn fun i => a - y i) :=
    vec2_rep (· - ·) (g := fun _ => a) (.inr ⟨a, rfl, rfl⟩) (rep_full y) (.inr rfl)
  have h1 : (S.obj t).partialFit (.row [a])
      = (⟨p, some (S.emb (C.updateState q s fun i => a - y i)), t.nFeatures, some [a]⟩, .ok ()) := by
    rw [feedRows_single]
    simp only [ObjL.stepRow, e0, if_true, hprev, hsub, ObjL.feed, hst, ObjL.update]
    have hu : L.updateState (S.obj t).params (S.emb s) (List.ofFn fun i => a - y i)
        = .ok (S.emb (C.updateState q s fun i => a - y i)) := S.upd s _
    rw [hu]
    rfl
  have ho1 : o1 = ⟨p, some (S.emb (C.updateState q s fun i => a - y i)), t.nFeatures, some [a]⟩ := congrArg Prod.fst h1
  have hsub2 : vec2 (· - ·) bad [a] = .ok (List.ofFn fun i => bad.get i - a) := by
    have := vec2_rep (· - ·) (a := bad) (g := bad.get) (b := [a]) (h := fun _ => a)
      (.inl (by simp)) (.inr ⟨a, rfl, rfl⟩) (.inl (by simp))
    exact this
  have h2 : o1.partialFit (.row bad)
      = (⟨p, some (S.emb (C.updateState q s fun i => a - y i)), t.nFeatures, some bad⟩, .error .valueError) := by
    rw [ho1, feedRows_single]
    simp only [ObjL.stepRow, e, if_true, hsub2, ObjL.feed, ObjL.update]
    rw [S.upd_bad _ _ (by simpa using hb) (by simpa using hb1) hd]
  have ho2 : o2 = ⟨p, some (S.emb (C.updateState q s fun i => a - y i)), t.nFeatures, some bad⟩ := congrArg Prod.fst h2
  refine ⟨congrArg Prod.snd h1, congrArg Prod.snd h2, fun x => ?_⟩
  rw [ho2, feedRows_single]
  have hsub3 : vec2 (· - ·) (List.ofFn x) bad = .error .valueError :=
    bcast_bad _ _ _ (by simpa using hb.symm) (by simpa using hd) hb1
  simp only [ObjL.stepRow, e, if_true, hsub3]

theorem SimI.wedge_run (S : SimI L C p q) (hdf : C.diff q = true) (hd : d ≠ 1) (calls : List (Call (Fin d) K))
    (h : 2 ≤ (Spec.rowsSinceFit calls []).length) (a : K) (bad : List K) (hb : bad.length ≠ d)
    (hb1 : bad.length ≠ 1) :
    let o := (ObjL.new L p).run (calls.map embCall)
    let o1 := (o.partialFit (.row [a])).1
    let o2 := (o1.partialFit (.row bad)).1
    (o.partialFit (.row [a])).2 = .ok () ∧
    (o1.partialFit (.row bad)).2 = .error .valueError ∧
    ∀ x : Fin d → K, o2.partialFit (.row (List.ofFn x)) = (o2, .error .valueError) := by
  intro o o1 o2
  have hne : Spec.rowsSinceFit calls [] ≠ [] := by intro e; rw [e] at h; simp at h
  have ho : o = S.obj ((Obj.new C q).run calls) := S.run calls (Obj.new C q) rfl
  have hp := Sim.ready q calls hne
  rw [hdf] at hp
  obtain ⟨y, hy⟩ := Option.isSome_iff_exists.mp hp
  have hs : ∃ s, ((Obj.new C q).run calls).state = some s := by
    rw [run_new_state, hdf]
    have hl := effective_length true (Spec.rowsSinceFit calls [])
    split
    · rename_i e
      rw [e] at hl; simp at hl; omega
    · exact ⟨_, rfl⟩
  obtain ⟨s, hs⟩ := hs
  have := S.toSim.wedge hdf _ (run_new q calls).1 s hs y hy hd a bad hb hb1
  rw [← ho] at this
  exact this

end

/-- C61, violation of "raises and leaves the state unchanged": with `diff=True`, after two or more rows of
dimension `d ≠ 1`, a length-1 row is accepted, the next row of a wrong length raises but is kept as the reference
row, and from then on every row of the right length raises too. -/
theorem C61_diff_wedged_emp [Field K] {d : ℕ} (hd : d ≠ 1) (calls : List (Call (Fin d) K))
    (h : 2 ≤ (Spec.rowsSinceFit calls []).length) (a : K) (bad : List K) (hb : bad.length ≠ d)
    (hb1 : bad.length ≠ 1) :
    let o := (ObjL.new (empiricalL K) true).run (calls.map embCall)
    let o1 := (o.partialFit (.row [a])).1
    let o2 := (o1.partialFit (.row bad)).1
    (o.partialFit (.row [a])).2 = .ok () ∧
    (o1.partialFit (.row bad)).2 = .error .valueError ∧
    ∀ x : Fin d → K, o2.partialFit (.row (List.ofFn x)) = (o2, .error .valueError) :=
  (simEmp true).wedge_run rfl hd calls h a bad hb hb1

/-- C61: the same for `EwaCovariance`. -/
theorem C61_diff_wedged_ewa [Field K] [LinearOrder K] [FloorRing K] {d : ℕ} (hd : d ≠ 1) (r : K) (hr : r ≠ 0)
    (calls : List (Call (Fin d) K))
    (h : 2 ≤ (Spec.rowsSinceFit calls []).length) (a : K) (bad : List K) (hb : bad.length ≠ d)
    (hb1 : bad.length ≠ 1) :
    let o := (ObjL.new (ewaL K) ⟨r, true⟩).run (calls.map embCall)
    let o1 := (o.partialFit (.row [a])).1
    let o2 := (o1.partialFit (.row bad)).1
    (o.partialFit (.row [a])).2 = .ok () ∧
    (o1.partialFit (.row bad)).2 = .error .valueError ∧
    ∀ x : Fin d → K, o2.partialFit (.row (List.ofFn x)) = (o2, .error .valueError) :=
  (simEwa ⟨r, true⟩ hr).wedge_run rfl hd calls h a bad hb hb1

/-! ## A one-dimensional state takes any length -/

section
variable [Field K]

/-- `m` copies of a one-dimensional state. -/
def spread (m : ℕ) (s : EmpState (Fin 1) K) : EmpState (Fin m) K :=
  { nSamples := s.nSamples, mean := fun _ => s.mean 0, cov := Matrix.of fun _ _ => s.cov 0 0 }

theorem spread_rep (m nd : ℕ) (s : EmpState (Fin 1) K) : SRep (embEmp nd s) (spread m s) False :=
  ⟨rfl, .inr ⟨s.mean 0, by simp [embEmp], rfl⟩, .inr ⟨s.cov 0 0, by simp [embEmp, embM], rfl⟩, False.elim, False.elim⟩

theorem spread_fold (m : ℕ) (xs : List K) (s : EmpState (Fin 1) K) :
    spread m ((xs.map fun a _ => a).foldl empUpdate s) = (xs.map fun a _ => a).foldl empUpdate (spread m s) := by
  induction xs generalizing s with
  | nil => rfl
  | cons a xs ih => exact ih (empUpdate s fun _ => a)

/-- `EmpiricalCovariance` on `m`-dimensional rows, with the recorded dimension stuck at 1. -/
def simEmp1 (m : ℕ) : Sim (empiricalL K) (empiricalCls (Fin m) K) false false where
  emb := embEmp 1
  diff := rfl
  upd s x := empUpdateL_rep (embEmp_rep 1 s True) (rep_full x) (.inr rfl)
  upd_one s a := empUpdateL_rep (embEmp_rep 1 s True) (.inr ⟨a, rfl, rfl⟩) (.inl trivial)
  upd_bad s x h h1 hd := empUpdateL_bad (by simpa [embEmp] using h) h1 (by simpa [embEmp] using hd)
  n s := rfl
  mean s := rfl
  cov s := rfl

variable [LinearOrder K] [FloorRing K]

/-- `m` copies of a one-dimensional EWA state. -/
def spreadEwa (m : ℕ) (s : EwaState (Fin 1) K) : EwaState (Fin m) K :=
  { toEmpState := spread m s.toEmpState, r := s.r, nBurn := s.nBurn }

theorem spreadEwa_update (m : ℕ) (s : EwaState (Fin 1) K) (a : K) :
    spreadEwa m (ewaUpdate s fun _ => a) = ewaUpdate (spreadEwa m s) fun _ => a := by
  unfold ewaUpdate
  have h1 : (spreadEwa m s).nSamples = s.nSamples := rfl
  have h2 : (spreadEwa m s).nBurn = s.nBurn := rfl
  rw [h1, h2]
  split <;> rfl

/-- `EwaCovariance` on `m`-dimensional rows, with the recorded dimension stuck at 1. -/
def simEwa1 (m : ℕ) (p : RParam K) (hp : p.diff = false) : Sim (ewaL K) (ewaCls (Fin m) K) p p where
  emb := embEwa 1
  diff := rfl
  upd s x := ewaUpdateL_rep (embEmp_rep 1 s.toEmpState True) rfl rfl (rep_full x) (.inr rfl)
  upd_one s a := ewaUpdateL_rep (embEmp_rep 1 s.toEmpState True) rfl rfl (.inr ⟨a, rfl, rfl⟩) (.inl trivial)
  upd_bad s x h h1 hd := ewaUpdateL_bad (by simpa [embEwa, embEmp] using h) h1 (by simpa [embEwa, embEmp] using hd)
  n s := rfl
  mean s := rfl
  cov s := rfl

end

theorem feedRows_app [Sub K] {L : ClsL K} (o o' : ObjL L) (xs ys : List (List K)) (h : o.feedRows xs = (o', .ok ())) :
    o.feedRows (xs ++ ys) = o'.feedRows ys := by
  induction xs generalizing o with
  | nil => cases h; rfl
  | cons x xs ih =>
    rw [List.cons_append, ObjL.feedRows]
    rw [ObjL.feedRows] at h
    generalize o.stepRow x = r at h ⊢
    obtain ⟨o1, e⟩ := r
    cases e with
    | error e => cases h
    | ok u => exact ih o1 h

theorem nodiff_some {ι : Type} [Fintype ι] [Sub K] {C : Cls ι K} (zs : List (ι → K)) (u : Obj C) (s : C.State)
    (hd : C.diff u.params = false) (hs : u.state = some s) :
    u.feedRows zs = { u with state := some (zs.foldl (C.updateState u.params) s) } := by
  induction zs generalizing u s with
  | nil => cases u; cases hs; rfl
  | cons z zs ih =>
    have : u.stepRow z = { u with state := some (C.updateState u.params s z) } := by
      simp [Obj.stepRow, hd, Obj.feed, hs]
    rw [feedRows_cons, this]
    exact ih { u with state := some (C.updateState u.params s z) } (C.updateState u.params s z) hd rfl

/-- Growing from dimension 1 to `m`, for any class whose one-dimensional states are read by broadcasting. -/
theorem grows [Field K] {m : ℕ} {L : ClsL K} {C1 : Cls (Fin 1) K} {Cm : Cls (Fin m) K} {p : L.Param}
    {q1 : C1.Param} {qm : Cm.Param} (S1 : SimI L C1 p q1) (Sm : Sim L Cm p qm)
    (hd1 : C1.diff q1 = false) (hdm : Cm.diff qm = false)
    (sp : C1.State → Cm.State) (hinit : sp (C1.initState q1) = Cm.initState qm)
    (hupd : ∀ s a, sp (C1.updateState q1 s fun _ => a) = Cm.updateState qm (sp s) fun _ => a)
    (hgrow : ∀ s y, L.updateState p (S1.emb s) (List.ofFn y) = .ok (Sm.emb (Cm.updateState qm (sp s) y)))
    (x0 : K) (xs : List K) (y : Fin m → K) (ys : List (Fin m → K)) :
    let o := (ObjL.new L p).feedRows (((x0 :: xs).map fun a => [a]) ++ (y :: ys).map List.ofFn)
    let t := (Obj.new Cm qm).feedRows (((x0 :: xs).map fun a _ => a) ++ (y :: ys))
    o.2 = .ok () ∧ o.1.nSamples = t.nSamples ∧ o.1.location = t.location.map List.ofFn ∧
    o.1.covariance = t.covariance.map embM ∧ o.1.nFeatures = some 1 ∧
    ∃ s, o.1.state = some (Sm.emb s) := by
  intro o t
  let xs1 : List (Fin 1 → K) := (x0 :: xs).map fun a _ => a
  let s1 : C1.State := xs1.foldl (C1.updateState q1) (C1.initState q1)
  have hlist : ((x0 :: xs).map fun a => [a]) = xs1.map List.ofFn := by
    show _ = List.map _ (List.map _ _)
    rw [List.map_map]; congr 1
  have hs1 : ((Obj.new C1 q1).feedRows xs1).state = some s1 := by
    rw [new_feedRows_state, hd1]; rfl
  have hq1 : ((Obj.new C1 q1).feedRows xs1).prevX = none := by
    rw [feedRows_prevX]
    have : C1.diff (Obj.new C1 q1).params = false := hd1
    rw [this]; rfl
  have hn1 : ((Obj.new C1 q1).feedRows xs1).nFeatures = some 1 := by
    rw [new_feedRows_nFeatures, hd1]; rfl
  have h1 : (ObjL.new L p).feedRows (xs1.map List.ofFn)
      = ({ params := p, state := some (S1.emb s1), nFeatures := some 1, prevX := none }, .ok ()) := by
    have := S1.feedRows (Obj.new C1 q1) rfl xs1
    have hobj : S1.obj ((Obj.new C1 q1).feedRows xs1)
        = { params := p, state := some (S1.emb s1), nFeatures := some 1, prevX := none } := by
      rw [Sim.obj, hs1, hn1, hq1]; rfl
    rw [hobj] at this
    exact this
  let xsm : List (Fin m → K) := (x0 :: xs).map fun a _ => a
  let sm : Cm.State := xsm.foldl (Cm.updateState qm) (Cm.initState qm)
  have hsm : sp s1 = sm := by
    have : ∀ (l : List K) (s : C1.State), sp ((l.map fun a (_ : Fin 1) => a).foldl (C1.updateState q1) s)
        = (l.map fun a (_ : Fin m) => a).foldl (Cm.updateState qm) (sp s) := by
      intro l
      induction l with
      | nil => intro s; rfl
      | cons a l ih => intro s; simp only [List.map_cons, List.foldl_cons]; rw [ih, hupd]
    have := this (x0 :: xs) (C1.initState q1)
    rw [hinit] at this
    exact this
  let t1 : Obj Cm := { params := qm, state := some (Cm.updateState qm sm y), nFeatures := some 1, prevX := none }
  have hstep : ObjL.stepRow { params := p, state := some (S1.emb s1), nFeatures := some 1, prevX := none } (List.ofFn y)
      = (Sm.obj t1, .ok ()) := by
    have hdp : L.diff p = false := S1.diff.trans hd1
    simp only [ObjL.stepRow, hdp, ObjL.feed, ObjL.update, hgrow, hsm]
    rfl
  have hdt : Cm.diff t1.params = false := hdm
  have h3 := Sm.broadcast hdm (ys.map Row.full) t1 rfl rfl
  have e1 : (ys.map Row.full).map (Row.list (K := K)) = ys.map List.ofFn := by rw [List.map_map]; rfl
  have e2 : (ys.map Row.full).map (Row.repeated (K := K)) = ys := by rw [List.map_map]; exact List.map_id ys
  rw [e1, e2] at h3
  have hT := nodiff_some ys t1 (Cm.updateState qm sm y) hdt rfl
  have ho : o = (Sm.obj (t1.feedRows ys), .ok ()) := by
    show ObjL.feedRows _ _ = _
    rw [hlist, feedRows_app _ _ _ _ h1, List.map_cons, ObjL.feedRows, hstep]
    exact h3
  have htp : t.params = qm := feedRows_params _ _
  have hts : t.state = (t1.feedRows ys).state := by
    show ((Obj.new Cm qm).feedRows _).state = _
    rw [new_feedRows_state, hdm, hT]
    show some _ = some _
    congr 1
    simp only [Spec.effective]
    show List.foldl _ _ (xsm ++ y :: ys) = _
    rw [List.foldl_append]
    rfl
  have obs := Sm.observe (t1.feedRows ys) (feedRows_params _ _)
  have hTp : (t1.feedRows ys).params = qm := feedRows_params _ _
  have ht1 : t.nSamples = (t1.feedRows ys).nSamples := by simp only [Obj.nSamples, hts]
  have ht2 : t.location = (t1.feedRows ys).location := by simp only [Obj.location, Obj.fittedState, hts, htp, hTp]
  have ht3 : t.covariance = (t1.feedRows ys).covariance := by
    simp only [Obj.covariance, Obj.fittedState, hts, htp, hTp]
  rw [ho, ht1, ht2, ht3]
  refine ⟨rfl, obs.1, obs.2.1, obs.2.2, ?_, ?_⟩
  · rw [hT]; rfl
  · rw [hT]; exact ⟨_, rfl⟩

/-- C61: the first row fixes nothing when it has length 1. After single numbers `x0 :: xs`, rows of any length `m`
are accepted and the estimator silently becomes the `m`-dimensional one that saw every number repeated `m` times;
`n_features_in_` and the state key `n_dim` stay 1. -/
theorem C61_one_dim_grows_emp [Field K] (m : ℕ) (x0 : K) (xs : List K) (y : Fin m → K) (ys : List (Fin m → K)) :
    let o := (ObjL.new (empiricalL K) false).feedRows (((x0 :: xs).map fun a => [a]) ++ (y :: ys).map List.ofFn)
    let t := (Obj.new (empiricalCls (Fin m) K) false).feedRows (((x0 :: xs).map fun a _ => a) ++ (y :: ys))
    o.2 = .ok () ∧ o.1.nSamples = t.nSamples ∧ o.1.location = t.location.map List.ofFn ∧
    o.1.covariance = t.covariance.map embM ∧ o.1.nFeatures = some 1 ∧ ∃ s, o.1.state = some s ∧ s.nDim = 1 := by
  intro o t
  obtain ⟨h1, h2, h3, h4, h5, s, h6⟩ := grows (simEmp (K := K) (d := 1) false) (simEmp1 m) rfl rfl (spread m) rfl
    (fun s a => rfl) (fun s y => empUpdateL_rep (spread_rep m 1 s) (rep_full y) (.inr rfl)) x0 xs y ys
  exact ⟨h1, h2, h3, h4, h5, _, h6, rfl⟩

/-- C61: the same for `EwaCovariance`. -/
theorem C61_one_dim_grows_ewa [Field K] [LinearOrder K] [FloorRing K] (r : K) (hr : r ≠ 0) (m : ℕ) (x0 : K)
    (xs : List K) (y : Fin m → K) (ys : List (Fin m → K)) :
    let o := (ObjL.new (ewaL K) ⟨r, false⟩).feedRows (((x0 :: xs).map fun a => [a]) ++ (y :: ys).map List.ofFn)
    let t := (Obj.new (ewaCls (Fin m) K) ⟨r, false⟩).feedRows (((x0 :: xs).map fun a _ => a) ++ (y :: ys))
    o.2 = .ok () ∧ o.1.nSamples = t.nSamples ∧ o.1.location = t.location.map List.ofFn ∧
    o.1.covariance = t.covariance.map embM ∧ o.1.nFeatures = some 1 ∧ ∃ s, o.1.state = some s ∧ s.nDim = 1 := by
  intro o t
  obtain ⟨h1, h2, h3, h4, h5, s, h6⟩ := grows (simEwa (K := K) (d := 1) ⟨r, false⟩ hr) (simEwa1 m ⟨r, false⟩ rfl) rfl rfl
    (spreadEwa m) rfl (fun s a => spreadEwa_update m s a)
    (fun s y => ewaUpdateL_rep (s := spreadEwa m s) (spread_rep m 1 s.toEmpState) rfl rfl (rep_full y) (.inr rfl)) x0 xs y ys
  exact ⟨h1, h2, h3, h4, h5, _, h6, rfl⟩

/-! ## Non-vacuity -/

/-- The hypotheses of the length theorems on a concrete history: two rows of dimension 2 are accepted, a row of
length 3 raises, a row of length 1 is repeated. -/
example :
    let calls : List (Call (Fin 2) ℚ) := [.partialFit (.batch [![1, 2], ![3, 6]])]
    2 ≤ (Spec.rowsSinceFit calls []).length ∧
    ((ObjL.new (empiricalL ℚ) false).run (calls.map embCall)).location = .ok [2, 4] ∧
    (((ObjL.new (empiricalL ℚ) false).run (calls.map embCall)).partialFit (.row [1, 2, 3])).2 = .error .valueError ∧
    (((ObjL.new (empiricalL ℚ) false).run (calls.map embCall)).partialFit (.row [5])).1.location = .ok [3, 13 / 3] := by
  decide +kernel

/-- One number, then a row of length 3: three-dimensional results, `n_features_in_` 1. -/
example :
    let o := ((ObjL.new (empiricalL ℚ) false).feedRows [[1], [3, 5, 7]]).1
    o.location = .ok [2, 3, 4] ∧ o.nFeatures = some 1 ∧ o.covariance = .ok [[1, 2, 3], [2, 4, 6], [3, 6, 9]] := by
  decide +kernel

/-- C61: a ragged batch raises ValueError in every class: `partial_fit` leaves the object unchanged, `fit` has already erased the
state and the reference row. -/
theorem C61_ragged [Field K] (C : ClsL K) (o : ObjL C) (xs : List (List K)) (x y : List K) (hx : x ∈ xs) (hy : y ∈ xs) (hne : x.length ≠ y.length) :
    o.partialFit (.batch xs) = (o, .error .valueError) ∧
    o.fit (.batch xs) = ({ o with state := none, prevX := none }, .error .valueError) := by
  have hr : rect xs = false := by
    cases xs with
    | nil => cases hx
    | cons z t =>
      rw [← Bool.not_eq_true]
      intro h
      have hall : ∀ w ∈ z :: t, w.length = z.length := by
        intro w hw
        rcases List.mem_cons.1 hw with rfl | hw
        · rfl
        · have := (List.all_eq_true.1 h) w hw
          simpa using this
      exact hne ((hall x hx).trans (hall y hy).symm)
  constructor
  · simp [ObjL.partialFit, asRowsL, hr]
  · simp [ObjL.fit, ObjL.partialFit, asRowsL, hr]

example : ∃ (xs : List (List ℚ)) (x y : List ℚ), x ∈ xs ∧ y ∈ xs ∧ x.length ≠ y.length := ⟨[[1, 2], [3]], [1, 2], [3], by simp, by simp, by simp⟩

end Precise.Shapes
