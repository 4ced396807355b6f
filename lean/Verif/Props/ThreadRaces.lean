import Verif.Props.Threads
import Verif.Props.Shipped

/-!
# C118 continued: what goes wrong without a lock

Each race is shown for every class and all rows, not for an example.
-/

set_option linter.all false

namespace Precise

open Threads Spec Obj

variable {ι K : Type} [Fintype ι] [Sub K] {C : Cls ι K}

/-- The rows of two threads, `true` and `false`. -/
def Threads.two (a b : List (ι → K)) : Bool → List (ι → K)
  | true => a
  | false => b

/-- C118 (violation of "every row counts"): two threads add one row each to a new estimator, both calls return, and only
one row was counted: the update of the other thread is lost. -/
theorem C118_lost_update (hC : Lawful C) (p : C.Param) (hd : C.diff p = false) (x y : ι → K) :
    ∃ sched : List Bool, let s := (start (new C p) (feeding (two [x] [y]))).run sched
      (∀ t, (s.threads t).next = 1 ∧ (s.threads t).pc = .top) ∧ s.obj.nSamples = 1 := by
  refine ⟨[true, true, true, true, true, false, false, false, false, true], ?_⟩
  simp [Sys.run, Sys.step, stepThread, start, feeding, two, new, hd, Thread.finish, Obj.nSamples, hC.n_update, hC.n_init]

variable {T : Type} [DecidableEq T]

/-- What a thread does depends on the object and its own variables only. -/
theorem run_agree (s s' : Sys C T) (t : T) (ho : s.obj = s'.obj) (ht : s.threads t = s'.threads t) (k : ℕ) :
    (s.run (List.replicate k t)).obj = (s'.run (List.replicate k t)).obj ∧
    (s.run (List.replicate k t)).threads t = (s'.run (List.replicate k t)).threads t := by
  induction k generalizing s s' with
  | zero => exact ⟨ho, ht⟩
  | succ k ih => exact ih (s.step t) (s'.step t) (by simp [Sys.step, ho, ht]) (by simp [Sys.step, ho, ht])

/-- A thread suspended at `base.py:60` completes its row in four accesses, from whatever the object has become. -/
theorem resume (s : Sys C T) (t : T) (th : Thread C) (x : ι → K) (h : s.threads t = th) (hpc : th.pc = .setFeatures x) :
    (s.run [t, t]).obj.state = some (C.initState s.obj.params) ∧
    (s.run [t, t, t, t]).obj.state = some (C.updateState s.obj.params (C.initState s.obj.params) x) ∧
    (s.run [t, t, t, t]).threads t = th.finish ∧ ∀ u, u ≠ t → (s.run [t, t, t, t]).threads u = s.threads u := by
  subst h
  refine ⟨by simp [Sys.run, Sys.step, stepThread, hpc], by simp [Sys.run, Sys.step, stepThread, hpc],
    by simp [Sys.run, Sys.step, stepThread, hpc, Thread.finish], fun u hu => by simp [Sys.run, Sys.step, stepThread, hpc, hu]⟩

/-- Thread `true` finds the estimator new and is suspended, thread `false` adds all its rows. -/
theorem suspended (p : C.Param) (hd : C.diff p = false) (x : ι → K) (ys : List (ι → K)) :
    ∃ before : List Bool, let s := (start (new C p) (feeding (two [x] ys))).run before
      s.threads true = ⟨[.row x], 0, .setFeatures x⟩ ∧ (s.threads false).next = ys.length ∧ (s.threads false).pc = .top ∧
      s.obj.state = ((new C p).partialFit (.batch ys)).1.state ∧ s.obj.params = p := by
  let s₀ : Sys C Bool := start (new C p) (feeding (two [x] ys))
  let s₁ := s₀.run [true, true]
  have t1 : s₁.threads true = ⟨[.row x], 0, .setFeatures x⟩ := by
    simp [s₁, s₀, Sys.run, Sys.step, stepThread, start, feeding, two, new, hd]
  have o1 : s₁.obj = s₀.obj := by
    simp [s₁, s₀, Sys.run, Sys.step, stepThread, start, feeding, two, new, hd]
  have f1 : s₁.threads false = s₀.threads false := by
    simp [s₁, s₀, Sys.run, Sys.step, stepThread, start, feeding, two, new, hd]
  obtain ⟨a1, a2⟩ := run_agree s₁ s₀ false o1 f1 (9 * ys.length)
  have w := C118_wait_free p (two [x] ys) (List.replicate (9 * ys.length) false) false (by simp [two])
  have al := C118_alone p (two [x] ys) false (9 * ys.length) w.2
  refine ⟨[true, true] ++ List.replicate (9 * ys.length) false, ?_⟩
  simp only [run_append]
  refine ⟨?_, ?_, ?_, ?_, ?_⟩
  · exact (run_others s₁ false true (by simp) _).trans t1
  · rw [a2]; exact w.1
  · rw [a2]; exact w.2
  · rw [a1]
    rw [al, w.1]; simp [two]
  · rw [a1]
    rw [al, partialFit_fst, feedRows_params]; rfl

/-- Without `fit`, a state once present stays present. -/
theorem state_mono {p : C.Param} {rows : T → List (ι → K)} {s : Sys C T} (h : Inv p rows s) (sched : List T) (hs : s.obj.state.isSome) :
    (s.run sched).obj.state.isSome := by
  induction sched generalizing s with
  | nil => exact hs
  | cons t ts ih =>
    refine ih (inv_step h t) ?_
    have hl := h.loc t
    have hscr := h.script t
    unfold Sys.step stepThread
    cases hpc : (s.threads t).pc <;> simp only [hpc, LocalOk] at hl
    case top =>
      simp only [hscr, feeding, List.getElem?_map]
      cases hx : (rows t)[(s.threads t).next]? <;> simpa using hs
    all_goals first
      | exact hs
      | (simp; done)
      | (cases hq : s.obj.prevX <;> exact hs)
      | (cases hq : s.obj.state <;> simp [hq] at hs ⊢)

/-- C118 (violation, unbounded): a thread that found the estimator new and was suspended there wipes out, when it resumes,
everything the other thread has added since, however much that was: both threads return from all their calls and the estimate
is that of the single row `x`. -/
theorem C118_lost_history (p : C.Param) (hd : C.diff p = false) (x : ι → K) (ys : List (ι → K)) :
    ∃ before after : List Bool,
      let s := (start (new C p) (feeding (two [x] ys))).run before
      let s' := s.run after
      ((s.threads false).next = ys.length ∧ (s.threads false).pc = .top ∧ s.obj.state = ((new C p).partialFit (.batch ys)).1.state) ∧
      (∀ t, (s'.threads t).next = (two [x] ys t).length ∧ (s'.threads t).pc = .top) ∧
      s'.obj.state = ((new C p).partialFit (.row x)).1.state := by
  obtain ⟨before, h1, h2, h3, h4, h5⟩ := suspended p hd x ys
  obtain ⟨_, r2, r3, r4⟩ := resume _ true _ x h1 rfl
  refine ⟨before, [true, true, true, true], ⟨h2, h3, h4⟩, ?_, ?_⟩
  · intro t
    cases t
    · rw [r4 false (by simp)]; exact ⟨h2, h3⟩
    · rw [r3]; exact ⟨rfl, rfl⟩
  · rw [r2, h5, partialFit_fst, new_feedRows_state, hd]
    rfl

/-- C118: a reader is never given half an update. `location_` and `covariance_` read `_state` three times; at the three moments
the writers may have moved. The outcome is `NotFittedError` or the state after some sequential stream as in `C118_explained`. -/
theorem C118_reader (p : C.Param) (rows : T → List (ι → K)) (a b c : List T) :
    let s₁ := (start (new C p) (feeding rows)).run a
    let s₂ := s₁.run b
    let s₃ := s₂.run c
    Threads.fittedState C s₁.obj.state s₂.obj.state s₃.obj.state = .error .notFitted ∨
    ∃ L : List (Used T (ι → K)), InOrder L ∧ (∀ e ∈ L, e.Ok (C.diff p) rows ∧ e.index < (s₃.threads e.who).next) ∧
      Threads.fittedState C s₁.obj.state s₂.obj.state s₃.obj.state
        = .ok (some ((L.map Used.value).foldl (C.updateState p) (C.initState p))) := by
  intro s₁ s₂ s₃
  have h3 : Inv p rows s₃ := inv_run (inv_run (inv_run (inv_start p rows) a) b) c
  cases e1 : s₁.obj.state with
  | none => exact .inl rfl
  | some st1 =>
    have m2 : s₂.obj.state.isSome := state_mono (inv_run (inv_start p rows) a) b (by rw [show (Sys.run _ a).obj.state = _ from e1]; rfl)
    have m3 : s₃.obj.state.isSome := state_mono (inv_run (inv_run (inv_start p rows) a) b) c m2
    obtain ⟨st2, e2⟩ := Option.isSome_iff_exists.1 m2
    obtain ⟨st3, e3⟩ := Option.isSome_iff_exists.1 m3
    obtain ⟨L, hL, e⟩ := h3.state st3 e3
    rw [e2, e3]
    by_cases hn : C.nSamples st2 < 1
    · left; simp [Threads.fittedState, hn]
    · right
      refine ⟨L, hL.1, hL.2, ?_⟩
      simp [Threads.fittedState, hn, e, fold, List.foldl_map]

/-- C118 (violation of "NotFittedError when nothing was observed"): the check and the return of a reader can see different
states; the reader then gets, without an error, the initial state of an estimator that has seen nothing (for the shipped
classes: location 0, covariance 0 or the identity), although `ys` had been added and `x` was being added. -/
theorem C118_reader_unfitted (hC : Lawful C) (p : C.Param) (hd : C.diff p = false) (x : ι → K) (ys : List (ι → K)) (hy : ys ≠ []) :
    ∃ a c : List Bool, let s := (start (new C p) (feeding (two [x] ys))).run a
      s.obj.nSamples = ys.length ∧
      Threads.fittedState C s.obj.state s.obj.state (s.run c).obj.state = .ok (some (C.initState p)) := by
  obtain ⟨before, h1, h2, h3, h4, h5⟩ := suspended p hd x ys
  obtain ⟨r1, _, _, _⟩ := resume _ true _ x h1 rfl
  have hn : ((start (new C p) (feeding (two [x] ys))).run before).obj.nSamples = ys.length := by
    have := C04_n_samples hC p [.partialFit (.batch ys)]
    have e : ((start (new C p) (feeding (two [x] ys))).run before).obj.nSamples = ((new C p).partialFit (.batch ys)).1.nSamples := by
      simp only [Obj.nSamples, h4]
    rw [e]
    refine Eq.trans this ?_
    simp [hd, Spec.rowsSinceFit, Spec.rowsOf]
  refine ⟨before, [true, true], hn, ?_⟩
  rw [r1, h5]
  cases e : ((start (new C p) (feeding (two [x] ys))).run before).obj.state with
  | none => simp [Obj.nSamples, e] at hn; exact absurd (List.length_eq_zero_iff.1 hn.symm) hy
  | some st =>
    have : C.nSamples st = ys.length := by simpa [Obj.nSamples, e] using hn
    have hpos : 0 < ys.length := List.length_pos_of_ne_nil hy
    have : ¬ C.nSamples st < 1 := by omega
    simp [Threads.fittedState, this, new]

/-- C118 (violation): `fit` in one thread can make a `partial_fit` with a perfectly good row raise in another. -/
theorem C118_fit_race (p : C.Param) (hd : C.diff p = false) (x : ι → K) (rows : List (ι → K)) :
    ∃ sched : List Bool,
      (((start (new C p) fun t => match t with | true => feeding (two [x] []) true | false => fitting rows).run sched).threads true).pc
        = .raised := by
  refine ⟨[true, true, true, true, false, false, true], ?_⟩
  simp [Sys.run, Sys.step, stepThread, start, feeding, two, fitting, new, hd]

/-- C118 (violation, `diff=True`): two threads can difference against the same row, so an increment is used twice: with the
reference row `q` in place, both threads add `x - q` for their rows, although the stream `q, x, x` in any order has the
increments `x - q` and `0`. -/
theorem C118_diff_race (p : C.Param) (hd : C.diff p = true) (q x : ι → K) :
    ∃ sched : List Bool,
      ((start ((new C p).partialFit (.row q)).1 (feeding (two [x] [x]))).run sched).obj.state
        = some (C.updateState p (C.updateState p (C.initState p) (x - q)) (x - q)) := by
  refine ⟨[true, true, true, false, false, false, true, true, true, true, true, true, false, false, false, false], ?_⟩
  simp [Sys.run, Sys.step, stepThread, start, feeding, two, new, hd, Thread.finish, partialFit, asRows, feedRows, stepRow]

/-- C118 for every class that `estimator_from_name` returns. -/
theorem C118_shipped (L : Lapack) (d : ℕ) (name : String) (C : Cls (Fin d) ℝ) (h : estimatorFromName L d name = .ok C)
    (p : C.Param) (rows : T → List (Fin d → ℝ)) (sched : List T) :
    let s := (start (new C p) (feeding rows)).run sched
    (∀ t, (s.threads t).pc ≠ .raised) ∧
    ∃ M : List (Used T (Fin d → ℝ)), InOrder M ∧ (∀ e ∈ M, e.Ok (C.diff p) rows ∧ e.index < (s.threads e.who).next) ∧
      let q := ((new C (C.withDiff false p)).partialFit (.batch (M.map Used.value))).1
      s.obj.nSamples = q.nSamples ∧ s.obj.location = q.location ∧ s.obj.covariance = q.covariance :=
  C118_explained (named_lawful L d name C h) p rows sched

section
-- a concrete case: four threads with rows of a two-variable stream, fed to `EwaCovariance(r=0.05)`
example : ∀ sched : List (Fin 4), ∀ c, ((start (new (ewaCls (Fin 2) ℚ) ⟨1 / 20, false⟩)
    (feeding fun t : Fin 4 => [![((t : ℕ) : ℚ), 1], ![2, ((t : ℕ) : ℚ)]])).run sched).obj.covariance = .ok c → PSD c :=
  fun sched c hc => C118_ewa_psd ⟨1 / 20, false⟩ (by norm_num) (by norm_num) _ sched c hc

-- nine accesses per row are enough; here both threads finish
example (x y : Fin 2 → ℚ) (sched : List Bool) (h1 : 9 ≤ sched.count true) (h2 : 9 ≤ sched.count false) (t : Bool) :
    (((start (new (empiricalCls (Fin 2) ℚ) false) (feeding (two [x] [y]))).run sched).threads t).next = 1 := by
  have := (C118_wait_free (C := empiricalCls (Fin 2) ℚ) false (two [x] [y]) sched t (by cases t <;> simpa [two])).1
  cases t <;> simpa [two] using this

-- a schedule under the lock in which the second thread tries in vain while the first holds it
example (hC : Lawful C) (p : C.Param) (hd : C.diff p = false) (x y : ι → K) :
    let l := (⟨start (new C p) (feeding (two [x] [y])), none⟩ : Locked C Bool).run
      [true, true, false, true, false, true, true, true, false, false, false, false]
    l.holder = none ∧ l.sys.obj.nSamples = 2 := by
  intro l
  have h1 : l.holder = none := by
    simp [l, Locked.run, Locked.step, Sys.step, stepThread, start, feeding, two, new, hd, Thread.finish, Pc.idle]
  have h2 : ∀ t, (l.sys.threads t).next = (two [x] [y] t).length := by
    intro t
    cases t <;> simp [l, Locked.run, Locked.step, Sys.step, stepThread, start, feeding, two, new, hd, Thread.finish, Pc.idle]
  exact ⟨h1, (C118_locked_count hC p (two [x] [y]) _ h1 h2).trans (by simp [hd, two])⟩
end

end Precise
