import Verif.Model.Threads
import Verif.Spec.Threads
import Verif.Lemmas.Base

/-! Invariants of several threads feeding one estimator. -/

set_option linter.all false

namespace Precise.Threads

open Spec

variable {ι K : Type} [Fintype ι] [Sub K] {C : Cls ι K} {T : Type} [DecidableEq T]

/-- The state of an estimator that used these observations one after the other. -/
def fold (C : Cls ι K) (p : C.Param) (L : List (Used T (ι → K))) : C.State :=
  L.foldl (fun s e => C.updateState p s e.value) (C.initState p)

def Done (d : Bool) (rows : T → List (ι → K)) (n : T → ℕ) (L : List (Used T (ι → K))) : Prop :=
  InOrder L ∧ ∀ e ∈ L, e.Ok d rows ∧ e.index < n e.who

def past : Pc C → Bool
  | .ask _ | .setFeatures _ | .setInit _ | .load _ | .store _ => true
  | _ => false

def LocalOk (p : C.Param) (rows : T → List (ι → K)) (o : Obj C) (n : T → ℕ) (t : T) : Pc C → Prop
  | .top => True
  | .askPrev x | .setPrev x => C.diff p = true ∧ (rows t)[n t]? = some x
  | .readPrev x => C.diff p = true ∧ (rows t)[n t]? = some x ∧ o.prevX.isSome
  | .writePrev x d => C.diff p = true ∧ (rows t)[n t]? = some x ∧ Used.Ok (C.diff p) rows ⟨t, n t, d⟩
  | .ask d | .setFeatures d | .setInit d => Used.Ok (C.diff p) rows ⟨t, n t, d⟩
  | .load d => Used.Ok (C.diff p) rows ⟨t, n t, d⟩ ∧ o.state.isSome
  | .store st => ∃ L d, Done (C.diff p) rows n L ∧ Used.Ok (C.diff p) rows ⟨t, n t, d⟩ ∧ st = C.updateState p (fold C p L) d
  | _ => False

omit [Fintype ι] [DecidableEq T] in
theorem Done.mono {d : Bool} {rows : T → List (ι → K)} {n n' : T → ℕ} {L : List (Used T (ι → K))}
    (h : Done d rows n L) (hn : ∀ t, n t ≤ n' t) : Done d rows n' L :=
  ⟨h.1, fun e he => ⟨(h.2 e he).1, lt_of_lt_of_le (h.2 e he).2 (hn _)⟩⟩

omit [Fintype ι] [DecidableEq T] in
theorem LocalOk.mono {p : C.Param} {rows : T → List (ι → K)} {o o' : Obj C} {n n' : T → ℕ} {t : T} {pc : Pc C}
    (h : LocalOk p rows o n t pc) (hn : ∀ u, n u ≤ n' u) (ht : n' t = n t)
    (hp : o.prevX.isSome → o'.prevX.isSome) (hs : o.state.isSome → o'.state.isSome) : LocalOk p rows o' n' t pc := by
  cases pc <;> simp only [LocalOk, ht] at h ⊢
  case askPrev => exact h
  case setPrev => exact h
  case readPrev => exact ⟨h.1, h.2.1, hp h.2.2⟩
  case writePrev => exact h
  case ask => exact h
  case setFeatures => exact h
  case setInit => exact h
  case load => exact ⟨h.1, hs h.2⟩
  case store =>
    obtain ⟨L, d, h1, h2, h3⟩ := h
    exact ⟨L, d, h1.mono hn, h2, h3⟩

structure Inv (p : C.Param) (rows : T → List (ι → K)) (s : Sys C T) : Prop where
  params : s.obj.params = p
  script : ∀ t, (s.threads t).script = feeding rows t
  prev : ∀ q, s.obj.prevX = some q → ∃ u j, (rows u)[j]? = some q ∧
    (j < (s.threads u).next ∨ j = (s.threads u).next ∧ past (s.threads u).pc = true)
  state : ∀ st, s.obj.state = some st → ∃ L, Done (C.diff p) rows (fun t => (s.threads t).next) L ∧ st = fold C p L
  loc : ∀ t, LocalOk p rows s.obj (fun t => (s.threads t).next) t (s.threads t).pc

omit [Fintype ι] in
theorem inv_start (p : C.Param) (rows : T → List (ι → K)) : Inv p rows (start (Obj.new C p) (feeding rows)) where
  params := rfl
  script _ := rfl
  prev q h := by simp [start, Obj.new] at h
  state st h := by simp [start, Obj.new] at h
  loc t := trivial

/-- Assemble the invariant after a step of `t` from what changed. -/
theorem inv_update {p : C.Param} {rows : T → List (ι → K)} {s : Sys C T} (h : Inv p rows s) (t : T) (o' : Obj C) (th : Thread C)
    (hpar : o'.params = p) (hscr : th.script = feeding rows t) (hnext : (s.threads t).next ≤ th.next)
    (hp : s.obj.prevX.isSome → o'.prevX.isSome) (hs : s.obj.state.isSome → o'.state.isSome)
    (hpast : past (s.threads t).pc = true → (s.threads t).next < th.next ∨ past th.pc = true)
    (hprev : o'.prevX = s.obj.prevX ∨ ∃ j q, o'.prevX = some q ∧ (rows t)[j]? = some q ∧ (j < th.next ∨ j = th.next ∧ past th.pc = true))
    (hstate : o'.state = s.obj.state ∨ ∃ L, o'.state = some (fold C p L) ∧
      Done (C.diff p) rows (fun u => (Function.update s.threads t th u).next) L)
    (hloc : LocalOk p rows o' (fun u => (Function.update s.threads t th u).next) t th.pc) :
    Inv p rows { obj := o', threads := Function.update s.threads t th } := by
  have hmono : ∀ u, (s.threads u).next ≤ (Function.update s.threads t th u).next := by
    intro u
    by_cases hu : u = t
    · subst hu; simpa using hnext
    · simp [hu]
  refine ⟨hpar, ?_, ?_, ?_, ?_⟩
  · intro u
    by_cases hu : u = t
    · subst hu; simpa using hscr
    · simpa [hu] using h.script u
  · intro q hq
    rcases hprev with e | ⟨j, q', e, hr, hj⟩
    · obtain ⟨u, j, hr, hj⟩ := h.prev q (by rw [← e]; exact hq)
      refine ⟨u, j, hr, ?_⟩
      by_cases hu : u = t
      · subst hu
        simp only [Function.update_self]
        rcases hj with hj | ⟨hj, hpa⟩
        · exact .inl (lt_of_lt_of_le hj hnext)
        · rcases hpast hpa with h1 | h1
          · exact .inl (hj ▸ h1)
          · rcases Nat.lt_or_ge j th.next with h2 | h2
            · exact .inl h2
            · exact .inr ⟨le_antisymm (hj ▸ hnext) h2, h1⟩
      · simpa [hu] using hj
    · simp only at hq
      rw [e] at hq; cases hq
      exact ⟨t, j, hr, by simpa using hj⟩
  · intro st hst
    simp only at hst
    rcases hstate with e | ⟨L, e, hd⟩
    · obtain ⟨L, hd, hl⟩ := h.state st (by rw [← e]; exact hst)
      exact ⟨L, hd.mono hmono, hl⟩
    · rw [e] at hst; cases hst
      exact ⟨L, hd, rfl⟩
  · intro u
    by_cases hu : u = t
    · subst hu; simpa using hloc
    · have := h.loc u
      simp only [Function.update_of_ne hu]
      exact this.mono (n' := fun u => (Function.update s.threads t th u).next) hmono (by simp [hu]) hp hs

theorem inv_step {p : C.Param} {rows : T → List (ι → K)} {s : Sys C T} (h : Inv p rows s) (t : T) : Inv p rows (s.step t) := by
  have hl := h.loc t
  have hscr := h.script t
  unfold Sys.step stepThread
  cases hpc : (s.threads t).pc <;> simp only [hpc, LocalOk] at hl
  case top =>
    simp only [hscr, feeding, List.getElem?_map]
    cases hx : (rows t)[(s.threads t).next]? with
    | none => simpa using h
    | some x =>
      simp only [Option.map_some]
      refine inv_update h t _ _ h.params rfl le_rfl id id (by simp [hpc, past]) (.inl rfl) (.inl rfl) ?_
      rw [h.params]
      cases hd : C.diff p
      · simp [LocalOk, Used.Ok, Used.IsRow, hd, hx]
      · simp [LocalOk, hd, hx]
  case askPrev x =>
    cases hq : s.obj.prevX with
    | none => exact inv_update h t _ _ h.params hscr le_rfl id id (by simp [hpc, past]) (.inl rfl) (.inl rfl) (by simpa [LocalOk] using hl)
    | some q =>
      exact inv_update h t _ _ h.params hscr le_rfl id id (by simp [hpc, past]) (.inl rfl) (.inl rfl)
        (by simp [LocalOk, hl, hq])
  case setPrev x =>
    refine inv_update h t _ _ h.params hscr (by simp [Thread.finish]) (by simp) id (by simp [hpc, past]) (.inr ?_) (.inl rfl)
      (by simp [Thread.finish, LocalOk])
    exact ⟨_, x, rfl, hl.2, .inl (by simp [Thread.finish])⟩
  case readPrev x =>
    obtain ⟨hd, hx, hq⟩ := hl
    cases hq' : s.obj.prevX with
    | none => simp [hq'] at hq
    | some q =>
      refine inv_update h t _ _ h.params hscr le_rfl id id (by simp [hpc, past]) (.inl rfl) (.inl rfl) ?_
      obtain ⟨u, j, hr, hj⟩ := h.prev q hq'
      simp only [LocalOk, Function.update_self]
      refine ⟨hd, hx, ?_⟩
      simp only [Used.Ok, hd, if_true]
      refine ⟨x, u, j, q, hx, hr, rfl, ?_⟩
      rintro rfl
      rcases hj with hj | ⟨_, hj⟩
      · exact hj
      · simp [hpc, past] at hj
  case writePrev x d =>
    obtain ⟨hd, hx, hok⟩ := hl
    refine inv_update h t _ _ h.params hscr le_rfl (by simp) id (by simp [hpc, past]) (.inr ?_) (.inl rfl)
      (by simpa [LocalOk] using hok)
    exact ⟨_, x, rfl, hx, .inr ⟨rfl, rfl⟩⟩
  case ask x =>
    cases hq : s.obj.state with
    | none => exact inv_update h t _ _ h.params hscr le_rfl id id (by simp [past]) (.inl rfl) (.inl rfl) (by simpa [LocalOk] using hl)
    | some q =>
      exact inv_update h t _ _ h.params hscr le_rfl id id (by simp [past]) (.inl rfl) (.inl rfl)
        (by simpa [LocalOk, hq] using hl)
  case setFeatures x =>
    exact inv_update h t _ _ h.params hscr le_rfl id id (by simp [past]) (.inl rfl) (.inl rfl) (by simpa [LocalOk] using hl)
  case setInit x =>
    refine inv_update h t _ _ h.params hscr le_rfl id (by simp) (by simp [past]) (.inl rfl) (.inr ⟨[], ?_, ?_⟩) (by simpa [LocalOk] using hl)
    · simp [fold, h.params]
    · exact ⟨by simp [InOrder], by simp⟩
  case load x =>
    obtain ⟨hok, hsome⟩ := hl
    cases hq : s.obj.state with
    | none => simp [hq] at hsome
    | some st =>
      refine inv_update h t _ _ h.params hscr le_rfl id id (by simp [past]) (.inl rfl) (.inl rfl) ?_
      obtain ⟨L, hL, e⟩ := h.state st hq
      simp only [LocalOk, Function.update_self]
      refine ⟨L, x, hL.mono ?_, hok, by rw [e, h.params]⟩
      intro u; by_cases hu : u = t
      · subst hu; simp
      · simp [hu]
  case store st =>
    obtain ⟨L, d, hL, hok, e⟩ := hl
    refine inv_update h t _ _ h.params hscr (by simp [Thread.finish]) id (by simp) (by simp [Thread.finish]) (.inl rfl)
      (.inr ⟨L ++ [⟨t, (s.threads t).next, d⟩], ?_, ?_, ?_⟩) (by simp [Thread.finish, LocalOk])
    · simp [fold, e]
    · unfold InOrder
      rw [List.pairwise_append]
      refine ⟨hL.1, by simp, ?_⟩
      intro a ha b hb hab
      simp only [List.mem_singleton] at hb
      subst hb
      simpa [hab] using (hL.2 a ha).2
    · intro a ha
      rw [List.mem_append, List.mem_singleton] at ha
      rcases ha with ha | rfl
      · refine ⟨(hL.2 a ha).1, lt_of_lt_of_le (hL.2 a ha).2 ?_⟩
        by_cases hu : a.who = t
        · rw [hu]; simp [Thread.finish]
        · simp [hu]
      · exact ⟨hok, by simp [Thread.finish]⟩

theorem inv_run {p : C.Param} {rows : T → List (ι → K)} {s : Sys C T} (h : Inv p rows s) (sched : List T) : Inv p rows (s.run sched) := by
  induction sched generalizing s with
  | nil => exact h
  | cons t ts ih => exact ih (inv_step h t)

theorem run_append (s : Sys C T) (a b : List T) : s.run (a ++ b) = (s.run a).run b := by simp [Sys.run, List.foldl_append]

/-! ## Under a lock -/

/-- The object when `x` is half processed, `base` being the object before. -/
def Mid (base : Obj C) (x : ι → K) (o : Obj C) : Pc C → Prop
  | .askPrev y => o = base ∧ C.diff base.params = true ∧ y = x
  | .setPrev y => o = base ∧ C.diff base.params = true ∧ y = x ∧ base.prevX = none
  | .readPrev y => o = base ∧ C.diff base.params = true ∧ y = x ∧ base.prevX.isSome
  | .writePrev y d => o = base ∧ C.diff base.params = true ∧ y = x ∧ ∃ q, base.prevX = some q ∧ d = x - q
  | .ask d => o.feed d = base.stepRow x
  | .setFeatures d => o.state = none ∧ o.feed d = base.stepRow x
  | .setInit d => o.state = none ∧ o.nFeatures = some (Fintype.card ι) ∧ o.feed d = base.stepRow x
  | .load d => o.state.isSome ∧ o.feed d = base.stepRow x
  | .store s => { o with state := some s } = base.stepRow x
  | _ => False

/-- `L` is an interleaving of the rows the threads have completed (`n t` of them for thread `t`). -/
def Taken (rows : T → List (ι → K)) (n : T → ℕ) (L : List (T × (ι → K))) : Prop :=
  ∀ t, (L.filter fun e => e.1 = t).map Prod.snd = (rows t).take (n t)

structure LockInv (p : C.Param) (rows : T → List (ι → K)) (l : Locked C T) : Prop where
  script : ∀ t, (l.sys.threads t).script = feeding rows t
  others : ∀ t, l.holder ≠ some t → (l.sys.threads t).pc = .top
  params : l.sys.obj.params = p
  obj : ∃ L : List (T × (ι → K)), Taken rows (fun t => (l.sys.threads t).next) L ∧
    match l.holder with
    | none => l.sys.obj = (Obj.new C p).feedRows (L.map Prod.snd)
    | some t => ∃ x, (rows t)[(l.sys.threads t).next]? = some x ∧
        Mid ((Obj.new C p).feedRows (L.map Prod.snd)) x l.sys.obj (l.sys.threads t).pc

theorem lockInv_start (p : C.Param) (rows : T → List (ι → K)) :
    LockInv p rows ⟨start (Obj.new C p) (feeding rows), none⟩ where
  script _ := rfl
  others _ _ := rfl
  params := rfl
  obj := ⟨[], fun t => by simp [start], rfl⟩

omit [Sub K] [Fintype ι] in
theorem Taken.push {rows : T → List (ι → K)} {n n' : T → ℕ} {L : List (T × (ι → K))} (h : Taken rows n L) (t : T) (x : ι → K)
    (hx : (rows t)[n t]? = some x) (ht : n' t = n t + 1) (hu : ∀ u, u ≠ t → n' u = n u) :
    Taken rows n' (L ++ [(t, x)]) := by
  intro u
  have := h u
  by_cases e : u = t
  · subst e
    simp [List.filter_append, this, ht, List.take_add_one, hx]
  · have e' : ¬ t = u := fun h => e h.symm
    simp [List.filter_append, this, hu u e, e']

/-- One access of the thread that works on `x`: either it finishes and the object is that of `stepRow`, or it is still
in between. -/
theorem mid_step {base : Obj C} {x : ι → K} {o : Obj C} {th : Thread C} (h : Mid base x o th.pc) (hp : o.params = base.params) :
    (stepThread o th).2.script = th.script ∧
    (((stepThread o th).2 = th.finish ∧ (stepThread o th).1 = base.stepRow x) ∨
      ((stepThread o th).2.next = th.next ∧ (stepThread o th).2.pc.idle = false ∧ (stepThread o th).1.params = base.params ∧
        Mid base x (stepThread o th).1 (stepThread o th).2.pc)) := by
  rcases th with ⟨sc, nx, pc⟩
  cases pc <;> simp only [Mid] at h <;> dsimp only [stepThread]
  case askPrev y =>
    obtain ⟨rfl, hd, rfl⟩ := h
    cases hq : o.prevX with
    | none => exact ⟨rfl, .inr ⟨rfl, rfl, rfl, rfl, hd, rfl, hq⟩⟩
    | some q => exact ⟨rfl, .inr ⟨rfl, rfl, rfl, rfl, hd, rfl, by simp [hq]⟩⟩
  case setPrev y =>
    obtain ⟨rfl, hd, rfl, hq⟩ := h
    exact ⟨rfl, .inl ⟨rfl, by simp [Obj.stepRow, hd, hq]⟩⟩
  case readPrev y =>
    obtain ⟨rfl, hd, rfl, hq⟩ := h
    cases hq' : o.prevX with
    | none => simp [hq'] at hq
    | some q => exact ⟨rfl, .inr ⟨rfl, rfl, rfl, rfl, hd, rfl, q, hq', rfl⟩⟩
  case writePrev y d =>
    obtain ⟨rfl, hd, rfl, q, hq, rfl⟩ := h
    exact ⟨rfl, .inr ⟨rfl, rfl, rfl, by simp [Mid, Obj.stepRow, hd, hq]⟩⟩
  case ask y =>
    cases hs : o.state with
    | none => exact ⟨rfl, .inr ⟨rfl, rfl, hp, hs, h⟩⟩
    | some s => exact ⟨rfl, .inr ⟨rfl, rfl, hp, by simp [hs], h⟩⟩
  case setFeatures y =>
    refine ⟨rfl, .inr ⟨rfl, rfl, hp, h.1, rfl, ?_⟩⟩
    rw [← h.2]; simp [Obj.feed, h.1]
  case setInit y =>
    refine ⟨rfl, .inr ⟨rfl, rfl, hp, rfl, ?_⟩⟩
    rw [← h.2.2]; simp [Obj.feed, h.1, h.2.1]
  case load y =>
    cases hs : o.state with
    | none => simp [hs] at h
    | some s =>
      refine ⟨rfl, .inr ⟨rfl, rfl, hp, ?_⟩⟩
      simp only [Mid]
      rw [← h.2]; simp [Obj.feed, hs]
  case store s => exact ⟨rfl, .inl ⟨rfl, h⟩⟩

/-- Starting on a row. -/
theorem top_step (o : Obj C) (th : Thread C) (rows : List (ι → K)) (hs : th.script = rows.map .row) (hpc : th.pc = .top) :
    (rows[th.next]? = none ∧ stepThread o th = (o, th)) ∨
    ∃ x, rows[th.next]? = some x ∧ (stepThread o th).1 = o ∧ (stepThread o th).2.script = th.script ∧
      (stepThread o th).2.next = th.next ∧ (stepThread o th).2.pc.idle = false ∧ Mid o x o (stepThread o th).2.pc := by
  unfold stepThread
  simp only [hpc, hs, List.getElem?_map]
  cases hx : rows[th.next]? with
  | none => left; simp
  | some x =>
    right
    refine ⟨x, rfl, ?_⟩
    simp only [Option.map_some]
    cases hd : C.diff o.params
    · refine ⟨by trivial, by trivial, by trivial, by trivial, ?_⟩
      simp [Mid, Obj.stepRow, hd]
    · refine ⟨by trivial, by trivial, by trivial, by trivial, ?_⟩
      simp [Mid, hd]

theorem lockInv_step {p : C.Param} {rows : T → List (ι → K)} {l : Locked C T} (h : LockInv p rows l) (t : T) :
    LockInv p rows (l.step t) := by
  unfold Locked.step
  split
  swap
  · exact h
  rename_i hh
  obtain ⟨L, hL, hobj⟩ := h.obj
  -- whatever happens to the thread, the others keep their script and stay at the top
  have hscr : ∀ th : Thread C, th.script = (l.sys.threads t).script →
      ∀ u, (Function.update l.sys.threads t th u).script = feeding rows u := by
    intro th hth u
    by_cases hu : u = t
    · subst hu; simpa [hth] using h.script u
    · simpa [hu] using h.script u
  have hoth : ∀ th : Thread C, ∀ u, u ≠ t → (Function.update l.sys.threads t th u).pc = .top := by
    intro th u hu
    simp only [Function.update_of_ne hu]
    refine h.others u ?_
    rcases hh with hh | hh
    · simp [hh]
    · rw [hh]; simpa using fun e => hu e.symm
  have hsame : ∀ th : Thread C, th.next = (l.sys.threads t).next →
      (fun u => (Function.update l.sys.threads t th u).next) = fun u => (l.sys.threads u).next := by
    intro th hth; funext u
    by_cases hu : u = t
    · subst hu; simpa using hth
    · simp [hu]
  simp only [Sys.step, Function.update_self]
  rcases hh with hh | hh
  · -- the lock was free
    have htop := h.others t (by simp [hh])
    rw [hh] at hobj
    rcases top_step l.sys.obj (l.sys.threads t) (rows t) (h.script t) htop with ⟨_, e⟩ | ⟨x, hx, e1, e2, e3, e4, e5⟩
    · rw [e]
      simp only [htop, Pc.idle, if_true, Function.update_eq_self]
      exact ⟨h.script, fun u _ => h.others u (by simp [hh]), h.params, L, hL, hobj⟩
    · refine ⟨hscr _ e2, ?_, by rw [e1]; exact h.params, L, ?_, ?_⟩
      · intro u hu
        simp only [e4, Bool.false_eq_true, if_false] at hu
        exact hoth _ u (fun e => hu (by rw [e]))
      · show Taken rows (fun u => (Function.update l.sys.threads t _ u).next) L
        rw [hsame _ e3]; exact hL
      · simp only [e4, Bool.false_eq_true, if_false, Function.update_self]
        refine ⟨x, by rw [e3]; exact hx, ?_⟩
        rw [e1]
        simp only at hobj
        rw [← hobj]; exact e5
  · rw [hh] at hobj
    obtain ⟨x, hx, hmid⟩ := hobj
    have hpar : l.sys.obj.params = ((Obj.new C p).feedRows (L.map Prod.snd)).params := by
      rw [h.params]; simp [Obj.new]
    obtain ⟨e2, ⟨ef, eo⟩ | ⟨e3, e4, e6, e5⟩⟩ := mid_step hmid hpar
    · refine ⟨hscr _ e2, ?_, by simp only []; rw [eo]; simp [Obj.new], L ++ [(t, x)], ?_, ?_⟩
      · intro u hu
        by_cases he : u = t
        · subst he; simp [ef, Thread.finish]
        · exact hoth _ u he
      · refine hL.push t x hx ?_ ?_
        · simp [ef, Thread.finish]
        · intro u hu; simp [hu]
      · simp only [ef, Thread.finish, Pc.idle, if_true, List.map_append, List.map_cons, List.map_nil, feedRows_append]
        rw [eo]; rfl
    · refine ⟨hscr _ e2, ?_, by simp only []; rw [e6, ← hpar]; exact h.params, L, ?_, ?_⟩
      · intro u hu
        simp only [e4, Bool.false_eq_true, if_false] at hu
        exact hoth _ u (fun e => hu (by rw [e]))
      · show Taken rows (fun u => (Function.update l.sys.threads t _ u).next) L
        rw [hsame _ e3]; exact hL
      · simp only [e4, Bool.false_eq_true, if_false, Function.update_self]
        exact ⟨x, by rw [e3]; exact hx, e5⟩

theorem lockInv_run {p : C.Param} {rows : T → List (ι → K)} {l : Locked C T} (h : LockInv p rows l) (sched : List T) :
    LockInv p rows (l.run sched) := by
  induction sched generalizing l with
  | nil => exact h
  | cons t ts ih => exact ih (lockInv_step h t)

end Precise.Threads
