import Verif.Lemmas.Threads
import Verif.Props.Ewa
import Mathlib.Algebra.BigOperators.Group.Finset.Basic
import Mathlib.Data.Finset.Sigma

/-!
# C118: one estimator fed by several threads

`(start (new C p) (feeding rows)).run sched`: threads `t : T` (any number) call `partial_fit` with the rows `rows t` on one
estimator; `sched` lists, access by access, which thread moves. All theorems hold for every schedule of every length.
-/

set_option linter.all false

namespace Precise

open Threads Spec Obj

variable {ι K : Type} [Fintype ι] [Sub K] {C : Cls ι K} {T : Type} [DecidableEq T]

omit [DecidableEq T] in
theorem fold_observed [Add K] [Div K] [OfNat K 2] (hC : Lawful C) (p : C.Param) (o : Obj C) (hp : o.params = p)
    (L : List (Used T (ι → K)))
    (h : o.state = some (fold C p L) ∨ (o.state = none ∧ L = [])) :
    let q := ((new C (C.withDiff false p)).partialFit (.batch (L.map Used.value))).1
    o.nSamples = q.nSamples ∧ o.location = q.location ∧ o.covariance = q.covariance := by
  intro q
  have hq : q.state = match L.map Used.value with | [] => none | ys => some (ys.foldl (C.updateState p) (C.initState p)) := by
    show ((new C (C.withDiff false p)).partialFit (.batch (L.map Used.value))).1.state = _
    rw [partialFit_fst, new_feedRows_state, hC.diff_withDiff, hC.init_withDiff, hC.update_withDiff]; rfl
  have hqp : q.params = C.withDiff false p := by
    show ((new C (C.withDiff false p)).partialFit (.batch (L.map Used.value))).1.params = _
    rw [partialFit_fst, feedRows_params]; rfl
  have hf : fold C p L = (L.map Used.value).foldl (C.updateState p) (C.initState p) := by
    rw [fold, List.foldl_map]
  rcases L with _ | ⟨e, L⟩
  · simp only [List.map_nil] at hq
    rcases h with h | ⟨h, _⟩
    · have h0 : C.nSamples (fold C p ([] : List (Used T (ι → K)))) = 0 := hC.n_init p
      simp [Obj.nSamples, Obj.location, Obj.covariance, Obj.fittedState, h, hq, h0, Except.map]
    · simp [Obj.nSamples, Obj.location, Obj.covariance, Obj.fittedState, h, hq, Except.map]
  · simp only [List.map_cons] at hq hf
    have hs : o.state = q.state := by
      rw [hq]
      rcases h with h | ⟨_, h⟩
      · rw [h, hf]
      · cases h
    have hfs : o.fittedState = q.fittedState := by simp only [Obj.fittedState, hs]
    refine ⟨by simp only [Obj.nSamples, hs], ?_, ?_⟩
    · simp only [Obj.location, hfs, hp, hqp, hC.toMean_withDiff]
    · simp only [Obj.covariance, hfs, hp, hqp, hC.toCov_withDiff]

/-- C118: whatever the schedule, no call raises, and at every moment the estimator is that of some sequential stream `L` in
which rows of the threads occur at most once and in each thread's own order (with `diff=True` each is the difference
between such a row and an earlier row of that thread or a row of another thread). Rows still being processed are not in it. -/
theorem C118_explained [Add K] [Div K] [OfNat K 2] (hC : Lawful C) (p : C.Param) (rows : T → List (ι → K)) (sched : List T) :
    let s := (start (new C p) (feeding rows)).run sched
    (∀ t, (s.threads t).pc ≠ .raised) ∧
    ∃ L : List (Used T (ι → K)), InOrder L ∧ (∀ e ∈ L, e.Ok (C.diff p) rows ∧ e.index < (s.threads e.who).next) ∧
      let q := ((new C (C.withDiff false p)).partialFit (.batch (L.map Used.value))).1
      s.obj.nSamples = q.nSamples ∧ s.obj.location = q.location ∧ s.obj.covariance = q.covariance := by
  intro s
  have h : Inv p rows s := inv_run (inv_start p rows) sched
  refine ⟨fun t ht => by have := h.loc t; simp [ht, LocalOk] at this, ?_⟩
  cases hs : s.obj.state with
  | none => exact ⟨[], by simp [InOrder], by simp, fold_observed hC p _ h.params [] (.inr ⟨hs, rfl⟩)⟩
  | some st =>
    obtain ⟨L, hL, e⟩ := h.state st hs
    exact ⟨L, hL.1, hL.2, fold_observed hC p _ h.params L (.inl (by rw [hs, e]))⟩

/-- C118: so a guarantee about `covariance_` that holds after every sequential history holds under every schedule. -/
theorem C118_guarantees [Add K] [Div K] [OfNat K 2] (hC : Lawful C) (p : C.Param) (rows : T → List (ι → K)) (sched : List T)
    (P : Matrix ι ι K → Prop) (hP : ∀ calls c, ((new C (C.withDiff false p)).run calls).covariance = .ok c → P c)
    (c : Matrix ι ι K) (hc : ((start (new C p) (feeding rows)).run sched).obj.covariance = .ok c) : P c := by
  obtain ⟨_, L, _, _, _, _, h⟩ := C118_explained hC p rows sched
  rw [h] at hc
  exact hP [.partialFit (.batch (L.map Used.value))] c hc

/-- C118: for instance, `EwaCovariance.covariance_` is positive semidefinite at every moment of every schedule. -/
theorem C118_ewa_psd {K : Type} [Field K] [LinearOrder K] [IsStrictOrderedRing K] [FloorRing K]
    (p : RParam K) (h0 : 0 ≤ p.r) (h1 : p.r ≤ 1) (rows : T → List (ι → K)) (sched : List T) (c : Matrix ι ι K)
    (hc : ((start (new (ewaCls ι K) p) (feeding rows)).run sched).obj.covariance = .ok c) : PSD c :=
  C118_guarantees (ewa_lawful ι K) p rows sched PSD (fun calls c hc => C21_psd ((ewaCls ι K).withDiff false p) h0 h1 calls c hc) c hc

omit [Fintype ι] [Sub K] in
theorem inOrder_length_le [Fintype T] (L : List (Used T (ι → K))) (h : InOrder L) (n : T → ℕ) (hn : ∀ e ∈ L, e.index < n e.who) :
    L.length ≤ ∑ t, n t := by
  have hnd : (L.map fun e => (⟨e.who, e.index⟩ : Σ _ : T, ℕ)).Nodup := by
    rw [List.Nodup, List.pairwise_map]
    refine h.imp ?_
    intro a b hab e
    obtain ⟨h1, h2⟩ := Sigma.mk.inj e
    exact (ne_of_lt (hab h1)) (eq_of_heq h2)
  have hsub : (L.map fun e => (⟨e.who, e.index⟩ : Σ _ : T, ℕ)).toFinset ⊆ Finset.univ.sigma fun t => Finset.range (n t) := by
    intro z hz
    simp only [List.mem_toFinset, List.mem_map] at hz
    obtain ⟨e, he, rfl⟩ := hz
    simpa using hn e he
  have := Finset.card_le_card hsub
  rw [List.toFinset_card_of_nodup hnd, Finset.card_sigma] at this
  simpa using this

/-- C118: `n_samples_` never exceeds the number of rows the threads have completed. -/
theorem C118_count [Add K] [Div K] [OfNat K 2] [Fintype T] (hC : Lawful C) (p : C.Param) (rows : T → List (ι → K)) (sched : List T) :
    let s := (start (new C p) (feeding rows)).run sched
    s.obj.nSamples ≤ ∑ t, (s.threads t).next := by
  intro s
  obtain ⟨_, L, hL, hok, hn, _, _⟩ := C118_explained hC p rows sched
  have h4 := C04_n_samples hC (C.withDiff false p) [.partialFit (.batch (L.map Used.value))]
  have : s.obj.nSamples = L.length := by
    refine hn.trans (h4.trans ?_)
    simp [hC.diff_withDiff, Spec.rowsSinceFit, Spec.rowsOf]
  rw [this]
  exact inOrder_length_le L hL _ fun e he => (hok e he).2

/-! ## No thread can hold up another -/

/-- Accesses made so far, at least: nine per finished row. -/
def Threads.progress : Pc C → ℕ
  | .top => 0
  | .askPrev _ => 1
  | .setPrev _ | .readPrev _ => 2
  | .writePrev _ _ => 3
  | .ask _ => 4
  | .setFeatures _ => 5
  | .setInit _ => 6
  | .load _ => 7
  | .store _ => 8
  | _ => 0

theorem progress_step {p : C.Param} {rows : T → List (ι → K)} {s : Sys C T} (h : Inv p rows s) (t : T) :
    let th := s.threads t
    let th' := (s.step t).threads t
    (th' = th ∧ th.pc = .top ∧ (rows t).length ≤ th.next) ∨ 9 * th.next + progress th.pc + 1 ≤ 9 * th'.next + progress th'.pc := by
  have hl := h.loc t
  have hscr := h.script t
  simp only [Sys.step, Function.update_self]
  unfold stepThread
  cases hpc : (s.threads t).pc <;> simp only [hpc, LocalOk] at hl
  case top =>
    simp only [hscr, feeding, List.getElem?_map]
    cases hx : (rows t)[(s.threads t).next]? with
    | none => left; simp only [Option.map_none]; exact ⟨trivial, by first | rfl | trivial, by simpa using hx⟩
    | some x =>
      right; simp only [Option.map_some]
      split <;> simp [progress]
  case askPrev x => right; cases hq : s.obj.prevX <;> simp [progress]
  case setPrev x => right; simp [progress, Thread.finish]; omega
  case readPrev x =>
    right
    obtain ⟨hd, hx, hq⟩ := hl
    cases hq' : s.obj.prevX with
    | none => simp [hq'] at hq
    | some q => simp [progress]
  case writePrev x d => right; simp [progress]
  case ask x => right; cases hq : s.obj.state <;> simp [progress]
  case setFeatures x => right; simp [progress]
  case setInit x => right; simp [progress]
  case load x =>
    right
    cases hq : s.obj.state with
    | none => simp [hq] at hl
    | some st => simp [progress]
  case store st => right; simp [progress, Thread.finish]; omega

theorem step_other (s : Sys C T) (t u : T) (h : u ≠ t) : (s.step t).threads u = s.threads u := by simp [Sys.step, h]

theorem next_le {p : C.Param} {rows : T → List (ι → K)} {s : Sys C T} (h : Inv p rows s)
    (hb : ∀ t, (s.threads t).next + (if (s.threads t).pc.idle then 0 else 1) ≤ (rows t).length) (u t : T) :
    ((s.step u).threads t).next + (if ((s.step u).threads t).pc.idle then 0 else 1) ≤ (rows t).length := by
  by_cases e : t = u
  swap
  · rw [step_other _ _ _ e]; exact hb t
  subst e
  have hl := h.loc t
  have hscr := h.script t
  have hbt := hb t
  simp only [Sys.step, Function.update_self]
  unfold stepThread
  cases hpc : (s.threads t).pc <;> simp only [hpc, LocalOk] at hl <;> simp only [hpc, Pc.idle] at hbt
  case top =>
    simp only [hscr, feeding, List.getElem?_map]
    cases hx : (rows t)[(s.threads t).next]? with
    | none => simpa [hpc, Pc.idle] using hbt
    | some x =>
      have : (s.threads t).next < (rows t).length := by
        by_contra hlt
        rw [List.getElem?_eq_none (by omega)] at hx; cases hx
      simp only [Option.map_some]
      split <;> simpa [Pc.idle] using this
  case askPrev x => cases hq : s.obj.prevX <;> simpa [Pc.idle] using hbt
  case setPrev x => simpa [Pc.idle, Thread.finish] using hbt
  case readPrev x => cases hq' : s.obj.prevX <;> simpa [Pc.idle] using hbt
  case writePrev x d => simpa [Pc.idle] using hbt
  case ask x => cases hq : s.obj.state <;> simpa [Pc.idle] using hbt
  case setFeatures x => simpa [Pc.idle] using hbt
  case setInit x => simpa [Pc.idle] using hbt
  case load x => cases hq : s.obj.state <;> simpa [Pc.idle] using hbt
  case store st => simpa [Pc.idle, Thread.finish] using hbt

theorem next_le_run {p : C.Param} {rows : T → List (ι → K)} {s : Sys C T} (h : Inv p rows s)
    (hb : ∀ t, (s.threads t).next + (if (s.threads t).pc.idle then 0 else 1) ≤ (rows t).length) (sched : List T) :
    ∀ t, ((s.run sched).threads t).next + (if ((s.run sched).threads t).pc.idle then 0 else 1) ≤ (rows t).length := by
  induction sched generalizing s with
  | nil => exact hb
  | cons u us ih => exact ih (inv_step h u) (fun t => next_le h hb u t)

theorem start_next_le (o : Obj C) (rows : T → List (ι → K)) (t : T) :
    ((start o (feeding rows)).threads t).next + (if ((start o (feeding rows)).threads t).pc.idle then 0 else 1) ≤ (rows t).length := by
  simp [start, Pc.idle]

theorem progress_run {p : C.Param} {rows : T → List (ι → K)} {s : Sys C T} (h : Inv p rows s) (sched : List T) (t : T) :
    let th := s.threads t
    let th' := (s.run sched).threads t
    (th'.pc = .top ∧ (rows t).length ≤ th'.next) ∨ 9 * th.next + progress th.pc + sched.count t ≤ 9 * th'.next + progress th'.pc := by
  induction sched generalizing s with
  | nil => right; simp [Sys.run]
  | cons u us ih =>
    have ih' := ih (inv_step h u)
    simp only at ih' ⊢
    change ((((s.step u).run us).threads t).pc = .top ∧ _ ≤ (((s.step u).run us).threads t).next) ∨ _ ≤ 9 * (((s.step u).run us).threads t).next + progress (((s.step u).run us).threads t).pc
    by_cases e : u = t
    · subst e
      rcases ih' with h1 | h1
      · exact .inl h1
      · rcases progress_step h u with ⟨e1, e2, e3⟩ | h2
        · left
          -- finished threads stay finished
          have fin : ∀ (us : List T) (s : Sys C T), Inv p rows s → (s.threads u).pc = .top → (rows u).length ≤ (s.threads u).next →
              ((s.run us).threads u).pc = .top ∧ (rows u).length ≤ ((s.run us).threads u).next := by
            intro us
            induction us with
            | nil => intro s _ a b; exact ⟨a, b⟩
            | cons v vs ihv =>
              intro s hs a b
              refine ihv (s.step v) (inv_step hs v) ?_ ?_
              all_goals
                by_cases ev : u = v
                · subst ev
                  have hst : (s.step u).threads u = s.threads u := by
                    simp only [Sys.step, Function.update_self]
                    unfold stepThread
                    simp only [a, hs.script u, feeding, List.getElem?_map, List.getElem?_eq_none b, Option.map_none]
                  rw [hst]; assumption
                · rw [step_other _ _ _ ev]; assumption
          exact fin us _ (inv_step h u) (by rw [e1]; exact e2) (by rw [e1]; exact e3)
        · right
          rw [List.count_cons_self]
          omega
    · rw [List.count_cons_of_ne e]
      rw [step_other _ _ _ (fun h => e h.symm)] at ih'
      exact ih'

/-- C118: no thread can hold up another: a thread that was given nine accesses per row has returned from all its calls,
wherever the others stand. -/
theorem C118_wait_free (p : C.Param) (rows : T → List (ι → K)) (sched : List T) (t : T)
    (h : 9 * (rows t).length ≤ sched.count t) :
    let s := (start (new C p) (feeding rows)).run sched
    (s.threads t).next = (rows t).length ∧ (s.threads t).pc = .top := by
  intro s
  have hb := next_le_run (inv_start p rows) (start_next_le _ rows) sched t
  rcases progress_run (inv_start p rows) sched t with ⟨h1, h2⟩ | h1
  · refine ⟨le_antisymm ?_ h2, h1⟩
    exact le_trans (Nat.le_add_right _ _) hb
  · simp only [start, progress] at h1
    have h8 : ∀ pc : Pc C, progress pc ≤ 8 ∧ (pc.idle = true → progress pc = 0) := by
      intro pc; cases pc <;> simp [progress, Pc.idle]
    have h8' := h8 (s.threads t).pc
    have hb' : (s.threads t).next + (if (s.threads t).pc.idle then 0 else 1) ≤ (rows t).length := hb
    have h1' : 9 * 0 + 0 + sched.count t ≤ 9 * (s.threads t).next + progress (s.threads t).pc := h1
    cases hi : (s.threads t).pc.idle
    · rw [hi] at hb'; simp at hb'; omega
    · rw [hi] at hb'
      have := h8'.2 hi
      simp at hb'
      refine ⟨by omega, ?_⟩
      cases hpc : (s.threads t).pc <;> rw [hpc] at hi <;> simp [Pc.idle] at hi ⊢

/-! ## One thread, or a lock -/

/-- C118: if every thread holds one common lock while it adds a row, then whenever the lock is free the estimator is exactly
the one that was fed, sequentially, an interleaving of all the rows completed so far: nothing is lost. -/
theorem C118_locked (p : C.Param) (rows : T → List (ι → K)) (sched : List T) :
    let l := (⟨start (new C p) (feeding rows), none⟩ : Locked C T).run sched
    l.holder = none →
    ∃ L : List (T × (ι → K)), (∀ t, (L.filter fun e => e.1 = t).map Prod.snd = (rows t).take (l.sys.threads t).next) ∧
      l.sys.obj = ((new C p).partialFit (.batch (L.map Prod.snd))).1 := by
  intro l hl
  have h : LockInv p rows l := lockInv_run (lockInv_start p rows) sched
  obtain ⟨L, hL, hobj⟩ := h.obj
  rw [hl] at hobj
  exact ⟨L, hL, by rw [partialFit_fst]; exact hobj⟩

theorem length_eq_sum_filter [Fintype T] {V : Type} (L : List (T × V)) : L.length = ∑ t, (L.filter fun e => e.1 = t).length := by
  induction L with
  | nil => simp
  | cons e L ih =>
    have : ∀ t, ((e :: L).filter fun e => e.1 = t).length = (if e.1 = t then 1 else 0) + (L.filter fun e => e.1 = t).length := by
      intro t
      by_cases h : e.1 = t <;> simp [h, Nat.add_comm]
    rw [List.length_cons, ih, Finset.sum_congr rfl fun t _ => this t, Finset.sum_add_distrib]
    simp [Nat.add_comm]

/-- C118: with the lock, when all threads have returned, `n_samples_` is the number of all the rows (one less with
`diff=True`). -/
theorem C118_locked_count [Fintype T] (hC : Lawful C) (p : C.Param) (rows : T → List (ι → K)) (sched : List T) :
    let l := (⟨start (new C p) (feeding rows), none⟩ : Locked C T).run sched
    l.holder = none → (∀ t, (l.sys.threads t).next = (rows t).length) →
    l.sys.obj.nSamples = if C.diff p then (∑ t, (rows t).length) - 1 else ∑ t, (rows t).length := by
  intro l hl hn
  obtain ⟨L, hL, ho⟩ := C118_locked p rows sched hl
  have h4 := C04_n_samples hC p [.partialFit (.batch (L.map Prod.snd))]
  have hlen : L.length = ∑ t, (rows t).length := by
    rw [length_eq_sum_filter]
    refine Finset.sum_congr rfl fun t _ => ?_
    rw [← List.length_map (f := Prod.snd), hL t, hn t, List.take_length]
  rw [ho]
  refine Eq.trans h4 ?_
  simp [Spec.rowsSinceFit, Spec.rowsOf, hlen]

/-- C118: with the lock and an estimator that ignores order (`EmpiricalCovariance`), the threads together compute exactly the
estimate of all their rows, whatever the schedule: `all` is any list with the rows of all the threads. -/
theorem C118_locked_empirical {K : Type} [Field K] [LinearOrder K] [IsStrictOrderedRing K]
    (rows : T → List (ι → K)) (sched : List T) (all : List (T × (ι → K)))
    (hall : ∀ t, (all.filter fun e => e.1 = t).map Prod.snd = rows t) :
    let l := (⟨start (new (empiricalCls ι K) false) (feeding rows), none⟩ : Locked (empiricalCls ι K) T).run sched
    let q := ((new (empiricalCls ι K) false).partialFit (.batch (all.map Prod.snd))).1
    l.holder = none → (∀ t, (l.sys.threads t).next = (rows t).length) →
    l.sys.obj.nSamples = q.nSamples ∧ l.sys.obj.location = q.location ∧ l.sys.obj.covariance = q.covariance := by
  intro l q hl hn
  obtain ⟨L, hL, ho⟩ := C118_locked (C := empiricalCls ι K) false rows sched hl
  have hperm : L.Perm all := by
    classical
    rw [List.perm_iff_count]
    rintro ⟨t, x⟩
    have key : ∀ M : List (T × (ι → K)), M.count (t, x) = ((M.filter fun e => e.1 = t).map Prod.snd).count x := by
      intro M
      induction M with
      | nil => simp
      | cons e M ih =>
        obtain ⟨u, y⟩ := e
        by_cases hu : u = t
        · subst hu
          by_cases hy : y = x
          · subst hy; simp [ih]
          · have : (u, y) ≠ (u, x) := fun h => hy (Prod.mk.inj h).2
            simp [List.count_cons_of_ne this, List.count_cons_of_ne hy, ih]
        · have : (u, y) ≠ (t, x) := fun h => hu (Prod.mk.inj h).1
          simp [List.count_cons_of_ne this, hu, ih]
    rw [key L, key all, hL t, hn t, List.take_length, hall t]
  have := C16_order (ι := ι) (K := K) false [.partialFit (.batch (L.map Prod.snd))] [.partialFit (.batch (all.map Prod.snd))]
    (by simpa [used, effective, rowsSinceFit, rowsOf] using hperm.map Prod.snd)
  rw [ho]
  exact ⟨this.2.2, this.1, this.2.1⟩

/-- With one moving thread the lock is never contended. -/
theorem alone_locked (s : Sys C T) (t : T) (k : ℕ) (h : Option T) (hh : h = none ∨ h = some t) :
    ((⟨s, h⟩ : Locked C T).run (List.replicate k t)).sys = s.run (List.replicate k t) ∧
    (((⟨s, h⟩ : Locked C T).run (List.replicate k t)).holder = none ∨ ((⟨s, h⟩ : Locked C T).run (List.replicate k t)).holder = some t) ∧
    (k ≠ 0 → ((s.run (List.replicate k t)).threads t).pc = .top → ((⟨s, h⟩ : Locked C T).run (List.replicate k t)).holder = none) := by
  induction k generalizing s h with
  | zero => exact ⟨rfl, hh, by simp⟩
  | succ k ih =>
    simp only [List.replicate_succ]
    have e : (⟨s, h⟩ : Locked C T).run (t :: List.replicate k t)
        = (⟨s.step t, if ((s.step t).threads t).pc.idle then none else some t⟩ : Locked C T).run (List.replicate k t) := by
      show (Locked.step ⟨s, h⟩ t).run _ = _
      rw [Locked.step, if_pos hh]
    rw [e]
    have := ih (s.step t) (if ((s.step t).threads t).pc.idle then none else some t) (by split <;> simp)
    refine ⟨this.1, this.2.1, fun _ htop => ?_⟩
    rcases k with _ | k
    · change ((s.step t).threads t).pc = .top at htop
      simp [Locked.run, htop, Pc.idle]
    · exact this.2.2 (by simp) htop

theorem run_others (s : Sys C T) (t u : T) (h : u ≠ t) (k : ℕ) : (s.run (List.replicate k t)).threads u = s.threads u := by
  induction k generalizing s with
  | zero => rfl
  | succ k ih =>
    show ((s.step t).run (List.replicate k t)).threads u = _
    rw [ih, step_other _ _ _ h]

/-- C118: a thread that is alone gets the sequential result: after its accesses, whenever it is between two rows, the
estimator is the one fed the rows it has completed. -/
theorem C118_alone (p : C.Param) (rows : T → List (ι → K)) (t : T) (k : ℕ) :
    let s := (start (new C p) (feeding rows)).run (List.replicate k t)
    (s.threads t).pc = .top → s.obj = ((new C p).partialFit (.batch ((rows t).take (s.threads t).next))).1 := by
  intro s htop
  obtain ⟨h1, h2, h3⟩ := alone_locked (start (new C p) (feeding rows)) t k none (.inl rfl)
  have hfree : ((⟨start (new C p) (feeding rows), none⟩ : Locked C T).run (List.replicate k t)).holder = none := by
    rcases k with _ | k
    · rfl
    · exact h3 (by simp) htop
  obtain ⟨L, hL, ho⟩ := C118_locked p rows (List.replicate k t) hfree
  rw [h1] at hL ho
  have hall : L.filter (fun e => e.1 = t) = L := by
    rw [List.filter_eq_self]
    intro e he
    by_contra hne
    simp only [decide_eq_true_eq] at hne
    have h0 := hL e.1
    rw [run_others _ _ _ hne] at h0
    simp only [start, List.take_zero, List.map_eq_nil_iff, List.filter_eq_nil_iff] at h0
    exact h0 e he (by simp)
  have := hL t
  rw [hall] at this
  show s.obj = _
  rw [ho, this]

/-- What one item does when nobody interferes. -/
def actAlone (o : Obj C) : Act ι K → Obj C
  | .row x => o.stepRow x
  | .reset => { o with state := none, prevX := none }

/-- The object while the item `a` is being worked on, `base` being the object before. -/
def MidAct (base : Obj C) (o : Obj C) (pc : Pc C) : Act ι K → Prop
  | .row x => Mid base x o pc
  | .reset => (pc = .resetState ∧ o = base) ∨ (pc = .resetPrev ∧ o = { base with state := none })

theorem alone_inv (o : Obj C) (work : T → List (Act ι K)) (t : T) (k : ℕ) :
    let s := (start o work).run (List.replicate k t)
    let done := ((work t).take (s.threads t).next).foldl actAlone o
    (s.threads t).script = work t ∧ s.obj.params = done.params ∧
    (((s.threads t).pc = .top ∧ s.obj = done) ∨
      ∃ a, (work t)[(s.threads t).next]? = some a ∧ MidAct done s.obj (s.threads t).pc a) := by
  induction k with
  | zero => exact ⟨rfl, rfl, .inl ⟨rfl, rfl⟩⟩
  | succ k ih =>
    rw [List.replicate_succ', run_append]
    simp only [Sys.run, List.foldl_cons, List.foldl_nil] at ih ⊢
    generalize (List.replicate k t).foldl Sys.step (start o work) = s at ih ⊢
    obtain ⟨hsc, hpar, h⟩ := ih
    simp only [Sys.step, Function.update_self]
    have hfin : ∀ a, (work t)[(s.threads t).next]? = some a →
        ((work t).take (s.threads t).finish.next).foldl actAlone o
          = actAlone (((work t).take (s.threads t).next).foldl actAlone o) a := by
      intro a ha
      simp [Thread.finish, List.take_add_one, ha]
    rcases h with ⟨htop, hobj⟩ | ⟨a, ha, hmid⟩
    · unfold stepThread
      simp only [htop, hsc]
      cases hx : (work t)[(s.threads t).next]? with
      | none => exact ⟨hsc, hpar, .inl ⟨htop, hobj⟩⟩
      | some a =>
        cases a with
        | reset => exact ⟨rfl, hpar, .inr ⟨.reset, hx, .inl ⟨rfl, hobj⟩⟩⟩
        | row x =>
          refine ⟨rfl, hpar, .inr ⟨.row x, hx, ?_⟩⟩
          simp only [MidAct]
          rw [hobj]
          cases hd : C.diff (((work t).take (s.threads t).next).foldl actAlone o).params
          · simp [Mid, Obj.stepRow, hd]
          · simp [Mid, hd]
    · cases a with
      | row x =>
        obtain ⟨e2, ⟨ef, eo⟩ | ⟨e3, e4, e6, e5⟩⟩ := mid_step hmid hpar
        · refine ⟨by rw [e2]; exact hsc, ?_, .inl ⟨by simp [ef, Thread.finish], ?_⟩⟩
          · rw [ef, eo, hfin _ ha]; rfl
          · rw [ef, eo, hfin _ ha]; rfl
        · exact ⟨by rw [e2]; exact hsc, by rw [e3]; exact e6, .inr ⟨.row x, by rw [e3]; exact ha, by rw [e3]; exact e5⟩⟩
      | reset =>
        rcases hmid with ⟨hpc, ho⟩ | ⟨hpc, ho⟩
        · unfold stepThread
          simp only [hpc]
          exact ⟨hsc, hpar, .inr ⟨.reset, ha, .inr ⟨rfl, by rw [ho]⟩⟩⟩
        · unfold stepThread
          simp only [hpc]
          refine ⟨by simp [Thread.finish, hsc], ?_, .inl ⟨rfl, ?_⟩⟩
          · rw [hfin _ ha]; exact hpar
          · rw [hfin _ ha, ho]; rfl

/-- C118: a thread that is alone and calls `fit(X)` gets the sequential result, whatever the estimator `o` had seen
before: between two rows the estimator is the one of `fit` on the rows completed so far. -/
theorem C118_alone_fit (o : Obj C) (xs : List (ι → K)) (work : T → List (Act ι K)) (t : T) (ht : work t = fitting xs) (k : ℕ) :
    let s := (start o work).run (List.replicate k t)
    (s.threads t).pc = .top → (s.threads t).next ≠ 0 →
    s.obj = (o.fit (.batch (xs.take ((s.threads t).next - 1)))).1 := by
  intro s htop hn
  obtain ⟨_, _, ⟨_, h⟩ | ⟨a, ha, h⟩⟩ := alone_inv o work t k
  · refine h.trans ?_
    change ((work t).take (s.threads t).next).foldl actAlone o = _
    obtain ⟨m, hm⟩ := Nat.exists_eq_succ_of_ne_zero hn
    rw [hm, ht, fitting, Obj.fit]
    rw [partialFit_fst]
    simp only [Nat.succ_eq_add_one, List.take_succ_cons, List.foldl_cons, Nat.add_sub_cancel, actAlone, ← List.map_take, List.foldl_map]
    rfl
  · exfalso
    change MidAct _ s.obj (s.threads t).pc a at h
    rw [htop] at h
    cases a <;> simp [MidAct, Mid] at h

/-- Non-vacuity: three accesses complete the reset of `fit`. -/
example (o : Obj C) (xs : List (ι → K)) :
    let s := (start o (fun _ : Unit => fitting xs)).run (List.replicate 3 ())
    (s.threads ()).pc = .top ∧ (s.threads ()).next = 1 := by
  simp [Sys.run, List.replicate, Sys.step, stepThread, start, fitting, Thread.finish]

end Precise
