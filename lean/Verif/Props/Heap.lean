import Verif.Spec.Heap
import Verif.Lemmas.Base
import Verif.Props.Emp
import Mathlib.Tactic.NormNum
import Mathlib.Data.Rat.Floor

/-!
# C60: arrays shared between the caller and the estimator
-/

set_option linter.all false

namespace Precise

open Heap

namespace Heap

variable {ι K : Type} [Fintype ι] {C : Cls ι K}

theorem feed_obj [Zero K] [Sub K] (w : World C) (x : ι → K) :
    (w.feed x).obj = w.obj.feed x ∧ (w.feed x).arrays = w.arrays ∧ (w.feed x).prevX = w.prevX ∧
    (w.feed x).params = w.params ∧ (w.feed x).updates = w.updates + 1 := by
  obtain ⟨h, p, s, n, q, u⟩ := w
  cases s <;> exact ⟨rfl, rfl, rfl, rfl, rfl⟩

theorem stepRef_obj [Zero K] [Sub K] (w : World C) (r : Ref ι K) :
    (w.stepRef r).obj = w.obj.stepRow (r.read w.arrays) ∧ (w.stepRef r).arrays = w.arrays ∧
    (w.stepRef r).params = w.params ∧
    (w.stepRef r).prevX = if C.diff w.params then some r else w.prevX := by
  rw [World.stepRef, Obj.stepRow]
  have hp : w.obj.params = w.params := rfl
  rw [hp]
  split
  · cases hq : w.prevX with
    | none =>
      have : w.obj.prevX = none := by simp [World.obj, hq]
      rw [this]
      exact ⟨rfl, rfl, rfl, rfl⟩
    | some q =>
      have : w.obj.prevX = some (q.read w.arrays) := by simp [World.obj, hq]
      rw [this]
      obtain ⟨h1, h2, h3, h4, -⟩ := feed_obj { w with prevX := some r } (r.read w.arrays - q.read w.arrays)
      exact ⟨h1, h2, h4, h3⟩
  · obtain ⟨h1, h2, h3, h4, -⟩ := feed_obj w (r.read w.arrays)
    exact ⟨h1, h2, h4, h3⟩

theorem foldRefs_obj [Zero K] [Sub K] (rs : List (Ref ι K)) (w : World C) :
    (rs.foldl World.stepRef w).obj = w.obj.feedRows (rs.map (Ref.read w.arrays)) ∧
    (rs.foldl World.stepRef w).arrays = w.arrays ∧ (rs.foldl World.stepRef w).params = w.params ∧
    ((rs.foldl World.stepRef w).prevX = w.prevX ∨ ∃ r ∈ rs, (rs.foldl World.stepRef w).prevX = some r) := by
  induction rs generalizing w with
  | nil => exact ⟨rfl, rfl, rfl, .inl rfl⟩
  | cons r rs ih =>
    obtain ⟨h1, h2, h3, h4⟩ := stepRef_obj w r
    obtain ⟨i1, i2, i3, i4⟩ := ih (w.stepRef r)
    refine ⟨?_, i2.trans h2, i3.trans h3, ?_⟩
    · rw [List.foldl_cons, i1, h1, h2]; rfl
    · rcases i4 with e | ⟨r', hr', e⟩
      · rw [List.foldl_cons, e, h4]
        split
        · exact .inr ⟨r, by simp, rfl⟩
        · exact .inl rfl
      · exact .inr ⟨r', by simp [hr'], e⟩

theorem views_read [Zero K] (h : Arrays ι K) (a : ℕ) :
    ((List.range (h[a]?.getD []).length).map fun i => Ref.view (ι := ι) (K := K) a i).map (Ref.read h) = h[a]?.getD [] := by
  rw [List.map_map]
  apply List.ext_getElem
  · simp
  · intro i h1 h2
    simp only [List.getElem_map, List.getElem_range, Function.comp, Ref.read, Arrays.row]
    rw [List.getElem?_eq_getElem h2]
    rfl

theorem row_alloc [Zero K] (h : Arrays ι K) (rows : List (ι → K)) (a i : ℕ) (ha : a < h.length) :
    (h ++ [rows] : Arrays ι K).row a i = h.row a i := by
  simp [Arrays.row, List.getElem?_append_left ha]

theorem row_write_ne [Zero K] (h : Arrays ι K) (a b i j : ℕ) (x : ι → K) (hab : b ≠ a) :
    (h.write a i x).row b j = h.row b j := by
  simp [Arrays.row, Arrays.write, List.getElem?_set_ne hab.symm]

theorem overwrite_eq (h : Arrays ι K) (a i : ℕ) (x : ι → K) : Spec.overwrite h a i x = h.write a i x := by
  unfold Spec.overwrite Arrays.write
  refine List.ext_getElem? fun b => ?_
  rw [List.getElem?_mapIdx, List.getElem?_set]
  by_cases hb : a = b
  · subst hb
    rw [if_pos rfl]
    by_cases hl : a < h.length
    · rw [if_pos hl, List.getElem?_eq_getElem hl]
      simp only [Option.map_some, if_true, Option.getD_some]
      congr 1
      refine List.ext_getElem? fun j => ?_
      rw [List.getElem?_mapIdx, List.getElem?_set]
      by_cases hj : i = j
      · subst hj
        rw [if_pos rfl]
        by_cases hi : i < h[a].length
        · rw [if_pos hi, List.getElem?_eq_getElem hi]; simp
        · rw [if_neg hi, List.getElem?_eq_none (by omega)]; rfl
      · rw [if_neg hj]
        cases h[a][j]? <;> simp [Ne.symm hj]
    · rw [if_neg hl, List.getElem?_eq_none (by omega)]; rfl
  · rw [if_neg hb]
    cases h[b]? <;> simp [Ne.symm hb]

/-- General simulation: the reference row is still what it was when it was passed. -/
theorem run_sim [Zero K] [Sub K] (sm : C.State → (ι → K) → C.State) (ops : List (Op ι K)) (w : World C)
    (hloc : Spec.keepsLocation ops)
    (hre : C.diff w.params = true → Spec.noReuse ops)
    (hprev : ∀ a i, w.prevX = some (.view a i) → a < w.arrays.length ∧
      (C.diff w.params = true → ∀ j x, Op.write a j x ∉ ops))
    (hnd : C.diff w.params = false → w.prevX = none) :
    (w.run sm ops).obj = w.obj.feedRows (Spec.passed ops w.arrays) := by
  induction ops generalizing w with
  | nil => rfl
  | cons c t ih =>
    have hloc' : Spec.keepsLocation t := fun k x hm => hloc k x (by simp [hm])
    have hpt : ∀ a i, w.prevX = some (.view a i) → a < w.arrays.length ∧
        (C.diff w.params = true → ∀ j x, Op.write a j x ∉ t) := fun a i e =>
      ⟨(hprev a i e).1, fun hd j x hm => (hprev a i e).2 hd j x (by simp [hm])⟩
    cases c with
    | alloc rows =>
      have := ih { w with arrays := w.arrays ++ [rows] } hloc' hre
        (fun a i e => ⟨by have := (hpt a i e).1; simp; omega, (hpt a i e).2⟩) hnd
      show (World.run sm _ t).obj = _
      refine this.trans ?_
      have e : World.obj { w with arrays := w.arrays ++ [rows] } = w.obj := by
        simp only [World.obj, Obj.mk.injEq, true_and]
        cases hq : w.prevX with
        | none => rfl
        | some q =>
          cases q with
          | own x => rfl
          | view a i =>
            simp only [Option.map_some, Ref.read]
            rw [row_alloc _ _ _ _ (hprev a i hq).1]
      rw [e]
      rfl
    | write a i x =>
      have hl : (w.arrays.write a i x).length = w.arrays.length := by simp [Arrays.write]
      have := ih { w with arrays := w.arrays.write a i x } hloc' hre
        (fun b j e => ⟨by rw [hl]; exact (hpt b j e).1, (hpt b j e).2⟩) hnd
      show (World.run sm _ t).obj = _
      refine this.trans ?_
      have e : World.obj { w with arrays := w.arrays.write a i x } = w.obj := by
        simp only [World.obj, Obj.mk.injEq, true_and]
        cases hq : w.prevX with
        | none => rfl
        | some q =>
          cases q with
          | own y => rfl
          | view b j =>
            cases hdf : C.diff w.params with
            | false => rw [hnd hdf] at hq; cases hq
            | true =>
              have hne : b ≠ a := by
                intro e
                subst e
                exact (hprev b j hq).2 hdf i x (by simp)
              simp only [Option.map_some, Ref.read]
              rw [row_write_ne _ _ _ _ _ _ hne]
      rw [e]
      rw [Spec.passed, overwrite_eq]
    | pass a =>
      let rs : List (Ref ι K) := (List.range (w.arrays[a]?.getD []).length).map fun i => Ref.view a i
      obtain ⟨h1, h2, h3, h4⟩ := foldRefs_obj rs w
      have hw : w.op sm (.pass a) = rs.foldl World.stepRef w := rfl
      have key := ih (w.op sm (.pass a)) hloc'
        (fun hd => by rw [hw, h3] at hd; exact (hre hd).2)
        (fun b j e => by
          rw [hw] at e ⊢
          rw [h2, h3]
          rcases h4 with e' | ⟨r, hr, e'⟩
          · exact hpt b j (e' ▸ e)
          · rw [e'] at e
            cases e
            obtain ⟨i, hi, he⟩ := List.mem_map.mp hr
            cases he
            refine ⟨?_, fun hd j x => (hre hd).1 j x⟩
            by_contra hlt
            have : w.arrays[a]? = none := List.getElem?_eq_none (by omega)
            rw [this] at hi
            simp at hi)
        (fun hd => by
          rw [hw, h3] at hd
          have : ∀ (l : List (Ref ι K)) (v : World C), C.diff v.params = false → (l.foldl World.stepRef v).prevX = v.prevX := by
            intro l
            induction l with
            | nil => intro v _; rfl
            | cons r l ihl =>
              intro v hv
              obtain ⟨-, -, g3, g4⟩ := stepRef_obj v r
              rw [List.foldl_cons, ihl _ (by rw [g3]; exact hv), g4, hv]
              rfl
          rw [hw, this rs w hd]
          exact hnd hd)
      show (World.run sm _ t).obj = _
      refine key.trans ?_
      have e : (w.op sm (.pass a)).obj = w.obj.feedRows (w.arrays[a]?.getD []) := by
        rw [hw, h1, views_read]
      rw [e, hw, h2]
      show _ = w.obj.feedRows (w.arrays[a]?.getD [] ++ Spec.passed t w.arrays)
      rw [feedRows_append]
    | passList rows =>
      obtain ⟨h1, h2, h3, h4⟩ := foldRefs_obj (rows.map Ref.own) w
      have hw : w.op sm (.passList rows) = (rows.map Ref.own).foldl World.stepRef w := rfl
      have key := ih (w.op sm (.passList rows)) hloc'
        (fun hd => by rw [hw, h3] at hd; exact hre hd)
        (fun b j e => by
          rw [hw] at e ⊢
          rw [h2, h3]
          rcases h4 with e' | ⟨r, hr, e'⟩
          · exact hpt b j (e' ▸ e)
          · rw [e'] at e
            cases e
            obtain ⟨i, hi, he⟩ := List.mem_map.mp hr
            cases he)
        (fun hd => by
          rw [hw, h3] at hd
          have : ∀ (l : List (Ref ι K)) (v : World C), C.diff v.params = false → (l.foldl World.stepRef v).prevX = v.prevX := by
            intro l
            induction l with
            | nil => intro v _; rfl
            | cons r l ihl =>
              intro v hv
              obtain ⟨-, -, g3, g4⟩ := stepRef_obj v r
              rw [List.foldl_cons, ihl _ (by rw [g3]; exact hv), g4, hv]
              rfl
          rw [hw, this _ w hd]
          exact hnd hd)
      show (World.run sm _ t).obj = _
      refine key.trans ?_
      have e : (w.op sm (.passList rows)).obj = w.obj.feedRows rows := by
        rw [hw, h1, List.map_map]
        congr 1
        exact List.map_id rows
      rw [e, hw, h2]
      show _ = w.obj.feedRows (rows ++ Spec.passed t w.arrays)
      rw [feedRows_append]
    | writeLoc k x => exact absurd (by simp) (hloc k x)

end Heap

variable {ι K : Type} [Fintype ι] {C : Cls ι K}

/-! ## Reusing arrays -/

/-- C60: with `diff=False`, whatever arrays the caller creates, overwrites and passes again in any order, the
estimator is exactly the one that was given each row by value, with the contents it had at the time of the call. -/
theorem C60_reuse_ok_without_diff [Zero K] [Sub K] (sm : C.State → (ι → K) → C.State) (p : C.Param)
    (hd : C.diff p = false) (ops : List (Op ι K)) (hloc : Spec.keepsLocation ops) :
    ((World.new C p).run sm ops).obj = (Obj.new C p).feedRows (Spec.passed ops []) :=
  run_sim sm ops (World.new C p) hloc (fun h => by rw [show (World.new C p).params = p from rfl, hd] at h; cases h)
    (fun _ _ e => by cases e) (fun _ => rfl)

/-- C60: with `diff=True` the same holds for a caller that never overwrites an array it has passed. -/
theorem C60_no_reuse_ok_with_diff [Zero K] [Sub K] (sm : C.State → (ι → K) → C.State) (p : C.Param)
    (ops : List (Op ι K)) (hloc : Spec.keepsLocation ops) (hre : Spec.noReuse ops) :
    ((World.new C p).run sm ops).obj = (Obj.new C p).feedRows (Spec.passed ops []) :=
  run_sim sm ops (World.new C p) hloc (fun _ => hre) (fun _ _ e => by cases e) (fun _ => rfl)

/-- The usual streaming loop with one preallocated buffer: create it, then for each observation write and pass. -/
def Spec.bufferLoop (x0 : ι → K) (xs : List (ι → K)) : List (Op ι K) :=
  .alloc [x0] :: xs.flatMap fun x => [.write 0 0 x, .pass 0]

/-- C60 (violation): with `diff=True` that loop destroys the data. Whatever the observations are, the estimator ends
up as if it had been fed a constant stream: every difference it uses is zero. -/
theorem C60_buffer_loop_diff [AddGroup K] (sm : C.State → (ι → K) → C.State) (p : C.Param) (hd : C.diff p = true)
    (x0 c : ι → K) (xs : List (ι → K)) :
    let w := ((World.new C p).run sm (Spec.bufferLoop x0 xs)).obj
    let t := (Obj.new C p).feedRows (xs.map fun _ => c)
    w.state = t.state ∧ w.nFeatures = t.nFeatures ∧ w.params = t.params := by
  intro w t
  have pass1 : ∀ (v : World C) (u : ι → K), v.arrays = [[u]] → v.op sm (.pass 0) = v.stepRef (.view 0 0) := by
    intro v u hv
    show List.foldl _ _ _ = _
    rw [hv]
    rfl
  have gen : ∀ (ys : List (ι → K)) (v : World C) (o : Obj C) (u : ι → K), v.arrays = [[u]] → v.prevX = some (.view 0 0) →
      v.params = p → o.prevX = some c → o.params = v.params → o.state = v.state → o.nFeatures = v.nFeatures →
      (v.run sm (ys.flatMap fun x => [.write 0 0 x, .pass 0])).state = (o.feedRows (ys.map fun _ => c)).state ∧
      (v.run sm (ys.flatMap fun x => [.write 0 0 x, .pass 0])).nFeatures = (o.feedRows (ys.map fun _ => c)).nFeatures ∧
      (v.run sm (ys.flatMap fun x => [.write 0 0 x, .pass 0])).params = (o.feedRows (ys.map fun _ => c)).params := by
    intro ys
    induction ys with
    | nil => intro v o u _ _ _ _ h1 h2 h3; exact ⟨h2.symm, h3.symm, h1.symm⟩
    | cons y ys ih =>
      intro v o u ha hq hp ho h1 h2 h3
      have ha' : (v.op sm (.write 0 0 y)).arrays = [[y]] := by
        show v.arrays.write 0 0 y = _
        rw [ha]; rfl
      have hdv : C.diff (v.op sm (.write 0 0 y)).params = true := by
        show C.diff v.params = true
        rw [hp, hd]
      have hstep : (v.op sm (.write 0 0 y)).op sm (.pass 0)
          = World.feed { v.op sm (.write 0 0 y) with prevX := some (.view 0 0) } 0 := by
        rw [pass1 _ y ha', World.stepRef, hdv, if_pos rfl]
        have : (v.op sm (.write 0 0 y)).prevX = some (.view 0 0) := hq
        rw [this]
        simp only [sub_self]
      have ostep : o.stepRow c = Obj.feed { o with prevX := some c } 0 := by
        rw [Obj.stepRow, h1, hp, hd, if_pos rfl, ho]
        simp only [sub_self]
      have e : v.run sm ((y :: ys).flatMap fun x => [.write 0 0 x, .pass 0])
          = World.run sm ((v.op sm (.write 0 0 y)).op sm (.pass 0)) (ys.flatMap fun x => [.write 0 0 x, .pass 0]) := rfl
      rw [e, List.map_cons, feedRows_cons, hstep, ostep]
      obtain ⟨f1, f2, f3, f4, -⟩ := feed_obj { v.op sm (.write 0 0 y) with prevX := some (.view 0 0) } 0
      apply ih _ _ y
      · rw [f2]; exact ha'
      · rw [f3]
      · rw [f4]; exact hp
      · rw [feed_prevX]
      · rw [f4, feed_params]; exact h1
      · simp only [World.feed, Obj.feed]
        have : (v.op sm (.write 0 0 y)).state = o.state := h2.symm
        rw [this]
        have hpp : (v.op sm (.write 0 0 y)).params = o.params := h1.symm
        rw [hpp]
        cases o.state <;> rfl
      · simp only [World.feed, Obj.feed]
        have : (v.op sm (.write 0 0 y)).state = o.state := h2.symm
        rw [this]
        have hpp : (v.op sm (.write 0 0 y)).nFeatures = o.nFeatures := h3.symm
        rw [hpp]
        cases o.state <;> rfl
  cases xs with
  | nil => exact ⟨rfl, rfl, rfl⟩
  | cons x xs =>
    have hdp : C.diff (World.new C p).params = true := hd
    let v : World C := { World.new C p with arrays := [[x]], prevX := some (.view 0 0) }
    have hv : (World.new C p).run sm (Spec.bufferLoop x0 (x :: xs))
        = v.run sm (xs.flatMap fun y => [.write 0 0 y, .pass 0]) := by
      have e : (World.new C p).run sm (Spec.bufferLoop x0 (x :: xs))
          = World.run sm ((({ World.new C p with arrays := [[x]] } : World C)).op sm (.pass 0)) (xs.flatMap fun y => [.write 0 0 y, .pass 0]) := rfl
      rw [e, pass1 _ x rfl]
      congr 1
      simp only [World.stepRef]
      rw [hdp, if_pos rfl]
      rfl
    have ht : t = ({ Obj.new C p with prevX := some c } : Obj C).feedRows (xs.map fun _ => c) := by
      show (Obj.new C p).feedRows (c :: xs.map fun _ => c) = _
      rw [feedRows_cons]
      congr 1
      have hdo : C.diff (Obj.new C p).params = true := hd
      rw [Obj.stepRow, hdo, if_pos rfl]
      rfl
    have := gen xs v { Obj.new C p with prevX := some c } x rfl rfl rfl rfl rfl rfl rfl
    rw [← ht, ← hv] at this
    exact this

theorem covOf_zeros [Field K] (n : ℕ) : Spec.covOf (List.replicate n (0 : ι → K)) = 0 := by
  have hm : Spec.meanOf (List.replicate n (0 : ι → K)) = fun _ => 0 := by
    funext i
    simp [Spec.meanOf]
  ext i j
  simp [Spec.covOf, hm]

/-- In-place assignment to `state["mean"]` for `EmpiricalCovariance`. -/
def empSetMean (s : EmpState ι K) (m : ι → K) : EmpState ι K := { s with mean := m }

/-- C60 (violation): so for `EmpiricalCovariance(diff=True)` the preallocated-buffer loop over two or more
observations, however they vary, reports the zero covariance. -/
theorem C60_buffer_loop_zero_cov [Field K] [LinearOrder K] [IsStrictOrderedRing K] (x0 : ι → K) (xs : List (ι → K))
    (h : 2 ≤ xs.length) :
    ((World.new (empiricalCls ι K) true).run empSetMean (Spec.bufferLoop x0 xs)).obj.covariance = .ok 0 := by
  have key := C60_buffer_loop_diff (C := empiricalCls ι K) empSetMean true rfl x0 0 xs
  have hu : Spec.used true [Call.partialFit (.batch (xs.map fun _ => (0 : ι → K)))] = List.replicate (xs.length - 1) 0 := by
    have hz : ∀ n, Spec.diffs (List.replicate (n + 1) (0 : ι → K)) = List.replicate n 0 := by
      intro n
      induction n with
      | zero => rfl
      | succ n ih =>
        have : Spec.diffs (List.replicate (n + 1 + 1) (0 : ι → K)) = (0 - 0) :: Spec.diffs (List.replicate (n + 1) (0 : ι → K)) := rfl
        rw [this, ih, sub_self]; rfl
    show Spec.diffs ([] ++ xs.map fun _ => (0 : ι → K)) = _
    rw [List.nil_append, List.map_const']
    obtain ⟨n, hn⟩ : ∃ n, xs.length = n + 1 := ⟨xs.length - 1, by omega⟩
    rw [hn, hz]
    rfl
  have hb := (C15_batch (K := K) (ι := ι) true [Call.partialFit (.batch (xs.map fun _ => (0 : ι → K)))] (by
    rw [hu]; intro e; have := congrArg List.length e; simp at this; omega)).2.1
  rw [hu, covOf_zeros] at hb
  rw [← hb]
  simp only [Obj.covariance, Obj.fittedState]
  obtain ⟨h1, -, h3⟩ := key
  rw [h1]
  rfl

/-! ## `location_` is the live mean -/

/-- C60: assigning to an array that `location_` returned before the last state update has no effect. -/
theorem C60_stale_location_harmless [Zero K] [Sub K] (sm : C.State → (ι → K) → C.State) (w : World C) (k : ℕ)
    (x : ι → K) (hk : k ≠ w.updates) : w.op sm (.writeLoc k x) = w := if_neg hk

/-- C60: every used observation retires the array. -/
theorem C60_location_retired [Zero K] [Sub K] (sm : C.State → (ι → K) → C.State) (w : World C) (x : ι → K)
    (hd : C.diff w.params = false) : (w.op sm (.passList [x])).updates = w.updates + 1 := by
  show (w.stepRef (.own x)).updates = _
  rw [World.stepRef, hd]
  exact (feed_obj w x).2.2.2.2

/-- C60: the arrays `location_` returns are numbered by `n_samples_`, whatever the caller does: the array read after `n` used
observations is the live one exactly until the next observation is used. -/
theorem C60_location_number [Field K] (d : Bool) (ops : List (Op ι K)) :
    let w := (World.new (empiricalCls ι K) d).run empSetMean ops
    w.updates = w.obj.nSamples := by
  have hfeed : ∀ (v : World (empiricalCls ι K)) (x : ι → K), v.updates = v.obj.nSamples → (v.feed x).updates = (v.feed x).obj.nSamples := by
    intro v x h
    obtain ⟨h', p, s, n, q, u⟩ := v
    cases s with
    | none =>
      have : u = 0 := h
      subst this; rfl
    | some s =>
      have : u = s.nSamples := h
      subst this; rfl
  have hstep : ∀ (v : World (empiricalCls ι K)) (r : Ref ι K), v.updates = v.obj.nSamples → (v.stepRef r).updates = (v.stepRef r).obj.nSamples := by
    intro v r h
    unfold World.stepRef
    split
    · split
      · exact h
      · exact hfeed _ _ h
    · exact hfeed _ _ h
  have hrefs : ∀ (rs : List (Ref ι K)) (v : World (empiricalCls ι K)), v.updates = v.obj.nSamples →
      (rs.foldl World.stepRef v).updates = (rs.foldl World.stepRef v).obj.nSamples := by
    intro rs
    induction rs with
    | nil => intro v h; exact h
    | cons r t ih => intro v h; exact ih _ (hstep v r h)
  have : ∀ (ops : List (Op ι K)) (v : World (empiricalCls ι K)), v.updates = v.obj.nSamples →
      (v.run empSetMean ops).updates = (v.run empSetMean ops).obj.nSamples := by
    intro ops
    induction ops with
    | nil => intro v h; exact h
    | cons c t ih =>
      intro v h
      refine ih _ ?_
      cases c with
      | alloc rows => exact h
      | write a i x => exact h
      | pass a => exact hrefs _ v h
      | passList rows => exact hrefs _ v h
      | writeLoc k x =>
        show World.updates (if k = v.updates then _ else v) = Obj.nSamples (World.obj (if k = v.updates then _ else v))
        split
        · obtain ⟨h', p, s, n, q, u⟩ := v
          cases s with
          | none => exact h
          | some s => exact h
        · exact h
  exact this ops _ rfl

/-- C60 (violation): `location_` is the estimator's own array. After any history with `n ≥ 1` used rows, assigning `x`
to the array `location_` just returned replaces the running mean: `location_` is now `x`, `covariance_` and
`n_samples_` still describe the data, and the next observation `y` moves the mean to `x + (y - x) / (n + 1)`. -/
theorem C60_location_live [Field K] (ops : List (Op ι K)) (x y : ι → K) :
    let w := (World.new (empiricalCls ι K) false).run empSetMean ops
    let w' := w.op empSetMean (.writeLoc w.updates x)
    w.obj.nSamples ≥ 1 →
    w'.obj.location = .ok x ∧ w'.obj.covariance = w.obj.covariance ∧ w'.obj.nSamples = w.obj.nSamples ∧
    (w'.op empSetMean (.passList [y])).obj.location
      = .ok fun i => x i + (y i - x i) / ((w.obj.nSamples + 1 : ℕ) : K) := by
  intro w w' hn
  have hw' : w' = { w with state := w.state.map (empSetMean · x) } := if_pos rfl
  have hp : w.params = false := by
    have : ∀ (ops : List (Op ι K)) (v : World (empiricalCls ι K)), v.params = false → (v.run empSetMean ops).params = false := by
      intro ops
      induction ops with
      | nil => intro v h; exact h
      | cons c t ih =>
        intro v h
        refine ih _ ?_
        cases c with
        | alloc rows => exact h
        | write a i x => exact h
        | pass a => exact ((foldRefs_obj _ v).2.2.1).trans h
        | passList rows => exact ((foldRefs_obj _ v).2.2.1).trans h
        | writeLoc k x =>
          show World.params (if k = v.updates then _ else v) = false
          split <;> exact h
    exact this ops _ rfl
  rw [hw']
  generalize w = v at hn hp ⊢
  obtain ⟨h, p, s, n, q, u⟩ := v
  cases s with
  | none => exact absurd hn (by show ¬ (0 ≥ 1); omega)
  | some s =>
    have hs : ¬ s.nSamples < 1 := by
      have : s.nSamples ≥ 1 := hn
      omega
    have hs' : ¬ (empSetMean s x).nSamples < 1 := hs
    refine ⟨?_, ?_, rfl, ?_⟩
    · show Except.map _ (if s.nSamples < 1 then _ else _) = _
      rw [if_neg hs]; rfl
    · show Except.map _ (if s.nSamples < 1 then _ else _) = Except.map _ (if s.nSamples < 1 then _ else _)
      rw [if_neg hs, if_neg hs]; rfl
    · have hd : (empiricalCls ι K).diff p = false := hp
      have e : World.op empSetMean (C := empiricalCls ι K)
          { arrays := h, params := p, state := Option.map (fun s => empSetMean s x) (some s), nFeatures := n, prevX := q, updates := u }
          (.passList [y])
          = { arrays := h, params := p, state := some (empUpdate (empSetMean s x) y), nFeatures := n, prevX := q, updates := u + 1 } := by
        show World.stepRef _ _ = _
        simp only [World.stepRef]
        rw [hd]
        rfl
      refine (congrArg (fun v : World (empiricalCls ι K) => v.obj.location) e).trans ?_
      have hn1 : ¬ (empUpdate (empSetMean s x) y).nSamples < 1 := by
        show ¬ (s.nSamples + 1 < 1)
        omega
      show Except.map _ (if (empUpdate (empSetMean s x) y).nSamples < 1 then Except.error PyErr.notFitted
        else Except.ok (empUpdate (empSetMean s x) y)) = _
      rw [if_neg hn1]
      rfl

/-! ## Non-vacuity -/

/-- Three different observations through one buffer: correct without `diff`, all differences lost with it. -/
example :
    let ops : List (Op (Fin 1) ℚ) := Spec.bufferLoop ![0] [![1], ![5], ![3]]
    Spec.passed ops [] = [![1], ![5], ![3]] ∧
    ((World.new (empiricalCls (Fin 1) ℚ) false).run empSetMean ops).obj.location.map (· 0) = .ok 3 ∧
    ((World.new (empiricalCls (Fin 1) ℚ) true).run empSetMean ops).obj.location.map (· 0) = .ok 0 ∧
    ((Obj.new (empiricalCls (Fin 1) ℚ) true).feedRows [![1], ![5], ![3]]).location.map (· 0) = .ok 1 := by
  refine ⟨?_, ?_, ?_, ?_⟩
  · decide +kernel
  · decide +kernel
  · decide +kernel
  · decide +kernel

/-- A caller that allocates a new array for each observation satisfies `noReuse`. -/
example : Spec.noReuse ([.alloc [![1]], .pass 0, .alloc [![5]], .write 1 0 ![6], .pass 1] : List (Op (Fin 1) ℚ)) ∧
    Spec.keepsLocation ([.alloc [![1]], .pass 0, .alloc [![5]], .write 1 0 ![6], .pass 1] : List (Op (Fin 1) ℚ)) := by
  simp [Spec.noReuse, Spec.keepsLocation]

end Precise
