import Verif.Model.Interrupted
import Verif.Props.DynUniverse
import Verif.Props.Base

/-!
# C111: an update that raises half-way

What is left behind when `learn_one` raises because a value of the observation does not convert to a float, and when a volatility
model raises inside `ConditionalCovariance.partial_fit`. `P` is any wrapped estimator.
-/

set_option linter.all false

open Matrix

namespace Precise

open Spec

variable {Key : Type} [DecidableEq Key] {P : Proto}

/-! ### raw dicts -/

theorem RawDict.get?_eq_some {x : RawDict Key} {k : Key} {v : Option ℝ} : x.get? k = some v ↔ (k, v) ∈ x.items := by
  obtain ⟨items, nd⟩ := x
  unfold RawDict.get?
  simp only []
  induction items with
  | nil => simp
  | cons a l ih =>
    obtain ⟨k', v'⟩ := a
    simp only [List.map_cons, List.nodup_cons] at nd
    rw [List.lookup_cons]
    by_cases h : k = k'
    · subst h
      simp only [beq_self_eq_true, Option.some.injEq, List.mem_cons, Prod.mk.injEq, true_and]
      constructor
      · intro e; exact Or.inl e.symm
      · rintro (e | e)
        · exact e.symm
        · exact absurd (List.mem_map_of_mem (f := Prod.fst) e) nd.1
    · have hb : (k == k') = false := by simpa using h
      simp only [hb, List.mem_cons, Prod.mk.injEq, h, false_and, false_or]
      exact ih nd.2

theorem RawDict.mem_keys {x : RawDict Key} {k : Key} : k ∈ x.keys ↔ ∃ v, x.get? k = some v := by
  simp only [RawDict.get?_eq_some, RawDict.keys, List.mem_map, Prod.exists, exists_and_right, exists_eq_right]

theorem RawDict.numbers_get? (x : RawDict Key) (k : Key) : x.numbers.get? k = (x.get? k).join := by
  ext v
  rw [KDict.get?_eq_some]
  constructor
  · intro h
    obtain ⟨a, ha, h2⟩ := List.mem_filterMap.1 h
    obtain ⟨k', v'⟩ := a
    cases v' with
    | none => simp at h2
    | some w =>
      simp only [Option.map_some, Option.some.injEq, Prod.mk.injEq] at h2
      obtain ⟨rfl, rfl⟩ := h2
      rw [RawDict.get?_eq_some.2 ha]; rfl
  · intro h
    rcases hx : x.get? k with _ | w
    · rw [hx] at h; simp at h
    · rw [hx] at h
      simp only [Option.join_some] at h
      subst h
      exact List.mem_filterMap.2 ⟨_, RawDict.get?_eq_some.1 hx, by simp⟩

/-- Every value of the observation converts to a float. -/
def RawDict.Good (x : RawDict Key) : Prop := ∀ kv ∈ x.items, kv.2 ≠ none

theorem RawDict.good_iff {x : RawDict Key} : x.Good ↔ ∀ k, x.get? k ≠ some none := by
  constructor
  · intro h k hk
    exact h _ (RawDict.get?_eq_some.1 hk) rfl
  · rintro h ⟨k, v⟩ hkv hv
    simp only at hv; subst hv
    exact h k (RawDict.get?_eq_some.2 hkv)

theorem RawDict.numbers_keys {x : RawDict Key} (h : x.Good) : x.numbers.keys = x.keys := by
  unfold KDict.keys RawDict.numbers RawDict.keys
  simp only []
  have h' : ∀ kv ∈ x.items, kv.2 ≠ none := h
  generalize x.items = l at h'
  induction l with
  | nil => rfl
  | cons a l ih =>
    obtain ⟨k, v⟩ := a
    cases v with
    | none => exact absurd rfl (h' (k, none) (by simp))
    | some v =>
      exact congrArg (k :: ·) (ih fun kv hk => h' kv (List.mem_cons_of_mem _ hk))

theorem RawDict.copy_eq {x : RawDict Key} (h : x.Good) : x.copy = x.numbers := by
  have key : x.copy.items = x.numbers.items := by
    unfold RawDict.numbers RawDict.copy
    simp only []
    have h' : ∀ kv ∈ x.items, kv.2 ≠ none := h
    generalize x.items = l at h'
    induction l with
    | nil => rfl
    | cons a l ih =>
      obtain ⟨k, v⟩ := a
      cases v with
      | none => exact absurd rfl (h' (k, none) (by simp))
      | some v =>
        exact congrArg ((k, v) :: ·) (ih fun kv hk => h' kv (List.mem_cons_of_mem _ hk))
  rcases hc : x.copy with ⟨a, b⟩
  rcases hn : x.numbers with ⟨c, d⟩
  rw [hc, hn] at key
  simp only at key
  subst key; rfl

theorem RawDict.copy_keys (x : RawDict Key) : x.copy.keys = x.keys := by
  simp [KDict.keys, RawDict.copy, RawDict.keys, List.map_map, Function.comp_def]

/-! ### FixedUniverse -/

namespace FixedU

theorem scan_ok (ks : List Key) (x : RawDict Key) (is : List (Fin ks.length)) : ∀ last,
    (scan ks x is last).2 = true ↔ ∀ i ∈ is, x.get? (ks.get i) ≠ some none := by
  induction is with
  | nil => intro last; simp [scan]
  | cons i is ih =>
    intro last
    rw [scan]
    rcases hx : x.get? (ks.get i) with _ | v
    · simp only [List.mem_cons, forall_eq_or_imp, hx, ih]; simp
    · cases v with
      | none => exact ⟨fun h => (by cases h), fun h => absurd hx (h i (by simp))⟩
      | some v => simp only [List.mem_cons, forall_eq_or_imp, hx, ih]; simp

/-- `_last` after a loop that was left at the first bad key: written exactly at the positions before it that the observation has. -/
theorem scan_last (ks : List Key) (x : RawDict Key) (pre post : List (Fin ks.length)) (b : Fin ks.length)
    (hb : x.get? (ks.get b) = some none) : ∀ last, (∀ i ∈ pre, x.get? (ks.get i) ≠ some none) → pre.Nodup →
    scan ks x (pre ++ b :: post) last =
      (fun i => if i ∈ pre then ((x.get? (ks.get i)).join).getD (last i) else last i, false) := by
  induction pre with
  | nil =>
    intro last _ _
    rw [List.nil_append, scan, hb]
    simp
  | cons i is ih =>
    intro last h hnd
    rw [List.nodup_cons] at hnd
    have h' : ∀ j ∈ is, x.get? (ks.get j) ≠ some none := fun j hj => h j (List.mem_cons_of_mem _ hj)
    rw [List.cons_append, scan]
    rcases hx : x.get? (ks.get i) with _ | v
    · simp only []
      rw [ih _ h' hnd.2]
      congr 1
      funext j
      by_cases hj : j = i
      · subst hj
        rw [if_neg hnd.1, if_pos (by simp), hx]; rfl
      · simp [List.mem_cons, hj]
    · cases v with
      | none => exact absurd hx (h i (by simp))
      | some v =>
        simp only []
        rw [ih _ h' hnd.2]
        congr 1
        funext j
        by_cases hj : j = i
        · subst hj
          rw [if_neg hnd.1, if_pos (by simp), hx, Function.update_self]; rfl
        · simp [List.mem_cons, hj, Function.update_of_ne hj]

end FixedU

/-- The universe an observation is read with: that of the adapter, or the keys of the observation if it has none yet. -/
def FixedU.reads (U : FixedU P Key) (x : RawDict Key) : List Key := U.keys.getD x.keys

theorem tryLive_cases (impute : String) (ks : List Key) (est : Obj (P.cls ks.length)) (last : Fin ks.length → ℝ) (x : RawDict Key) :
    ((∀ k ∈ ks, x.get? k ≠ some none) ∧ FixedU.tryLive impute ks est last x = (FixedU.updateLive impute ks est last x.numbers, .ok ())) ∨
    ((∃ k ∈ ks, x.get? k = some none) ∧ ∃ last', FixedU.tryLive impute ks est last x = (.live ks est last', .error .valueError)) := by
  have hs := FixedU.scan_ok ks x (List.finRange ks.length) last
  unfold FixedU.tryLive
  rcases h : FixedU.scan ks x (List.finRange ks.length) last with ⟨l, b⟩
  rw [h] at hs
  cases b with
  | true =>
    left
    refine ⟨fun k hk => ?_, rfl⟩
    obtain ⟨i, rfl⟩ := List.get_of_mem hk
    exact (hs.1 rfl) i (List.mem_finRange i)
  | false =>
    right
    refine ⟨?_, l, rfl⟩
    by_contra hc
    push Not at hc
    have := hs.2 fun i _ => hc _ (List.get_mem ks i)
    cases this

/-- C111: `FixedUniverse.learn_one(x)` raises exactly when a key *of the universe* has a value that does not convert; bad values
under other keys are ignored with their keys. When it does not raise it is the update of C41–C43 with the usable values. -/
theorem C111_fixed_raises_iff (U : FixedU P Key) (x : RawDict Key) :
    ((U.tryUpdate x).2 = .error .valueError ↔ ∃ k ∈ U.reads x, x.get? k = some none) ∧
    ((∀ k ∈ U.reads x, x.get? k ≠ some none) → U.tryUpdate x = (U.update x.numbers, .ok ())) := by
  obtain ⟨imp, st⟩ := U
  cases st with
  | noKeys =>
    have hr : FixedU.reads (⟨imp, .noKeys⟩ : FixedU P Key) x = x.keys := rfl
    rw [hr]
    rcases tryLive_cases (P := P) imp x.keys (P.make x.keys.length) (fun _ => 0) x with ⟨h1, h2⟩ | ⟨⟨k, hk, hb⟩, last', h2⟩
    · constructor
      · constructor
        · intro h
          have : (FixedU.tryUpdate (⟨imp, .noKeys⟩ : FixedU P Key) x).2 = .ok () := by
            unfold FixedU.tryUpdate; simp only []; rw [h2]
          rw [this] at h; cases h
        · rintro ⟨k, hk, hb⟩; exact absurd hb (h1 k hk)
      · intro _
        have hg : x.Good := RawDict.good_iff.2 fun k hk => h1 k (RawDict.mem_keys.2 ⟨_, hk⟩) hk
        unfold FixedU.tryUpdate FixedU.update
        simp only []
        rw [h2]
        simp only [Prod.mk.injEq, and_true]
        rw [RawDict.numbers_keys hg]
    · constructor
      · constructor
        · intro _; exact ⟨k, hk, hb⟩
        · intro _
          unfold FixedU.tryUpdate; simp only []; rw [h2]
      · intro h; exact absurd hb (h k hk)
  | ready ks =>
    have hr : FixedU.reads (⟨imp, .ready ks⟩ : FixedU P Key) x = ks := rfl
    rw [hr]
    rcases tryLive_cases (P := P) imp ks (P.make ks.length) (fun _ => 0) x with ⟨h1, h2⟩ | ⟨⟨k, hk, hb⟩, last', h2⟩
    · constructor
      · constructor
        · intro h
          have : (FixedU.tryUpdate (⟨imp, .ready ks⟩ : FixedU P Key) x).2 = .ok () := by
            unfold FixedU.tryUpdate; simp only []; rw [h2]
          rw [this] at h; cases h
        · rintro ⟨k, hk, hb⟩; exact absurd hb (h1 k hk)
      · intro _
        unfold FixedU.tryUpdate FixedU.update
        simp only []
        rw [h2]
    · constructor
      · constructor
        · intro _; exact ⟨k, hk, hb⟩
        · intro _
          unfold FixedU.tryUpdate; simp only []; rw [h2]
      · intro h; exact absurd hb (h k hk)
  | live ks est last =>
    have hr : FixedU.reads (⟨imp, .live ks est last⟩ : FixedU P Key) x = ks := rfl
    rw [hr]
    rcases tryLive_cases (P := P) imp ks est last x with ⟨h1, h2⟩ | ⟨⟨k, hk, hb⟩, last', h2⟩
    · constructor
      · constructor
        · intro h
          have : (FixedU.tryUpdate (⟨imp, .live ks est last⟩ : FixedU P Key) x).2 = .ok () := by
            unfold FixedU.tryUpdate; simp only []; rw [h2]
          rw [this] at h; cases h
        · rintro ⟨k, hk, hb⟩; exact absurd hb (h1 k hk)
      · intro _
        unfold FixedU.tryUpdate FixedU.update
        simp only []
        rw [h2]
    · constructor
      · constructor
        · intro _; exact ⟨k, hk, hb⟩
        · intro _
          unfold FixedU.tryUpdate; simp only []; rw [h2]
      · intro h; exact absurd hb (h k hk)

/-- C111: a rejected observation does not count. If the adapter has learned something, every query answers as before. But (finding) a
first observation that is rejected fixes the universe: `keys` is then its key set, and the queries raise NotFittedError. -/
theorem C111_fixed_rejected (U : FixedU P Key) (x : RawDict Key) (h : (U.tryUpdate x).2 = .error .valueError) :
    (U.tryUpdate x).1.keys = some (U.reads x) ∧
    (∀ ks est last, U.state = .live ks est last → ∀ q, (U.tryUpdate x).1.covArray q = U.covArray q) ∧
    ((∀ ks est last, U.state ≠ .live ks est last) → ∀ q, (U.tryUpdate x).1.covArray q = .error .notFitted) := by
  have hex := (C111_fixed_raises_iff U x).1.1 h
  obtain ⟨imp, st⟩ := U
  cases st with
  | noKeys =>
    rcases tryLive_cases (P := P) imp x.keys (P.make x.keys.length) (fun _ => 0) x with ⟨h1, h2⟩ | ⟨_, last', h2⟩
    · obtain ⟨k, hk, hb⟩ := hex; exact absurd hb (h1 k hk)
    · have e : (FixedU.tryUpdate (⟨imp, .noKeys⟩ : FixedU P Key) x).1 = ⟨imp, .live x.keys (P.make x.keys.length) last'⟩ := by
        unfold FixedU.tryUpdate; simp only []; rw [h2]
      rw [e]
      exact ⟨rfl, fun _ _ _ h => (by cases h), fun _ q => rfl⟩
  | ready ks =>
    rcases tryLive_cases (P := P) imp ks (P.make ks.length) (fun _ => 0) x with ⟨h1, h2⟩ | ⟨_, last', h2⟩
    · obtain ⟨k, hk, hb⟩ := hex; exact absurd hb (h1 k hk)
    · have e : (FixedU.tryUpdate (⟨imp, .ready ks⟩ : FixedU P Key) x).1 = ⟨imp, .live ks (P.make ks.length) last'⟩ := by
        unfold FixedU.tryUpdate; simp only []; rw [h2]
      rw [e]
      exact ⟨rfl, fun _ _ _ h => (by cases h), fun _ q => rfl⟩
  | live ks est last =>
    rcases tryLive_cases (P := P) imp ks est last x with ⟨h1, h2⟩ | ⟨_, last', h2⟩
    · obtain ⟨k, hk, hb⟩ := hex; exact absurd hb (h1 k hk)
    · have e : (FixedU.tryUpdate (⟨imp, .live ks est last⟩ : FixedU P Key) x).1 = ⟨imp, .live ks est last'⟩ := by
        unfold FixedU.tryUpdate; simp only []; rw [h2]
      rw [e]
      exact ⟨rfl, fun _ _ _ _ q => rfl, fun h => absurd rfl (h ks est last)⟩

/-- C111 (finding): under `ffill` a rejected observation leaks into the later ones. The values it had under the keys listed before the
first bad one are remembered: the next observation `y` is treated exactly like the `y'` that has, under each of these keys it
lacks, the value of the rejected observation. -/
theorem C111_fixed_leak (ks pre post : List Key) (b : Key) (hks : ks = pre ++ b :: post) (hnd : ks.Nodup)
    (est : Obj (P.cls ks.length)) (last : Fin ks.length → ℝ) (x : RawDict Key) (hb : x.get? b = some none)
    (hpre : ∀ k ∈ pre, x.get? k ≠ some none) (y y' : KDict Key)
    (hy : ∀ k ∈ ks, y'.get? k = (y.get? k).or (if k ∈ pre then (x.get? k).join else none)) :
    let U : FixedU P Key := ⟨"ffill", .live ks est last⟩
    (U.tryUpdate x).2 = .error .valueError ∧ (U.tryUpdate x).1.update y = U.update y' := by
  intro U
  have hlen : pre.length < ks.length := by rw [hks]; simp
  have hsplit : List.finRange ks.length = (List.finRange ks.length).take pre.length ++ ⟨pre.length, hlen⟩ ::
      (List.finRange ks.length).drop (pre.length + 1) := by
    conv_lhs => rw [← List.take_append_drop pre.length (List.finRange ks.length)]
    congr 1
    rw [List.drop_eq_getElem_cons (by simpa using hlen)]
    simp
  have hgetb : ks.get ⟨pre.length, hlen⟩ = b := by
    simp only [List.get_eq_getElem]
    simp [hks]
  have hmem : ∀ i : Fin ks.length, i ∈ (List.finRange ks.length).take pre.length ↔ ks.get i ∈ pre := by
    intro i
    have h1 : i ∈ (List.finRange ks.length).take pre.length ↔ i.1 < pre.length := by
      rw [List.mem_take_iff_getElem]
      constructor
      · rintro ⟨j, hj, e⟩
        rw [← e]; simp at hj ⊢; omega
      · intro hi
        exact ⟨i.1, by simp; omega, by simp⟩
    rw [h1]
    have hg : ks.get i = (pre ++ b :: post)[i.1]'(by rw [← hks]; exact i.2) := by
      simp only [List.get_eq_getElem]; congr 1
    constructor
    · intro hi
      rw [hg, List.getElem_append_left hi]
      exact List.getElem_mem hi
    · intro hi
      by_contra hge
      rw [hg, List.getElem_append_right (by omega)] at hi
      rw [hks] at hnd
      have hd := (List.nodup_append.1 hnd).2.2
      exact hd _ hi _ (List.getElem_mem _) rfl
  have hscan := FixedU.scan_last ks x ((List.finRange ks.length).take pre.length) ((List.finRange ks.length).drop (pre.length + 1)) ⟨pre.length, hlen⟩ (by rw [hgetb]; exact hb) last
    (fun i hi => hpre _ ((hmem i).1 hi)) ((List.nodup_finRange _).sublist (List.take_sublist _ _))
  rw [← hsplit] at hscan
  have htry : U.tryUpdate x = (⟨"ffill", .live ks est
      (fun i => if i ∈ (List.finRange ks.length).take pre.length then ((x.get? (ks.get i)).join).getD (last i) else last i)⟩, .error .valueError) := by
    show FixedU.tryUpdate (⟨"ffill", .live ks est last⟩ : FixedU P Key) x = _
    unfold FixedU.tryUpdate FixedU.tryLive
    simp only []
    rw [hscan]
  refine ⟨by rw [htry], ?_⟩
  rw [htry]
  show (⟨"ffill", FixedU.updateLive "ffill" ks est _ y⟩ : FixedU P Key) = ⟨"ffill", FixedU.updateLive "ffill" ks est last y'⟩
  have e1 : FixedU.fillRow "ffill" ks est (fun i => if i ∈ (List.finRange ks.length).take pre.length then
      ((x.get? (ks.get i)).join).getD (last i) else last i) y = FixedU.fillRow "ffill" ks est last y' := by
    funext i
    unfold FixedU.fillRow
    have hyi := hy (ks.get i) (List.get_mem ks i)
    rw [hyi]
    rcases hyv : y.get? (ks.get i) with _ | v
    · simp only [Option.none_or, if_true]
      by_cases hi : ks.get i ∈ pre
      · rw [if_pos ((hmem i).2 hi), if_pos hi]
        rcases (x.get? (ks.get i)).join with _ | v <;> rfl
      · rw [if_neg (fun h => hi ((hmem i).1 h)), if_neg hi]
    · rfl
  have e2 : FixedU.newLast ks (fun i => if i ∈ (List.finRange ks.length).take pre.length then
      ((x.get? (ks.get i)).join).getD (last i) else last i) y = FixedU.newLast ks last y' := by
    funext i
    unfold FixedU.newLast
    rw [hy (ks.get i) (List.get_mem ks i)]
    rcases hyv : y.get? (ks.get i) with _ | v
    · simp only [Option.none_or, Option.getD_none]
      by_cases hi : ks.get i ∈ pre
      · rw [if_pos ((hmem i).2 hi), if_pos hi]
      · rw [if_neg (fun h => hi ((hmem i).1 h)), if_neg hi]; rfl
    · rfl
  unfold FixedU.updateLive
  rw [e1, e2]


/-- Two live adapters that differ only in the remembered values. -/
def FixedU.Twin (U V : FixedU P Key) : Prop :=
  ∃ ks est last last', U = ⟨U.impute, .live ks est last⟩ ∧ V = ⟨U.impute, .live ks est last'⟩ ∧
    (U.impute = "mean" → 0 < est.nSamples)

theorem feedRow_nSamples {d : ℕ} {C : Cls (Fin d) ℝ} (hC : Lawful C) (o : Obj C) (y : Fin d → ℝ) (h : 0 < o.nSamples) :
    0 < (o.partialFit (.row y)).1.nSamples := by
  obtain ⟨p, st, nf, pv⟩ := o
  cases st with
  | none => simp [Obj.nSamples] at h
  | some s =>
    simp only [Obj.nSamples] at h
    have key : ∃ s', (Obj.stepRow (⟨p, some s, nf, pv⟩ : Obj C) y).state = some s' ∧ 0 < C.nSamples s' := by
      unfold Obj.stepRow
      cases hd : C.diff p <;> cases pv <;> simp [hd, hC.n_update, h, Obj.feed]
    obtain ⟨s', h1, h2⟩ := key
    show 0 < (Obj.stepRow (⟨p, some s, nf, pv⟩ : Obj C) y).nSamples
    unfold Obj.nSamples
    rw [h1]; exact h2

theorem FixedU.twin_update (hP : ∀ d, Lawful (P.cls d)) {U V : FixedU P Key} (hi : U.impute ≠ "ffill") (h : U.Twin V) (y : KDict Key) :
    (U.update y).Twin (V.update y) := by
  obtain ⟨ks, est, last, last', hU, hV, hm⟩ := h
  have e : FixedU.fillRow U.impute ks est last' y = FixedU.fillRow U.impute ks est last y := by
    funext i
    unfold FixedU.fillRow
    rcases y.get? (ks.get i) with _ | v
    · simp only [if_neg hi]
      by_cases hmean : U.impute = "mean"
      · rw [if_pos hmean, if_pos (hm hmean), if_pos hmean, if_pos (hm hmean)]
      · rw [if_neg hmean, if_neg hmean]
    · rfl
  generalize himp : U.impute = imp at *
  subst hU hV
  refine ⟨ks, (est.partialFit (.row (FixedU.fillRow imp ks est last y))).1, FixedU.newLast ks last y, FixedU.newLast ks last' y, rfl, ?_, ?_⟩
  · show (⟨imp, FixedU.updateLive imp ks est last' y⟩ : FixedU P Key) = _
    unfold FixedU.updateLive
    rw [e]; rfl
  · intro hmean
    exact feedRow_nSamples (hP _) _ _ (hm hmean)

/-- C111: under every other way of imputing (`"mean"` once something has been learned, `"zero"`) a rejected observation leaves no
trace: whatever is learned afterwards, every query answers as if it had not been made. -/
theorem C111_fixed_no_leak (hP : ∀ d, Lawful (P.cls d)) (impute : String) (hi : impute ≠ "ffill") (ks : List Key) (est : Obj (P.cls ks.length))
    (last : Fin ks.length → ℝ) (hm : impute = "mean" → 0 < est.nSamples) (x : RawDict Key) :
    let U : FixedU P Key := ⟨impute, .live ks est last⟩
    (U.tryUpdate x).2 = .error .valueError → ∀ (Y : List (KDict Key)) q,
      ((U.tryUpdate x).1.learnMany Y).covArray q = (U.learnMany Y).covArray q := by
  intro U h Y q
  have key : ∀ (Y : List (KDict Key)) (V W : FixedU P Key), V.impute = impute → V.Twin W → (W.learnMany Y).covArray q = (V.learnMany Y).covArray q := by
    intro Y
    induction Y with
    | nil =>
      rintro V W - ⟨ks, est, last, last', hV, hW, -⟩
      rw [hV, hW]; rfl
    | cons y Y ih =>
      intro V W hVi hVW
      exact ih _ _ hVi (FixedU.twin_update hP (hVi ▸ hi) hVW y)
  refine key Y U _ rfl ?_
  rcases tryLive_cases (P := P) impute ks est last x with ⟨h1, h2⟩ | ⟨_, last', h2⟩
  · obtain ⟨k, hk, hb⟩ := (C111_fixed_raises_iff U x).1.1 h
    exact absurd hb (h1 k hk)
  · refine ⟨ks, est, last, last', rfl, ?_, hm⟩
    show (FixedU.tryUpdate (⟨impute, .live ks est last⟩ : FixedU P Key) x).1 = ⟨impute, .live ks est last'⟩
    unfold FixedU.tryUpdate; simp only []; rw [h2]

/-- C111: `learn_many` stops at the first observation that is rejected: the ones before are learned, the ones after it are not looked
at, and the exception is passed on. -/
theorem C111_fixed_learn_many (U : FixedU P Key) (X Y : List (RawDict Key)) (x : RawDict Key) (hX : ∀ z ∈ X, z.Good)
    (hx : ((U.learnMany (X.map RawDict.numbers)).tryUpdate x).2 = .error .valueError) :
    U.tryMany X = (U.learnMany (X.map RawDict.numbers), .ok ()) ∧
    U.tryMany (X ++ x :: Y) = (((U.learnMany (X.map RawDict.numbers)).tryUpdate x).1, .error .valueError) := by
  induction X generalizing U with
  | nil =>
    refine ⟨rfl, ?_⟩
    simp only [List.map_nil, FixedU.learnMany, List.foldl_nil] at hx ⊢
    rw [List.nil_append, FixedU.tryMany]
    rcases h : U.tryUpdate x with ⟨U', r⟩
    rw [h] at hx
    simp only at hx
    subst hx; rfl
  | cons z X ih =>
    have hz := (C111_fixed_raises_iff U z).2 fun k _ => RawDict.good_iff.1 (hX z (by simp)) k
    have ih' := ih (U.update z.numbers) (fun w hw => hX w (List.mem_cons_of_mem _ hw)) hx
    rw [List.cons_append, FixedU.tryMany, FixedU.tryMany, hz]
    exact ih'

/-! ### Non-vacuity -/

/-- a rejected observation: `a` is usable, `b` is not -/
noncomputable def demoBad : RawDict String := ⟨[("a", some 7), ("b", none)], by decide⟩

/-- C111_fixed_leak: `a` = 7 leaks into the next observation, which has only `b`. -/
example (est : Obj (empProto.cls 2)) : let U : FixedU empProto String := ⟨"ffill", .live ["a", "b"] est fun _ => 1⟩
    (U.tryUpdate demoBad).1.update ⟨[("b", 2)], by decide⟩ = U.update ⟨[("a", 7), ("b", 2)], by decide⟩ := by
  refine (C111_fixed_leak ["a", "b"] ["a"] [] "b" rfl (by decide) est _ demoBad rfl ?_ _ _ ?_).2
  · intro k hk
    simp only [List.mem_singleton] at hk; subst hk
    simp [demoBad, RawDict.get?, List.lookup]
  · intro k hk
    simp only [List.mem_cons, List.not_mem_nil, or_false] at hk
    rcases hk with rfl | rfl <;> simp [demoBad, RawDict.get?, KDict.get?, List.lookup]

/-- C111_fixed_no_leak and C111_fixed_learn_many: `demoBad` is rejected by every adapter whose universe has `b`. -/
example (est : Obj (empProto.cls 2)) (impute : String) : let U : FixedU empProto String := ⟨impute, .live ["a", "b"] est fun _ => 1⟩
    (U.tryUpdate demoBad).2 = .error .valueError :=
  (C111_fixed_raises_iff _ _).1.2 ⟨"b", by simp [FixedU.reads, FixedU.keys], rfl⟩

end Precise
