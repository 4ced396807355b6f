import Verif.Props.Conditional
import Verif.Spec.Keyed
import Mathlib.Data.List.Nodup

/-!
# C41–C43: FixedUniverse

`P` is any wrapped estimator: a class of this package at every dimension, with its parameters.
-/

set_option linter.all false

open Matrix

namespace Precise

open Spec

variable {Key : Type} [DecidableEq Key] {P : Proto}

/-! ### dicts -/

theorem KDict.get?_eq_some {x : KDict Key} {k : Key} {v : ℝ} : x.get? k = some v ↔ (k, v) ∈ x.items := by
  obtain ⟨items, nd⟩ := x
  unfold KDict.get?
  simp only []
  induction items with
  | nil => simp
  | cons a l ih =>
    obtain ⟨k', v'⟩ := a
    simp only [List.map_cons, List.nodup_cons] at nd
    rw [List.lookup_cons]
    by_cases h : k = k'
    · subst h
      simp only [beq_self_eq_true, Option.some.injEq, List.mem_cons, Prod.mk.injEq, true_and]
      constructor
      · intro e; exact Or.inl e.symm
      · rintro (e | e)
        · exact e.symm
        · exact absurd (List.mem_map_of_mem (f := Prod.fst) e) nd.1
    · have hb : (k == k') = false := by simpa using h
      simp only [hb, List.mem_cons, Prod.mk.injEq, h, false_and, false_or]
      exact ih nd.2

theorem KDict.get?_isSome {x : KDict Key} {k : Key} : k ∈ x.keys ↔ ∃ v, x.get? k = some v := by
  simp only [KDict.get?_eq_some, KDict.keys, List.mem_map, Prod.exists, exists_and_right, exists_eq_right]

theorem KDict.get?_none {x : KDict Key} {k : Key} (h : k ∉ x.keys) : x.get? k = none := by
  rcases hx : x.get? k with _ | v
  · rfl
  · exact absurd (KDict.get?_isSome.2 ⟨v, hx⟩) h

theorem KDict.get?_perm {x y : KDict Key} (h : x.items.Perm y.items) (k : Key) : x.get? k = y.get? k := by
  ext v; simp only [KDict.get?_eq_some]; exact h.mem_iff

/-! ### the adapter's state -/

theorem wrapped_snoc (P : Proto) (d : ℕ) (ys : List (Fin d → ℝ)) (y : Fin d → ℝ) :
    wrapped P d (ys ++ [y]) = ((wrapped P d ys).partialFit (.row y)).1 := by
  unfold wrapped feedCalls
  simp [Obj.run, Obj.call]

theorem lastSeen_snoc (X : List (KDict Key)) (x : KDict Key) (k : Key) : lastSeen (X ++ [x]) k = (x.get? k).getD (lastSeen X k) := by
  simp [lastSeen]

/-- The rows fed so far meet the imputation rule. -/
def FilledBy (P : Proto) (impute : String) (ks : List Key) (X : List (KDict Key)) (ys : List (Fin ks.length → ℝ)) : Prop :=
  ys.length = X.length ∧ ∀ (t : ℕ) (x : KDict Key) (y : Fin ks.length → ℝ), X[t]? = some x → ys[t]? = some y → ∀ i,
    (∀ v, x.get? (ks.get i) = some v → y i = v) ∧
    (ks.get i ∉ x.keys → impute = "ffill" → y i = lastSeen (X.take t) (ks.get i)) ∧
    (ks.get i ∉ x.keys → impute = "mean" → (wrapped P _ (ys.take t)).nSamples = 0 → y i = lastSeen (X.take t) (ks.get i)) ∧
    (ks.get i ∉ x.keys → impute = "mean" → ∀ m, (wrapped P _ (ys.take t)).location = .ok m → y i = m i) ∧
    (ks.get i ∉ x.keys → impute ≠ "ffill" → impute ≠ "mean" → y i = 0)

theorem location_pos {ι : Type} [Fintype ι] {C : Cls ι ℝ} {o : Obj C} {m : ι → ℝ} (h : o.location = .ok m) : 0 < o.nSamples := by
  rw [nSamples_pos_iff]
  unfold Obj.location at h
  rcases hf : o.fittedState with _ | s
  · rw [hf] at h; cases h
  · exact ⟨s, rfl⟩

theorem fillRow_spec (impute : String) (ks : List Key) (X : List (KDict Key)) (ys : List (Fin ks.length → ℝ)) (x : KDict Key)
    (last : Fin ks.length → ℝ) (hl : ∀ i, last i = lastSeen X (ks.get i)) (i : Fin ks.length) :
    let y := FixedU.fillRow impute ks (wrapped P ks.length ys) last x
    (∀ v, x.get? (ks.get i) = some v → y i = v) ∧
    (ks.get i ∉ x.keys → impute = "ffill" → y i = lastSeen X (ks.get i)) ∧
    (ks.get i ∉ x.keys → impute = "mean" → (wrapped P _ ys).nSamples = 0 → y i = lastSeen X (ks.get i)) ∧
    (ks.get i ∉ x.keys → impute = "mean" → ∀ m, (wrapped P _ ys).location = .ok m → y i = m i) ∧
    (ks.get i ∉ x.keys → impute ≠ "ffill" → impute ≠ "mean" → y i = 0) := by
  intro y
  refine ⟨fun v hv => ?_, fun hn hi => ?_, fun hn hi h0 => ?_, fun hn hi m hm => ?_, fun hn h1 h2 => ?_⟩
  · show FixedU.fillRow impute ks _ last x i = v
    unfold FixedU.fillRow; rw [hv]
  · show FixedU.fillRow impute ks _ last x i = _
    unfold FixedU.fillRow; rw [KDict.get?_none hn]; simp only []; rw [if_pos hi, hl]
  · show FixedU.fillRow impute ks _ last x i = _
    unfold FixedU.fillRow; rw [KDict.get?_none hn]; simp only []
    rw [if_neg (by rw [hi]; decide), if_pos hi, if_neg (by omega), hl]
  · show FixedU.fillRow impute ks _ last x i = _
    unfold FixedU.fillRow; rw [KDict.get?_none hn]; simp only []
    rw [if_neg (by rw [hi]; decide), if_pos hi, if_pos (location_pos hm), hm]
  · show FixedU.fillRow impute ks _ last x i = _
    unfold FixedU.fillRow; rw [KDict.get?_none hn]; simp only []
    rw [if_neg h1, if_neg h2]

theorem filled_step (impute : String) (ks : List Key) (X : List (KDict Key)) (ys : List (Fin ks.length → ℝ)) (x : KDict Key)
    (last : Fin ks.length → ℝ) (hl : ∀ i, last i = lastSeen X (ks.get i)) (h : FilledBy P impute ks X ys) :
    FilledBy P impute ks (X ++ [x]) (ys ++ [FixedU.fillRow impute ks (wrapped P ks.length ys) last x]) := by
  refine ⟨by simp [h.1], fun t x' y' hx hy i => ?_⟩
  rcases lt_trichotomy t X.length with ht | ht | ht
  · rw [List.getElem?_append_left ht] at hx
    rw [List.getElem?_append_left (by rw [h.1]; exact ht)] at hy
    rw [List.take_append_of_le_length ht.le, List.take_append_of_le_length (by rw [h.1]; exact ht.le)]
    exact h.2 t x' y' hx hy i
  · subst ht
    rw [List.getElem?_concat_length] at hx
    rw [← h.1, List.getElem?_concat_length] at hy
    cases hx; cases hy
    have e1 : List.take X.length (X ++ [x]) = X := by simp
    have e2 : ∀ z, List.take X.length (ys ++ [z]) = ys := fun z => by rw [← h.1]; simp
    rw [e1, e2]
    exact fillRow_spec impute ks X ys x last hl i
  · rw [List.getElem?_eq_none (by simp; omega)] at hx; cases hx

theorem fixed_live (impute : String) (ks : List Key) (Y : List (KDict Key)) : ∀ (X : List (KDict Key)) (ys : List (Fin ks.length → ℝ))
    (last : Fin ks.length → ℝ), (∀ i, last i = lastSeen X (ks.get i)) → FilledBy P impute ks X ys →
    ∃ ys' last', (FixedU.learnMany (⟨impute, .live ks (wrapped P ks.length ys) last⟩ : FixedU P Key) Y) =
        ⟨impute, .live ks (wrapped P ks.length ys') last'⟩ ∧ FilledBy P impute ks (X ++ Y) ys' := by
  induction Y with
  | nil => intro X ys last _ h; exact ⟨ys, last, rfl, by simpa using h⟩
  | cons x Y ih =>
    intro X ys last hl h
    have h2 := filled_step impute ks X ys x last hl h
    obtain ⟨ys', last', e, h3⟩ := ih (X ++ [x]) _ (FixedU.newLast ks last x)
      (fun i => by rw [lastSeen_snoc]; unfold FixedU.newLast; rw [hl]) h2
    refine ⟨ys', last', ?_, by simpa using h3⟩
    rw [← e, wrapped_snoc]; rfl

theorem fixed_run (impute : String) (keys : Option (List Key)) (X : List (KDict Key)) (hX : X ≠ []) :
    ∃ ys last, FixedU.learnMany (FixedU.new P keys impute) X = ⟨impute, .live (universeOf keys X) (wrapped P _ ys) last⟩ ∧
      FilledBy P impute (universeOf keys X) X ys := by
  cases X with
  | nil => exact absurd rfl hX
  | cons x X =>
    have key : ∀ ks : List Key, ∃ ys last,
        FixedU.learnMany (⟨impute, FixedU.updateLive impute ks (P.make ks.length) (fun _ => 0) x⟩ : FixedU P Key) X =
          ⟨impute, .live ks (wrapped P _ ys) last⟩ ∧ FilledBy P impute ks (x :: X) ys := by
      intro ks
      have h0 : FilledBy P impute ks [] [] := ⟨rfl, fun t x y hx => by simp at hx⟩
      have h1 := filled_step (P := P) impute ks [] [] x (fun _ => 0) (fun i => rfl) h0
      obtain ⟨ys', last', e, h2⟩ := fixed_live impute ks X [x] _ (FixedU.newLast ks (fun _ => 0) x)
        (fun i => by rw [show [x] = [] ++ [x] from rfl, lastSeen_snoc]; rfl) h1
      refine ⟨ys', last', ?_, h2⟩
      rw [← e]
      rfl
    cases keys with
    | none => exact key x.keys
    | some ks => exact key ks

/-! ## C42 -/

/-- C42: `keys` before the first observation is what the constructor was given (None if nothing), and no number of observations
changes a universe once it is set. -/
theorem C42_keys (impute : String) (keys : Option (List Key)) (X : List (KDict Key)) :
    (FixedU.new P keys impute).keys = keys ∧
    (∀ ks, keys = some ks → ((FixedU.new P keys impute).learnMany X).keys = some ks) ∧
    (∀ x, keys = none → ((FixedU.new P keys impute).learnMany (x :: X)).keys = some x.keys) := by
  have step : ∀ (X : List (KDict Key)) (U : FixedU P Key) ks, U.keys = some ks → (U.learnMany X).keys = some ks := by
    intro X
    induction X with
    | nil => intro U ks h; exact h
    | cons x X ih =>
      intro U ks h
      refine ih (U.update x) ks ?_
      obtain ⟨imp, st⟩ := U
      cases st with
      | noKeys => cases h
      | ready k => exact h
      | live k e l => exact h
  refine ⟨?_, fun ks h => ?_, fun x h => ?_⟩
  · cases keys <;> rfl
  · subst h; exact step X _ ks rfl
  · subst h; exact step X ((FixedU.new P none impute).update x) _ rfl

/-- C42: what a FixedUniverse does with missing keys. After any non-empty stream `X` the universe is the keys given (or
those of the first observation), the matrix is that of a new wrapped estimator fed rows `ys`, one per observation, and
each entry of each row is the observed value if there is one; otherwise the last seen value (0 if never seen) under
`ffill`, the estimator's current location under `mean` (the last seen value while it has none), 0 under any other mode. -/
theorem C42_imputation (impute : String) (keys : Option (List Key)) (X : List (KDict Key)) (hX : X ≠ []) :
    let U := (FixedU.new P keys impute).learnMany X
    let ks := universeOf keys X
    U.keys = some ks ∧ ∃ ys : List (Fin ks.length → ℝ), ys.length = X.length ∧
      U.covArray .all = (wrapped P ks.length ys).covariance.map (fun c => ⟨ks, c⟩) ∧
      ∀ (t : ℕ) (x : KDict Key) (y : Fin ks.length → ℝ), X[t]? = some x → ys[t]? = some y → ∀ i,
        (∀ v, x.get? (ks.get i) = some v → y i = v) ∧
        (ks.get i ∉ x.keys → impute = "ffill" → y i = lastSeen (X.take t) (ks.get i)) ∧
        (ks.get i ∉ x.keys → impute = "mean" → (wrapped P _ (ys.take t)).nSamples = 0 → y i = lastSeen (X.take t) (ks.get i)) ∧
        (ks.get i ∉ x.keys → impute = "mean" → ∀ m, (wrapped P _ (ys.take t)).location = .ok m → y i = m i) ∧
        (ks.get i ∉ x.keys → impute ≠ "ffill" → impute ≠ "mean" → y i = 0) := by
  intro U ks
  obtain ⟨ys, last, e, h⟩ := fixed_run (P := P) impute keys X hX
  have eU : U = ⟨impute, .live ks (wrapped P _ ys) last⟩ := e
  refine ⟨by rw [eU]; rfl, ys, h.1, ?_, h.2⟩
  rw [eU]
  unfold FixedU.covArray
  simp only []
  rcases (wrapped P ks.length ys).covariance with err | c <;> rfl

/-! ## C41 -/

/-- C41: if every observation contains all keys of the universe, the matrix is exactly that of the wrapped estimator
fed the columns in universe order, whatever the impute mode, extra keys, or the order of keys inside each dict. -/
theorem C41_complete (impute : String) (keys : Option (List Key)) (X : List (KDict Key)) (hX : X ≠ [])
    (hall : ∀ x ∈ X, hasAll (universeOf keys X) x) :
    ((FixedU.new P keys impute).learnMany X).covArray .all =
      (wrapped P _ (X.map (rowOf (universeOf keys X)))).covariance.map fun c => ⟨universeOf keys X, c⟩ := by
  obtain ⟨-, ys, hlen, hc, hf⟩ := C42_imputation (P := P) impute keys X hX
  rw [hc]
  have : ys = X.map (rowOf (universeOf keys X)) := by
    apply List.ext_getElem
    · simpa using hlen
    · intro t h1 h2
      have ht : t < X.length := by simpa using h2
      ext i
      have hk := hall _ (List.getElem_mem ht) _ (List.get_mem (universeOf keys X) i)
      obtain ⟨v, hv⟩ := KDict.get?_isSome.1 hk
      rw [(hf t X[t] ys[t] (List.getElem?_eq_getElem ht) (List.getElem?_eq_getElem h1) i).1 v hv, List.getElem_map]
      unfold rowOf; rw [hv]; rfl
  rw [this]

/-- C41: the order of the items inside each observation (after the first, when the universe is taken from it) never
matters. -/
theorem C41_item_order (impute : String) (keys : Option (List Key)) (X X' : List (KDict Key))
    (hperm : List.Forall₂ (fun x y => x.items.Perm y.items) X X') (hu : universeOf keys X = universeOf keys X') :
    ((FixedU.new P keys impute).learnMany X).covArray .all = ((FixedU.new P keys impute).learnMany X').covArray .all := by
  have hlive : ∀ (ks : List Key) (X X' : List (KDict Key)), List.Forall₂ (fun x y => x.items.Perm y.items) X X' →
      ∀ e l, FixedU.learnMany (⟨impute, .live ks e l⟩ : FixedU P Key) X = FixedU.learnMany ⟨impute, .live ks e l⟩ X' := by
    intro ks X X' h
    induction h with
    | nil => intro e l; rfl
    | cons hxy _ ih =>
      intro e l
      show FixedU.learnMany (FixedU.update _ _) _ = FixedU.learnMany (FixedU.update _ _) _
      unfold FixedU.update FixedU.updateLive FixedU.fillRow FixedU.newLast
      simp only [KDict.get?_perm hxy]
      exact ih _ _
  cases hperm with
  | nil => rfl
  | @cons x y X X' hxy h =>
    have hup : ∀ ks : List Key, FixedU.updateLive impute ks (P.make ks.length) (fun _ => 0) x = FixedU.updateLive impute ks (P.make ks.length) (fun _ => 0) y := by
      intro ks
      unfold FixedU.updateLive FixedU.fillRow FixedU.newLast
      simp only [KDict.get?_perm hxy]
    congr 1
    cases keys with
    | none =>
      have hk : x.keys = y.keys := hu
      show FixedU.learnMany ⟨impute, FixedU.updateLive impute x.keys (P.make _) (fun _ => 0) x⟩ X = FixedU.learnMany ⟨impute, FixedU.updateLive impute y.keys (P.make _) (fun _ => 0) y⟩ X'
      rw [← hk, hup]
      exact hlive _ _ _ h _ _
    | some ks =>
      show FixedU.learnMany ⟨impute, FixedU.updateLive impute ks (P.make _) (fun _ => 0) x⟩ X = FixedU.learnMany ⟨impute, FixedU.updateLive impute ks (P.make _) (fun _ => 0) y⟩ X'
      rw [hup]
      exact hlive _ _ _ h _ _

/-! ## C43 -/

theorem indices_ok (ks : List Key) (q : List Key) (h : ∀ k ∈ q, k ∈ ks) :
    ∃ idx : List (Fin ks.length), FixedU.indices ks q = .ok idx ∧ idx.length = q.length ∧
      ∀ (a : ℕ) (i : Fin ks.length) (k : Key), idx[a]? = some i → q[a]? = some k → ks.get i = k := by
  induction q with
  | nil => exact ⟨[], rfl, rfl, fun a i k h => by simp at h⟩
  | cons k q ih =>
    obtain ⟨idx, e, l, hi⟩ := ih fun k hk => h k (by simp [hk])
    have hk : ks.idxOf k < ks.length := List.idxOf_lt_length_iff.2 (h k (by simp))
    refine ⟨⟨ks.idxOf k, hk⟩ :: idx, ?_, by simp [l], fun a i k' h1 h2 => ?_⟩
    · unfold FixedU.indices; rw [dif_pos hk, e]; rfl
    · cases a with
      | zero =>
        simp only [List.getElem?_cons_zero, Option.some.injEq] at h1 h2
        rw [← h1, ← h2]
        exact List.getElem_idxOf hk
      | succ a => exact hi a i k' (by simpa using h1) (by simpa using h2)

theorem indices_error (ks : List Key) (q : List Key) (h : ∃ k ∈ q, k ∉ ks) : FixedU.indices ks q = .error .valueError := by
  induction q with
  | nil => obtain ⟨k, hk, _⟩ := h; cases hk
  | cons k q ih =>
    unfold FixedU.indices
    by_cases hk : k ∈ ks
    · rw [dif_pos (List.idxOf_lt_length_iff.2 hk), ih]
      · rfl
      · obtain ⟨k', h1, h2⟩ := h
        rcases List.mem_cons.1 h1 with rfl | h1
        · exact absurd hk h2
        · exact ⟨k', h1, h2⟩
    · rw [dif_neg (by rw [List.idxOf_lt_length_iff]; exact hk)]

theorem subMatrix_entry {ks : List Key} (hnd : ks.Nodup) (c : Matrix (Fin ks.length) (Fin ks.length) ℝ) (idx : List (Fin ks.length))
    (q : List Key) (l : idx.length = q.length)
    (hi : ∀ (a : ℕ) (i : Fin ks.length) (k : Key), idx[a]? = some i → q[a]? = some k → ks.get i = k)
    (i j : Fin ks.length) (a b : Fin q.length) (h1 : ks.get i = q.get a) (h2 : ks.get j = q.get b) :
    (FixedU.subMatrix c idx q).2 a b = c i j := by
  have inj : ∀ i j : Fin ks.length, ks.get i = ks.get j → i = j := fun i j h => hnd.get_inj_iff.1 h
  have a1 : a.1 < idx.length := by rw [l]; exact a.2
  have b1 : b.1 < idx.length := by rw [l]; exact b.2
  have ea : idx[a.1]? = some idx[a.1] := List.getElem?_eq_getElem a1
  have eb : idx[b.1]? = some idx[b.1] := List.getElem?_eq_getElem b1
  have qa : q[a.1]? = some (q.get a) := by simp
  have qb : q[b.1]? = some (q.get b) := by simp
  have ha := inj _ _ ((hi _ _ _ ea qa).trans h1.symm)
  have hb := inj _ _ ((hi _ _ _ eb qb).trans h2.symm)
  unfold FixedU.subMatrix
  simp only [Matrix.of_apply]
  split
  · rename_i i' j' e1 e2
    rw [ea] at e1; rw [eb] at e2
    cases e1; cases e2
    rw [ha, hb]
  · rename_i h; exact absurd eb (h _ _ ea)

/-- the labelled matrix `m'` lists the entries of `m` under the same pairs of names -/
def SameEntries (m m' : KeyedMat Key) : Prop :=
  ∀ (i j : Fin m.1.length) (a b : Fin m'.1.length), m.1.get i = m'.1.get a → m.1.get j = m'.1.get b → m'.2 a b = m.2 i j

/-- C43: sub-queries. Given the full answer `m` of `cov_array()` over a universe without repeated names: querying a
list of its names, in any order and with repetitions, succeeds and labels the same numbers with the names asked for;
a name outside the universe raises ValueError; before any observation every query does. -/
theorem C43_subquery (U : FixedU P Key) (m : KeyedMat Key) (hm : U.covArray .all = .ok m) (hnd : m.1.Nodup) (q : List Key) :
    ((∀ k ∈ q, k ∈ m.1) → ∃ m', U.covArray (.list q) = .ok m' ∧ m'.1 = q ∧ SameEntries m m') ∧
    ((∃ k ∈ q, k ∉ m.1) → U.covArray (.list q) = .error .valueError) := by
  unfold FixedU.covArray at hm ⊢
  rcases hs : U.state with _ | ks | ⟨ks, est, last⟩
  · rw [hs] at hm; cases hm
  · rw [hs] at hm; cases hm
  · rw [hs] at hm
    simp only [] at hm ⊢
    rcases hc : est.covariance with e | c
    · rw [hc] at hm; cases hm
    · rw [hc] at hm
      cases hm
      simp only [] at hnd
      have inj : ∀ i j : Fin ks.length, ks.get i = ks.get j → i = j := fun i j h => hnd.get_inj_iff.1 h
      constructor
      · intro hq
        by_cases hqe : q = ks
        · subst hqe
          refine ⟨⟨q, c⟩, by show (if q = q then _ else _) = _; rw [if_pos rfl]; rfl, rfl, fun i j a b h1 h2 => ?_⟩
          rw [inj i a h1, inj j b h2]
        · obtain ⟨idx, e, l, hi⟩ := indices_ok ks q hq
          refine ⟨FixedU.subMatrix c idx q, ?_, rfl, fun i j a b h1 h2 => ?_⟩
          · show (if q = ks then _ else _) = _
            rw [if_neg hqe, e]; rfl
          · exact subMatrix_entry hnd c idx q l hi i j a b h1 h2
      · rintro ⟨k, h1, h2⟩
        show (if q = ks then _ else _) = _
        rw [if_neg (fun e : q = ks => h2 (e ▸ h1)), indices_error ks q ⟨k, h1, h2⟩]
        rfl

/-- C43: before any observation every query raises ValueError. -/
theorem C43_before (keys : Option (List Key)) (impute : String) (q : Query Key) :
    (FixedU.new P keys impute).covArray q = .error .valueError := by
  cases keys <;> rfl

/-- C43, the unprotected case: the same names passed as a one-shot iterator (a generator, `iter(...)`, `map(...)`) give
an empty 0×0 answer, without any error, unless they happen to spell out the whole universe in order. -/
theorem C43_iterator (U : FixedU P Key) (m : KeyedMat Key) (hm : U.covArray .all = .ok m) (q : List Key) (hq : q ≠ m.1) :
    ∃ m', U.covArray (.iter q) = .ok m' ∧ m'.1 = [] := by
  unfold FixedU.covArray at hm ⊢
  rcases hs : U.state with _ | ks | ⟨ks, est, last⟩
  · rw [hs] at hm; cases hm
  · rw [hs] at hm; cases hm
  · rw [hs] at hm
    simp only [] at hm ⊢
    rcases hc : est.covariance with e | c
    · rw [hc] at hm; cases hm
    · rw [hc] at hm
      cases hm
      refine ⟨FixedU.subMatrix c [] [], ?_, rfl⟩
      show (if q = ks then _ else _) = _
      rw [if_neg hq]; rfl

/-! ### Non-vacuity: EmpiricalCovariance behind a FixedUniverse -/

/-- `EmpiricalCovariance()` as the wrapped estimator. -/
noncomputable def empProto : Proto := { cls := fun d => empiricalCls (Fin d) ℝ, par := fun _ => false }

theorem empProto_cov {d : ℕ} (ys : List (Fin d → ℝ)) (h : ys ≠ []) :
    (wrapped empProto d ys).covariance = .ok (covOf ys) ∧ (wrapped empProto d ys).location = .ok (meanOf ys) := by
  obtain ⟨p, hp, hpf⟩ : ∃ p : (empiricalCls (Fin d) ℝ).Param, (empiricalCls (Fin d) ℝ).diff p = false ∧ p = (empProto.par d) := ⟨false, rfl, rfl⟩
  have := emp_cov_of p hp ys h
  rw [hpf] at this
  exact this

/-- two observations of `a` and `b`, items in different orders, the second with an extra key -/
noncomputable def demoDicts : List (KDict String) :=
  [⟨[("a", 1), ("b", 2)], by decide⟩, ⟨[("c", 7), ("b", 4), ("a", 3)], by decide⟩]

/-- and a third one without `b` -/
noncomputable def demoGap : List (KDict String) := demoDicts ++ [⟨[("a", 5)], by decide⟩]

example : demoDicts ≠ [] ∧ (∀ x ∈ demoDicts, hasAll (universeOf none demoDicts) x) ∧ universeOf none demoDicts = ["a", "b"] := by
  refine ⟨by simp [demoDicts], ?_, rfl⟩
  intro x hx
  simp only [demoDicts, List.mem_cons, List.not_mem_nil, or_false] at hx
  rcases hx with rfl | rfl <;> intro k hk <;> simp [universeOf, KDict.keys, demoDicts] at hk ⊢ <;> tauto

/-- C42's `ffill` clause is met: in `demoGap` the key `b` is missing from the third observation and was last seen at 4. -/
example : ∃ x, demoGap[2]? = some x ∧ "b" ∉ x.keys ∧ "b" ∈ universeOf none demoGap ∧ lastSeen (demoGap.take 2) "b" = 4 := by
  refine ⟨_, rfl, by simp [KDict.keys], by simp [universeOf, demoGap, demoDicts, KDict.keys], ?_⟩
  have e : ∀ v : ℝ, List.lookup "b" [("a", (1:ℝ)), ("b", 2)] = some 2 ∧ List.lookup "b" [("c", (7:ℝ)), ("b", 4), ("a", 3)] = some 4 := by
    intro v; constructor <;> simp [List.lookup]
  simp [lastSeen, demoGap, demoDicts, KDict.get?, List.lookup]

/-- C43's hypotheses are met by every impute mode after any complete stream, here `demoDicts`. -/
example (impute : String) : ∃ m : KeyedMat String, ((FixedU.new empProto none impute).learnMany demoDicts).covArray .all = .ok m ∧
    m.1 = ["a", "b"] ∧ m.1.Nodup := by
  have h := C41_complete (P := empProto) impute none demoDicts (by simp [demoDicts]) (by
    intro x hx
    simp only [demoDicts, List.mem_cons, List.not_mem_nil, or_false] at hx
    rcases hx with rfl | rfl <;> intro k hk <;> simp [universeOf, KDict.keys, demoDicts] at hk ⊢ <;> tauto)
  rw [(empProto_cov _ (by simp [demoDicts])).1] at h
  exact ⟨_, h, rfl, by show ["a", "b"].Nodup; decide⟩

end Precise
