import Verif.Props.Keyed
import Mathlib.Data.Prod.Lex
import Mathlib.Order.Lex

/-!
# Lemmas about `DynamicUniverse`
-/

set_option linter.all false

open Matrix

namespace Precise

open Spec

variable {Key : Type} [DecidableEq Key] {P : Proto}

theorem firstMin_spec {α β : Type} [LinearOrder β] (f : α → β) (lt : α → α → Bool) (hlt : ∀ a b, lt a b = true ↔ f a < f b) (l : List α) :
    ∀ a m, firstMin lt (a :: l) = some m → ∃ l1 l2, a :: l = l1 ++ m :: l2 ∧ (∀ b ∈ l1, f m < f b) ∧ ∀ b ∈ l2, f m ≤ f b := by
  induction l with
  | nil =>
    intro a m h
    simp only [firstMin, List.foldl_nil, Option.some.injEq] at h
    subst h
    exact ⟨[], [], rfl, by simp, by simp⟩
  | cons c l ih =>
    intro a m h
    simp only [firstMin, List.foldl_cons, Option.some.injEq] at h
    by_cases hc : lt c a = true
    · rw [if_pos hc] at h
      obtain ⟨l1, l2, e, h1, h2⟩ := ih c m (by simp only [firstMin, h])
      refine ⟨a :: l1, l2, by rw [e]; rfl, ?_, h2⟩
      have hmc : f m ≤ f c := by
        have : c ∈ l1 ++ m :: l2 := by rw [← e]; simp
        simp only [List.mem_append, List.mem_cons] at this
        rcases this with h | h | h
        · exact (h1 c h).le
        · rw [h]
        · exact h2 c h
      intro b hb
      rcases List.mem_cons.1 hb with rfl | hb
      · exact lt_of_le_of_lt hmc ((hlt _ _).1 hc)
      · exact h1 b hb
    · rw [if_neg hc] at h
      have hca : f a ≤ f c := not_lt.1 fun h => hc ((hlt _ _).2 h)
      obtain ⟨l1, l2, e, h1, h2⟩ := ih a m (by simp only [firstMin, h])
      cases l1 with
      | nil =>
        simp only [List.nil_append, List.cons.injEq] at e
        obtain ⟨rfl, rfl⟩ := e
        refine ⟨[], c :: l, rfl, by simp, ?_⟩
        intro b hb
        rcases List.mem_cons.1 hb with rfl | hb
        · exact hca
        · exact h2 b hb
      | cons a' l1 =>
        simp only [List.cons_append, List.cons.injEq] at e
        obtain ⟨rfl, rfl⟩ := e
        refine ⟨a :: c :: l1, l2, rfl, ?_, h2⟩
        intro b hb
        simp only [List.mem_cons] at hb
        rcases hb with rfl | rfl | hb
        · exact h1 _ (by simp)
        · exact lt_of_lt_of_le (h1 a (by simp)) hca
        · exact h1 _ (by simp [hb])

theorem firstMin_none {α : Type} (lt : α → α → Bool) (l : List α) : firstMin lt l = none ↔ l = [] := by
  cases l <;> simp [firstMin]

namespace DynU

theorem evictLt_iff (a b : ℕ × Universe P Key) : evictLt a b = true ↔
    toLex (OrderDual.toDual a.2.staleness, a.2.longevity) < toLex (OrderDual.toDual b.2.staleness, b.2.longevity) := by
  unfold evictLt
  rw [decide_eq_true_iff, Prod.Lex.toLex_lt_toLex]
  simp only [OrderDual.toDual_lt_toDual, OrderDual.toDual_inj]

theorem preferLt_iff (a b : ℕ × Universe P Key) : preferLt a b = true ↔
    toLex (OrderDual.toDual a.2.longevity, a.2.staleness) < toLex (OrderDual.toDual b.2.longevity, b.2.staleness) := by
  unfold preferLt
  rw [decide_eq_true_iff, Prod.Lex.toLex_lt_toLex]
  simp only [OrderDual.toDual_lt_toDual, OrderDual.toDual_inj]

end DynU

theorem Universe.within_iff (u : Universe P Key) (ks : List Key) : u.within ks = true ↔ ∀ k ∈ u.keys, k ∈ ks := by
  simp [Universe.within]

theorem Universe.sameKeys_iff (u : Universe P Key) (ks : List Key) : u.sameKeys ks = true ↔ SameSet u.keys ks := by
  simp only [Universe.sameKeys, Bool.and_eq_true, Universe.within_iff, List.all_eq_true, decide_eq_true_iff]
  constructor
  · rintro ⟨h1, h2⟩ k; exact ⟨h1 k, h2 k⟩
  · intro h; exact ⟨fun k hk => (h k).1 hk, fun k hk => (h k).2 hk⟩

namespace DynU

theorem touch_fst (x : KDict Key) (nu : ℕ × Universe P Key) : (touch x nu).1 = nu.1 := by
  unfold touch; split <;> rfl

theorem touch_keys (x : KDict Key) (nu : ℕ × Universe P Key) : (touch x nu).2.keys = nu.2.keys := by
  unfold touch; split <;> rfl

theorem evict_sublist (l : List (ℕ × Universe P Key)) : (evict l).Sublist l := by
  unfold evict
  split
  · exact List.Sublist.refl _
  · exact List.filter_sublist

theorem mem_survivors {D : DynU P Key} {x : KDict Key} {nu : ℕ × Universe P Key} (h : nu ∈ D.survivors x) :
    ∃ old ∈ D.states, nu = touch x old ∧ (nu.2.staleness : ℤ) ≤ D.maxStaleness := by
  simp only [survivors, List.mem_filter, List.mem_map, decide_eq_true_iff] at h
  obtain ⟨⟨o, ho, e⟩, hs⟩ := h
  exact ⟨o, ho, e.symm, hs⟩

theorem survivors_of_mem {D : DynU P Key} {x : KDict Key} {old : ℕ × Universe P Key} (h : old ∈ D.states)
    (hs : ((touch x old).2.staleness : ℤ) ≤ D.maxStaleness) : touch x old ∈ D.survivors x := by
  simp only [survivors, List.mem_filter, List.mem_map, decide_eq_true_iff]
  exact ⟨⟨old, h, rfl⟩, hs⟩

/-- The universe that `update(x)` would add. -/
def born (D : DynU P Key) (x : KDict Key) : ℕ × Universe P Key := (D.counter, (Universe.fresh P x.keys).update x)

theorem update_cases (D : DynU P Key) (x : KDict Key) :
    (D.update x).maxUniverses = D.maxUniverses ∧ (D.update x).maxStaleness = D.maxStaleness ∧ (D.update x).x = some x ∧
    (((∃ nu ∈ D.survivors x, SameSet nu.2.keys x.keys) ∧ (D.update x).states = D.survivors x ∧ (D.update x).counter = D.counter) ∨
     ((∀ nu ∈ D.survivors x, ¬ SameSet nu.2.keys x.keys) ∧ (D.update x).counter = D.counter + 1 ∧
      ((D.maxUniverses < ((D.survivors x).length + 1 : ℕ) ∧ (D.update x).states = evict (D.survivors x ++ [D.born x])) ∨
       ((((D.survivors x).length + 1 : ℕ) : ℤ) ≤ D.maxUniverses ∧ (D.update x).states = D.survivors x ++ [D.born x])))) := by
  unfold update
  simp only []
  by_cases h : ((D.survivors x).any fun nu => nu.2.sameKeys x.keys) = true
  · rw [if_pos h]
    refine ⟨rfl, rfl, rfl, Or.inl ⟨?_, rfl, rfl⟩⟩
    obtain ⟨nu, h1, h2⟩ := List.any_eq_true.1 h
    exact ⟨nu, h1, (Universe.sameKeys_iff _ _).1 h2⟩
  · rw [if_neg h]
    refine ⟨rfl, rfl, rfl, Or.inr ⟨?_, rfl, ?_⟩⟩
    · intro nu h1 h2
      exact h (List.any_eq_true.2 ⟨nu, h1, (Universe.sameKeys_iff _ _).2 h2⟩)
    · simp only [List.length_append, List.length_singleton]
      by_cases hm : D.maxUniverses < ((D.survivors x).length + 1 : ℕ)
      · rw [if_pos hm]; exact Or.inl ⟨hm, rfl⟩
      · rw [if_neg hm]; exact Or.inr ⟨not_lt.1 hm, rfl⟩

/-- In all cases: the new states are a sublist of the survivors followed by the new universe. -/
theorem update_sublist (D : DynU P Key) (x : KDict Key) : (D.update x).states.Sublist (D.survivors x ++ [D.born x]) := by
  obtain ⟨-, -, -, (⟨-, h, -⟩ | ⟨-, -, (⟨-, h⟩ | ⟨-, h⟩)⟩)⟩ := update_cases D x
  · rw [h]; exact List.sublist_append_left _ _
  · rw [h]; exact evict_sublist _
  · rw [h]

theorem learnMany_snoc (D : DynU P Key) (X : List (KDict Key)) (x : KDict Key) : D.learnMany (X ++ [x]) = (D.learnMany X).update x := by
  simp [learnMany]

theorem learnMany_append (D : DynU P Key) (X Y : List (KDict Key)) : D.learnMany (X ++ Y) = (D.learnMany X).learnMany Y := by
  simp [learnMany]

/-- What one universe has seen. -/
def Tracks (X : List (KDict Key)) (u : Universe P Key) : Prop :=
  ∃ t x, X[t]? = some x ∧ u.keys = x.keys ∧ u.est = wrapped P _ ((subStream X t u.keys).map (rowOf u.keys)) ∧
    u.longevity = (subStream X t u.keys).length ∧ u.staleness = idle X t u.keys

theorem fsing_pos {ks : List Key} {x : KDict Key} (h : hasAll ks x) : ([x].filter fun y => decide (hasAll ks y)) = [x] := by simp [h]

theorem fsing_neg {ks : List Key} {x : KDict Key} (h : ¬ hasAll ks x) : ([x].filter fun y => decide (hasAll ks y)) = [] := by simp [h]

theorem tracks_touch {X : List (KDict Key)} {nu : ℕ × Universe P Key} (x : KDict Key) (h : Tracks X nu.2) : Tracks (X ++ [x]) (touch x nu).2 := by
  obtain ⟨n, ⟨ks, s, l, e⟩⟩ := nu
  obtain ⟨t, y, h1, h2, h3, h4, h5⟩ := h
  simp only [] at h2 h3 h4 h5
  have ht : t < X.length := (List.getElem?_eq_some_iff.1 h1).1
  have hd : (X ++ [x]).drop t = X.drop t ++ [x] := List.drop_append_of_le_length ht.le
  refine ⟨t, y, by rw [List.getElem?_append_left ht]; exact h1, by rw [touch_keys]; exact h2, ?_⟩
  unfold touch
  by_cases hw : Universe.within (P := P) ⟨ks, s, l, e⟩ x.keys = true
  · have hx : hasAll ks x := (Universe.within_iff _ _).1 hw
    rw [if_pos hw]
    refine ⟨?_, ?_, ?_⟩
    · show (e.partialFit (.row (rowOf ks x))).1 = _
      unfold subStream
      show _ = wrapped P ks.length (((List.drop t (X ++ [x])).filter fun x => decide (hasAll ks x)).map (rowOf ks))
      rw [hd, List.filter_append, fsing_pos hx, List.map_append, List.map_singleton, wrapped_snoc, h3]; rfl
    · show l + 1 = (subStream (X ++ [x]) t ks).length
      rw [h4]; unfold subStream
      rw [hd, List.filter_append, fsing_pos hx, List.length_append]; rfl
    · show 0 = idle (X ++ [x]) t ks
      unfold idle
      rw [hd, List.reverse_append]
      simp [List.takeWhile, hx]
  · have hx : ¬ hasAll ks x := fun h => hw ((Universe.within_iff _ _).2 h)
    rw [if_neg hw]
    refine ⟨?_, ?_, ?_⟩
    · show e = wrapped P ks.length ((subStream (X ++ [x]) t ks).map (rowOf ks))
      unfold subStream
      rw [hd, List.filter_append, fsing_neg hx, List.append_nil, h3]; rfl
    · show l = (subStream (X ++ [x]) t ks).length
      rw [h4]; unfold subStream
      rw [hd, List.filter_append, fsing_neg hx, List.append_nil]
    · show s + 1 = idle (X ++ [x]) t ks
      rw [h5]; unfold idle
      rw [hd, List.reverse_append]
      simp [List.takeWhile, hx]

theorem tracks_born (D : DynU P Key) (X : List (KDict Key)) (x : KDict Key) : Tracks (X ++ [x]) (D.born x).2 := by
  have hx : hasAll x.keys x := fun k hk => hk
  refine ⟨X.length, x, by simp, rfl, ?_, ?_, ?_⟩
  · show ((P.make x.keys.length).partialFit (.row (rowOf x.keys x))).1 = wrapped P x.keys.length ((subStream (X ++ [x]) X.length x.keys).map (rowOf x.keys))
    have : subStream (X ++ [x]) X.length x.keys = [x] := by simp [subStream, hx]
    rw [this]
    rfl
  · show 0 + 1 = (subStream (X ++ [x]) X.length x.keys).length
    simp [subStream, hx]
  · show 0 = idle (X ++ [x]) X.length x.keys
    simp [idle, List.takeWhile, hx]

/-- The invariants of a DynamicUniverse after the stream `X`. -/
structure Inv (mu ms : ℤ) (X : List (KDict Key)) (D : DynU P Key) : Prop where
  emu : D.maxUniverses = mu
  ems : D.maxStaleness = ms
  last : D.x = X.getLast?
  ids : (D.states.map Prod.fst).Pairwise (· < ·)
  fresh : ∀ nu ∈ D.states, nu.1 < D.counter
  len : D.states.length ≤ mu.toNat
  distinct : D.states.Pairwise fun a b => ¬ SameSet a.2.keys b.2.keys
  stale : 0 ≤ ms → ∀ nu ∈ D.states, (nu.2.staleness : ℤ) ≤ ms
  tracks : ∀ nu ∈ D.states, Tracks X nu.2

theorem survivors_ids (D : DynU P Key) (x : KDict Key) : ((D.survivors x).map Prod.fst).Sublist (D.states.map Prod.fst) := by
  have h1 : (D.survivors x).Sublist (D.states.map (touch x)) := List.filter_sublist
  have h2 := h1.map Prod.fst
  rw [List.map_map] at h2
  have : (Prod.fst ∘ touch x : ℕ × Universe P Key → ℕ) = Prod.fst := by funext nu; exact touch_fst x nu
  rwa [this] at h2

theorem evict_length {l : List (ℕ × Universe P Key)} (h : l ≠ []) : (evict l).length + 1 ≤ l.length := by
  unfold evict
  cases l with
  | nil => exact absurd rfl h
  | cons a l =>
    rcases hm : firstMin evictLt (a :: l) with _ | v
    · exact absurd ((firstMin_none _ _).1 hm) h
    · simp only []
      obtain ⟨l1, l2, e, -, -⟩ := firstMin_spec _ _ evictLt_iff l a v hm
      rw [e, List.filter_append, List.filter_cons, if_neg (by simp)]
      have h1 := List.length_filter_le (fun nu : ℕ × Universe P Key => decide (nu.1 ≠ v.1)) l1
      have h2 := List.length_filter_le (fun nu : ℕ × Universe P Key => decide (nu.1 ≠ v.1)) l2
      simp only [List.length_append, List.length_cons]
      omega

theorem inv_update {mu ms : ℤ} {X : List (KDict Key)} {D : DynU P Key} (h : Inv mu ms X D) (x : KDict Key) : Inv mu ms (X ++ [x]) (D.update x) := by
  obtain ⟨e1, e2, e3, hc⟩ := update_cases D x
  have hsub := update_sublist D x
  have hmem : ∀ nu ∈ (D.update x).states, nu ∈ D.survivors x ∨ nu = D.born x := by
    intro nu hn
    have := hsub.subset hn
    simpa using this
  have hcount : D.counter ≤ (D.update x).counter := by
    rcases hc with ⟨-, -, h⟩ | ⟨-, h, -⟩ <;> omega
  have slen : (D.survivors x).length ≤ D.states.length := by
    have := (survivors_ids D x).length_le; simpa using this
  refine ⟨by rw [e1, h.emu], by rw [e2, h.ems], by rw [e3]; simp, ?_, ?_, ?_, ?_, ?_, ?_⟩
  · refine List.Pairwise.sublist (hsub.map Prod.fst) ?_
    rw [List.map_append, List.pairwise_append]
    refine ⟨h.ids.sublist (survivors_ids D x), by simp, ?_⟩
    intro a ha b hb
    simp only [List.map_singleton, List.mem_singleton] at hb
    have : a ∈ D.states.map Prod.fst := (survivors_ids D x).subset ha
    obtain ⟨nu, hn, rfl⟩ := List.mem_map.1 this
    rw [hb]; exact h.fresh nu hn
  · intro nu hn
    rcases hmem nu hn with hs | hs
    · obtain ⟨o, ho, rfl, -⟩ := mem_survivors hs
      rw [touch_fst]; exact lt_of_lt_of_le (h.fresh o ho) hcount
    · subst hs
      rcases hc with ⟨-, e, -⟩ | ⟨-, e, -⟩
      · rw [e] at hn
        obtain ⟨o, ho, e', -⟩ := mem_survivors hn
        have := h.fresh o ho
        rw [← touch_fst x o, ← e'] at this
        exact absurd this (lt_irrefl _)
      · show D.counter < _; omega
  · rcases hc with ⟨-, e, -⟩ | ⟨-, -, (⟨hl, e⟩ | ⟨hl, e⟩)⟩
    · rw [e]; exact slen.trans h.len
    · rw [e]
      have := evict_length (l := D.survivors x ++ [D.born x]) (by simp)
      have h2 := h.len
      simp only [List.length_append, List.length_singleton] at this
      omega
    · rw [e, List.length_append, List.length_singleton]; rw [h.emu] at hl; omega
  · rcases hc with ⟨-, e, -⟩ | ⟨hnew, -, -⟩
    · rw [e]
      refine List.Pairwise.sublist List.filter_sublist ?_
      rw [List.pairwise_map]
      refine h.distinct.imp ?_
      intro a b hab
      rw [touch_keys, touch_keys]; exact hab
    · refine List.Pairwise.sublist hsub ?_
      rw [List.pairwise_append]
      refine ⟨?_, by simp, ?_⟩
      · refine List.Pairwise.sublist List.filter_sublist ?_
        rw [List.pairwise_map]
        refine h.distinct.imp ?_
        intro a b hab
        rw [touch_keys, touch_keys]; exact hab
      · intro a ha b hb
        simp only [List.mem_singleton] at hb
        subst hb
        exact hnew a ha
  · intro hms nu hn
    rcases hmem nu hn with hs | rfl
    · obtain ⟨o, -, -, hle⟩ := mem_survivors hs
      rwa [h.ems] at hle
    · show ((0 : ℕ) : ℤ) ≤ ms; simpa using hms
  · intro nu hn
    rcases hmem nu hn with hs | rfl
    · obtain ⟨o, ho, rfl, -⟩ := mem_survivors hs
      exact tracks_touch x (h.tracks o ho)
    · exact tracks_born D X x

theorem inv_run (mu ms : ℤ) (X : List (KDict Key)) : Inv mu ms X ((DynU.new P mu ms).learnMany X) := by
  induction X using List.reverseRecOn with
  | nil => exact ⟨rfl, rfl, rfl, by simp [learnMany, DynU.new], by simp [learnMany, DynU.new], by simp [learnMany, DynU.new],
      by simp [learnMany, DynU.new], by simp [learnMany, DynU.new], by simp [learnMany, DynU.new]⟩
  | append_singleton X x ih => rw [learnMany_snoc]; exact inv_update ih x

end DynU

end Precise
