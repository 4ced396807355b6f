import Verif.Lemmas.DynUniverse
import Mathlib.Algebra.BigOperators.Fin

/-!
# C44–C48: DynamicUniverse

`P` is any wrapped estimator; the object after a stream `X` is `(DynU.new P max_universes max_staleness).learnMany X`.
-/

set_option linter.all false

open Matrix

namespace Precise

open Spec

variable {Key : Type} [DecidableEq Key] {P : Proto}

namespace DynU

theorem firstMin_mem_le {α β : Type} [LinearOrder β] (f : α → β) (lt : α → α → Bool) (hlt : ∀ a b, lt a b = true ↔ f a < f b)
    {l : List α} {m : α} (h : firstMin lt l = some m) : m ∈ l ∧ ∀ b ∈ l, f m ≤ f b := by
  cases l with
  | nil => cases h
  | cons a l =>
    obtain ⟨l1, l2, e, h1, h2⟩ := firstMin_spec f lt hlt l a m h
    rw [e]
    refine ⟨by simp, fun b hb => ?_⟩
    simp only [List.mem_append, List.mem_cons] at hb
    rcases hb with hb | rfl | hb
    · exact (h1 b hb).le
    · exact le_rfl
    · exact h2 b hb

theorem tracks_longevity {X : List (KDict Key)} {u : Universe P Key} (h : Tracks X u) : 1 ≤ u.longevity ∧ u.keys.Nodup := by
  obtain ⟨t, x, h1, h2, -, h4, -⟩ := h
  refine ⟨?_, by rw [h2]; exact x.nodup⟩
  rw [h4]
  have ht : t < X.length := (List.getElem?_eq_some_iff.1 h1).1
  have hx : X[t] = x := (List.getElem?_eq_some_iff.1 h1).2
  have : x ∈ subStream X t u.keys := by
    unfold subStream
    rw [List.mem_filter, List.drop_eq_getElem_cons ht, hx]
    refine ⟨by simp, ?_⟩
    rw [decide_eq_true_iff]
    intro k hk; rw [h2] at hk; exact hk
  exact List.length_pos_of_mem this

theorem pairwise_ne {α β : Type} {f : α → β} {l : List α} (h : l.Pairwise fun a b => f a ≠ f b) {a b : α} (ha : a ∈ l) (hb : b ∈ l)
    (hne : a ≠ b) : f a ≠ f b := by
  induction l with
  | nil => cases ha
  | cons c l ih =>
    rw [List.pairwise_cons] at h
    rcases List.mem_cons.1 ha with e | ha' <;> rcases List.mem_cons.1 hb with e' | hb'
    · exact absurd (e.trans e'.symm) hne
    · rw [e]; exact h.1 b hb'
    · rw [e']; exact (h.1 a ha').symm
    · exact ih h.2 ha' hb'

/-- ids below the counter are inherited -/
theorem inherited {mu ms : ℤ} {X : List (KDict Key)} {D : DynU P Key} (h : Inv mu ms X D) (Y : List (KDict Key)) :
    D.counter ≤ (D.learnMany Y).counter ∧
    ∀ nu' ∈ (D.learnMany Y).states, nu'.1 < D.counter → ∃ nu ∈ D.states, nu.1 = nu'.1 ∧ nu.2.keys = nu'.2.keys ∧ nu.2.longevity ≤ nu'.2.longevity := by
  induction Y using List.reverseRecOn with
  | nil => exact ⟨le_rfl, fun nu hn _ => ⟨nu, hn, rfl, rfl, le_rfl⟩⟩
  | append_singleton Y y ih =>
    rw [learnMany_snoc]
    obtain ⟨-, -, -, hc⟩ := update_cases (D.learnMany Y) y
    have hle : (D.learnMany Y).counter ≤ ((D.learnMany Y).update y).counter := by
      rcases hc with ⟨-, -, h⟩ | ⟨-, h, -⟩ <;> omega
    refine ⟨ih.1.trans hle, fun nu' hn hlt => ?_⟩
    have := (update_sublist (D.learnMany Y) y).subset hn
    simp only [List.mem_append, List.mem_singleton] at this
    rcases this with hs | rfl
    · obtain ⟨o, ho, rfl, -⟩ := mem_survivors hs
      rw [touch_fst] at hlt
      obtain ⟨nu, hnu, e1, e2, e3⟩ := ih.2 o ho hlt
      refine ⟨nu, hnu, by rw [touch_fst]; exact e1, by rw [touch_keys]; exact e2, e3.trans ?_⟩
      unfold touch; split
      · exact Nat.le_succ _
      · exact le_rfl
    · exact absurd (lt_of_lt_of_le hlt ih.1) (lt_irrefl _)

end DynU

open DynU

/-! ## C44 -/

/-- C44: after any stream at most `max_universes` universes are kept (none if that is negative), no two with the same key
set, none more stale than `max_staleness` (if that is not negative), with distinct ids in order of age. -/
theorem C44_bounds (mu ms : ℤ) (X : List (KDict Key)) :
    let D := (DynU.new P mu ms).learnMany X
    ((D.states.length : ℤ) ≤ max mu 0) ∧ (D.states.Pairwise fun a b => ¬ SameSet a.2.keys b.2.keys) ∧
      (0 ≤ ms → ∀ nu ∈ D.states, (nu.2.staleness : ℤ) ≤ ms) ∧ (D.states.map Prod.fst).Pairwise (· < ·) := by
  intro D
  have h := inv_run (P := P) mu ms X
  refine ⟨?_, h.distinct, h.stale, h.ids⟩
  have := h.len
  show (((DynU.new P mu ms).learnMany X).states.length : ℤ) ≤ _
  omega

/-- C44: an id means one universe for ever: universes with the same id at two times have the same keys (in the same
order), and an id that has left the table never comes back. -/
theorem C44_ids_not_reused (mu ms : ℤ) (X Y : List (KDict Key)) :
    let D := (DynU.new P mu ms).learnMany X
    let D' := (DynU.new P mu ms).learnMany (X ++ Y)
    (∀ nu ∈ D.states, ∀ nu' ∈ D'.states, nu.1 = nu'.1 → nu.2.keys = nu'.2.keys ∧ nu.2.longevity ≤ nu'.2.longevity) ∧
    (∀ (Z : List (KDict Key)) (n : ℕ), n ∈ D.states.map Prod.fst → n ∉ D'.states.map Prod.fst →
      n ∉ ((DynU.new P mu ms).learnMany (X ++ Y ++ Z)).states.map Prod.fst) := by
  intro D D'
  have h := inv_run (P := P) mu ms X
  have h' := inv_run (P := P) mu ms (X ++ Y)
  have e' : D' = D.learnMany Y := learnMany_append _ _ _
  constructor
  · intro nu hn nu' hn' e
    obtain ⟨o, ho, e1, e2, e3⟩ := (inherited h Y).2 nu' (by rw [← learnMany_append]; exact hn') (by rw [← e]; exact h.fresh nu hn)
    have : o = nu := by
      have hp := h.ids
      rw [List.pairwise_map] at hp
      by_contra hne
      have hfa : List.Pairwise (fun a b : ℕ × Universe P Key => a.1 ≠ b.1) ((DynU.new P mu ms).learnMany X).states := hp.imp fun h => ne_of_lt h
      exact pairwise_ne hfa ho hn hne (e1.trans e.symm)
    subst this
    exact ⟨e2, e3⟩
  · intro Z n hn hn' hz
    obtain ⟨nu, hnu, rfl⟩ := List.mem_map.1 hn
    obtain ⟨nu', hnu', e⟩ := List.mem_map.1 hz
    rw [learnMany_append] at hnu'
    have hlt : nu'.1 < D'.counter := by
      rw [e, e']; exact lt_of_lt_of_le (h.fresh nu hnu) (inherited h Y).1
    obtain ⟨o, ho, e1, -⟩ := (inherited h' Z).2 nu' hnu' hlt
    exact hn' (List.mem_map.2 ⟨o, ho, e1.trans e⟩)

/-! ## C45 -/

/-- C45: each live universe is an independent positional estimator of its own sub-stream. It was created by one
observation `x` (at time `t`), fixes the column order of `x`, and its estimator is a new wrapped estimator fed exactly the
observations from time `t` on that contain all its keys; longevity counts them and staleness is the number of
observations since the last of them. -/
theorem C45_substream (mu ms : ℤ) (X : List (KDict Key)) (nu : ℕ × Universe P Key)
    (h : nu ∈ ((DynU.new P mu ms).learnMany X).states) :
    ∃ (t : ℕ) (x : KDict Key), X[t]? = some x ∧ nu.2.keys = x.keys ∧
      nu.2.est = wrapped P _ ((subStream X t nu.2.keys).map (rowOf nu.2.keys)) ∧
      nu.2.longevity = (subStream X t nu.2.keys).length ∧ nu.2.staleness = idle X t nu.2.keys :=
  (inv_run (P := P) mu ms X).tracks nu h

/-! ## C47 -/

namespace DynU

theorem survivors_length {mu ms : ℤ} {X : List (KDict Key)} {D : DynU P Key} (h : Inv mu ms X D) (hms : 0 ≤ ms) (x : KDict Key) :
    (D.survivors x).length = (D.states.filter fun nu => decide (hasAll nu.2.keys x ∨ (nu.2.staleness : ℤ) + 1 ≤ ms)).length := by
  unfold survivors
  rw [List.filter_map, List.length_map]
  congr 1
  apply List.filter_congr
  intro nu _
  simp only [Function.comp, h.ems]
  unfold touch
  by_cases hw : nu.2.within x.keys = true
  · rw [if_pos hw]
    have : hasAll nu.2.keys x := (Universe.within_iff _ _).1 hw
    simp only [this, true_or, decide_true]
    show decide (((0 : ℕ) : ℤ) ≤ ms) = true
    simpa using hms
  · rw [if_neg hw]
    have : ¬ hasAll nu.2.keys x := fun h => hw ((Universe.within_iff _ _).2 h)
    simp only [this, false_or]
    congr 1

theorem touch_stale {nu : ℕ × Universe P Key} {x : KDict Key} :
    (hasAll nu.2.keys x → (touch x nu).2.staleness = 0 ∧ (touch x nu).2.longevity = nu.2.longevity + 1) ∧
    (¬ hasAll nu.2.keys x → (touch x nu).2.staleness = nu.2.staleness + 1 ∧ (touch x nu).2.longevity = nu.2.longevity) := by
  constructor
  · intro h
    unfold touch; rw [if_pos ((Universe.within_iff _ _).2 h)]; exact ⟨rfl, rfl⟩
  · intro h
    unfold touch; rw [if_neg (fun h' => h ((Universe.within_iff _ _).1 h'))]; exact ⟨rfl, rfl⟩

theorem evict_born {D : DynU P Key} {mu ms : ℤ} {X : List (KDict Key)} (h : Inv mu ms X D) (x : KDict Key) :
    ((∀ nu ∈ D.survivors x, nu.2.staleness = 0) → evict (D.survivors x ++ [D.born x]) = D.survivors x) ∧
    ((∃ nu ∈ D.survivors x, 0 < nu.2.staleness) → D.born x ∈ evict (D.survivors x ++ [D.born x])) := by
  have hid : ∀ nu ∈ D.survivors x, nu.1 ≠ (D.born x).1 := by
    intro nu hn
    obtain ⟨o, ho, rfl, -⟩ := mem_survivors hn
    rw [touch_fst]; exact ne_of_lt (h.fresh o ho)
  rcases hv : firstMin evictLt (D.survivors x ++ [D.born x]) with _ | v
  · have := (firstMin_none _ _).1 hv; simp at this
  · obtain ⟨hmem, hmin⟩ := firstMin_mem_le _ _ evictLt_iff hv
    constructor
    · intro hz
      have hvb : v = D.born x := by
        by_contra hne
        have hs : v ∈ D.survivors x := by simpa [hne] using hmem
        have hb := hmin (D.born x) (by simp)
        obtain ⟨o, ho, e, -⟩ := mem_survivors hs
        have h0 := hz v hs
        rw [Prod.Lex.toLex_le_toLex] at hb
        have b0 : (D.born x).2.staleness = 0 := rfl
        have b1 : (D.born x).2.longevity = 1 := rfl
        rw [h0, b0, b1] at hb
        simp only [lt_irrefl, true_and, false_or] at hb
        have hall : hasAll o.2.keys x := by
          by_contra hno
          have := (touch_stale.2 hno).1
          rw [← e, h0] at this; omega
        have := (touch_stale.1 hall).2
        rw [← e] at this
        have := (tracks_longevity (h.tracks o ho)).1
        omega
      unfold evict
      rw [hv]
      simp only []
      rw [List.filter_append, hvb]
      have e1 : ([D.born x].filter fun nu : ℕ × Universe P Key => decide (nu.1 ≠ (D.born x).1)) = [] := by simp
      rw [e1, List.append_nil, List.filter_eq_self]
      intro nu hn
      exact decide_eq_true (hid nu hn)
    · rintro ⟨s, hs, hpos⟩
      have hvb : v ∈ D.survivors x := by
        have hb := hmin s (by simp [hs])
        simp only [List.mem_append, List.mem_singleton] at hmem
        rcases hmem with h | rfl
        · exact h
        · rw [Prod.Lex.toLex_le_toLex] at hb
          have b0 : (D.born x).2.staleness = 0 := rfl
          rw [b0] at hb
          simp only [OrderDual.toDual_lt_toDual, OrderDual.toDual_inj] at hb
          omega
      unfold evict
      rw [hv]
      simp only [List.mem_filter, List.mem_append, List.mem_singleton, or_true, true_and]
      exact decide_eq_true (hid v hvb).symm

end DynU

/-- C47: exactly when the current key set is in the table after `update(x)`. It is iff it already was, or there is room
after dropping the stale universes, or one of the remaining universes is not fully observed in `x` (and is then evicted in
favour of the new one). Otherwise the table is full of universes whose keys are subsets of `x`'s, and the new universe is
itself the victim. -/
theorem C47_retained (mu ms : ℤ) (hms : 0 ≤ ms) (X : List (KDict Key)) (x : KDict Key) :
    let D := (DynU.new P mu ms).learnMany X
    let D' := (DynU.new P mu ms).learnMany (X ++ [x])
    (∃ nu ∈ D'.states, SameSet nu.2.keys x.keys) ↔
      (∃ nu ∈ D.states, SameSet nu.2.keys x.keys) ∨
      (((D.states.filter fun nu => decide (hasAll nu.2.keys x ∨ (nu.2.staleness : ℤ) + 1 ≤ ms)).length : ℤ) < mu) ∨
      (∃ nu ∈ D.states, ¬ hasAll nu.2.keys x ∧ (nu.2.staleness : ℤ) + 1 ≤ ms) := by
  intro D D'
  have h : Inv mu ms X D := inv_run (P := P) mu ms X
  have eD' : D' = D.update x := learnMany_snoc _ _ _
  rw [eD']
  rw [← survivors_length h hms x]
  have hsame : ∀ ks : List Key, SameSet ks x.keys → hasAll ks x := fun ks hk k hx => (hk k).1 hx
  obtain ⟨-, -, -, (⟨⟨nu, hn, hk⟩, e, -⟩ | ⟨hnew, -, hc⟩)⟩ := update_cases D x
  · constructor
    · intro _
      obtain ⟨o, ho, rfl, -⟩ := mem_survivors hn
      rw [touch_keys] at hk
      exact Or.inl ⟨o, ho, hk⟩
    · intro _
      rw [e]; exact ⟨nu, hn, hk⟩
  · have hno : ¬ ∃ nu ∈ D.states, SameSet nu.2.keys x.keys := by
      rintro ⟨nu, hn, hk⟩
      refine hnew (touch x nu) (survivors_of_mem hn ?_) (by rw [touch_keys]; exact hk)
      rw [(touch_stale.1 (hsame _ hk)).1, h.ems]; simpa using hms
    rcases hc with ⟨hfull, e⟩ | ⟨hroom, e⟩
    · rw [e]
      have hroom : ¬ (((D.survivors x).length : ℤ) < mu) := by rw [h.emu] at hfull; omega
      constructor
      · rintro ⟨nu, hn, hk⟩
        refine Or.inr (Or.inr ?_)
        by_contra hall
        have hz : ∀ nu ∈ D.survivors x, nu.2.staleness = 0 := by
          intro s hs
          obtain ⟨o, ho, rfl, hle⟩ := mem_survivors hs
          by_cases ha : hasAll o.2.keys x
          · exact (touch_stale.1 ha).1
          · exfalso
            rw [(touch_stale.2 ha).1, h.ems] at hle
            exact hall ⟨o, ho, ha, by push_cast at hle; exact hle⟩
        rw [(evict_born h x).1 hz] at hn
        exact hnew nu hn hk
      · rintro (hx | hx | ⟨o, ho, ha, hle⟩)
        · exact absurd hx hno
        · exact absurd hx hroom
        · refine ⟨D.born x, (evict_born h x).2 ⟨touch x o, survivors_of_mem ho ?_, ?_⟩, fun k => Iff.rfl⟩
          · rw [(touch_stale.2 ha).1, h.ems]; push_cast; exact hle
          · rw [(touch_stale.2 ha).1]; omega
    · rw [e]
      constructor
      · intro _
        refine Or.inr (Or.inl ?_)
        rw [h.emu] at hroom; omega
      · intro _
        exact ⟨D.born x, by simp, fun k => Iff.rfl⟩

/-- C47, starvation: once the table is full of universes whose keys are proper subsets of a key set `ks`, a stream of
observations with exactly that key set, however long, never changes which universes are kept, so `ks` is never learned. -/
theorem C47_starvation (mu ms : ℤ) (hms : 0 ≤ ms) (X : List (KDict Key)) (ks : List Key) (Y : List (KDict Key))
    (hfull : mu ≤ (((DynU.new P mu ms).learnMany X).states.length : ℤ))
    (hsub : ∀ nu ∈ ((DynU.new P mu ms).learnMany X).states, (∀ k ∈ nu.2.keys, k ∈ ks) ∧ ¬ SameSet nu.2.keys ks)
    (hY : ∀ y ∈ Y, SameSet y.keys ks) :
    let D := (DynU.new P mu ms).learnMany X
    let D' := (DynU.new P mu ms).learnMany (X ++ Y)
    D'.states.map (fun nu => (nu.1, nu.2.keys)) = D.states.map (fun nu => (nu.1, nu.2.keys)) ∧
      ∀ nu ∈ D'.states, ¬ SameSet nu.2.keys ks := by
  intro D D'
  have main : D'.states.map (fun nu => (nu.1, nu.2.keys)) = D.states.map (fun nu => (nu.1, nu.2.keys)) := by
    show ((DynU.new P mu ms).learnMany (X ++ Y)).states.map _ = _
    clear D'
    induction Y using List.reverseRecOn with
    | nil => rw [List.append_nil]
    | append_singleton Y y ih =>
      have ih := ih fun y hy => hY y (by simp [hy])
      have hy := hY y (by simp)
      rw [← List.append_assoc, learnMany_snoc, ← ih]
      have h := inv_run (P := P) mu ms (X ++ Y)
      generalize ((DynU.new P mu ms).learnMany (X ++ Y)) = E at *
      have hlen : E.states.length = D.states.length := by
        have := congrArg List.length ih; simpa using this
      have hkeys : ∀ nu ∈ E.states, (∀ k ∈ nu.2.keys, k ∈ ks) ∧ ¬ SameSet nu.2.keys ks := by
        intro nu hn
        have : (nu.1, nu.2.keys) ∈ D.states.map (fun nu => (nu.1, nu.2.keys)) := by rw [← ih]; exact List.mem_map.2 ⟨nu, hn, rfl⟩
        obtain ⟨o, ho, e⟩ := List.mem_map.1 this
        simp only [Prod.mk.injEq] at e
        rw [← e.2]; exact hsub o ho
      have hall : ∀ nu ∈ E.states, hasAll nu.2.keys y := fun nu hn k hk => (hy k).2 ((hkeys nu hn).1 k hk)
      have hsurv : E.survivors y = E.states.map (touch y) := by
        unfold survivors
        rw [List.filter_eq_self]
        intro nu hn
        obtain ⟨o, ho, rfl⟩ := List.mem_map.1 hn
        rw [(touch_stale.1 (hall o ho)).1, h.ems]; simpa using hms
      have hst : (E.update y).states = E.states.map (touch y) := by
        obtain ⟨-, -, -, (⟨⟨nu, hn, hk⟩, e, -⟩ | ⟨hnew, -, (⟨-, e⟩ | ⟨hr, -⟩)⟩)⟩ := update_cases E y
        · rw [e, hsurv]
        · rw [e, (evict_born h y).1, hsurv]
          rw [hsurv]
          intro nu hn
          obtain ⟨o, ho, rfl⟩ := List.mem_map.1 hn
          exact (touch_stale.1 (hall o ho)).1
        · exfalso
          rw [hsurv, List.length_map, h.emu, hlen] at hr
          have : mu ≤ (D.states.length : ℤ) := hfull
          omega
      rw [hst, List.map_map]
      apply List.map_congr_left
      intro nu _
      simp only [Function.comp, touch_fst, touch_keys]
  refine ⟨main, fun nu hn hk => ?_⟩
  have : (nu.1, nu.2.keys) ∈ D.states.map (fun nu => (nu.1, nu.2.keys)) := by rw [← main]; exact List.mem_map.2 ⟨nu, hn, rfl⟩
  obtain ⟨o, ho, e⟩ := List.mem_map.1 this
  simp only [Prod.mk.injEq] at e
  exact (hsub o ho).2 (by rw [e.2]; exact hk)

/-! ## C48 -/

theorem Spec.PD.submatrix_inj {ι κ : Type} [Fintype ι] [Fintype κ] [DecidableEq κ] {c : Matrix κ κ ℝ} (h : PD c) (f : ι → κ)
    (hf : Function.Injective f) : PD (Matrix.of fun a b => c (f a) (f b)) := by
  refine ⟨fun a b => h.1 _ _, fun v hv => ?_⟩
  have hpush : ∀ g : κ → ℝ, ∑ i, (∑ a, if f a = i then v a else 0) * g i = ∑ a, v a * g (f a) := by
    intro g
    simp only [Finset.sum_mul]
    rw [Finset.sum_comm]
    refine Finset.sum_congr rfl fun a _ => ?_
    rw [Finset.sum_eq_single (f a)]
    · rw [if_pos rfl]
    · intro b _ hb; rw [if_neg hb.symm, zero_mul]
    · intro h; exact absurd (Finset.mem_univ _) h
  have hq : quad (Matrix.of fun a b => c (f a) (f b)) v = quad c (fun i => ∑ a, if f a = i then v a else 0) := by
    unfold quad
    simp only [dotProduct, mulVec, Matrix.of_apply]
    rw [hpush]
    refine Finset.sum_congr rfl fun a _ => ?_
    congr 1
    simp only [mul_comm (c _ _)]
    rw [hpush]
  rw [hq]
  refine h.2 _ fun h0 => hv ?_
  funext a
  have := congrFun h0 (f a)
  simp only [Pi.zero_apply] at this
  rw [Finset.sum_eq_single a] at this
  · rwa [if_pos rfl] at this
  · intro b _ hb; rw [if_neg fun h => hb (hf h)]
  · intro h; exact absurd (Finset.mem_univ _) h

namespace DynU

variable {L : Lapack}

theorem cov_symm {ι : Type} [Fintype ι] {C : Cls ι ℝ} {o : Obj C} {c : Matrix ι ι ℝ} (h : o.covariance = .ok c) : Symm c := by
  unfold Obj.covariance at h
  rcases hf : o.fittedState with _ | s
  · rw [hf] at h; cases h
  · rw [hf] at h; cases h
    intro i j
    simp only [toSymmetric, Matrix.of_apply]
    ring

theorem runningCov_iff (u : Universe P Key) (c : Matrix (Fin u.keys.length) (Fin u.keys.length) ℝ) :
    u.runningCov = some c ↔ u.est.covariance = .ok c := by
  unfold Universe.runningCov
  constructor
  · intro h
    split at h
    · rcases hc : u.est.covariance with e | c'
      · rw [hc] at h; cases h
      · rw [hc] at h; cases h; rfl
    · cases h
  · intro h
    have : 0 < u.est.nSamples := by
      rw [nSamples_pos_iff]
      unfold Obj.covariance at h
      rcases hf : u.est.fittedState with _ | s
      · rw [hf] at h; cases h
      · exact ⟨s, rfl⟩
    rw [if_pos this, h]; rfl

theorem mem_candidates {D : DynU P Key} {ki kj : Key} {nu : ℕ × Universe P Key} :
    nu ∈ D.candidates ki kj ↔ nu ∈ D.states ∧ ∃ v, Tells nu.2 ki kj v := by
  unfold candidates
  rw [List.mem_filter]
  refine and_congr_right fun _ => ?_
  simp only [Bool.and_eq_true, decide_eq_true_iff]
  constructor
  · rintro ⟨⟨hi, hj⟩, hc⟩
    obtain ⟨c, hc⟩ := Option.isSome_iff_exists.1 hc
    obtain ⟨i, hi⟩ := List.get_of_mem hi
    obtain ⟨j, hj⟩ := List.get_of_mem hj
    exact ⟨c i j, c, i, j, (runningCov_iff _ _).1 hc, hi, hj, rfl⟩
  · rintro ⟨v, c, i, j, hc, rfl, rfl, -⟩
    exact ⟨⟨List.get_mem _ _, List.get_mem _ _⟩, Option.isSome_iff_exists.2 ⟨c, (runningCov_iff _ _).2 hc⟩⟩

theorem candidates_comm (D : DynU P Key) (ki kj : Key) : D.candidates ki kj = D.candidates kj ki := by
  unfold candidates
  congr 1
  funext nu
  rw [Bool.and_comm (decide (ki ∈ nu.2.keys))]

theorem pairValue_comm (D : DynU P Key) (ki kj : Key) : D.pairValue ki kj = D.pairValue kj ki := by
  unfold pairValue
  rw [candidates_comm]
  congr 1
  funext nu
  rcases hc : nu.2.runningCov with _ | c
  · rfl
  · have hs := cov_symm ((runningCov_iff _ _).1 hc)
    simp only [Option.bind_some]
    by_cases h : nu.2.keys.idxOf ki < nu.2.keys.length ∧ nu.2.keys.idxOf kj < nu.2.keys.length
    · rw [dif_pos h, dif_pos h.symm]
      exact congrArg some (hs _ _)
    · rw [dif_neg h, dif_neg (fun h' => h h'.symm)]

theorem idxOf_get {ks : List Key} (hnd : ks.Nodup) (i : Fin ks.length) : ks.idxOf (ks.get i) = i.1 :=
  hnd.idxOf_getElem i.1 i.2

theorem pairValue_of_tells {u : Universe P Key} (hnd : u.keys.Nodup) {ki kj : Key} {v : ℝ} (h : Tells u ki kj v) :
    (u.runningCov.bind fun cov =>
      if h : u.keys.idxOf ki < u.keys.length ∧ u.keys.idxOf kj < u.keys.length then some (cov ⟨_, h.1⟩ ⟨_, h.2⟩) else none) = some v := by
  obtain ⟨c, i, j, hc, rfl, rfl, rfl⟩ := h
  rw [(runningCov_iff _ _).2 hc, Option.bind_some]
  have e1 := idxOf_get hnd i
  have e2 := idxOf_get hnd j
  rw [dif_pos ⟨by rw [e1]; exact i.2, by rw [e2]; exact j.2⟩]
  congr 2
  · exact Fin.ext e1
  · exact Fin.ext e2

theorem pairValue_says {D : DynU P Key} {mu ms : ℤ} {X : List (KDict Key)} (h : Inv mu ms X D) (ki kj : Key) :
    PairSays D.states ki kj (D.pairValue ki kj) := by
  unfold pairValue
  rcases hm : firstMin preferLt (D.candidates ki kj) with _ | nu
  · have := (firstMin_none _ _).1 hm
    intro nu hn v hv
    have hmem : nu ∈ D.candidates ki kj := mem_candidates.2 ⟨hn, v, hv⟩
    rw [this] at hmem; cases hmem
  · have hids : (D.candidates ki kj).Pairwise fun a b => a.1 < b.1 := by
      have := h.ids
      rw [List.pairwise_map] at this
      exact this.sublist List.filter_sublist
    rcases hl : D.candidates ki kj with _ | ⟨a, l⟩
    · rw [hl] at hm; cases hm
    · rw [hl] at hm hids
      obtain ⟨l1, l2, e, h1, h2⟩ := firstMin_spec _ _ preferLt_iff l a nu hm
      have hnu : nu ∈ D.candidates ki kj := by rw [hl, e]; simp
      obtain ⟨hst, v, hv⟩ := mem_candidates.1 hnu
      rw [Option.bind_some, pairValue_of_tells (tracks_longevity (h.tracks nu hst)).2 hv]
      refine ⟨nu, hst, hv, fun nu' hn' hv' => ?_⟩
      have hc' : nu' ∈ a :: l := by rw [← hl]; exact mem_candidates.2 ⟨hn', hv'⟩
      rw [e] at hc' hids
      simp only [List.mem_append, List.mem_cons] at hc'
      rcases hc' with hc' | rfl | hc'
      · have := h1 nu' hc'
        rw [Prod.Lex.toLex_lt_toLex] at this
        simp only [OrderDual.toDual_lt_toDual, OrderDual.toDual_inj] at this
        omega
      · omega
      · have h3 := h2 nu' hc'
        rw [Prod.Lex.toLex_le_toLex] at h3
        simp only [OrderDual.toDual_lt_toDual, OrderDual.toDual_inj] at h3
        rw [List.pairwise_append, List.pairwise_cons] at hids
        have := hids.2.1.1 nu' hc'
        omega

/-- the pair `p` writes the entry `(a, b)` -/
def Hits (ks : List Key) (p : Key × Key) (a b : ℕ) : Prop :=
  (a = lastIdx ks p.1 ∧ b = lastIdx ks p.2) ∨ (a = lastIdx ks p.2 ∧ b = lastIdx ks p.1)

theorem fold_write (D : DynU P Key) (ks : List Key) (a b : ℕ) (v : Option ℝ) (ps : List (Key × Key)) :
    ∀ M : ℕ → ℕ → Option ℝ, (M a b = none ∨ M a b = v) → (∀ p ∈ ps, Hits ks p a b → D.pairValue p.1 p.2 = v) →
      ((∃ p ∈ ps, Hits ks p a b) ∨ M a b = v) → ps.foldl (D.writePair ks) M a b = v := by
  induction ps with
  | nil => intro M _ _ h; rcases h with ⟨p, hp, -⟩ | h
           · cases hp
           · exact h
  | cons p ps ih =>
    intro M hM hall hex
    rw [List.foldl_cons]
    by_cases hp : Hits ks p a b
    · have hv := hall p (by simp) hp
      refine ih _ ?_ (fun q hq => hall q (by simp [hq])) (Or.inr ?_)
      all_goals
        unfold writePair
        rw [hv]
        rcases v with _ | v
        · simp only []
          rcases hM with h | h <;> simp [h]
        · simp only []
          have : (if (a = lastIdx ks p.1 ∧ b = lastIdx ks p.2) ∨ (a = lastIdx ks p.2 ∧ b = lastIdx ks p.1) then some v else M a b) = some v := if_pos hp
          simp [this]
    · have hw : D.writePair ks M p a b = M a b := by
        unfold writePair
        rcases D.pairValue p.1 p.2 with _ | v
        · rfl
        · simp only []; exact if_neg hp
      refine ih _ (by rw [hw]; exact hM) (fun q hq => hall q (by simp [hq])) ?_
      rcases hex with ⟨q, hq, hh⟩ | h
      · rcases List.mem_cons.1 hq with rfl | hq
        · exact absurd hh hp
        · exact Or.inl ⟨q, hq, hh⟩
      · exact Or.inr (by rw [hw]; exact h)

theorem lastIdx_get {ks : List Key} (hnd : ks.Nodup) (i : Fin ks.length) : lastIdx ks (ks.get i) = i.1 := by
  unfold lastIdx
  have hr : ks.reverse.Nodup := List.nodup_reverse.2 hnd
  have hlt : ks.length - 1 - i.1 < ks.reverse.length := by rw [List.length_reverse]; omega
  have e : ks.get i = ks.reverse[ks.length - 1 - i.1]'hlt := by
    rw [List.getElem_reverse]
    simp only [List.get_eq_getElem]
    congr 1
    omega
  rw [e, hr.idxOf_getElem]
  omega

theorem pairs_mem {ks : List Key} {k : Key} {l : Key} (hk : k ∈ ks) (hl : l ∈ ks) : (k, l) ∈ pairs ks ∨ (l, k) ∈ pairs ks := by
  induction ks with
  | nil => cases hk
  | cons a ks ih =>
    unfold pairs
    simp only [List.mem_append, List.mem_map, Prod.mk.injEq, List.mem_cons]
    rcases List.mem_cons.1 hk with rfl | hk'
    · left; left; exact ⟨l, List.mem_cons.1 hl, rfl, rfl⟩
    · rcases List.mem_cons.1 hl with rfl | hl
      · right; left; exact ⟨k, Or.inr hk', rfl, rfl⟩
      · rcases ih hk' hl with h | h
        · left; right; exact h
        · right; right; exact h

theorem pairs_sub {ks : List Key} {p : Key × Key} (h : p ∈ pairs ks) : p.1 ∈ ks ∧ p.2 ∈ ks := by
  induction ks with
  | nil => cases h
  | cons a ks ih =>
    unfold pairs at h
    rcases List.mem_append.1 h with h | h
    · obtain ⟨b, hb, rfl⟩ := List.mem_map.1 h
      exact ⟨by simp, hb⟩
    · exact ⟨List.mem_cons_of_mem _ (ih h).1, List.mem_cons_of_mem _ (ih h).2⟩

theorem rawMatrix_get (D : DynU P Key) {ks : List Key} (hnd : ks.Nodup) (a b : Fin ks.length) :
    D.rawMatrix ks a.1 b.1 = D.pairValue (ks.get a) (ks.get b) := by
  unfold rawMatrix
  refine fold_write D ks a.1 b.1 _ (pairs ks) _ (Or.inl rfl) ?_ (Or.inl ?_)
  · intro p hp hh
    obtain ⟨h1, h2⟩ := pairs_sub hp
    obtain ⟨i, hi⟩ := List.get_of_mem h1
    obtain ⟨j, hj⟩ := List.get_of_mem h2
    unfold Hits at hh
    rw [← hi, ← hj, lastIdx_get hnd, lastIdx_get hnd] at hh
    rcases hh with ⟨e1, e2⟩ | ⟨e1, e2⟩
    · rw [← hi, ← hj, ← Fin.ext e1, ← Fin.ext e2]
    · rw [← hi, ← hj, ← Fin.ext e1, ← Fin.ext e2, pairValue_comm]
  · rcases pairs_mem (List.get_mem ks a) (List.get_mem ks b) with h | h
    · exact ⟨_, h, Or.inl ⟨(lastIdx_get hnd a).symm, (lastIdx_get hnd b).symm⟩⟩
    · exact ⟨_, h, Or.inr ⟨(lastIdx_get hnd a).symm, (lastIdx_get hnd b).symm⟩⟩

theorem sum_filterMap {α : Type} (l : List α) (g : α → Option ℝ) :
    (l.filterMap g).sum = (l.map fun a => (g a).getD 0).sum ∧ ((l.filterMap g).length : ℝ) = (l.map fun a => if (g a).isSome then (1:ℝ) else 0).sum := by
  induction l with
  | nil => simp
  | cons a l ih =>
    rcases h : g a with _ | v
    · simp only [List.filterMap_cons, h, List.map_cons, List.sum_cons, ih.1, ih.2, Option.getD_none]
      simp
    · simp only [List.filterMap_cons, h, List.map_cons, List.sum_cons, ih.1, List.length_cons, Nat.cast_add, ih.2, Option.getD_some]
      simp [add_comm]

theorem sum_flatMap {α : Type} (l : List α) (g : α → List ℝ) :
    (l.flatMap g).sum = (l.map fun a => (g a).sum).sum ∧ ((l.flatMap g).length : ℝ) = (l.map fun a => ((g a).length : ℝ)).sum := by
  induction l with
  | nil => simp
  | cons a l ih =>
    simp only [List.flatMap_cons, List.sum_append, List.length_append, Nat.cast_add, ih.1, ih.2, List.map_cons, List.sum_cons]
    exact ⟨trivial, trivial⟩

theorem sum_range_map (n : ℕ) (f : ℕ → ℝ) : ((List.range n).map f).sum = ∑ i : Fin n, f i.1 := by
  rw [Fin.sum_univ_eq_sum_range, ← List.sum_toFinset _ List.nodup_range]
  congr 1
  ext; simp

theorem fillValue_eq (n : ℕ) (M : ℕ → ℕ → Option ℝ) : fillValue n M = offDiagMean fun a b : Fin n => M a.1 b.1 := by
  unfold fillValue offDiagMean
  simp only []
  have hs : (offDiag n M).sum = ∑ ab ∈ Finset.univ.filter (fun ab : Fin n × Fin n => ab.1 ≠ ab.2 ∧ (M ab.1.1 ab.2.1).isSome), (M ab.1.1 ab.2.1).getD 0 := by
    unfold offDiag
    rw [(sum_flatMap _ _).1, sum_range_map, Finset.sum_filter, Fintype.sum_prod_type]
    refine Finset.sum_congr rfl fun a _ => ?_
    rw [(sum_filterMap _ _).1, sum_range_map]
    refine Finset.sum_congr rfl fun b _ => ?_
    by_cases hab : a = b
    · subst hab; simp
    · have : a.1 ≠ b.1 := fun h => hab (Fin.ext h)
      rcases M a.1 b.1 with _ | v <;> simp [hab, this]
  have hc : ((offDiag n M).length : ℝ) = ((Finset.univ.filter (fun ab : Fin n × Fin n => ab.1 ≠ ab.2 ∧ (M ab.1.1 ab.2.1).isSome)).card : ℝ) := by
    unfold offDiag
    rw [(sum_flatMap _ _).2, sum_range_map, Finset.card_eq_sum_ones, Nat.cast_sum, Finset.sum_filter, Fintype.sum_prod_type]
    refine Finset.sum_congr rfl fun a _ => ?_
    rw [(sum_filterMap _ _).2, sum_range_map]
    refine Finset.sum_congr rfl fun b _ => ?_
    by_cases hab : a = b
    · subst hab; simp
    · have : a.1 ≠ b.1 := fun h => hab (Fin.ext h)
      rcases M a.1 b.1 with _ | v <;> simp [hab, this]
  have he : offDiag n M = [] ↔ Finset.univ.filter (fun ab : Fin n × Fin n => ab.1 ≠ ab.2 ∧ (M ab.1.1 ab.2.1).isSome) = ∅ := by
    rw [← Finset.card_eq_zero, ← List.length_eq_zero_iff]
    rw [Nat.cast_inj.1 hc]
  by_cases h0 : offDiag n M = []
  · rw [if_pos h0, if_pos (he.1 h0)]
  · rw [if_neg h0, if_neg (fun h => h0 (he.2 h)), hs, hc]

theorem assembled_eq (D : DynU P Key) {ks : List Key} (hnd : ks.Nodup) :
    D.assembled ks = Matrix.of fun a b => (D.pairValue (ks.get a) (ks.get b)).getD (offDiagMean fun a b => D.pairValue (ks.get a) (ks.get b)) := by
  have e : (fun a b : Fin ks.length => D.rawMatrix ks a.1 b.1) = fun a b => D.pairValue (ks.get a) (ks.get b) := by
    funext a b; exact rawMatrix_get D hnd a b
  ext a b
  unfold assembled
  simp only [Matrix.of_apply]
  rw [fillValue_eq, rawMatrix_get D hnd, e]

theorem covArray_list (L : Lapack) (D : DynU P Key) {ks : List Key} (hnd : ks.Nodup) :
    D.covArray L (.list ks) = .ok ⟨ks, nearestPosDef L (Matrix.of fun a b =>
      (D.pairValue (ks.get a) (ks.get b)).getD (offDiagMean fun a b => D.pairValue (ks.get a) (ks.get b)))⟩ := by
  have hs : Symm (D.assembled ks) := by
    intro a b
    rw [assembled_eq D hnd]
    simp only [Matrix.of_apply]
    rw [pairValue_comm]
  show Except.ok _ = _
  rw [toSymmetric_of_symm hs, assembled_eq D hnd]

end DynU

/-- C48: assembly. For every reachable state and every list of distinct names there is a partly known matrix `M`, each
pair of which says what the live universes say about it, and `cov_array(names)` is the nearest positive-definite matrix to
`M` with every unknown entry, on the diagonal too, replaced by the mean of the known off-diagonal ones. No name
raises. -/
theorem C48_assembly (L : Lapack) (mu ms : ℤ) (X : List (KDict Key)) (ks : List Key) (hnd : ks.Nodup) :
    let D := (DynU.new P mu ms).learnMany X
    ∃ M : Fin ks.length → Fin ks.length → Option ℝ, (∀ a b, PairSays D.states (ks.get a) (ks.get b) (M a b)) ∧
      D.covArray L (.list ks) = .ok ⟨ks, nearestPosDef L (Matrix.of fun a b => (M a b).getD (offDiagMean M))⟩ ∧
      D.covArray L (.iter ks) = D.covArray L (.list ks) := by
  intro D
  exact ⟨_, fun a b => pairValue_says (inv_run (P := P) mu ms X) _ _, covArray_list L D hnd, rfl⟩

/-- C48: whatever the state and the query, repeated or unknown names included, an answer is symmetric positive definite;
only a query without names before any observation fails. -/
theorem C48_positive_definite (L : Lapack) (D : DynU P Key) (q : Query Key) :
    (∀ m, D.covArray L q = .ok m → PD m.2) ∧ (∀ ks, (q = .list ks ∨ q = .iter ks) → ∃ m, D.covArray L q = .ok m ∧ m.1 = ks) ∧
    (q = .all → ∀ x, D.x = some x → ∃ m, D.covArray L q = .ok m ∧ m.1 = x.keys) ∧
    (q = .all → D.x = none → D.covArray L q = .error .valueError) := by
  refine ⟨?_, ?_, ?_, ?_⟩
  · intro m hm
    unfold DynU.covArray at hm
    rcases hr : D.resolveKeys q with e | ks
    · rw [hr] at hm; cases hm
    · rw [hr] at hm; cases hm
      exact pd_nearestPosDef _ _
  · rintro ks (rfl | rfl) <;> exact ⟨_, rfl, rfl⟩
  · rintro rfl x hx
    unfold DynU.covArray DynU.resolveKeys
    rw [hx]
    exact ⟨_, rfl, rfl⟩
  · rintro rfl hx
    unfold DynU.covArray DynU.resolveKeys
    rw [hx]; rfl

/-! ## C46 -/

/-- C46: over one key set (in any item order) a DynamicUniverse is the wrapped positional estimator. There is exactly
one universe, whose columns follow the first observation and whose estimator was fed every observation; `cov_array()`
relabels that estimator's covariance to the order of the latest observation and is its nearest positive-definite matrix:
the same numbers, if it is positive definite. -/
theorem C46_stable (L : Lapack) (mu ms : ℤ) (hmu : 1 ≤ mu) (hms : 0 ≤ ms) (x₀ : KDict Key) (X : List (KDict Key)) (x : KDict Key)
    (hlast : (x₀ :: X).getLast? = some x) (hsame : ∀ y ∈ X, SameSet y.keys x₀.keys) :
    let D := (DynU.new P mu ms).learnMany (x₀ :: X)
    let est := wrapped P x₀.keys.length ((x₀ :: X).map (rowOf x₀.keys))
    (∃ u, D.states = [(0, u)] ∧ u.keys = x₀.keys) ∧
    ∀ c, est.covariance = .ok c → ∃ M : KeyedMat Key, M.1 = x.keys ∧ SameEntries ⟨x₀.keys, c⟩ M ∧
      D.covArray L .all = .ok ⟨M.1, nearestPosDef L M.2⟩ ∧ (PD c → D.covArray L .all = .ok M) := by
  intro D est
  have hst : ∀ Y : List (KDict Key), (∀ y ∈ Y, SameSet y.keys x₀.keys) → ∃ s l,
      ((DynU.new P mu ms).learnMany (x₀ :: Y)).states = [(0, ⟨x₀.keys, s, l, wrapped P _ ((x₀ :: Y).map (rowOf x₀.keys))⟩)] := by
    intro Y hY
    induction Y using List.reverseRecOn with
    | nil =>
      refine ⟨0, 1, ?_⟩
      show ((DynU.new P mu ms).update x₀).states = _
      obtain ⟨-, -, -, (⟨⟨nu, hn, -⟩, -, -⟩ | ⟨-, -, (⟨hl, -⟩ | ⟨-, e⟩)⟩)⟩ := update_cases (DynU.new P mu ms) x₀
      · cases hn
      · exfalso
        have : (1 : ℤ) ≤ mu := hmu
        change mu < ((0 + 1 : ℕ) : ℤ) at hl
        omega
      · rw [e]; rfl
    | append_singleton Y y ih =>
      obtain ⟨s, l, e⟩ := ih fun z hz => hY z (by simp [hz])
      have hy := hY y (by simp)
      have hi := inv_run (P := P) mu ms (x₀ :: Y)
      rw [← List.cons_append, learnMany_snoc]
      generalize (DynU.new P mu ms).learnMany (x₀ :: Y) = E at *
      have hall : hasAll x₀.keys y := fun k hk => (hy k).2 hk
      have hsv : E.survivors y = [(0, ⟨x₀.keys, 0, l + 1, wrapped P _ ((x₀ :: Y ++ [y]).map (rowOf x₀.keys))⟩)] := by
        unfold DynU.survivors
        rw [e, List.map_singleton]
        have ht : touch y ((0 : ℕ), (⟨x₀.keys, s, l, wrapped P _ ((x₀ :: Y).map (rowOf x₀.keys))⟩ : Universe P Key)) =
            (0, ⟨x₀.keys, 0, l + 1, wrapped P _ ((x₀ :: Y ++ [y]).map (rowOf x₀.keys))⟩) := by
          unfold touch
          rw [if_pos ((Universe.within_iff (P := P) ⟨x₀.keys, s, l, wrapped P _ ((x₀ :: Y).map (rowOf x₀.keys))⟩ y.keys).2 hall), List.map_append, List.map_singleton, wrapped_snoc]
          rfl
        rw [ht, List.filter_singleton, hi.ems]
        have : decide (((0 : ℕ) : ℤ) ≤ ms) = true := by simpa using hms
        simp only [this, cond_true]
      refine ⟨0, l + 1, ?_⟩
      obtain ⟨-, -, -, (⟨-, e', -⟩ | ⟨hnew, -, -⟩)⟩ := update_cases E y
      · rw [e', hsv]
      · exfalso
        refine hnew _ (by rw [hsv]; exact List.mem_singleton.2 rfl) ?_
        intro k; exact (hy k).symm
  obtain ⟨s, l, e⟩ := hst X hsame
  refine ⟨⟨_, e, rfl⟩, fun c hc => ?_⟩
  have hi : Inv mu ms (x₀ :: X) D := inv_run (P := P) mu ms (x₀ :: X)
  have hkeys : SameSet x.keys x₀.keys := by
    have : x ∈ x₀ :: X := List.mem_of_getLast? hlast
    rcases List.mem_cons.1 this with rfl | h
    · exact fun k => Iff.rfl
    · exact hsame x h
  -- every pair is known
  have hpos : ∀ a : Fin x.keys.length, ∃ i : Fin x₀.keys.length, x₀.keys.get i = x.keys.get a := fun a =>
    List.get_of_mem ((hkeys _).1 (List.get_mem _ a))
  choose pos hpos using hpos
  have hpv : ∀ a b, D.pairValue (x.keys.get a) (x.keys.get b) = some (c (pos a) (pos b)) := by
    intro a b
    have ht : Tells (⟨x₀.keys, s, l, wrapped P _ ((x₀ :: X).map (rowOf x₀.keys))⟩ : Universe P Key) (x.keys.get a) (x.keys.get b) (c (pos a) (pos b)) :=
      ⟨c, pos a, pos b, hc, hpos a, hpos b, rfl⟩
    have hcand : D.candidates (x.keys.get a) (x.keys.get b) = [(0, ⟨x₀.keys, s, l, wrapped P _ ((x₀ :: X).map (rowOf x₀.keys))⟩)] := by
      have h1 : (D.candidates (x.keys.get a) (x.keys.get b)).Sublist [(0, ⟨x₀.keys, s, l, wrapped P _ ((x₀ :: X).map (rowOf x₀.keys))⟩)] := by
        rw [← e]; exact List.filter_sublist
      have h2 : (0, (⟨x₀.keys, s, l, wrapped P _ ((x₀ :: X).map (rowOf x₀.keys))⟩ : Universe P Key)) ∈ D.candidates (x.keys.get a) (x.keys.get b) :=
        mem_candidates.2 ⟨by show _ ∈ ((DynU.new P mu ms).learnMany (x₀ :: X)).states; rw [e]; exact List.mem_singleton.2 rfl, _, ht⟩
      exact h1.eq_of_length_le (by have := List.length_pos_of_mem h2; rw [List.length_singleton]; exact this)
    unfold DynU.pairValue
    rw [hcand]
    show Option.bind (some _) _ = _
    rw [Option.bind_some]
    exact pairValue_of_tells x₀.nodup ht
  have hall : D.covArray L .all = D.covArray L (.list x.keys) := by
    unfold DynU.covArray DynU.resolveKeys
    have : D.x = some x := hi.last.trans hlast
    rw [this]
  have hM : (Matrix.of fun a b => (D.pairValue (x.keys.get a) (x.keys.get b)).getD (offDiagMean fun a b => D.pairValue (x.keys.get a) (x.keys.get b)) :
      Matrix (Fin x.keys.length) (Fin x.keys.length) ℝ) = Matrix.of fun a b => c (pos a) (pos b) := by
    ext a b; simp only [Matrix.of_apply, hpv, Option.getD_some]
  have hcov := covArray_list L D (ks := x.keys) x.nodup
  rw [hM] at hcov
  refine ⟨⟨x.keys, Matrix.of fun a b => c (pos a) (pos b)⟩, rfl, ?_, by rw [hall]; exact hcov, fun hpd => ?_⟩
  · intro i j a b h1 h2
    have inj : ∀ i j : Fin x₀.keys.length, x₀.keys.get i = x₀.keys.get j → i = j := fun i j h => x₀.nodup.get_inj_iff.1 h
    show c (pos a) (pos b) = c i j
    rw [inj i (pos a) (h1.trans (hpos a).symm), inj j (pos b) (h2.trans (hpos b).symm)]
  · rw [hall, hcov]
    have hpinj : Function.Injective pos := by
      intro a b h
      have : x.keys.get a = x.keys.get b := by rw [← hpos a, ← hpos b, h]
      exact x.nodup.get_inj_iff.1 this
    have hpd' : PD (Matrix.of fun a b => c (pos a) (pos b) : Matrix (Fin x.keys.length) (Fin x.keys.length) ℝ) :=
      hpd.submatrix_inj pos hpinj
    have := nearestPosDef_id L (a := Matrix.of fun a b => c (pos a) (pos b)) (by rw [toSymmetric_of_symm hpd'.1]; exact hpd')
    rw [this, toSymmetric_of_symm hpd'.1]

/-! ### Non-vacuity and the starvation witness -/

theorem one_universe (mu ms : ℤ) (hmu : 1 ≤ mu) (x : KDict Key) :
    ((DynU.new P mu ms).learnMany [x]).states = [(0, (Universe.fresh P x.keys).update x)] := by
  show ((DynU.new P mu ms).update x).states = _
  obtain ⟨-, -, -, (⟨⟨nu, hn, -⟩, -, -⟩ | ⟨-, -, (⟨hl, -⟩ | ⟨-, e⟩)⟩)⟩ := update_cases (DynU.new P mu ms) x
  · cases hn
  · exfalso
    change mu < ((0 + 1 : ℕ) : ℤ) at hl
    omega
  · rw [e]; rfl

/-- C47, the starvation witness: `max_universes=1`, one observation of `A` alone, then any number of complete
observations of `A` and `B`. Whatever the data, `cov_array(["A", "B"])` never learns anything about `B`: before the
projection its variance and covariance are 0. -/
theorem C47_starvation_witness (L : Lapack) (ms : ℤ) (hms : 0 ≤ ms) (x : KDict String) (hx : x.keys = ["A"]) (Y : List (KDict String))
    (hY : ∀ y ∈ Y, SameSet y.keys ["A", "B"]) :
    ∃ v : ℝ, ((DynU.new P 1 ms).learnMany ([x] ++ Y)).covArray L (.list ["A", "B"]) =
      .ok ⟨["A", "B"], nearestPosDef L (Matrix.of fun a b : Fin 2 => if a = 0 ∧ b = 0 then v else 0)⟩ := by
  have h1 := one_universe (P := P) 1 ms le_rfl x
  obtain ⟨hst, -⟩ := C47_starvation (P := P) 1 ms hms [x] ["A", "B"] Y (by rw [h1]; simp) (by
    rw [h1]
    intro nu hn
    rw [List.mem_singleton] at hn
    subst hn
    show (∀ k ∈ x.keys, _) ∧ ¬ SameSet x.keys _
    rw [hx]
    refine ⟨by simp, fun h => ?_⟩
    have := (h "B").2 (by simp)
    simp at this) hY
  rw [h1] at hst
  have hkeys : ∀ nu ∈ ((DynU.new P 1 ms).learnMany ([x] ++ Y)).states, nu.2.keys = ["A"] := by
    intro nu hn
    have : (nu.1, nu.2.keys) ∈ ((DynU.new P 1 ms).learnMany ([x] ++ Y)).states.map (fun nu => (nu.1, nu.2.keys)) := List.mem_map.2 ⟨nu, hn, rfl⟩
    rw [hst] at this
    simp only [List.map_singleton, List.mem_singleton, Prod.mk.injEq] at this
    rw [this.2]; exact hx
  obtain ⟨M, hM, hc, -⟩ := C48_assembly (P := P) L 1 ms ([x] ++ Y) ["A", "B"] (by decide)
  have hnone : ∀ a b : Fin 2, (a = 1 ∨ b = 1) → M a b = none := by
    intro a b hab
    have h := hM a b
    rcases hm : M a b with _ | v
    · rfl
    · rw [hm] at h
      obtain ⟨nu, hn, ⟨c, i, j, -, hi, hj, -⟩, -⟩ := h
      have hB : "B" ∈ nu.2.keys := by
        rcases hab with rfl | rfl
        · have : nu.2.keys.get i = "B" := hi
          rw [← this]; exact List.get_mem _ _
        · have : nu.2.keys.get j = "B" := hj
          rw [← this]; exact List.get_mem _ _
      rw [hkeys nu hn] at hB
      simp at hB
  have hfill : offDiagMean M = 0 := by
    unfold offDiagMean
    simp only []
    rw [if_pos]
    rw [Finset.filter_eq_empty_iff]
    rintro ⟨a, b⟩ - ⟨hne, hs⟩
    have : a = 1 ∨ b = 1 := by
      change Fin 2 at a b
      simp only [] at hne
      have ha := a.2; have hb := b.2
      by_contra h
      push Not at h
      exact hne (Fin.ext (by have := Fin.val_ne_of_ne h.1; have := Fin.val_ne_of_ne h.2; simp at *; omega))
    rw [hnone a b this] at hs
    simp at hs
  refine ⟨(M 0 0).getD 0, ?_⟩
  rw [hc, hfill]
  congr 3
  ext a b
  simp only [Matrix.of_apply]
  change Fin 2 at a b
  by_cases h : a = 0 ∧ b = 0
  · rw [if_pos h, h.1, h.2]
  · rw [if_neg h, hnone a b (by
      by_contra h'
      push Not at h'
      apply h
      constructor <;> apply Fin.ext
      · have := Fin.val_ne_of_ne h'.1; have := a.2; simp at *; omega
      · have := Fin.val_ne_of_ne h'.2; have := b.2; simp at *; omega)]
    rfl

/-- Four observations of `a` and `b`, in alternating item order, with covariance [[2, 1], [1, 1]]. -/
noncomputable def demoStable : List (KDict String) :=
  [⟨[("b", -1), ("a", -2)], by decide⟩, ⟨[("a", 0), ("b", 1)], by decide⟩, ⟨[("b", -1), ("a", 0)], by decide⟩]

/-- C46's hypotheses are met, with a positive definite covariance, by EmpiricalCovariance on `demoStable`. -/
example (L : Lapack) : let x₀ : KDict String := ⟨[("a", 2), ("b", 1)], by decide⟩
    (∃ x, (x₀ :: demoStable).getLast? = some x ∧ x.keys = ["b", "a"]) ∧ (∀ y ∈ demoStable, SameSet y.keys x₀.keys) ∧
    ∃ c : Matrix (Fin 2) (Fin 2) ℝ, (wrapped empProto x₀.keys.length ((x₀ :: demoStable).map (rowOf x₀.keys))).covariance = .ok c ∧ PD c := by
  intro x₀
  refine ⟨⟨_, rfl, rfl⟩, ?_, ?_⟩
  · intro y hy
    simp only [demoStable, List.mem_cons, List.not_mem_nil, or_false] at hy
    rcases hy with rfl | rfl | rfl <;> intro k <;> simp [KDict.keys, x₀, or_comm]
  · have e : (x₀ :: demoStable).map (rowOf x₀.keys) = demoRows := by
      unfold demoStable demoRows
      simp only [List.map_cons, List.map_nil]
      congr 1
      · funext i; change Fin 2 at i; fin_cases i <;> simp [rowOf, KDict.get?, KDict.keys, x₀, List.lookup]
      · congr 1
        · funext i; change Fin 2 at i; fin_cases i <;> simp [rowOf, KDict.get?, KDict.keys, x₀, List.lookup]
        · congr 1
          · funext i; change Fin 2 at i; fin_cases i <;> simp [rowOf, KDict.get?, KDict.keys, x₀, List.lookup]
          · congr 1
            funext i; change Fin 2 at i; fin_cases i <;> simp [rowOf, KDict.get?, KDict.keys, x₀, List.lookup]
    refine ⟨covOf demoRows, ?_, ?_⟩
    · have := (empProto_cov (d := 2) demoRows (by simp [demoRows])).1
      rw [← e] at this ⊢
      exact this
    · have hc : covOf demoRows = !![2, 1; 1, 1] := by
        ext i j
        fin_cases i <;> fin_cases j <;> simp [covOf, meanOf, demoRows] <;> norm_num
      rw [hc]
      refine ⟨fun i j => by fin_cases i <;> fin_cases j <;> rfl, fun v hv => ?_⟩
      have : quad !![(2:ℝ), 1; 1, 1] v = v 0 * v 0 + (v 0 + v 1) * (v 0 + v 1) := by
        simp [quad, dotProduct, mulVec, Fin.sum_univ_two]; ring
      rw [this]
      by_contra hle
      push Not at hle
      have h0 : v 0 = 0 := by nlinarith [mul_self_nonneg (v 0), mul_self_nonneg (v 0 + v 1)]
      have h1 : v 1 = 0 := by nlinarith [mul_self_nonneg (v 0), mul_self_nonneg (v 0 + v 1)]
      exact hv (by funext i; fin_cases i <;> simp [h0, h1])

/-- C44/C45/C47 are about tables with several universes: here two are live, one of them stale. -/
example (x y : KDict String) (hx : x.keys = ["a", "b"]) (hy : y.keys = ["b", "c"]) :
    ∃ u v, ((DynU.new P 10 50).learnMany ([x] ++ [y])).states = [(0, u), (1, v)] ∧ u.staleness = 1 ∧ v.staleness = 0 ∧ u.keys = x.keys ∧ v.keys = y.keys := by
  have h1 := one_universe (P := P) 10 50 (by norm_num) x
  have hk : ((Universe.fresh P x.keys).update x).keys = ["a", "b"] := hx
  rw [learnMany_snoc]
  have hi := inv_run (P := P) 10 50 [x]
  have hcnt : ((DynU.new P 10 50).learnMany [x]).counter = 1 := rfl
  have hs : ((DynU.new P 10 50).learnMany [x]).survivors y = [(0, { (Universe.fresh P x.keys).update x with staleness := 1 })] := by
    unfold DynU.survivors
    rw [h1, List.map_singleton]
    have : touch y (0, (Universe.fresh P x.keys).update x) = (0, { (Universe.fresh P x.keys).update x with staleness := 1 }) := by
      unfold touch
      rw [if_neg]
      · rfl
      · rw [Universe.within_iff]
        intro h
        have := h "a" (by rw [hk]; simp)
        rw [hy] at this
        simp at this
    rw [this, List.filter_singleton, hi.ems]
    rfl
  obtain ⟨-, -, -, (⟨⟨nu, hn, hk'⟩, -, -⟩ | ⟨-, -, (⟨hl, -⟩ | ⟨-, e⟩)⟩)⟩ := update_cases ((DynU.new P 10 50).learnMany [x]) y
  · rw [hs, List.mem_singleton] at hn
    subst hn
    have : SameSet x.keys y.keys := hk'
    have := (this "a").1 (by rw [hx]; simp)
    rw [hy] at this; simp at this
  · rw [hs, hi.emu] at hl; simp at hl
  · rw [e, hs]
    exact ⟨{ (Universe.fresh P x.keys).update x with staleness := 1 }, ((Universe.fresh P y.keys).update y), rfl, rfl, rfl, rfl, rfl⟩

end Precise
