import Verif.Model.Oos
import Verif.Spec.Rank
import Mathlib.Data.List.Nodup
import Mathlib.Algebra.BigOperators.Group.List.Basic
import Mathlib.Tactic.Ring
import Mathlib.Tactic.FieldSimp
import Mathlib.Tactic.Linarith

/-! Stable sorting and ranks. -/

set_option linter.all false

namespace Precise.Oos

open Spec

/-- In a list pairwise related by an asymmetric relation, the position of an element is the number of its predecessors. -/
theorem idxOf_eq_countP {α : Type} [DecidableEq α] (R : α → α → Bool) (irr : ∀ a, R a a = false)
    (asymm : ∀ a b, R a b = true → R b a = false) (s : List α) (h : s.Pairwise fun a b => R a b = true) (x : α) (hx : x ∈ s) :
    s.idxOf x = s.countP fun y => R y x := by
  induction s with
  | nil => cases hx
  | cons a t ih =>
    rw [List.pairwise_cons] at h
    by_cases hax : a = x
    · subst hax
      rw [List.idxOf_cons_self, List.countP_cons, irr]
      have : t.countP (fun y => R y a) = 0 := by
        rw [List.countP_eq_zero]
        intro y hy
        rw [asymm _ _ (h.1 y hy)]
        simp
      rw [this]; simp
    · have hxt : x ∈ t := by simpa [Ne.symm hax] using hx
      rw [List.idxOf_cons_ne _ hax, ih h.2 hxt, List.countP_cons, h.1 x hxt]
      simp

theorem pair_sublist_of_idxOf_lt {α : Type} [DecidableEq α] (l : List α) (x y : α) (hy : y ∈ l) (h : l.idxOf x < l.idxOf y) :
    [x, y].Sublist l := by
  induction l with
  | nil => cases hy
  | cons a t ih =>
    by_cases ha : a = x
    · subst ha
      have : y ≠ a := by
        rintro rfl
        exact lt_irrefl _ h
      have hyt : y ∈ t := by simpa [this] using hy
      exact List.Sublist.cons_cons a (List.singleton_sublist.2 hyt)
    · by_cases hay : a = y
      · subst hay; simp at h
      · have hyt : y ∈ t := by simpa [Ne.symm hay] using hy
        rw [List.idxOf_cons_ne _ ha, List.idxOf_cons_ne _ hay] at h
        exact (ih hyt (by omega)).cons a

theorem stable_pairwise {α β : Type} [DecidableEq α] [LinearOrder β] (l : List α) (hl : l.Nodup) (f : α → β) :
    (l.mergeSort fun a b => decide (f b ≤ f a)).Pairwise
      fun y x => decide (f x < f y ∨ (f y = f x ∧ l.idxOf y < l.idxOf x)) = true := by
  have tr : ∀ a b c : α, decide (f b ≤ f a) = true → decide (f c ≤ f b) = true → decide (f c ≤ f a) = true := by
    intro a b c h1 h2
    rw [decide_eq_true_eq] at *
    exact h2.trans h1
  have tot : ∀ a b : α, (decide (f b ≤ f a) || decide (f a ≤ f b)) = true := by
    intro a b
    rcases le_total (f b) (f a) with h | h <;> simp [h]
  have srt := List.pairwise_mergeSort tr tot l
  have hnd : (l.mergeSort fun a b => decide (f b ≤ f a)).Nodup := (List.mergeSort_perm l _).nodup_iff.2 hl
  rw [List.pairwise_iff_forall_sublist] at *
  intro y x hsub
  have hle : f x ≤ f y := by simpa using srt hsub
  rw [decide_eq_true_eq]
  rcases hle.lt_or_eq with h | h
  · exact Or.inl h
  · refine Or.inr ⟨h.symm, ?_⟩
    have hyx : y ≠ x := by
      have := hnd.sublist hsub
      simpa using this
    have hxl : x ∈ l := (List.mergeSort_perm l _).mem_iff.1 (hsub.subset (by simp))
    have hyl : y ∈ l := (List.mergeSort_perm l _).mem_iff.1 (hsub.subset (by simp))
    by_contra hcon
    have hlt : l.idxOf x < l.idxOf y := by
      rcases lt_or_eq_of_le (not_lt.1 hcon) with h' | h'
      · exact h'
      · exact absurd ((List.idxOf_inj hxl).1 h') hyx.symm
    have hs2 := List.pair_sublist_mergeSort tr tot (a := x) (b := y) (l := l) (by rw [decide_eq_true_eq]; exact h.ge) (pair_sublist_of_idxOf_lt l x y hyl hlt)
    -- both orders in a nodup list
    have idx : ∀ a b : α, [a, b].Sublist (l.mergeSort fun a b => decide (f b ≤ f a)) →
        (l.mergeSort fun a b => decide (f b ≤ f a)).idxOf a < (l.mergeSort fun a b => decide (f b ≤ f a)).idxOf b := by
      generalize (l.mergeSort fun a b => decide (f b ≤ f a)) = s at hnd ⊢
      intro a b hab
      induction s with
      | nil => simp at hab
      | cons c t ih =>
        rw [List.nodup_cons] at hnd
        have hne : a ≠ b := by
          have := (List.nodup_cons.2 hnd).sublist hab
          simpa using this
        cases hab with
        | cons _ h' =>
          have ha : a ∈ t := h'.subset (by simp)
          have hb : b ∈ t := h'.subset (by simp)
          rw [List.idxOf_cons_ne _ (by rintro rfl; exact hnd.1 ha), List.idxOf_cons_ne _ (by rintro rfl; exact hnd.1 hb)]
          have := ih hnd.2 h'
          omega
        | cons_cons _ h' =>
          rw [List.idxOf_cons_self, List.idxOf_cons_ne _ hne]
          omega
    exact absurd (idx y x hsub) (not_lt.2 (idx x y hs2).le)

theorem idxOf_stable {α β : Type} [DecidableEq α] [LinearOrder β] (l : List α) (hl : l.Nodup) (f : α → β) (x : α) (hx : x ∈ l) :
    (l.mergeSort fun a b => decide (f b ≤ f a)).idxOf x
      = l.countP (fun y => decide (f x < f y)) + l.countP (fun y => decide (f y = f x ∧ l.idxOf y < l.idxOf x)) := by
  rw [idxOf_eq_countP (fun y x => decide (f x < f y ∨ (f y = f x ∧ l.idxOf y < l.idxOf x))) (by simp)
    (by
      intro a b h
      rw [decide_eq_true_eq] at h
      rw [decide_eq_false_iff_not]
      rintro (h' | ⟨h1, h2⟩)
      · rcases h with h | ⟨h, _⟩
        · exact absurd h (not_lt.2 h'.le)
        · exact absurd h (ne_of_gt h').symm
      · rcases h with h | ⟨_, h⟩
        · exact absurd h1 (ne_of_lt h)
        · omega)
    _ (stable_pairwise l hl f) x ((List.mergeSort_perm l _).mem_iff.2 hx),
    (List.mergeSort_perm l _).countP_eq]
  clear hl hx
  -- split the disjunction
  generalize l.idxOf x = ix
  generalize hI : (fun y => l.idxOf y) = I
  have hI' : ∀ y, l.idxOf y = I y := fun y => congrFun hI y
  simp only [hI']
  clear hI hI'
  induction l with
  | nil => rfl
  | cons a t ih =>
    rw [List.countP_cons, List.countP_cons, List.countP_cons, ih]
    have e1 : decide (f x < f a ∨ f a = f x ∧ I a < ix) = (decide (f x < f a) || decide (f a = f x ∧ I a < ix)) := by
      rw [Bool.decide_or]
    rw [e1]
    by_cases h1 : f x < f a
    · have h2 : ¬ (f a = f x ∧ I a < ix) := fun h => absurd h.1 (ne_of_gt h1)
      rw [decide_eq_true h1, decide_eq_false h2]
      simp only [Bool.or_false, if_true]
      simp
      omega
    · rw [decide_eq_false h1]
      simp only [Bool.false_or]
      simp
      omega

variable {s : Scores}

theorem getScore_mem (hn : (s.map Prod.fst).Nodup) {e : String × WithBot ℝ} (he : e ∈ s) : getScore s e.1 = e.2 := by
  unfold getScore
  induction s with
  | nil => cases he
  | cons a t ih =>
    obtain ⟨a, b⟩ := a
    rw [List.map_cons, List.nodup_cons] at hn
    rcases List.mem_cons.1 he with rfl | he
    · simp [List.lookup]
    · have : e.1 ≠ a := by
        intro h; apply hn.1; rw [← h]; exact List.mem_map.2 ⟨e, he, rfl⟩
      simp only [List.lookup, beq_eq_false_iff_ne.2 this]
      exact ih hn.2 he

theorem lookup_ranks (o : List String) (k : String) (hk : k ∈ o) (n : ℕ) :
    ((o.zipIdx n).map fun e => (e.1, e.2 + 1)).lookup k = some (n + o.idxOf k + 1) := by
  induction o generalizing n with
  | nil => cases hk
  | cons a t ih =>
    rw [List.zipIdx_cons, List.map_cons]
    by_cases h : k = a
    · subst h; simp [List.lookup]
    · simp only [List.lookup, beq_eq_false_iff_ne.2 h]
      rw [ih (by simpa [h] using hk), List.idxOf_cons_ne _ (Ne.symm h)]
      congr 1; omega

theorem countP_lt_idxOf (s : Scores) (hn : (s.map Prod.fst).Nodup) (k : String) (hk : k ∈ s.map Prod.fst) (P : String → Bool) :
    (s.map Prod.fst).countP (fun y => P y && decide ((s.map Prod.fst).idxOf y < (s.map Prod.fst).idxOf k))
      = (s.takeWhile fun e => decide (e.1 ≠ k)).countP (fun e => P e.1) := by
  induction s with
  | nil => rfl
  | cons a t ih =>
    rw [List.map_cons, List.nodup_cons] at hn
    by_cases h : a.1 = k
    · subst h
      have : ∀ y, ((a.1 :: t.map Prod.fst).idxOf y < (a.1 :: t.map Prod.fst).idxOf a.1) = False := by
        intro y; simp
      simp only [List.map_cons, this]
      simp [List.takeWhile_cons]
    · have hk' : k ∈ t.map Prod.fst := by
        rw [List.map_cons, List.mem_cons] at hk
        exact hk.resolve_left (Ne.symm h)
      rw [List.takeWhile_cons, if_pos (by simpa using h), List.countP_cons, List.map_cons, List.countP_cons]
      rw [← ih hn.2 hk']
      congr 1
      · refine List.countP_congr fun y hy => ?_
        have hya : a.1 ≠ y := by rintro rfl; exact hn.1 hy
        rw [List.idxOf_cons_ne _ hya, List.idxOf_cons_ne _ h]
        simp
      · rw [List.idxOf_cons_self, List.idxOf_cons_ne _ h]
        simp

/-- The rank the program assigns is the rank of the specification. -/
theorem ranks_lookup (s : Scores) (hn : (s.map Prod.fst).Nodup) (k : String) (hk : k ∈ s.map Prod.fst) :
    (ranks s).lookup k = some (rankIn s k) := by
  have hko : k ∈ order s := (List.mergeSort_perm _ _).mem_iff.2 hk
  unfold ranks
  rw [lookup_ranks _ k hko]
  congr 1
  unfold order
  rw [idxOf_stable _ hn (getScore s) k hk]
  have e1 : (s.map Prod.fst).countP (fun y => decide (getScore s k < getScore s y)) = s.countP (fun e => decide (getScore s k < e.2)) := by
    rw [List.countP_map]
    exact List.countP_congr fun e he => by simp [getScore_mem hn he]
  have e2 : (s.map Prod.fst).countP (fun y => decide (getScore s y = getScore s k ∧ (s.map Prod.fst).idxOf y < (s.map Prod.fst).idxOf k))
      = (s.takeWhile fun e => decide (e.1 ≠ k)).countP (fun e => decide (e.2 = getScore s k)) := by
    have := countP_lt_idxOf s hn k hk (fun y => decide (getScore s y = getScore s k))
    simp only [← Bool.decide_and] at this
    rw [this]
    exact List.countP_congr fun e he => by simp [getScore_mem hn ((List.takeWhile_sublist _).subset he)]
  rw [e1, e2]
  unfold rankIn getScore
  omega

theorem ranks_keys (s : Scores) : (ranks s).map Prod.fst = order s := by
  unfold ranks
  rw [List.map_map]
  exact List.zipIdx_map_fst 0 (order s)

theorem rankIn_bounds (s : Scores) (hn : (s.map Prod.fst).Nodup) (k : String) (hk : k ∈ s.map Prod.fst) :
    1 ≤ rankIn s k ∧ rankIn s k ≤ s.length := by
  refine ⟨by unfold rankIn; omega, ?_⟩
  have h := ranks_lookup s hn k hk
  have hko : k ∈ order s := (List.mergeSort_perm _ _).mem_iff.2 hk
  unfold ranks at h
  rw [lookup_ranks _ k hko] at h
  have hlt := List.idxOf_lt_length_of_mem hko
  have hl : (order s).length = s.length := by rw [order, List.length_mergeSort, List.length_map]
  injection h with h
  omega

end Precise.Oos
