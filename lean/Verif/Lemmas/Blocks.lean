import Verif.Model.Blocks
import Mathlib.Tactic.Ring
import Mathlib.Tactic.Linarith

/-! Arithmetic of contiguous blocks: `np.array_split` in closed form. -/

set_option linter.all false

namespace Precise

/-- start of block `k` -/
def bstart (p nb k : ℕ) : ℕ := k * (p / nb) + min k (p % nb)

theorem splitSizes_length (p nb : ℕ) (h : 1 ≤ nb) : (splitSizes p nb).length = nb := by
  have := Nat.mod_lt p (show nb > 0 by omega)
  simp [splitSizes]; omega

theorem scanl_sum_get (l : List ℕ) (a k : ℕ) (hk : k < (l.scanl (· + ·) a).length) :
    (l.scanl (· + ·) a)[k] = a + (l.take k).sum := by
  induction l generalizing a k with
  | nil => simp only [List.scanl_nil, List.length_singleton] at hk; obtain rfl : k = 0 := by omega
           simp
  | cons x l ih =>
    cases k with
    | zero => simp
    | succ k =>
      simp only [List.scanl_cons, List.getElem_cons_succ, List.take_succ_cons, List.sum_cons]
      rw [ih]
      omega

theorem take_sum_splitSizes (p nb k : ℕ) (h : 1 ≤ nb) (hk : k ≤ nb) : ((splitSizes p nb).take k).sum = bstart p nb k := by
  have hm := Nat.mod_lt p (show nb > 0 by omega)
  unfold splitSizes bstart
  rw [List.take_append, List.sum_append]
  simp only [List.take_replicate, List.sum_replicate, smul_eq_mul, List.length_replicate]
  by_cases hc : k ≤ p % nb
  · rw [min_eq_left hc, Nat.sub_eq_zero_of_le hc]; simp; ring
  · have e1 : min k (p % nb) = p % nb := by omega
    have e2 : min (k - p % nb) (nb - p % nb) = k - p % nb := by omega
    rw [e1, e2]
    obtain ⟨d, hd⟩ : ∃ d, k = p % nb + d := ⟨k - p % nb, by omega⟩
    rw [hd]
    simp
    ring

theorem divPoints_length (p nb : ℕ) (h : 1 ≤ nb) : (divPoints p nb).length = nb + 1 := by
  simp [divPoints, splitSizes_length p nb h]

theorem divPoints_get (p nb k : ℕ) (h : 1 ≤ nb) (hk : k < (divPoints p nb).length) : (divPoints p nb)[k] = bstart p nb k := by
  have hk' : k ≤ nb := by rw [divPoints_length p nb h] at hk; omega
  unfold divPoints at *
  rw [scanl_sum_get, take_sum_splitSizes p nb k h hk']
  simp

theorem slices_length (p nb : ℕ) (h : 1 ≤ nb) : (slices p nb).length = nb := by
  simp [slices, divPoints_length p nb h]

theorem slices_get (p nb k : ℕ) (h : 1 ≤ nb) (hk : k < (slices p nb).length) :
    (slices p nb)[k] = (bstart p nb k, bstart p nb (k + 1)) := by
  unfold slices at *
  rw [List.getElem_zip, List.getElem_tail, divPoints_get p nb k h, divPoints_get p nb (k+1) h]

theorem slices_getD (p nb k : ℕ) (h : 1 ≤ nb) (hk : k < nb) :
    (slices p nb).getD k (0, 0) = (bstart p nb k, bstart p nb (k + 1)) := by
  have hl : k < (slices p nb).length := by rw [slices_length p nb h]; exact hk
  rw [List.getD_eq_getElem?_getD, List.getElem?_eq_getElem hl, Option.getD_some, slices_get p nb k h]

theorem bstart_zero (p nb : ℕ) : bstart p nb 0 = 0 := by simp [bstart]

theorem bstart_last (p nb : ℕ) (h : 1 ≤ nb) : bstart p nb nb = p := by
  have hm := Nat.mod_lt p (show nb > 0 by omega)
  unfold bstart
  rw [min_eq_right hm.le]
  exact Nat.div_add_mod p nb

theorem bstart_succ (p nb k : ℕ) : bstart p nb (k + 1) = bstart p nb k + (if k < p % nb then p / nb + 1 else p / nb) := by
  unfold bstart
  split
  · rename_i h; rw [min_eq_left (show k + 1 ≤ p % nb by omega), min_eq_left h.le]; ring
  · rename_i h; rw [min_eq_right (show p % nb ≤ k + 1 by omega), min_eq_right (by omega)]; ring

theorem bstart_mono (p nb : ℕ) {k l : ℕ} (h : k ≤ l) : bstart p nb k ≤ bstart p nb l := by
  unfold bstart
  exact add_le_add (Nat.mul_le_mul_right _ h) (min_le_min_right _ h)

theorem bstart_lt (p nb k : ℕ) (h : 1 ≤ nb) (hp : nb ≤ p) : bstart p nb k < bstart p nb (k + 1) := by
  have : 1 ≤ p / nb := (Nat.one_le_div_iff (by omega)).2 hp
  rw [bstart_succ]; split <;> omega

/-- each variable lies in exactly one block -/
theorem exists_block (p nb i : ℕ) (h : 1 ≤ nb) (hi : i < p) : ∃ k < nb, bstart p nb k ≤ i ∧ i < bstart p nb (k + 1) := by
  have : ∀ m ≤ nb, i < bstart p nb m → ∃ k < m, bstart p nb k ≤ i ∧ i < bstart p nb (k + 1) := by
    intro m
    induction m with
    | zero => intro _ h; simp [bstart_zero] at h
    | succ m ih =>
      intro hm h
      by_cases hc : i < bstart p nb m
      · obtain ⟨k, hk, h'⟩ := ih (by omega) hc
        exact ⟨k, by omega, h'⟩
      · exact ⟨m, by omega, by omega, h⟩
  exact this nb le_rfl (by rw [bstart_last p nb h]; exact hi)

theorem block_unique (p nb i k l : ℕ) (hk : bstart p nb k ≤ i ∧ i < bstart p nb (k + 1)) (hl : bstart p nb l ≤ i ∧ i < bstart p nb (l + 1)) :
    k = l := by
  rcases lt_trichotomy k l with h | h | h
  · have := bstart_mono p nb (show k + 1 ≤ l by omega); omega
  · exact h
  · have := bstart_mono p nb (show l + 1 ≤ k by omega); omega

theorem foldl_assign {α : Type} (l : List α) (P : α → Prop) [DecidablePred P] (g : α → ℕ) (acc v : ℕ)
    (hv : ∀ a ∈ l, P a → g a = v) : (∃ a ∈ l, P a) → l.foldl (fun acc a => if P a then g a else acc) acc = v := by
  induction l using List.reverseRecOn with
  | nil => simp
  | append_singleton l a ih =>
    intro h
    rw [List.foldl_append]
    simp only [List.foldl_cons, List.foldl_nil]
    by_cases ha : P a
    · rw [if_pos ha]; exact hv a (by simp) ha
    · rw [if_neg ha]
      refine ih (fun b hb => hv b (by simp [hb])) ?_
      obtain ⟨b, hb, hpb⟩ := h
      rcases List.mem_append.1 hb with hb | hb
      · exact ⟨b, hb, hpb⟩
      · simp only [List.mem_singleton] at hb; subst hb; exact absurd hpb ha

/-- The block id of a variable is the number of the slice that contains it. -/
theorem blockId_eq (p nb i k : ℕ) (h : 1 ≤ nb) (hk : k < nb) (hb : bstart p nb k ≤ i ∧ i < bstart p nb (k + 1)) :
    blockId p nb i = k := by
  unfold blockId
  refine foldl_assign _ (fun s : (ℕ × ℕ) × ℕ => s.1.1 ≤ i ∧ i < s.1.2) (fun s => s.2) 0 k ?_ ?_
  · rintro ⟨⟨a, b⟩, j⟩ hm ⟨h1, h2⟩
    have := List.mem_zipIdx hm
    obtain ⟨-, hj, he⟩ := this
    simp only [Nat.zero_add, Nat.sub_zero] at hj he
    rw [slices_get p nb j h] at he
    simp only [Prod.mk.injEq] at he
    obtain ⟨rfl, rfl⟩ := he
    exact (block_unique p nb i k j hb ⟨h1, h2⟩).symm
  · have hl : k < (slices p nb).length := by rw [slices_length p nb h]; exact hk
    refine ⟨((slices p nb)[k], k), ?_, ?_⟩
    · rw [List.mem_zipIdx_iff_getElem?]; simp [List.getElem?_eq_getElem hl]
    · rw [slices_get p nb k h]; exact hb

theorem blockId_mem (p nb i : ℕ) (h : 1 ≤ nb) (hi : i < p) :
    blockId p nb i < nb ∧ bstart p nb (blockId p nb i) ≤ i ∧ i < bstart p nb (blockId p nb i + 1) := by
  obtain ⟨k, hk, hb⟩ := exists_block p nb i h hi
  rw [blockId_eq p nb i k h hk hb]
  exact ⟨hk, hb⟩

theorem blockId_iff (p nb i k : ℕ) (h : 1 ≤ nb) (hi : i < p) (hk : k < nb) :
    (((slices p nb).getD k (0, 0)).1 ≤ i ∧ i < ((slices p nb).getD k (0, 0)).2) ↔ blockId p nb i = k := by
  rw [slices_getD p nb k h hk]
  constructor
  · exact blockId_eq p nb i k h hk
  · rintro rfl; exact (blockId_mem p nb i h hi).2

theorem nbClamped_pos (n : ℤ) (p : ℕ) (hp : 1 ≤ p) : 1 ≤ nbClamped n p := by unfold nbClamped; omega
theorem nbClamped_le (n : ℤ) (p : ℕ) : nbClamped n p ≤ p := by unfold nbClamped; omega
theorem nbClamped_eq_schurNb (n : ℤ) (p : ℕ) (hn : 1 ≤ n) : nbClamped n p = schurNb n p := by unfold nbClamped schurNb; omega

end Precise
