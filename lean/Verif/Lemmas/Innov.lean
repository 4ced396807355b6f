import Verif.Lemmas.Recency
import Verif.Lemmas.Reduce
import Mathlib.Data.List.GetD

/-! Recursions along a stream that average over a burn-in and then forget exponentially: closed forms. -/

set_option linter.all false

open Matrix

namespace Precise

open Spec

section
variable {α K : Type} [Field K] [LinearOrder K] [IsStrictOrderedRing K]

theorem range_map_getD (xs : List α) (d : α) (t : ℕ) (ht : t ≤ xs.length) :
    (List.range t).map (fun k => xs.getD k d) = xs.take t := by
  apply List.ext_getElem
  · simp [ht]
  · intro n h1 h2
    simp only [List.length_map, List.length_range] at h1
    have : n < xs.length := by omega
    simp [List.getD_eq_getElem?_getD, this]

theorem closed_of_step (r : K) (b : ℕ) (hb : 1 ≤ b) (T : List α → K) (q : List α → α → K)
    (h1 : ∀ xs x, xs.length + 1 ≤ b → T (xs ++ [x]) = T xs + (q xs x - T xs) / ((xs.length + 1 : ℕ) : K))
    (h2 : ∀ xs x, b ≤ xs.length → T (xs ++ [x]) = (1 - r) * T xs + r * q xs x) (xs : List α) (hx : xs ≠ []) (d : α) :
    T xs = ∑ t ∈ Finset.range xs.length, recencyWeight r b xs.length t * q (xs.take t) (xs.getD t d) := by
  have key := recency_closed r b hb (fun n => T ((List.range n).map fun k => xs.getD k d))
    (fun n => q ((List.range n).map fun k => xs.getD k d) (xs.getD n d))
    (fun n hn => by
      simp only [List.range_succ, List.map_append, List.map_singleton]
      rw [h1 _ _ (by simpa using hn)]; simp)
    (fun n hn => by
      simp only [List.range_succ, List.map_append, List.map_singleton]
      rw [h2 _ _ (by simpa using hn)])
    xs.length (List.length_pos_of_ne_nil hx)
  simp only [range_map_getD xs d _ le_rfl, List.take_length] at key
  rw [key]
  refine Finset.sum_congr rfl fun t ht => ?_
  rw [range_map_getD xs d t (Finset.mem_range.1 ht).le]
end

section
variable {ι K : Type} [Fintype ι] [Field K] [LinearOrder K] [IsStrictOrderedRing K] [FloorRing K]

theorem ewaBurnN_ge (r : K) : 5 ≤ ewaBurnN r := by
  unfold ewaBurnN
  have : (5:ℤ) ≤ min 250 (max 5 ⌈1 / r⌉) := le_min (by norm_num) (le_max_left _ _)
  omega

/-- A recursion on squared innovations dominates the EWA quadratic form. -/
theorem ewa_le_scatter (r : K) (h0 : 0 ≤ r) (h1' : r ≤ 1) (u : ι → K) (T : List (ι → K) → K) (hT : T [] = 0)
    (h1 : ∀ xs x, xs.length + 1 ≤ ewaBurnN r → T (xs ++ [x]) = T xs + ((u ⬝ᵥ (x - (ewaFold r xs).mean)) ^ 2 - T xs) / ((xs.length + 1 : ℕ) : K))
    (h2 : ∀ xs x, ewaBurnN r ≤ xs.length → T (xs ++ [x]) = (1 - r) * T xs + r * (u ⬝ᵥ (x - (ewaFold r xs).mean)) ^ 2) (xs : List (ι → K)) :
    quad (ewaFold r xs).cov u ≤ T xs := by
  induction xs using List.reverseRecOn with
  | nil => rw [hT]; simp [ewaFold, ewaInit, empInit]
  | append_singleton xs x ih =>
    rw [ewaFold_snoc]
    by_cases hb : xs.length < ewaBurnN r
    · rw [h1 _ _ (by omega), ewaUpdate_burn (by rw [ewaFold_n, ewaFold_nBurn]; exact hb), empUpdate_cov, ewaFold_n, quad_add, quad_smul,
        quad_smul, quad_outer, dotProduct_comm]
      generalize (u ⬝ᵥ (x - (ewaFold r xs).mean)) = d
      generalize quad (ewaFold r xs).cov u = Q at *
      generalize T xs = t at *
      have hn : (0:K) ≤ (xs.length : K) := Nat.cast_nonneg _
      push_cast
      generalize (xs.length : K) = n at *
      have : t + (d ^ 2 - t) / (n + 1) - (n / (n + 1) * Q + n / (n + 1) ^ 2 * (d * d))
         = n / (n + 1) * (t - Q) + 1 / (n + 1) ^ 2 * d ^ 2 := by field_simp; ring
      have p1 : 0 ≤ n / (n + 1) * (t - Q) := mul_nonneg (by positivity) (by linarith)
      have p2 : 0 ≤ 1 / (n + 1) ^ 2 * d ^ 2 := by positivity
      linarith
    · rw [h2 _ _ (by omega), ewaUpdate_post (by rw [ewaFold_n, ewaFold_nBurn]; omega)]
      simp only [ewaBlend]
      rw [quad_add, quad_smul, quad_smul, quad_outer, ewaFold_r]
      have e : (fun i => x i - (ewaFold r xs).mean i) = x - (ewaFold r xs).mean := rfl
      rw [e, dotProduct_comm]
      have := mul_le_mul_of_nonneg_left ih (by linarith : (0:K) ≤ 1 - r)
      nlinarith [this]
end

end Precise
