import Verif.Spec.Recency
import Mathlib.Algebra.BigOperators.Intervals
import Mathlib.Algebra.BigOperators.Ring.Finset
import Mathlib.Tactic.FieldSimp
import Mathlib.Tactic.LinearCombination
import Mathlib.Tactic.Positivity
import Mathlib.Tactic.Linarith
import Mathlib.Tactic.Ring

set_option linter.all false

namespace Precise
open Spec

variable {K : Type} [Field K] [LinearOrder K] [IsStrictOrderedRing K]

theorem weight_step (r : K) (b n t : ℕ) (hn : b ≤ n) (ht : t < n) (hb : 1 ≤ b) :
    recencyWeight r b (n + 1) t = (1 - r) * recencyWeight r b n t := by
  unfold recencyWeight
  rw [if_neg (by omega)]
  by_cases h : n ≤ b
  · have : n = b := by omega
    subst this
    rw [if_pos le_rfl, if_pos ht, show n + 1 - n = 1 by omega, pow_one]; ring
  · rw [if_neg h]
    by_cases h2 : t < b
    · rw [if_pos h2, if_pos h2, show n + 1 - b = (n - b) + 1 by omega, pow_succ]; ring
    · rw [if_neg h2, if_neg h2, show n + 1 - 1 - t = (n - 1 - t) + 1 by omega, pow_succ]; ring

theorem weight_last (r : K) (b n : ℕ) (hn : b ≤ n) : recencyWeight r b (n + 1) n = r := by
  unfold recencyWeight
  rw [if_neg (by omega), if_neg (by omega), show n + 1 - 1 - n = 0 by omega, pow_zero, mul_one]

/-- A recursion that averages over the first `b` steps and then forgets with rate `r` is the weighted sum of its inputs. -/
theorem recency_closed (r : K) (b : ℕ) (hb : 1 ≤ b) (T q : ℕ → K)
    (h1 : ∀ n, n + 1 ≤ b → T (n + 1) = T n + (q n - T n) / ((n + 1 : ℕ) : K))
    (h2 : ∀ n, b ≤ n → T (n + 1) = (1 - r) * T n + r * q n) (n : ℕ) (hn : 1 ≤ n) :
    T n = ∑ t ∈ Finset.range n, recencyWeight r b n t * q t := by
  induction n with
  | zero => omega
  | succ n ih =>
    by_cases hnb : n + 1 ≤ b
    · rw [h1 n hnb]
      have e : ∀ t ∈ Finset.range (n + 1), recencyWeight r b (n + 1) t * q t = (1 / ((n + 1 : ℕ) : K)) * q t := by
        intro t _; unfold recencyWeight; rw [if_pos hnb]
      rw [Finset.sum_congr rfl e, ← Finset.mul_sum, Finset.sum_range_succ]
      have hne : ((n + 1 : ℕ) : K) ≠ 0 := by exact_mod_cast Nat.succ_ne_zero n
      rcases Nat.eq_zero_or_pos n with rfl | hp
      · simp
      · have ih' := ih hp
        have e2 : ∀ t ∈ Finset.range n, recencyWeight r b n t * q t = (1 / (n : K)) * q t := by
          intro t _; unfold recencyWeight; rw [if_pos (by omega)]
        rw [Finset.sum_congr rfl e2, ← Finset.mul_sum] at ih'
        have hn0 : (n : K) ≠ 0 := by exact_mod_cast hp.ne'
        have : ∑ t ∈ Finset.range n, q t = (n : K) * T n := by rw [ih']; field_simp
        rw [this]
        push_cast at hne ⊢
        field_simp; ring
    · push Not at hnb
      have hbn : b ≤ n := by omega
      rw [h2 n hbn, Finset.sum_range_succ, weight_last r b n hbn, ih (by omega), Finset.mul_sum]
      congr 1
      refine Finset.sum_congr rfl fun t ht => ?_
      rw [weight_step r b n t hbn (Finset.mem_range.1 ht) hb]; ring

theorem recencyWeight_nonneg {r : K} (h0 : 0 ≤ r) (h1 : r ≤ 1) (b n t : ℕ) : 0 ≤ recencyWeight r b n t := by
  have : 0 ≤ 1 - r := by linarith
  unfold recencyWeight
  split
  · positivity
  · split
    · positivity
    · positivity

theorem recencyWeight_sum (r : K) (b n : ℕ) (hb : 1 ≤ b) (hn : 1 ≤ n) : ∑ t ∈ Finset.range n, recencyWeight r b n t = 1 := by
  have := recency_closed r b hb (fun _ => 1) (fun _ => 1) (fun n _ => by simp) (fun n _ => by ring) n hn
  simpa using this.symm

end Precise
