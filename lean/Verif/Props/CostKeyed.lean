import Verif.Model.CostKeyed
import Verif.Props.DynUniverse
import Verif.Props.CostMore

/-!
# C124, continued: `DynamicUniverse`

However many key sets a stream has shown, one observation costs at most `max_universes + 1` updates of the wrapped estimator, each on at
most as many variables as the observation has keys.
-/

set_option linter.all false

namespace Precise

open Spec DynU

variable {Key : Type} [DecidableEq Key] {P : Proto}

theorem dynUpdateT_val (c : ℕ → ℕ) (D : DynU P Key) (x : KDict Key) : (D.updateT c x).val = D.update x := by
  have ht : ∀ nu : ℕ × Universe P Key, (touchT c x nu).val = touch x nu := by
    intro nu
    unfold touchT touch
    split <;> rfl
  unfold DynU.updateT DynU.update survivors
  simp only [Tick.val_bind, Tick.list, ht]
  split <;> rfl

/-- C124: after any stream, one `update` of a `DynamicUniverse` costs at most `max_universes + 1` updates of the wrapped estimator on as
many variables as the observation has keys. `c d` is the cost of one update on `d` variables: at least one, and not smaller for more
variables. -/
theorem C124_dynamic (c : ℕ → ℕ) (hc : Monotone c) (h1 : ∀ d, 1 ≤ c d) (mu ms : ℤ) (X : List (KDict Key)) (x : KDict Key) :
    let D := (DynU.new P mu ms).learnMany X
    (D.updateT c x).val = D.update x ∧ (D.updateT c x).ops ≤ (mu.toNat + 1) * c x.keys.length := by
  intro D
  refine ⟨dynUpdateT_val c D x, ?_⟩
  have hinv := inv_run (P := P) mu ms X
  have hlen : D.states.length ≤ mu.toNat := by
    have := (C44_bounds (P := P) mu ms X).1
    have : (D.states.length : ℤ) ≤ max mu 0 := this
    omega
  have hone : ∀ nu ∈ D.states, (touchT c x nu).ops ≤ c x.keys.length := by
    intro nu hn
    unfold touchT
    split
    · rename_i hw
      have hnd := (tracks_longevity (hinv.tracks nu hn)).2
      refine hc (List.Subperm.length_le (List.subperm_of_subset hnd fun k hk => ?_))
      have := List.all_eq_true.1 hw k hk
      simpa using this
    · exact h1 _
  have hsum : (D.states.map fun a => (touchT c x a).ops).sum ≤ mu.toNat * c x.keys.length := by
    refine (List.sum_le_card_nsmul _ (c x.keys.length) ?_).trans ?_
    · intro n hn
      obtain ⟨a, ha, rfl⟩ := List.mem_map.1 hn
      exact hone a ha
    · rw [List.length_map, smul_eq_mul]
      exact Nat.mul_le_mul_right _ hlen
  unfold DynU.updateT
  simp only [Tick.ops_bind, Tick.list]
  split
  · simp only [Tick.ops_pure]; linarith
  · simp only [Tick.ops_bind, Tick.ops_pure]; linarith

/-- Non-vacuity: wrapping an estimator with the cost of EwaCovariance, with the default `max_universes=10`, an observation of three
keys costs at most 605 operations of the wrapped estimators, whatever came before. -/
example (X : List (KDict String)) (x : KDict String) (hx : x.keys.length = 3) :
    ((((DynU.new P 10 50).learnMany X).updateT (fun d => 4 * d ^ 2 + 5 * d + 4) x)).ops ≤ 605 := by
  have := (C124_dynamic (P := P) (fun d => 4 * d ^ 2 + 5 * d + 4) (fun a b h => by dsimp only; gcongr) (fun d => by omega) 10 50 X x).2
  rw [hx] at this
  exact this

end Precise
