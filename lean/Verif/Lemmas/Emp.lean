import Verif.Lemmas.State
import Verif.Lemmas.Matrix
import Verif.Spec.Stats
import Mathlib.Algebra.Order.Field.Basic
import Mathlib.Algebra.BigOperators.Ring.List
import Mathlib.Algebra.CharZero.Defs

/-! Welford's update computes the batch statistics. -/

set_option linter.all false

open Matrix

namespace Precise

open Spec

variable {ι K : Type}

section
variable [Field K] [CharZero K]

/-- the empirical state after a stream -/
def empFold (xs : List (ι → K)) : EmpState ι K := xs.foldl empUpdate empInit

theorem empFold_snoc (xs : List (ι → K)) (x : ι → K) : empFold (xs ++ [x]) = empUpdate (empFold xs) x := by
  simp [empFold]

theorem empFold_n (xs : List (ι → K)) : (empFold xs).nSamples = xs.length := by
  induction xs using List.reverseRecOn with
  | nil => rfl
  | append_singleton xs x ih => rw [empFold_snoc]; simp [ih]

theorem empFold_sums (xs : List (ι → K)) :
    (∀ i, (xs.length : K) * (empFold xs).mean i = (xs.map fun x => x i).sum) ∧
    (∀ i j, (xs.length : K) * ((empFold xs).cov i j + (empFold xs).mean i * (empFold xs).mean j)
      = (xs.map fun x => x i * x j).sum) := by
  induction xs using List.reverseRecOn with
  | nil => simp [empFold, empInit]
  | append_singleton xs x ih =>
    obtain ⟨h1, h2⟩ := ih
    rw [empFold_snoc]
    have hn := empFold_n xs
    have hne : ((xs.length : K) + 1) ≠ 0 := by exact_mod_cast Nat.succ_ne_zero xs.length
    constructor
    · intro i
      simp only [empUpdate, hn, List.length_append, List.length_singleton, List.map_append, List.map_cons,
        List.map_nil, List.sum_append, List.sum_singleton, ← h1 i]
      push_cast
      field_simp
      ring
    · intro i j
      simp only [empUpdate, hn, List.length_append, List.length_singleton, List.map_append, List.map_cons,
        List.map_nil, List.sum_append, List.sum_singleton, of_apply, ← h2 i j]
      push_cast
      field_simp
      ring

theorem empFold_mean {xs : List (ι → K)} (h : xs ≠ []) : (empFold xs).mean = meanOf xs := by
  ext i
  have hn : (xs.length : K) ≠ 0 := by exact_mod_cast (List.length_pos_iff.2 h).ne'
  rw [meanOf, eq_div_iff hn, ← (empFold_sums xs).1 i, mul_comm]

theorem sum_centered (xs : List (ι → K)) (f g : (ι → K) → K) (a b : K) :
    (xs.map fun x => (f x - a) * (g x - b)).sum
      = (xs.map fun x => f x * g x).sum - a * (xs.map g).sum - b * (xs.map f).sum + xs.length * (a * b) := by
  induction xs with
  | nil => simp
  | cons x xs ih => simp only [List.map_cons, List.sum_cons, ih, List.length_cons]; push_cast; ring

theorem empFold_cov {xs : List (ι → K)} (h : xs ≠ []) : (empFold xs).cov = covOf xs := by
  ext i j
  have hn : (xs.length : K) ≠ 0 := by exact_mod_cast (List.length_pos_iff.2 h).ne'
  rw [covOf, of_apply, eq_div_iff hn, sum_centered xs (fun x => x i) (fun x => x j)]
  obtain ⟨h1, h2⟩ := empFold_sums xs
  rw [← h1 i, ← h1 j, ← h2 i j, empFold_mean h]
  ring

/-- empUpdate's covariance, symmetric form -/
theorem empUpdate_cov (s : EmpState ι K) (x : ι → K) :
    (empUpdate s x).cov = ((s.nSamples : K) / (s.nSamples + 1)) • s.cov
      + ((s.nSamples : K) / (s.nSamples + 1) ^ 2) • outer (x - s.mean) (x - s.mean) := by
  have hne : ((s.nSamples : K) + 1) ≠ 0 := by exact_mod_cast Nat.succ_ne_zero s.nSamples
  ext i j
  simp only [empUpdate, of_apply, Matrix.add_apply, Matrix.smul_apply, outer, smul_eq_mul, Pi.sub_apply]
  push_cast
  field_simp
  ring

theorem empUpdate_mean (s : EmpState ι K) (x : ι → K) :
    (empUpdate s x).mean = fun i => (1 - 1 / ((s.nSamples : K) + 1)) * s.mean i + 1 / ((s.nSamples : K) + 1) * x i := by
  ext i; simp only [empUpdate]; push_cast; ring

end

section Affine
variable {κ : Type} [Fintype ι] [Field K] [CharZero K]

theorem affine_sub (A : Matrix κ ι K) (b : κ → K) (x m : ι → K) : affine A b x - affine A b m = A *ᵥ (x - m) := by
  simp [affine, mulVec_sub]

theorem affine_combo (A : Matrix κ ι K) (b : κ → K) (x m : ι → K) (s t : K) (h : s + t = 1) :
    affine A b (fun i => s * m i + t * x i) = fun i => s * affine A b m i + t * affine A b x i := by
  have e : (fun i => s * m i + t * x i) = s • m + t • x := by ext i; simp
  rw [e]
  ext i
  simp only [affine, mulVec_add, mulVec_smul, Pi.add_apply, Pi.smul_apply, smul_eq_mul]
  linear_combination (-b i) * h

theorem congr_outer (A : Matrix κ ι K) (u : ι → K) : A * outer u u * Aᵀ = outer (A *ᵥ u) (A *ᵥ u) := by
  ext i j
  simp only [mul_apply, outer, of_apply, transpose_apply, mulVec, dotProduct, Finset.sum_mul, Finset.mul_sum]
  refine Finset.sum_congr rfl fun k _ => Finset.sum_congr rfl fun l _ => by ring

end Affine

section Order
variable [Fintype ι] [Field K] [LinearOrder K] [IsStrictOrderedRing K]

theorem empUpdate_psd {s : EmpState ι K} (h : PSD s.cov) (x : ι → K) : PSD (empUpdate s x).cov := by
  rw [empUpdate_cov]
  have : (0:K) ≤ s.nSamples := Nat.cast_nonneg _
  exact (h.smul (by positivity)).add ((psd_outer _).smul (by positivity))

theorem empUpdate_pd {s : EmpState ι K} (h : PD s.cov) (hn : 0 < s.nSamples) (x : ι → K) : PD (empUpdate s x).cov := by
  rw [empUpdate_cov]
  have : (0:K) < s.nSamples := Nat.cast_pos.2 hn
  exact (h.smul (by positivity)).add_psd ((psd_outer _).smul (by positivity))

theorem ewaBlend_psd {r : K} (h0 : 0 ≤ r) (h1 : r ≤ 1) {s : EmpState ι K} (h : PSD s.cov) (x : ι → K) :
    PSD (ewaBlend r s x).cov :=
  (h.smul (by linarith)).add ((psd_outer _).smul h0)

theorem ewaBlend_pd {r : K} (h0 : 0 ≤ r) (h1 : r < 1) {s : EmpState ι K} (h : PD s.cov) (x : ι → K) :
    PD (ewaBlend r s x).cov :=
  (h.smul (by linarith)).add_psd ((psd_outer _).smul h0)

end Order

end Precise
