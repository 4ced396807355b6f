import Verif.Lemmas.Emp
import Verif.Lemmas.Recency
import Verif.Lemmas.Innov
import Verif.Model.Estimators
import Verif.Spec.Recency

set_option linter.all false

namespace Precise

open Spec

variable {ι : Type} [Fintype ι]

omit [Fintype ι] in
theorem covOf_comm (xs : List (ι → ℝ)) (i j : ι) : covOf xs i j = covOf xs j i := by
  simp only [covOf, Matrix.of_apply]
  congr 2
  refine List.map_congr_left fun x _ => mul_comm _ _

/-- The exact EWA run with a given burn-in. -/
noncomputable def ewaExact (r : ℝ) (b : ℕ) (xs : List (ι → ℝ)) : EwaState ι ℝ :=
  xs.foldl ewaUpdate { toEmpState := empInit, r := r, nBurn := b }

omit [Fintype ι] in
theorem ewaExact_snoc (r : ℝ) (b : ℕ) (xs : List (ι → ℝ)) (x : ι → ℝ) :
    ewaExact r b (xs ++ [x]) = ewaUpdate (ewaExact r b xs) x := by simp [ewaExact]

omit [Fintype ι] in
theorem ewaExact_const (r : ℝ) (b : ℕ) (xs : List (ι → ℝ)) :
    (ewaExact r b xs).r = r ∧ (ewaExact r b xs).nBurn = b ∧ (ewaExact r b xs).nSamples = xs.length := by
  induction xs using List.reverseRecOn with
  | nil => exact ⟨rfl, rfl, rfl⟩
  | append_singleton xs x ih =>
    rw [ewaExact_snoc, ewaUpdate_r, ewaUpdate_nBurn, ewaUpdate_n, ih.1, ih.2.1, ih.2.2]
    simp

omit [Fintype ι] in
theorem ewaExact_burn (r : ℝ) (b : ℕ) (xs : List (ι → ℝ)) (h : xs.length ≤ b) :
    (ewaExact r b xs).toEmpState = empFold xs := by
  induction xs using List.reverseRecOn with
  | nil => rfl
  | append_singleton xs x ih =>
    rw [List.length_append] at h
    simp only [List.length_singleton] at h
    obtain ⟨-, h2, h3⟩ := ewaExact_const r b xs
    rw [ewaExact_snoc, empFold_snoc, ewaUpdate, if_pos (by rw [h2, h3]; omega), ← ih (by omega)]
    rfl

/-- One exact step after the burn-in. -/
theorem ewaExact_tail (r : ℝ) (b : ℕ) (xs : List (ι → ℝ)) (x : ι → ℝ) (h : b ≤ xs.length) :
    (ewaExact r b (xs ++ [x])).toEmpState = ewaBlend r (ewaExact r b xs).toEmpState x := by
  obtain ⟨h1, h2, h3⟩ := ewaExact_const r b xs
  rw [ewaExact_snoc, ewaUpdate, if_neg (by rw [h2, h3]; omega), h1]

theorem recencyMean_eq (r : ℝ) (b : ℕ) (hb : 1 ≤ b) (xs : List (ι → ℝ)) (i : ι) :
    (ewaExact r b xs).mean i = recencyMean r b xs i := by
  by_cases hx : xs = []
  · subst hx; simp [recencyMean, ewaExact, empInit]
  · refine closed_of_step r b hb (fun xs => (ewaExact r b xs).mean i) (fun _ x => x i) ?_ ?_ xs hx 0
    · intro ys y hy
      obtain ⟨-, h2, h3⟩ := ewaExact_const r b ys
      beta_reduce
      rw [ewaExact_snoc, ewaUpdate, if_pos (by rw [h2, h3]; omega)]
      show (ewaExact r b ys).mean i + (y i - (ewaExact r b ys).mean i) / (((ewaExact r b ys).nSamples + 1 : ℕ) : ℝ) = _
      rw [h3]
    · intro ys y hy
      beta_reduce
      rw [ewaExact_tail r b ys y hy]; rfl

theorem recencyCov_eq (r : ℝ) (b : ℕ) (hb : 1 ≤ b) (xs : List (ι → ℝ)) (hx : xs ≠ []) (i j : ι) :
    (ewaExact r b xs).cov i j = recencyCov r b xs i j := by
  have burn : ∀ ys : List (ι → ℝ), ys ≠ [] → ys.length ≤ b → (ewaExact r b ys).cov i j = covOf ys i j := by
    intro ys hy hl
    rw [show (ewaExact r b ys).cov = (ewaExact r b ys).toEmpState.cov from rfl, ewaExact_burn r b ys hl, empFold_cov hy]
  have inn : ∀ (ys : List (ι → ℝ)) (y : ι → ℝ) (t : ℕ), t < ys.length → innovation r b (ys ++ [y]) t = innovation r b ys t := by
    intro ys y t ht
    unfold innovation
    rw [List.getD_append _ _ _ _ ht, List.take_append_of_le_length ht.le]
  have last : ∀ (ys : List (ι → ℝ)) (y : ι → ℝ), innovation r b (ys ++ [y]) ys.length = fun k => y k - (ewaExact r b ys).mean k := by
    intro ys y
    unfold innovation
    rw [List.take_left]
    funext k
    rw [Pi.sub_apply, recencyMean_eq r b hb]
    simp [List.getD_eq_getElem?_getD]
  unfold recencyCov
  rw [Matrix.of_apply]
  induction xs using List.reverseRecOn with
  | nil => exact absurd rfl hx
  | append_singleton ys y ih =>
    by_cases hl : (ys ++ [y]).length ≤ b
    · rw [if_pos hl]; exact burn _ hx hl
    · rw [if_neg hl]
      rw [List.length_append, List.length_singleton] at hl ⊢
      have hbl : b ≤ ys.length := by omega
      have hyne : ys ≠ [] := by intro e; subst e; simp at hbl; omega
      have ih' := ih hyne
      rw [show (ewaExact r b (ys ++ [y])).cov = (ewaExact r b (ys ++ [y])).toEmpState.cov from rfl, ewaExact_tail r b ys y hbl]
      show (1 - r) * (ewaExact r b ys).cov i j
          + r * ((y i - (ewaExact r b ys).mean i) * (y j - (ewaExact r b ys).mean j)) = _
      rw [List.take_append_of_le_length hbl, Finset.sum_Ico_succ_top hbl, last]
      simp only []
      rw [show ys.length + 1 - 1 - ys.length = 0 by omega, pow_zero, mul_one, ih']
      have hs : ∑ t ∈ Finset.Ico b ys.length, r * (1 - r) ^ (ys.length + 1 - 1 - t)
            * (innovation r b (ys ++ [y]) t i * innovation r b (ys ++ [y]) t j)
          = (1 - r) * ∑ t ∈ Finset.Ico b ys.length, r * (1 - r) ^ (ys.length - 1 - t)
            * (innovation r b ys t i * innovation r b ys t j) := by
        rw [Finset.mul_sum]
        refine Finset.sum_congr rfl fun t ht => ?_
        have ht' := (Finset.mem_Ico.1 ht).2
        rw [inn ys y t ht', show ys.length + 1 - 1 - t = (ys.length - 1 - t) + 1 by omega, pow_succ]
        ring
      rw [hs]
      by_cases hl' : ys.length ≤ b
      · have e : ys.length = b := le_antisymm hl' hbl
        rw [if_pos hl', show Finset.Ico b ys.length = ∅ by rw [e]; simp, Finset.sum_empty, ← e, List.take_length,
          show ys.length + 1 - ys.length = 1 by omega]
        ring
      · rw [if_neg hl', show ys.length + 1 - b = (ys.length - b) + 1 by omega, pow_succ]
        ring

/-- The exact tracked variance with a given burn-in, step by step. -/
noncomputable def diagExact (r : ℝ) (b : ℕ) (xs : List (ι → ℝ)) : DiagState ι ℝ :=
  xs.foldl diagUpdate { nSamples := 0, mean := fun _ => 0, var := fun _ => 0, r := r, nBurn := b }

omit [Fintype ι] in
theorem diagExact_snoc (r : ℝ) (b : ℕ) (xs : List (ι → ℝ)) (x : ι → ℝ) :
    diagExact r b (xs ++ [x]) = diagUpdate (diagExact r b xs) x := by simp [diagExact]

theorem diagExact_fields (r : ℝ) (b : ℕ) (xs : List (ι → ℝ)) :
    (diagExact r b xs).r = r ∧ (diagExact r b xs).nBurn = b ∧ (diagExact r b xs).nSamples = xs.length ∧
    (diagExact r b xs).mean = (ewaExact r b xs).mean := by
  induction xs using List.reverseRecOn with
  | nil => exact ⟨rfl, rfl, rfl, rfl⟩
  | append_singleton xs x ih =>
    obtain ⟨i1, i2, i3, i4⟩ := ih
    obtain ⟨e1, e2, e3⟩ := ewaExact_const r b xs
    rw [diagExact_snoc, ewaExact_snoc]
    unfold diagUpdate ewaUpdate
    simp only []
    by_cases h : xs.length < b
    · rw [if_pos (by rw [i2, i3]; omega), if_pos (by rw [e2, e3]; omega)]
      refine ⟨i1, i2, by show _ + 1 = _; rw [i3]; simp, ?_⟩
      funext i
      show (diagExact r b xs).mean i + (x i - (diagExact r b xs).mean i) / (((diagExact r b xs).nSamples + 1 : ℕ) : ℝ)
        = (ewaExact r b xs).mean i + (x i - (ewaExact r b xs).mean i) / (((ewaExact r b xs).nSamples + 1 : ℕ) : ℝ)
      rw [i3, e3, i4]
    · rw [if_neg (by rw [i2, i3]; omega), if_neg (by rw [e2, e3]; omega)]
      refine ⟨i1, i2, by show _ + 1 = _; rw [i3]; simp, ?_⟩
      funext i
      show (1 - (diagExact r b xs).r) * (diagExact r b xs).mean i + (diagExact r b xs).r * x i
        = (1 - (ewaExact r b xs).r) * (ewaExact r b xs).mean i + (ewaExact r b xs).r * x i
      rw [i1, e1, i4]

theorem diagExact_burn (r : ℝ) (b : ℕ) (xs : List (ι → ℝ)) (x : ι → ℝ) (h : xs.length + 1 ≤ b) (i : ι) :
    (diagExact r b (xs ++ [x])).var i = (diagExact r b xs).var i
      + ((x i - (ewaExact r b xs).mean i) * (x i - (ewaExact r b xs).mean i) - (diagExact r b xs).var i) / ((xs.length + 1 : ℕ) : ℝ) := by
  obtain ⟨a, c, d, e⟩ := diagExact_fields r b xs
  rw [diagExact_snoc]; unfold diagUpdate; simp only [a, c, d, e, if_pos h]

theorem diagExact_post (r : ℝ) (b : ℕ) (xs : List (ι → ℝ)) (x : ι → ℝ) (h : b ≤ xs.length) (i : ι) :
    (diagExact r b (xs ++ [x])).var i = (1 - r) * (diagExact r b xs).var i
      + r * ((x i - (ewaExact r b xs).mean i) * (x i - (ewaExact r b xs).mean i)) := by
  obtain ⟨a, c, d, e⟩ := diagExact_fields r b xs
  rw [diagExact_snoc]; unfold diagUpdate; simp only [a, c, d, e, if_neg (show ¬ xs.length + 1 ≤ b by omega)]

theorem trackedVar_eq (r : ℝ) (b : ℕ) (hb : 1 ≤ b) (xs : List (ι → ℝ)) (hx : xs ≠ []) (i : ι) :
    (diagExact r b xs).var i = trackedVar r b xs i := by
  have := closed_of_step r b hb (fun xs => (diagExact r b xs).var i)
    (fun xs x => (x i - (ewaExact r b xs).mean i) * (x i - (ewaExact r b xs).mean i))
    (fun xs x h => diagExact_burn r b xs x h i) (fun xs x h => diagExact_post r b xs x h i) xs hx 0
  beta_reduce at this
  rw [this]
  unfold trackedVar innovation
  refine Finset.sum_congr rfl fun t _ => ?_
  rw [recencyMean_eq r b hb, Pi.sub_apply, sq]


end Precise
