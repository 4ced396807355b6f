import Verif.Spec.Reach
import Verif.Props.Superpose
import Verif.Props.Translate

/-!
# C140: exactly the positive-semidefinite matrices can be reported
-/

set_option linter.all false

open Matrix

namespace Precise

open Spec Obj

variable {ι : Type} [Fintype ι] [DecidableEq ι]

omit [Fintype ι] in
theorem outer_scaled (t : ℝ) (v : ι → ℝ) : outer (t • v) (t • v) = t ^ 2 • outer v v := by
  ext i j; simp only [outer, of_apply, Pi.smul_apply, Matrix.smul_apply, smul_eq_mul]; ring

/-- a positive-semidefinite matrix is a sum of squares -/
theorem Spec.PSD.sum_outer {c : Matrix ι ι ℝ} (h : PSD c) : ∃ v : ι → ι → ℝ, c = ∑ i, outer (v i) (v i) := by
  obtain ⟨⟨w, V⟩, hv, e⟩ := exists_spec h.1
  change Vᵀ * V = 1 at hv
  change c = spec V w at e
  have h0 : ∀ i, 0 ≤ w i := eigs_nonneg hv (by rw [← e]; exact h)
  refine ⟨fun i => Real.sqrt (w i) • fun j => V j i, ?_⟩
  rw [e]
  ext j k
  rw [Matrix.sum_apply]
  simp only [outer_scaled, Real.sq_sqrt (h0 _), Matrix.smul_apply, outer, of_apply, smul_eq_mul, spec, Matrix.mul_apply, transpose_apply, diagonal_apply, mul_ite, mul_zero,
    Finset.sum_ite_eq', Finset.mem_univ, if_true]
  refine Finset.sum_congr rfl fun i _ => ?_
  simp only [Pi.smul_apply, smul_eq_mul]
  have := Real.mul_self_sqrt (h0 i)
  linear_combination (-(V j i * V k i)) * this

theorem reach_fold (S : List (ι → ℝ) → EmpState ι ℝ) (α β κ : ℕ → ℝ) (n0 : ℕ) (hα : ∀ n, n0 ≤ n → 0 < α n) (hβ : ∀ n, n0 ≤ n → 0 < β n)
    (hc : ∀ xs x, n0 ≤ xs.length → (S (xs ++ [x])).cov = α xs.length • (S xs).cov + β xs.length • outer (x - (S xs).mean) (x - (S xs).mean))
    (hm : ∀ xs x, n0 ≤ xs.length → (S (xs ++ [x])).mean = (S xs).mean + κ xs.length • (x - (S xs).mean))
    (h0 : ∀ m : ι → ℝ, ∃ xs, xs.length = n0 ∧ (S xs).mean = m ∧ (S xs).cov = 0) (s : Finset ι) :
    ∀ (v : ι → ι → ℝ) (m : ι → ℝ), ∃ xs, xs.length = n0 + s.card ∧ (S xs).mean = m ∧ (S xs).cov = ∑ i ∈ s, outer (v i) (v i) := by
  induction s using Finset.induction_on with
  | empty => intro v m; simpa using h0 m
  | insert i s hi ih =>
    intro v m
    set n := n0 + s.card with hn
    have ha := hα n (by omega)
    have hb := hβ n (by omega)
    set e : ι → ℝ := (1 / Real.sqrt (β n)) • v i with he
    obtain ⟨xs, hl, h1, h2⟩ := ih (fun j => (1 / Real.sqrt (α n)) • v j) (m - κ n • e)
    refine ⟨xs ++ [(S xs).mean + e], by rw [List.length_append, hl, Finset.card_insert_of_notMem hi]; simp; omega, ?_, ?_⟩
    · rw [hm _ _ (by omega), hl, add_sub_cancel_left, h1, sub_add_cancel]
    · rw [hc _ _ (by omega), hl, add_sub_cancel_left, h2, Finset.sum_insert hi, he, outer_scaled, smul_smul, Finset.smul_sum, add_comm]
      have e1 : ∀ a : ℝ, 0 < a → a * (1 / Real.sqrt a) ^ 2 = 1 := fun a h => by
        rw [div_pow, Real.sq_sqrt h.le, one_pow]; field_simp
      rw [e1 _ hb, one_smul]
      congr 1
      exact Finset.sum_congr rfl fun j _ => by rw [outer_scaled, smul_smul, e1 _ ha, one_smul]

/-- C140: EmpiricalCovariance can be made to report any location with any positive-semidefinite covariance, by one row more than there are columns (fewer cannot do for
an invertible one: C18), and, with or without differencing and through any history of calls, reports nothing else. -/
theorem C140_empirical (m : ι → ℝ) (c : Matrix ι ι ℝ) :
    (PSD c → ReportsAfter (empiricalCls ι ℝ) false (Fintype.card ι + 1) m c) ∧ (∀ d calls, ((new (empiricalCls ι ℝ) d).run calls).covariance = .ok c → PSD c) := by
  refine ⟨fun h => ?_, fun d calls h2 => C18_psd d calls c h2⟩
  obtain ⟨v, rfl⟩ := h.sum_outer
  obtain ⟨xs, hl, h1, h2⟩ := reach_fold (fun xs => empFold xs) (fun N => (N : ℝ) / (N + 1)) (fun N => (N : ℝ) / (N + 1) ^ 2) (fun N => 1 / ((N : ℝ) + 1)) 1
    (fun n hn => by have : (0:ℝ) < n := by exact_mod_cast hn
                    positivity)
    (fun n hn => by have : (0:ℝ) < n := by exact_mod_cast hn
                    positivity)
    (fun xs x _ => by rw [empFold_snoc, empUpdate_cov, empFold_n])
    (fun xs x _ => by
      rw [empFold_snoc, empUpdate_mean, empFold_n]
      funext i; simp only [Pi.add_apply, Pi.smul_apply, Pi.sub_apply, smul_eq_mul]; ring)
    (fun m => ⟨[m], rfl, by rw [empFold_mean (by simp)]; funext i; simp [meanOf], by rw [empFold_cov (by simp)]; ext i j; simp [covOf, meanOf]⟩) Finset.univ v m
  have hu : used false [Call.partialFit (.batch xs)] = xs := by simp [used, effective, rowsSinceFit, rowsOf]
  have hne : xs ≠ [] := by intro h0; rw [h0] at hl; simp at hl; omega
  have hb := C15_batch false [Call.partialFit (.batch xs)] (by rw [hu]; exact hne)
  rw [hu] at hb
  refine ⟨xs, by rw [hl, Finset.card_univ]; omega, by rw [hb.1, ← empFold_mean hne, h1], by rw [hb.2.1, ← empFold_cov hne, h2]⟩

/-- C140: EwaCovariance, for any rate strictly between 0 and 1, after the burn-in: the same, as many rows after the end of the burn-in as there are columns. -/
theorem C140_ewa (r : ℝ) (r0 : 0 < r) (r1 : r < 1) (m : ι → ℝ) (c : Matrix ι ι ℝ) :
    (PSD c → ReportsAfter (ewaCls ι ℝ) ⟨r, false⟩ (ewaBurnN r + Fintype.card ι) m c) ∧ (∀ d calls, ((new (ewaCls ι ℝ) ⟨r, d⟩).run calls).covariance = .ok c → PSD c) := by
  refine ⟨fun h => ?_, fun d calls h2 => C21_psd (⟨r, d⟩ : RParam ℝ) r0.le r1.le calls c h2⟩
  obtain ⟨v, rfl⟩ := h.sum_outer
  have hpos := calib_burn_pos r
  obtain ⟨xs, hl, h1, h2⟩ := reach_fold (fun xs => (ewaFold r xs).toEmpState) (fun _ => 1 - r) (fun _ => r) (fun _ => r) (ewaBurnN r)
    (fun _ _ => by linarith) (fun _ _ => r0)
    (fun xs x h => by rw [ewaFold_snoc, ewa_step h]; rfl)
    (fun xs x h => by
      rw [ewaFold_snoc, ewa_step h]
      funext i; simp only [ewaBlend, Pi.add_apply, Pi.smul_apply, Pi.sub_apply, smul_eq_mul]; ring)
    (fun m => ⟨List.replicate (ewaBurnN r) m, by simp, by
      have hne : List.replicate (ewaBurnN r) m ≠ [] := by intro h0; have := congrArg List.length h0; simp at this; omega
      have hN : (ewaBurnN r : ℝ) ≠ 0 := by exact_mod_cast hpos.ne'
      rw [ewaFold_burn r _ (by simp), empFold_mean hne]
      funext i; simp [meanOf, hN], by
      have hne : List.replicate (ewaBurnN r) m ≠ [] := by intro h0; have := congrArg List.length h0; simp at this; omega
      have hN : (ewaBurnN r : ℝ) ≠ 0 := by exact_mod_cast hpos.ne'
      rw [ewaFold_burn r _ (by simp), empFold_cov hne]
      ext i j; simp [covOf, meanOf, hN]⟩) Finset.univ v m
  have hu : used false [Call.partialFit (.batch xs)] = xs := by simp [used, effective, rowsSinceFit, rowsOf]
  have hne : xs ≠ [] := by intro h0; rw [h0] at hl; simp at hl; omega
  have hb := ewa_attrs (⟨r, false⟩ : RParam ℝ) [Call.partialFit (.batch xs)] (by show used false _ ≠ []; rw [hu]; exact hne)
  have hu' : used (⟨r, false⟩ : RParam ℝ).diff [Call.partialFit (.batch xs)] = xs := hu
  rw [hu'] at hb
  refine ⟨xs, by rw [hl, Finset.card_univ], hb.1.trans (congrArg _ h1), hb.2.trans (congrArg _ h2)⟩

/-- Non-vacuity: the identity matrix is among them. -/
example : ReportsAfter (empiricalCls (Fin 2) ℝ) false 3 (fun _ => 7) 1 :=
  (C140_empirical (fun _ => 7) 1).1 ⟨fun i j => by simp [Matrix.one_apply, eq_comm], fun x => by
    simp only [quad, one_mulVec, dotProduct]; exact Finset.sum_nonneg fun i _ => mul_self_nonneg _⟩

end Precise
