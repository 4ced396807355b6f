import Verif.Props.Recommend
import Verif.Props.Dynamic
import Mathlib.Algebra.Order.Chebyshev

/-!
# C55: the features of the recommender
-/

set_option linter.all false

open Matrix

namespace Precise

open Spec

variable {p : ℕ}

theorem npMean_eq (rows : List (Fin p → ℝ)) : npMean rows = meanOf rows := rfl
theorem npCov_eq (rows : List (Fin p → ℝ)) : npCov rows = covOf rows := rfl

theorem list_sq_sum_le (l : List ℝ) : l.sum ^ 2 ≤ (l.length : ℝ) * (l.map fun x => x ^ 2).sum := by
  induction l with
  | nil => simp
  | cons a l ih =>
    simp only [List.sum_cons, List.length_cons, List.map_cons, Nat.cast_add, Nat.cast_one]
    have hn : (0:ℝ) ≤ l.length := Nat.cast_nonneg _
    rcases Nat.eq_zero_or_pos l.length with h0 | hpos
    · have : l = [] := List.length_eq_zero_iff.1 h0
      subst this; simp
    · have hl : (0:ℝ) < l.length := by exact_mod_cast hpos
      -- 2 a S ≤ n a² + S²/n ≤ n a² + Q
      have h1 : 2 * a * l.sum ≤ (l.length : ℝ) * a ^ 2 + (l.map fun x => x ^ 2).sum := by
        have h2 : 0 ≤ ((l.length : ℝ) * a - l.sum) ^ 2 := sq_nonneg _
        have h3 : (l.length : ℝ) * (2 * a * l.sum) ≤ (l.length : ℝ) * ((l.length : ℝ) * a ^ 2 + (l.map fun x => x ^ 2).sum) := by nlinarith
        exact le_of_mul_le_mul_left h3 hl
      nlinarith

theorem abs_offdiag_le {ι : Type} [Fintype ι] [DecidableEq ι] {c : Matrix ι ι ℝ} (h : PSD c) (i j : ι) : |c i j| ≤ Real.sqrt (c i i * c j j) := by
  apply Real.le_sqrt_of_sq_le
  rw [sq_abs, pow_two]
  have := h.entry_sq_le i j
  nlinarith

/-- C55: the features are in their ranges, for every data window with at least one row and one column and every
eigensolver. The kurtosis bound -2 needs non-degenerate columns (variance at least 1e-12); otherwise the clip
only guarantees -3. -/
theorem C55_ranges (L : Lapack) (rows : List (Fin p → ℝ)) (hn : rows ≠ []) (hp : 1 ≤ p) :
    let F := covarianceFeatures L rows
    F.n = rows.length ∧ F.p = p ∧ 0 < F.pOverN ∧
    (1 ≤ F.effectiveRank ∧ F.effectiveRank ≤ p) ∧ (0 < F.sphericity ∧ F.sphericity ≤ 1) ∧ 1 ≤ F.conditionNumber ∧
    (0 ≤ F.meanAbsOffdiagCorr ∧ F.meanAbsOffdiagCorr ≤ 1) ∧ -3 ≤ F.avgExcessKurtosis ∧
    ((∀ i, 1 / 10 ^ 12 ≤ covOf rows i i) → -2 ≤ F.avgExcessKurtosis) := by
  intro F
  have hlen : (0:ℝ) < rows.length := by exact_mod_cast List.length_pos_iff.2 hn
  have hpp : (0:ℝ) < p := by exact_mod_cast hp
  have : Nonempty (Fin p) := ⟨⟨0, by omega⟩⟩
  set e := clippedEvals L rows with he
  have epos : ∀ i, 0 < e i := fun i => lt_of_lt_of_le EPS_pos (le_max_right _ _)
  have htot : 0 < ∑ i, e i := Finset.sum_pos (fun i _ => epos i) Finset.univ_nonempty
  have hsq : 0 < ∑ i, e i ^ 2 := Finset.sum_pos (fun i _ => pow_pos (epos i) 2) Finset.univ_nonempty
  have hER : F.effectiveRank = (∑ i, e i) ^ 2 / ∑ i, e i ^ 2 := by
    show (if 0 < ∑ i, e i then _ else _) = _
    rw [if_pos htot]
  have h1 : 1 ≤ F.effectiveRank := by
    rw [hER, le_div_iff₀ hsq, one_mul]
    calc ∑ i, e i ^ 2 ≤ ∑ i, e i * ∑ j, e j := by
          refine Finset.sum_le_sum fun i _ => ?_
          rw [pow_two]
          exact mul_le_mul_of_nonneg_left (Finset.single_le_sum (fun j _ => (epos j).le) (Finset.mem_univ i)) (epos i).le
      _ = (∑ i, e i) ^ 2 := by rw [← Finset.sum_mul, pow_two]
  have h2 : F.effectiveRank ≤ p := by
    rw [hER, div_le_iff₀ hsq]
    have := sq_sum_le_card_mul_sum_sq (s := (Finset.univ : Finset (Fin p))) (f := e)
    simpa using this
  have hsph : F.sphericity = F.effectiveRank / p := rfl
  refine ⟨rfl, rfl, div_pos hpp hlen, ⟨h1, h2⟩, ⟨?_, ?_⟩, ?_, ⟨?_, ?_⟩, ?_, ?_⟩
  · rw [hsph]; exact div_pos (by linarith) hpp
  · rw [hsph, div_le_one hpp]; exact h2
  · show 1 ≤ (⨆ i, e i) / ⨅ i, e i
    have i0 : Fin p := ⟨0, by omega⟩
    have hb : BddBelow (Set.range e) := (Set.finite_range e).bddBelow
    have ha : BddAbove (Set.range e) := (Set.finite_range e).bddAbove
    have hinf : 0 < ⨅ i, e i := lt_of_lt_of_le EPS_pos (le_ciInf fun i => le_max_right _ _)
    rw [le_div_iff₀ hinf, one_mul]
    exact (ciInf_le hb i0).trans (le_ciSup ha i0)
  · show 0 ≤ if 1 < p then _ else _
    split
    · rename_i h
      have : (1:ℝ) ≤ p := by exact_mod_cast hp
      refine div_nonneg (Finset.sum_nonneg fun i _ => Finset.sum_nonneg fun j _ => ?_) (mul_nonneg hpp.le (by linarith))
      split
      · exact le_rfl
      · exact abs_nonneg _
    · exact le_rfl
  · show (if 1 < p then _ else _) ≤ _
    split
    · rename_i h
      have hp1 : (0:ℝ) < (p:ℝ) - 1 := by have : (1:ℝ) < p := by exact_mod_cast h
                                         linarith
      rw [div_le_one (mul_pos hpp hp1)]
      have hc : ∀ i j, |npCov rows i j / Real.sqrt (clippedVar rows i * clippedVar rows j)| ≤ 1 := by
        intro i j
        have v : ∀ i, 0 < clippedVar rows i := fun i => lt_of_lt_of_le EPS_pos (le_max_right _ _)
        have hs : 0 < Real.sqrt (clippedVar rows i * clippedVar rows j) := Real.sqrt_pos.2 (mul_pos (v i) (v j))
        rw [abs_div, abs_of_pos hs, div_le_one hs]
        have hpsd := psd_covOf rows
        refine (abs_offdiag_le hpsd i j).trans (Real.sqrt_le_sqrt ?_)
        have hd : ∀ i, 0 ≤ covOf rows i i := fun i => by have := hpsd.2 (Pi.single i 1); rwa [quad_single] at this
        exact mul_le_mul (le_max_left _ _) (le_max_left _ _) (hd j) (v i).le
      calc ∑ i, ∑ j, (if i = j then 0 else |npCov rows i j / Real.sqrt (clippedVar rows i * clippedVar rows j)|)
          ≤ ∑ i : Fin p, ∑ j : Fin p, (if i = j then (0:ℝ) else 1) := by
            refine Finset.sum_le_sum fun i _ => Finset.sum_le_sum fun j _ => ?_
            split
            · exact le_rfl
            · exact hc i j
        _ = (p:ℝ) * ((p:ℝ) - 1) := by
            have : ∀ i : Fin p, ∑ j : Fin p, (if i = j then (0:ℝ) else 1) = (p:ℝ) - 1 := by
              intro i
              have e : ∀ j : Fin p, (if i = j then (0:ℝ) else 1) = 1 - if i = j then 1 else 0 := by intro j; split <;> norm_num
              simp only [e, Finset.sum_sub_distrib, Finset.sum_ite_eq, Finset.mem_univ, if_true]
              simp
            simp only [this]
            simp; ring
    · norm_num
  all_goals
    have hm4 : ∀ i, 0 ≤ (rows.map fun x => (x i - npMean rows i) ^ 4).sum / (rows.length : ℝ) := by
      intro i
      refine div_nonneg (List.sum_nonneg fun a ha => ?_) hlen.le
      obtain ⟨x, _, rfl⟩ := List.mem_map.1 ha
      positivity
  · show -3 ≤ (∑ i, ((rows.map fun x => (x i - npMean rows i) ^ 4).sum / (rows.length : ℝ) / (max (clippedVar rows i) EPS) ^ 2 - 3)) / (p : ℝ)
    rw [le_div_iff₀ hpp]
    calc (-3 : ℝ) * p = ∑ i : Fin p, (-3 : ℝ) := by simp; ring
      _ ≤ _ := Finset.sum_le_sum fun i _ => by
        have : 0 ≤ (rows.map fun x => (x i - npMean rows i) ^ 4).sum / (rows.length : ℝ) / (max (clippedVar rows i) EPS) ^ 2 := div_nonneg (hm4 i) (sq_nonneg _)
        linarith
  · intro hv
    show -2 ≤ (∑ i, ((rows.map fun x => (x i - npMean rows i) ^ 4).sum / (rows.length : ℝ) / (max (clippedVar rows i) EPS) ^ 2 - 3)) / (p : ℝ)
    rw [le_div_iff₀ hpp]
    calc (-2 : ℝ) * p = ∑ i : Fin p, (-2 : ℝ) := by simp; ring
      _ ≤ _ := Finset.sum_le_sum fun i _ => by
        have hE : EPS ≤ covOf rows i i := hv i
        have hcl : max (clippedVar rows i) EPS = covOf rows i i := by
          unfold clippedVar; rw [npCov_eq, max_eq_left hE, max_eq_left hE]
        have hpos : 0 < covOf rows i i := lt_of_lt_of_le EPS_pos hE
        rw [hcl]
        have : 1 ≤ (rows.map fun x => (x i - npMean rows i) ^ 4).sum / (rows.length : ℝ) / (covOf rows i i) ^ 2 := by
          rw [le_div_iff₀ (pow_pos hpos 2), one_mul, le_div_iff₀ hlen]
          have hls := list_sq_sum_le (rows.map fun x => (x i - meanOf rows i) * (x i - meanOf rows i))
          rw [List.length_map, List.map_map] at hls
          have e1 : (rows.map fun x => (x i - meanOf rows i) * (x i - meanOf rows i)).sum = covOf rows i i * rows.length := by
            unfold covOf
            simp only [Matrix.of_apply]
            field_simp
          have e2 : ((fun x => x ^ 2) ∘ fun x : Fin p → ℝ => (x i - meanOf rows i) * (x i - meanOf rows i)) = fun x => (x i - npMean rows i) ^ 4 := by
            funext x; simp only [Function.comp, npMean_eq]; ring
          rw [e1, e2] at hls
          have : covOf rows i i ^ 2 * rows.length * rows.length ≤ (rows.map fun x => (x i - npMean rows i) ^ 4).sum * rows.length := by nlinarith
          exact le_of_mul_le_mul_right this hlen
        linarith

/-- Non-vacuous: `demoRows` has variances 2 and 1. -/
example : demoRows ≠ [] ∧ ∀ i, (1:ℝ) / 10 ^ 12 ≤ covOf demoRows i i := by
  have hc : covOf demoRows = !![2, 1; 1, 1] := by
    ext i j
    fin_cases i <;> fin_cases j <;> simp [covOf, meanOf, demoRows] <;> norm_num
  refine ⟨by simp [demoRows], fun i => ?_⟩
  rw [hc]
  fin_cases i <;> norm_num

end Precise
