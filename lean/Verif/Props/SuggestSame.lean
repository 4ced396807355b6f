import Verif.Spec.Suggest
import Verif.Props.Features

/-!
# C126: what the recommender does not look at, and what it should not look at but does
-/

set_option linter.all false

open Matrix

namespace Precise

open Spec

variable {p : ℕ}

/-! ## The spectrum as a multiset -/

theorem spectrum_sum {v v' T : Matrix (Fin p) (Fin p) ℝ} (hv : vᵀ * v = 1) (hv' : v'ᵀ * v' = 1) (hT : Tᵀ * T = 1) {w w' : Fin p → ℝ}
    (h : spec v' w' = T * spec v w * Tᵀ) (f : ℝ → ℝ) : ∑ i, f (w' i) = ∑ i, f (w i) := by
  have hTv : (T * v)ᵀ * (T * v) = 1 := by
    rw [transpose_mul, Matrix.mul_assoc, ← Matrix.mul_assoc Tᵀ, hT, Matrix.one_mul, hv]
  have e : spec v' w' = spec (T * v) w := by
    rw [h]; unfold spec; rw [transpose_mul]; simp only [Matrix.mul_assoc]
  have := congrArg Matrix.trace (spec_unique hv' hTv e f)
  rwa [trace_spec hv', trace_spec hTv] at this

theorem range_of_sums {w w' : Fin p → ℝ} (h : ∀ f : ℝ → ℝ, ∑ i, f (w' i) = ∑ i, f (w i)) : Set.range w' = Set.range w := by
  classical
  have key : ∀ (u : Fin p → ℝ) (t : ℝ), t ∈ Set.range u ↔ 0 < ∑ i, (if u i = t then (1 : ℝ) else 0) := by
    intro u t
    constructor
    · rintro ⟨i, rfl⟩
      refine Finset.sum_pos' (fun j _ => by split <;> norm_num) ⟨i, Finset.mem_univ _, by simp⟩
    · intro hs
      by_contra hc
      have : ∀ i, (if u i = t then (1 : ℝ) else 0) = 0 := fun i => if_neg fun e => hc ⟨i, e⟩
      simp [this] at hs
  ext t
  rw [key w' t, key w t, h fun x => if x = t then 1 else 0]

/-! ## The features as functions of their ingredients -/

/-- `covariance_features` is determined by the number of rows, the spectrum of the covariance, the mean absolute correlation and the mean
excess kurtosis. -/
theorem features_ext (L : Lapack) {rows rows' : List (Fin p → ℝ)} (hn : rows'.length = rows.length)
    {g : ℝ} (hg : 0 < g) (hs : ∀ f : ℝ → ℝ, ∑ i, f (clippedEvals L rows' i) = ∑ i, f (g * clippedEvals L rows i))
    (hm : (covarianceFeatures L rows').meanAbsOffdiagCorr = (covarianceFeatures L rows).meanAbsOffdiagCorr)
    (hk : (covarianceFeatures L rows').avgExcessKurtosis = (covarianceFeatures L rows).avgExcessKurtosis) :
    covarianceFeatures L rows' = covarianceFeatures L rows := by
  set e := clippedEvals L rows with he
  set e' := clippedEvals L rows' with he'
  have h1 : ∑ i, e' i = g * ∑ i, e i := by rw [hs fun x => x, Finset.mul_sum]
  have h2 : ∑ i, e' i ^ 2 = g ^ 2 * ∑ i, e i ^ 2 := by
    rw [hs fun x => x ^ 2, Finset.mul_sum]; exact Finset.sum_congr rfl fun i _ => by ring
  have hr : Set.range e' = Set.range fun i => g * e i := range_of_sums hs
  have hR : (covarianceFeatures L rows').effectiveRank = (covarianceFeatures L rows).effectiveRank := by
    show (if 0 < ∑ i, e' i then (∑ i, e' i) ^ 2 / ∑ i, e' i ^ 2 else 1) = if 0 < ∑ i, e i then (∑ i, e i) ^ 2 / ∑ i, e i ^ 2 else 1
    rw [h1, h2]
    by_cases ht : 0 < ∑ i, e i
    · rw [if_pos ht, if_pos (mul_pos hg ht), mul_pow, mul_div_mul_left _ _ (pow_pos hg 2).ne']
    · rw [if_neg ht, if_neg (fun h => ht (pos_of_mul_pos_right h hg.le))]
  have hC : (covarianceFeatures L rows').conditionNumber = (covarianceFeatures L rows).conditionNumber := by
    show (⨆ i, e' i) / (⨅ i, e' i) = (⨆ i, e i) / ⨅ i, e i
    have a : (⨆ i, e' i) = g * ⨆ i, e i := by
      rw [show (⨆ i, e' i) = ⨆ i, g * e i from by unfold iSup; rw [hr], Real.mul_iSup_of_nonneg hg.le]
    have b : (⨅ i, e' i) = g * ⨅ i, e i := by
      rw [show (⨅ i, e' i) = ⨅ i, g * e i from by unfold iInf; rw [hr], Real.mul_iInf_of_nonneg hg.le]
    rw [a, b, mul_div_mul_left _ _ hg.ne']
  have e1 : (covarianceFeatures L rows').n = (covarianceFeatures L rows).n := hn
  have e3 : (covarianceFeatures L rows').pOverN = (covarianceFeatures L rows).pOverN := by
    show (p : ℝ) / (rows'.length : ℝ) = (p : ℝ) / (rows.length : ℝ); rw [hn]
  have e5 : (covarianceFeatures L rows').sphericity = (covarianceFeatures L rows).sphericity := by
    show (covarianceFeatures L rows').effectiveRank / (p : ℝ) = (covarianceFeatures L rows).effectiveRank / (p : ℝ); rw [hR]
  have e2 : (covarianceFeatures L rows').p = (covarianceFeatures L rows).p := rfl
  generalize covarianceFeatures L rows' = F' at *
  generalize covarianceFeatures L rows = F at *
  cases F; cases F'
  simp only at *
  subst e1; subst e2; subst e3; subst hR; subst e5; subst hC; subst hm; subst hk
  rfl

/-- The two features that are not spectral, spelled out. -/
theorem feature_corr (L : Lapack) (rows : List (Fin p → ℝ)) : (covarianceFeatures L rows).meanAbsOffdiagCorr =
    if 1 < p then (∑ i, ∑ j, if i = j then 0 else |npCov rows i j / Real.sqrt (clippedVar rows i * clippedVar rows j)|) / ((p : ℝ) * ((p : ℝ) - 1)) else 0 := rfl

theorem feature_kurt (L : Lapack) (rows : List (Fin p → ℝ)) : (covarianceFeatures L rows).avgExcessKurtosis =
    (∑ i, ((rows.map fun x => (x i - npMean rows i) ^ 4).sum / (rows.length : ℝ) / (max (clippedVar rows i) EPS) ^ 2 - 3)) / (p : ℝ) := rfl

theorem suggest_congr (L : Lapack) {rows rows' : List (Fin p → ℝ)} (h : covarianceFeatures L rows' = covarianceFeatures L rows) (top : ℤ) :
    suggest L rows' top = suggest L rows top := by unfold suggest; rw [h]

/-! ## Order of the rows -/

/-- C126: `covariance_features` and `suggest` do not depend on the order of the rows. -/
theorem C126_row_order (L : Lapack) (rows rows' : List (Fin p → ℝ)) (h : rows'.Perm rows) (top : ℤ) :
    covarianceFeatures L rows' = covarianceFeatures L rows ∧ suggest L rows' top = suggest L rows top := by
  have hm : npMean rows' = npMean rows := by
    funext i; unfold npMean; rw [(h.map _).sum_eq, h.length_eq]
  have hc : npCov rows' = npCov rows := by
    ext i j; unfold npCov; rw [hm]; simp only [of_apply]; rw [(h.map _).sum_eq, h.length_eq]
  have hf : covarianceFeatures L rows' = covarianceFeatures L rows := by
    unfold covarianceFeatures clippedEvals clippedVar
    rw [hm, hc, h.length_eq]
    have : ∀ i : Fin p, (rows'.map fun x => (x i - npMean rows i) ^ 4).sum = (rows.map fun x => (x i - npMean rows i) ^ 4).sum :=
      fun i => (h.map _).sum_eq
    simp only [this]
  exact ⟨hf, suggest_congr L hf top⟩

/-! ## Names, signs and origins of the columns -/

theorem npMean_reface (ε : Fin p → ℝ) (σ : Equiv.Perm (Fin p)) (b : Fin p → ℝ) {rows : List (Fin p → ℝ)} (hn : rows ≠ []) (i : Fin p) :
    npMean (rows.map (reface ε σ b)) i = ε i * npMean rows (σ i) + b i := by
  have hl : (rows.length : ℝ) ≠ 0 := by exact_mod_cast (List.length_pos_iff.2 hn).ne'
  have : ((rows.map (reface ε σ b)).map fun x => x i).sum = ε i * (rows.map fun x => x (σ i)).sum + rows.length * b i := by
    rw [List.map_map]
    clear hn hl
    induction rows with
    | nil => simp
    | cons x rows ih =>
      simp only [List.map_cons, List.sum_cons, ih, Function.comp, reface, List.length_cons, Nat.cast_add, Nat.cast_one]
      ring
  unfold npMean
  rw [this, List.length_map]
  field_simp

theorem reface_dev (ε : Fin p → ℝ) (σ : Equiv.Perm (Fin p)) (b : Fin p → ℝ) {rows : List (Fin p → ℝ)} (hn : rows ≠ []) (x : Fin p → ℝ) (i : Fin p) :
    reface ε σ b x i - npMean (rows.map (reface ε σ b)) i = ε i * (x (σ i) - npMean rows (σ i)) := by
  rw [npMean_reface ε σ b hn]; unfold reface; ring

theorem npCov_reface (ε : Fin p → ℝ) (σ : Equiv.Perm (Fin p)) (b : Fin p → ℝ) {rows : List (Fin p → ℝ)} (hn : rows ≠ []) (i j : Fin p) :
    npCov (rows.map (reface ε σ b)) i j = ε i * ε j * npCov rows (σ i) (σ j) := by
  unfold npCov
  simp only [of_apply, List.map_map, List.length_map, Function.comp, reface_dev ε σ b hn]
  rw [← mul_div_assoc, ← List.sum_map_mul_left]
  congr 2
  refine List.map_congr_left fun x _ => ?_
  show (reface ε σ b x i - npMean (rows.map (reface ε σ b)) i) * (reface ε σ b x j - npMean (rows.map (reface ε σ b)) j) = _
  rw [reface_dev ε σ b hn, reface_dev ε σ b hn]
  ring

theorem npCov_symm (rows : List (Fin p → ℝ)) : Symm (npCov rows) := fun i j => by
  unfold npCov; simp only [of_apply]; congr 2; exact List.map_congr_left fun x _ => mul_comm _ _

/-- The orthogonal matrix of a signed permutation. -/
def signedPerm (ε : Fin p → ℝ) (σ : Equiv.Perm (Fin p)) : Matrix (Fin p) (Fin p) ℝ := Matrix.of fun i j => if σ i = j then ε i else 0

theorem signedPerm_orth {ε : Fin p → ℝ} (hε : ∀ i, ε i = 1 ∨ ε i = -1) (σ : Equiv.Perm (Fin p)) : (signedPerm ε σ)ᵀ * signedPerm ε σ = 1 := by
  ext i j
  simp only [Matrix.mul_apply, transpose_apply, signedPerm, of_apply, Matrix.one_apply]
  have : ∀ k, (if σ k = i then ε k else 0) * (if σ k = j then ε k else 0) = if k = σ.symm i then (if i = j then 1 else 0) else 0 := by
    intro k
    have hk : (k = σ.symm i) ↔ σ k = i := by rw [Equiv.eq_symm_apply]
    by_cases h1 : σ k = i
    · rw [if_pos h1, if_pos (hk.2 h1), h1]
      by_cases h2 : i = j
      · rw [if_pos h2, if_pos h2]; rcases hε k with h | h <;> rw [h] <;> norm_num
      · rw [if_neg h2, if_neg h2, mul_zero]
    · rw [if_neg h1, if_neg (fun h => h1 (hk.1 h)), zero_mul]
  simp only [this, Finset.sum_ite_eq', Finset.mem_univ, if_true]

theorem signedPerm_conj (ε : Fin p → ℝ) (σ : Equiv.Perm (Fin p)) (S : Matrix (Fin p) (Fin p) ℝ) (i j : Fin p) :
    (signedPerm ε σ * S * (signedPerm ε σ)ᵀ) i j = ε i * ε j * S (σ i) (σ j) := by
  simp only [Matrix.mul_apply, transpose_apply, signedPerm, of_apply, ite_mul, zero_mul, mul_ite, mul_zero, Finset.sum_ite_eq,
    Finset.mem_univ, if_true]
  ring

/-- C126: nor on the order, the signs or the origins of the columns. -/
theorem C126_columns (L : Lapack) (rows : List (Fin p → ℝ)) (hn : rows ≠ []) (ε : Fin p → ℝ) (hε : ∀ i, ε i = 1 ∨ ε i = -1)
    (σ : Equiv.Perm (Fin p)) (b : Fin p → ℝ) (top : ℤ) :
    covarianceFeatures L (rows.map (reface ε σ b)) = covarianceFeatures L rows ∧
    suggest L (rows.map (reface ε σ b)) top = suggest L rows top := by
  have e2 : ∀ i, ε i * ε i = 1 := fun i => by rcases hε i with h | h <;> rw [h] <;> norm_num
  have ea : ∀ i, |ε i| = 1 := fun i => by rcases hε i with h | h <;> rw [h] <;> norm_num
  have hv : ∀ i, clippedVar (rows.map (reface ε σ b)) i = clippedVar rows (σ i) := fun i => by
    unfold clippedVar; rw [npCov_reface ε σ b hn, e2, one_mul]
  have hf : covarianceFeatures L (rows.map (reface ε σ b)) = covarianceFeatures L rows := by
    refine features_ext L (by simp) one_pos ?_ ?_ ?_
    · intro f
      have hs := L.eigh_spec (npCov_symm (rows.map (reface ε σ b)))
      have hs0 := L.eigh_spec (npCov_symm rows)
      have hT : npCov (rows.map (reface ε σ b)) = signedPerm ε σ * npCov rows * (signedPerm ε σ)ᵀ := by
        ext i j; rw [npCov_reface ε σ b hn, signedPerm_conj]
      have := spectrum_sum (L.eigh_orth _ (npCov_symm rows)) (L.eigh_orth _ (npCov_symm (rows.map (reface ε σ b)))) (signedPerm_orth hε σ)
        (w := (L.eigh (npCov rows)).1) (w' := (L.eigh (npCov (rows.map (reface ε σ b)))).1) (by rw [← hs, ← hs0, hT]) (fun x => f (max x EPS))
      simpa [clippedEvals] using this
    · rw [feature_corr, feature_corr]
      congr 1
      congr 1
      rw [← Equiv.sum_comp σ (fun i => ∑ j, if i = j then 0 else |npCov rows i j / Real.sqrt (clippedVar rows i * clippedVar rows j)|)]
      refine Finset.sum_congr rfl fun i _ => ?_
      rw [← Equiv.sum_comp σ (fun j => if σ i = j then 0 else |npCov rows (σ i) j / Real.sqrt (clippedVar rows (σ i) * clippedVar rows j)|)]
      refine Finset.sum_congr rfl fun j _ => ?_
      simp only [σ.injective.eq_iff]
      split
      · rfl
      · rw [npCov_reface ε σ b hn, hv, hv, mul_div_assoc, abs_mul, abs_mul, ea, ea, one_mul, one_mul]
    · rw [feature_kurt, feature_kurt]
      congr 1
      rw [← Equiv.sum_comp σ (fun i => (rows.map fun x => (x i - npMean rows i) ^ 4).sum / (rows.length : ℝ) / (max (clippedVar rows i) EPS) ^ 2 - 3)]
      refine Finset.sum_congr rfl fun i _ => ?_
      rw [hv, List.length_map, List.map_map]
      congr 4
      refine List.map_congr_left fun x _ => ?_
      show (reface ε σ b x i - npMean (rows.map (reface ε σ b)) i) ^ 4 = _
      rw [reface_dev ε σ b hn, mul_pow, show ε i ^ 4 = (ε i * ε i) ^ 2 by ring, e2, one_pow, one_mul]
  exact ⟨hf, suggest_congr L hf top⟩

/-! ## Units -/

theorem npMean_units (c : ℝ) (rows : List (Fin p → ℝ)) (i : Fin p) : npMean (rows.map (inUnits c)) i = c * npMean rows i := by
  unfold npMean
  rw [List.map_map, List.length_map, ← mul_div_assoc, ← List.sum_map_mul_left]
  rfl

theorem units_dev (c : ℝ) (rows : List (Fin p → ℝ)) (x : Fin p → ℝ) (i : Fin p) :
    inUnits c x i - npMean (rows.map (inUnits c)) i = c * (x i - npMean rows i) := by
  rw [npMean_units]; unfold inUnits; ring

theorem npCov_units (c : ℝ) (rows : List (Fin p → ℝ)) : npCov (rows.map (inUnits c)) = c ^ 2 • npCov rows := by
  ext i j
  unfold npCov
  simp only [of_apply, List.map_map, List.length_map, Matrix.smul_apply, smul_eq_mul]
  rw [← mul_div_assoc, ← List.sum_map_mul_left]
  congr 2
  refine List.map_congr_left fun x _ => ?_
  show (inUnits c x i - npMean (rows.map (inUnits c)) i) * (inUnits c x j - npMean (rows.map (inUnits c)) j) = _
  rw [units_dev, units_dev]
  ring

theorem m4_units (c : ℝ) (rows : List (Fin p → ℝ)) (i : Fin p) :
    ((rows.map (inUnits c)).map fun x => (x i - npMean (rows.map (inUnits c)) i) ^ 4).sum =
      c ^ 4 * (rows.map fun x => (x i - npMean rows i) ^ 4).sum := by
  rw [List.map_map, ← List.sum_map_mul_left]
  congr 1
  refine List.map_congr_left fun x _ => ?_
  show (inUnits c x i - npMean (rows.map (inUnits c)) i) ^ 4 = _
  rw [units_dev]; ring

theorem minEig_diag {S : Matrix (Fin p) (Fin p) ℝ} {c : ℝ} (h : MinEigGE S c) (i : Fin p) : c ≤ S i i := by
  have := h (Pi.single i 1)
  rw [quad_single] at this
  have e : normSq (Pi.single i (1 : ℝ) : Fin p → ℝ) = 1 := by
    unfold normSq
    rw [Finset.sum_eq_single i]
    · simp
    · intro j _ hj; simp [Pi.single_apply, hj]
    · simp
  rwa [e, mul_one] at this

/-- C126: nor on the unit the data are in, as long as no eigenvalue of their covariance is below the floor 1e-12 in either unit. -/
theorem C126_units (L : Lapack) (rows : List (Fin p → ℝ)) (c : ℝ) (hc : c ≠ 0) (h : MinEigGE (covOf rows) (1 / 10 ^ 12))
    (h' : MinEigGE (covOf (rows.map (inUnits c))) (1 / 10 ^ 12)) (top : ℤ) :
    covarianceFeatures L (rows.map (inUnits c)) = covarianceFeatures L rows ∧
    suggest L (rows.map (inUnits c)) top = suggest L rows top := by
  rw [← npCov_eq] at h h'
  change MinEigGE (npCov rows) EPS at h
  change MinEigGE (npCov (rows.map (inUnits c))) EPS at h'
  have hg : 0 < c ^ 2 := by positivity
  have ho := L.eigh_orth _ (npCov_symm rows)
  have hs0 := L.eigh_spec (npCov_symm rows)
  have hs := L.eigh_spec (npCov_symm (rows.map (inUnits c)))
  have hsc : npCov (rows.map (inUnits c)) = spec (L.eigh (npCov rows)).2 (fun i => c ^ 2 * (L.eigh (npCov rows)).1 i) := by
    rw [spec_smul, ← hs0, npCov_units]
  have w1 : ∀ i, EPS ≤ (L.eigh (npCov rows)).1 i := fun i => eigs_ge ho (by rw [← hs0]; exact h) i
  have w2 : ∀ i, EPS ≤ c ^ 2 * (L.eigh (npCov rows)).1 i := fun i =>
    eigs_ge (w := fun i => c ^ 2 * (L.eigh (npCov rows)).1 i) ho (by rw [← hsc]; exact h') i
  have d1 : ∀ i, clippedVar rows i = npCov rows i i := fun i => max_eq_left (minEig_diag h i)
  have d2 : ∀ i, clippedVar (rows.map (inUnits c)) i = c ^ 2 * npCov rows i i := fun i => by
    have := minEig_diag h' i
    unfold clippedVar
    rw [max_eq_left this, npCov_units]; rfl
  have dp : ∀ i, EPS ≤ npCov rows i i := minEig_diag h
  have hf : covarianceFeatures L (rows.map (inUnits c)) = covarianceFeatures L rows := by
    refine features_ext L (by simp) hg ?_ ?_ ?_
    · intro f
      have := spectrum_sum (T := 1) ho (L.eigh_orth _ (npCov_symm (rows.map (inUnits c)))) (by simp)
        (w := fun i => c ^ 2 * (L.eigh (npCov rows)).1 i) (w' := (L.eigh (npCov (rows.map (inUnits c)))).1)
        (by rw [← hs, transpose_one, Matrix.mul_one, Matrix.one_mul, hsc]) (fun x => f (max x EPS))
      unfold clippedEvals
      rw [this]
      refine Finset.sum_congr rfl fun i _ => ?_
      rw [max_eq_left (w2 i), max_eq_left (w1 i)]
    · rw [feature_corr, feature_corr]
      congr 1
      congr 1
      refine Finset.sum_congr rfl fun i _ => Finset.sum_congr rfl fun j _ => ?_
      split
      · rfl
      · rw [d1, d1, d2, d2, npCov_units, Matrix.smul_apply, smul_eq_mul,
          show c ^ 2 * npCov rows i i * (c ^ 2 * npCov rows j j) = (c ^ 2) ^ 2 * (npCov rows i i * npCov rows j j) by ring,
          Real.sqrt_mul (by positivity), Real.sqrt_sq hg.le, mul_div_mul_left _ _ hg.ne']
    · rw [feature_kurt, feature_kurt]
      congr 1
      refine Finset.sum_congr rfl fun i _ => ?_
      have v1 : EPS ≤ npCov rows i i := dp i
      have v2 : EPS ≤ c ^ 2 * npCov rows i i := by rw [← d2]; exact le_max_right _ _
      rw [d1, d2, max_eq_left v1, max_eq_left v2, m4_units, List.length_map]
      have : npCov rows i i ≠ 0 := (lt_of_lt_of_le EPS_pos v1).ne'
      congr 1
      rw [mul_pow, show (c ^ 2) ^ 2 = c ^ 4 by ring, mul_div_assoc, mul_div_mul_left _ _ (pow_ne_zero 4 hc)]
  exact ⟨hf, suggest_congr L hf top⟩

/-! ## Writing the data down more than once -/

theorem copies_sum (k : ℕ) (rows : List (Fin p → ℝ)) (g : (Fin p → ℝ) → ℝ) : ((copies k rows).map g).sum = k * (rows.map g).sum := by
  unfold copies
  induction k with
  | zero => simp
  | succ k ih =>
    rw [List.replicate_succ, List.flatten_cons, List.map_append, List.sum_append, ih]
    push_cast; ring

theorem copies_length {α : Type} (k : ℕ) (rows : List α) : (copies k rows).length = k * rows.length := by
  unfold copies; simp

theorem copies_avg {k : ℕ} (hk : 1 ≤ k) (rows : List (Fin p → ℝ)) (g : (Fin p → ℝ) → ℝ) :
    ((copies k rows).map g).sum / ((copies k rows).length : ℝ) = (rows.map g).sum / (rows.length : ℝ) := by
  rw [copies_sum, copies_length]
  push_cast
  rw [mul_div_mul_left]
  exact_mod_cast (by omega : k ≠ 0)

/-- C126: writing every row down `k` times changes `n` and `p_over_n` and nothing else. So it can change the recommendation: what looks like a
short window is taken for a long one. -/
theorem C126_copies (L : Lapack) (rows : List (Fin p → ℝ)) (k : ℕ) (hk : 1 ≤ k) :
    covarianceFeatures L (copies k rows) = { covarianceFeatures L rows with
      n := k * rows.length, pOverN := (p : ℝ) / ((k * rows.length : ℕ) : ℝ) } := by
  have hm : npMean (copies k rows) = npMean rows := by funext i; exact copies_avg hk rows _
  have hc : npCov (copies k rows) = npCov rows := by
    ext i j
    have := copies_avg hk rows fun x => (x i - npMean rows i) * (x j - npMean rows j)
    unfold npCov
    rw [hm]; exact this
  unfold covarianceFeatures clippedEvals clippedVar
  have h4 : ∀ i : Fin p, ((copies k rows).map fun x => (x i - npMean rows i) ^ 4).sum / ((copies k rows).length : ℝ) =
      (rows.map fun x => (x i - npMean rows i) ^ 4).sum / (rows.length : ℝ) := fun i => copies_avg hk rows _
  simp only [hm, hc, h4]
  simp only [copies_length]

/-! ## Where units do matter -/

theorem list_avg_le {α : Type} (l : List α) (g : α → ℝ) {M : ℝ} (hM : 0 ≤ M) (h : ∀ x ∈ l, g x ≤ M) : (l.map g).sum / (l.length : ℝ) ≤ M := by
  rcases l with _ | ⟨a, l⟩
  · simpa using hM
  · rw [div_le_iff₀ (by simp only [List.length_cons]; positivity)]
    have := List.sum_le_card_nsmul ((a :: l).map g) M (by intro y hy; obtain ⟨x, hx, rfl⟩ := List.mem_map.1 hy; exact h x hx)
    rw [List.length_map, nsmul_eq_mul] at this
    linarith

theorem quad_npCov (rows : List (Fin p → ℝ)) (v : Fin p → ℝ) :
    quad (npCov rows) v = (rows.map fun x => (∑ i, v i * (x i - npMean rows i)) ^ 2).sum / (rows.length : ℝ) := by
  have : ∀ l : List (Fin p → ℝ), ∀ m : Fin p → ℝ, quad (Matrix.of fun i j => (l.map fun x => (x i - m i) * (x j - m j)).sum) v =
      (l.map fun x => (∑ i, v i * (x i - m i)) ^ 2).sum := by
    intro l m
    induction l with
    | nil => simp [quad, Matrix.mulVec, dotProduct]
    | cons x l ih =>
      simp only [List.map_cons, List.sum_cons]
      rw [← ih]
      simp only [quad, Matrix.mulVec, dotProduct, of_apply, add_mul, mul_add, Finset.sum_add_distrib]
      congr 1
      rw [pow_two, Finset.sum_mul_sum]
      refine Finset.sum_congr rfl fun i _ => ?_
      rw [Finset.mul_sum]
      exact Finset.sum_congr rfl fun j _ => by ring
  rw [← this]
  unfold npCov
  simp only [quad, Matrix.mulVec, dotProduct, of_apply]
  rw [Finset.sum_div]
  refine Finset.sum_congr rfl fun i _ => ?_
  rw [← mul_div_assoc', Finset.sum_div]
  congr 1
  exact Finset.sum_congr rfl fun j _ => by ring

theorem tiny_maxEig {rows : List (Fin p → ℝ)} (h : Tiny rows) : MaxEigLE (npCov rows) EPS := by
  intro v
  have hnn : 0 ≤ normSq v := Finset.sum_nonneg fun i _ => mul_self_nonneg _
  rw [quad_npCov]
  refine list_avg_le rows _ (mul_nonneg EPS_pos.le hnn) fun x hx => ?_
  have hcs := Finset.sum_mul_sq_le_sq_mul_sq Finset.univ v (fun i => x i - npMean rows i)
  have hx' : ∑ i, (x i - npMean rows i) ^ 2 ≤ EPS := by
    have := h x hx
    rw [← npMean_eq] at this
    unfold normSq at this
    simp only [pow_two]
    exact this
  have hv : ∑ i, v i ^ 2 = normSq v := by unfold normSq; exact Finset.sum_congr rfl fun i _ => pow_two _
  rw [hv] at hcs
  nlinarith

theorem tiny_features (L : Lapack) (rows : List (Fin p → ℝ)) (hp : 1 ≤ p) (h : Tiny rows) :
    (covarianceFeatures L rows).sphericity = 1 ∧ (covarianceFeatures L rows).conditionNumber = 1 ∧
    (covarianceFeatures L rows).avgExcessKurtosis ≤ -2 := by
  have hpp : (0 : ℝ) < p := by exact_mod_cast hp
  have : Nonempty (Fin p) := ⟨⟨0, by omega⟩⟩
  have hs0 := L.eigh_spec (npCov_symm rows)
  have hme := tiny_maxEig h
  have he : clippedEvals L rows = fun _ => EPS := by
    funext i
    exact max_eq_right (eigs_le (L.eigh_orth _ (npCov_symm rows)) (by rw [← hs0]; exact hme) i)
  have hR : (covarianceFeatures L rows).effectiveRank = p := by
    show (if 0 < ∑ i, clippedEvals L rows i then (∑ i, clippedEvals L rows i) ^ 2 / ∑ i, clippedEvals L rows i ^ 2 else 1) = p
    rw [he]
    simp only [Finset.sum_const, Finset.card_univ, Fintype.card_fin, nsmul_eq_mul]
    have := EPS_pos
    rw [if_pos (by positivity)]
    field_simp
  refine ⟨?_, ?_, ?_⟩
  · show (covarianceFeatures L rows).effectiveRank / (p : ℝ) = 1
    rw [hR, div_self hpp.ne']
  · show (⨆ i, clippedEvals L rows i) / (⨅ i, clippedEvals L rows i) = 1
    rw [he, ciSup_const, ciInf_const, div_self EPS_pos.ne']
  · rw [feature_kurt, div_le_iff₀ hpp]
    have key : ∀ i, (rows.map fun x => (x i - npMean rows i) ^ 4).sum / (rows.length : ℝ) / (max (clippedVar rows i) EPS) ^ 2 - 3 ≤ -2 := by
      intro i
      have hvar : clippedVar rows i = EPS := by
        refine max_eq_right ?_
        have := hme (Pi.single i 1)
        rw [quad_single] at this
        have e : normSq (Pi.single i (1 : ℝ) : Fin p → ℝ) = 1 := by
          unfold normSq
          rw [Finset.sum_eq_single i]
          · simp
          · intro j _ hj; simp [Pi.single_apply, hj]
          · simp
        rwa [e, mul_one] at this
      rw [hvar, max_self]
      have h4 : (rows.map fun x => (x i - npMean rows i) ^ 4).sum / (rows.length : ℝ) ≤ EPS ^ 2 := by
        refine list_avg_le rows _ (sq_nonneg _) fun x hx => ?_
        have h2 : (x i - npMean rows i) ^ 2 ≤ EPS := by
          have h3 := h x hx
          rw [← npMean_eq] at h3
          unfold normSq at h3
          have h5 := Finset.single_le_sum (f := fun i => (x i - npMean rows i) * (x i - npMean rows i)) (fun j _ => mul_self_nonneg _) (Finset.mem_univ i)
          rw [pow_two]
          exact h5.trans h3
        have h6 : 0 ≤ (x i - npMean rows i) ^ 2 := sq_nonneg _
        calc (x i - npMean rows i) ^ 4 = ((x i - npMean rows i) ^ 2) ^ 2 := by ring
          _ ≤ EPS ^ 2 := pow_le_pow_left₀ h6 h2 2
      have : (rows.map fun x => (x i - npMean rows i) ^ 4).sum / (rows.length : ℝ) / EPS ^ 2 ≤ 1 := by
        rw [div_le_one (pow_pos EPS_pos 2)]; exact h4
      linarith
    refine (Finset.sum_le_sum fun i _ => key i).trans ?_
    simp [mul_comm]

/-- C126, finding: data that vary by less than 1e-6 are all alike to the recommender. With at least four rows per column they look
spherical, well conditioned and light-tailed whatever they are, and the ranking is the one for easy data, headed by EmpiricalCovariance. -/
theorem C126_tiny (L : Lapack) (rows : List (Fin p → ℝ)) (hp : 1 ≤ p) (hn : 4 * p ≤ rows.length) (h : Tiny rows) (top : ℤ) :
    suggest L rows top = some (pyTake rankEasy top) ∧ rankEasy.head? = some "EmpiricalCovariance" := by
  obtain ⟨h1, h2, h3⟩ := tiny_features L rows hp h
  have hl : (0 : ℝ) < rows.length := by exact_mod_cast (by omega : 0 < rows.length)
  have h4 : (covarianceFeatures L rows).pOverN ≤ 1 / 4 := by
    show (p : ℝ) / (rows.length : ℝ) ≤ 1 / 4
    rw [div_le_div_iff₀ hl (by norm_num)]
    have : ((4 * p : ℕ) : ℝ) ≤ rows.length := by exact_mod_cast hn
    push_cast at this; linarith
  refine ⟨?_, by decide +kernel⟩
  have := C54_five_rankings (covarianceFeatures L rows)
  simp only [] at this
  unfold suggest
  rw [this, if_neg, if_neg]
  · rfl
  · linarith
  · rintro (h | h | h)
    · linarith
    · rw [h1] at h; norm_num at h
    · rw [h2] at h; norm_num at h

/-- C126, finding: so the recommendation is a matter of units. Every window of at least four rows per column gets the ranking for easy data
when it is expressed in a large enough unit. -/
theorem C126_units_decide (L : Lapack) (rows : List (Fin p → ℝ)) (hp : 1 ≤ p) (hn : 4 * p ≤ rows.length) :
    ∃ c0 > 0, ∀ c, 0 < c → c ≤ c0 → ∀ top, suggest L (rows.map (inUnits c)) top = some (pyTake rankEasy top) := by
  obtain ⟨M, hM0, hM⟩ : ∃ M : ℝ, 0 < M ∧ ∀ x ∈ rows, normSq (fun i => x i - meanOf rows i) ≤ M := by
    clear hn
    generalize meanOf rows = m
    induction rows with
    | nil => exact ⟨1, one_pos, by simp⟩
    | cons x rows ih =>
      obtain ⟨M, h0, h1⟩ := ih
      refine ⟨max M (normSq fun i => x i - m i), lt_max_of_lt_left h0, fun y hy => ?_⟩
      rcases List.mem_cons.1 hy with rfl | hy
      · exact le_max_right _ _
      · exact (h1 y hy).trans (le_max_left _ _)
  refine ⟨Real.sqrt (1 / 10 ^ 12 / M), Real.sqrt_pos.2 (by positivity), fun c hc hc0 top => ?_⟩
  refine (C126_tiny L _ hp (by simpa using hn) ?_ top).1
  intro y hy
  obtain ⟨x, hx, rfl⟩ := List.mem_map.1 hy
  have hc2 : c ^ 2 ≤ 1 / 10 ^ 12 / M := by
    have := pow_le_pow_left₀ hc.le hc0 2
    rwa [Real.sq_sqrt (by positivity)] at this
  have e : normSq (fun i => inUnits c x i - meanOf (rows.map (inUnits c)) i) = c ^ 2 * normSq (fun i => x i - meanOf rows i) := by
    unfold normSq
    rw [Finset.mul_sum]
    refine Finset.sum_congr rfl fun i _ => ?_
    rw [← npMean_eq, ← npMean_eq]
    show (inUnits c x i - npMean (rows.map (inUnits c)) i) * (inUnits c x i - npMean (rows.map (inUnits c)) i) = c ^ 2 * ((x i - npMean rows i) * (x i - npMean rows i))
    rw [units_dev]; ring
  rw [e]
  calc c ^ 2 * normSq (fun i => x i - meanOf rows i) ≤ (1 / 10 ^ 12 / M) * M := by
        refine mul_le_mul hc2 (hM x hx) (Finset.sum_nonneg fun i _ => mul_self_nonneg _) (by positivity)
    _ = 1 / 10 ^ 12 := by field_simp

/-! ## The unit of one column -/

/-- The four corners of a square, twice: eight rows, two uncorrelated columns of variance 1. -/
def square : List (Fin 2 → ℝ) := copies 2 [![1, 1], ![1, -1], ![-1, 1], ![-1, -1]]

theorem diag_spectrum (L : Lapack) {rows : List (Fin p → ℝ)} {w : Fin p → ℝ} (h : npCov rows = diagonal w) (f : ℝ → ℝ) :
    ∑ i, f (clippedEvals L rows i) = ∑ i, f (max (w i) EPS) := by
  have hs := L.eigh_spec (npCov_symm rows)
  have := spectrum_sum (T := 1) (v := 1) (by simp) (L.eigh_orth _ (npCov_symm rows)) (by simp) (w := w) (w' := (L.eigh (npCov rows)).1)
    (by rw [← hs, h]; simp [spec]) (fun x => f (max x EPS))
  exact this

/-- The spectral features of two uncorrelated columns with variances `a ≥ b ≥ 1e-12`. -/
theorem two_spectral (L : Lapack) {rows : List (Fin 2 → ℝ)} {a b : ℝ} (h : npCov rows = diagonal ![a, b]) (hb : EPS ≤ b) (hab : b ≤ a) :
    (covarianceFeatures L rows).sphericity = (a + b) ^ 2 / (a ^ 2 + b ^ 2) / 2 ∧ (covarianceFeatures L rows).conditionNumber = a / b := by
  have hs := diag_spectrum L h
  have ha : EPS ≤ a := hb.trans hab
  have hb0 := lt_of_lt_of_le EPS_pos hb
  have ha0 := lt_of_lt_of_le EPS_pos ha
  have hsum : ∀ f : ℝ → ℝ, ∑ i, f (clippedEvals L rows i) = ∑ i, f ((![a, b] : Fin 2 → ℝ) i) := by
    intro f; rw [hs f]; simp [Fin.sum_univ_two, max_eq_left ha, max_eq_left hb]
  have hr := range_of_sums hsum
  constructor
  · show (if 0 < ∑ i, clippedEvals L rows i then (∑ i, clippedEvals L rows i) ^ 2 / ∑ i, clippedEvals L rows i ^ 2 else 1) / ((2 : ℕ) : ℝ) = _
    rw [hsum fun x => x, hsum fun x => x ^ 2]
    simp only [Fin.sum_univ_two, Matrix.cons_val_zero, Matrix.cons_val_one]
    rw [if_pos (by positivity)]
    norm_num
  · show (⨆ i, clippedEvals L rows i) / (⨅ i, clippedEvals L rows i) = a / b
    have e1 : (⨆ i, clippedEvals L rows i) = a := by
      unfold iSup; rw [hr, Matrix.range_cons, Matrix.range_cons, Matrix.range_empty, Set.union_empty, Set.singleton_union, csSup_pair, max_eq_left hab]
    have e2 : (⨅ i, clippedEvals L rows i) = b := by
      unfold iInf; rw [hr, Matrix.range_cons, Matrix.range_cons, Matrix.range_empty, Set.union_empty, Set.singleton_union, csInf_pair, min_eq_right hab]
    rw [e1, e2]

theorem square_mean (c : ℝ) : npMean (square.map fun x => ![c * x 0, x 1]) = ![0, 0] := by
  funext i
  fin_cases i <;> simp [npMean, square, copies, List.replicate]

theorem square_cov (c : ℝ) : npCov (square.map fun x => ![c * x 0, x 1]) = diagonal ![c ^ 2, 1] := by
  ext i j
  unfold npCov
  rw [square_mean]
  fin_cases i <;> fin_cases j <;> norm_num [square, copies, List.replicate]
  ring

theorem square_kurt (L : Lapack) {c : ℝ} (hc : 1 ≤ c) : (covarianceFeatures L (square.map fun x => ![c * x 0, x 1])).avgExcessKurtosis = -2 := by
  have hE : EPS ≤ 1 := by unfold EPS; norm_num
  have hc2 : EPS ≤ c ^ 2 := hE.trans (one_le_pow₀ hc)
  have v0 : clippedVar (square.map fun x => ![c * x 0, x 1]) 0 = c ^ 2 := by unfold clippedVar; rw [square_cov]; simp [hc2]
  have v1 : clippedVar (square.map fun x => ![c * x 0, x 1]) 1 = 1 := by unfold clippedVar; rw [square_cov]; simp [hE]
  rw [feature_kurt, Fin.sum_univ_two, v0, v1, square_mean, max_eq_left hc2, max_eq_left hE]
  have : c ≠ 0 := by linarith
  norm_num [square, copies, List.replicate]
  field_simp
  norm_num

/-- C126, finding: the units of single columns matter too. Eight rows of two uncorrelated columns with equal variances get the ranking for easy
data, headed by EmpiricalCovariance; with the first column in a unit ten times smaller, the same data get the ranking for hard data, headed by
LedoitWolfCovariance. -/
theorem C126_one_column_units (L : Lapack) :
    suggest L square 1 = some ["EmpiricalCovariance"] ∧ suggest L (square.map fun x => ![10 * x 0, x 1]) 1 = some ["LedoitWolfCovariance"] := by
  have hE : EPS ≤ 1 := by unfold EPS; norm_num
  have hsq : square = square.map fun x => ![1 * x 0, x 1] := by
    simp [square, copies, List.replicate]
  have len : ∀ c : ℝ, (square.map fun x => ![c * x 0, x 1]).length = 8 := fun c => by simp [square, copies]
  have pn : ∀ c : ℝ, (covarianceFeatures L (square.map fun x => ![c * x 0, x 1])).pOverN = 1 / 4 := fun c => by
    show ((2 : ℕ) : ℝ) / ((square.map fun x => ![c * x 0, x 1]).length : ℝ) = 1 / 4
    rw [len]; norm_num
  constructor
  · rw [hsq]
    obtain ⟨h1, h2⟩ := two_spectral L (square_cov 1) hE (by norm_num)
    have h3 := square_kurt L (le_refl 1)
    have h4 := C54_five_rankings (covarianceFeatures L (square.map fun x => ![1 * x 0, x 1]))
    simp only [] at h4
    unfold suggest
    rw [h4, if_neg, if_neg]
    · rfl
    · rw [h3]; norm_num
    · rw [pn, h1, h2]; norm_num
  · obtain ⟨h1, h2⟩ := two_spectral L (square_cov 10) hE (by norm_num)
    have h3 := square_kurt L (by norm_num : (1 : ℝ) ≤ 10)
    have h4 := C54_five_rankings (covarianceFeatures L (square.map fun x => ![10 * x 0, x 1]))
    simp only [] at h4
    unfold suggest
    rw [h4, if_pos, if_neg]
    · rfl
    · rw [h3]; norm_num
    · rw [h2]; norm_num

/-! Non-vacuity -/

/-- The hypotheses of `C126_units`, for the square in a unit ten times smaller. -/
example : MinEigGE (covOf square) (1 / 10 ^ 12) ∧ MinEigGE (covOf (square.map (inUnits 10))) (1 / 10 ^ 12) := by
  have hsq : square = square.map fun x => ![1 * x 0, x 1] := by simp [square, copies, List.replicate]
  have h1 : npCov square = 1 := by
    rw [hsq, square_cov]; ext i j; fin_cases i <;> fin_cases j <;> simp
  constructor
  · rw [← npCov_eq, h1]
    intro x
    simp only [quad, Matrix.one_mulVec, normSq, dotProduct, Fin.sum_univ_two]
    nlinarith [mul_self_nonneg (x 0), mul_self_nonneg (x 1)]
  · rw [← npCov_eq, npCov_units, h1]
    intro x
    simp only [quad, Matrix.smul_mulVec, Matrix.one_mulVec, normSq, dotProduct, Fin.sum_univ_two, Pi.smul_apply, smul_eq_mul]
    nlinarith [mul_self_nonneg (x 0), mul_self_nonneg (x 1)]

/-- The hypotheses of `C126_units_decide`, on data for which the recommendation changes. -/
example (L : Lapack) : ∃ c0 > 0, ∀ c, 0 < c → c ≤ c0 → suggest L ((square.map fun x => ![10 * x 0, x 1]).map (inUnits c)) 1 ≠
    suggest L (square.map fun x => ![10 * x 0, x 1]) 1 := by
  obtain ⟨c0, h0, h⟩ := C126_units_decide L (square.map fun x => ![10 * x 0, x 1]) (by norm_num) (by simp [square, copies])
  refine ⟨c0, h0, fun c hc hcc => ?_⟩
  rw [h c hc hcc 1, (C126_one_column_units L).2]
  decide +kernel

end Precise
