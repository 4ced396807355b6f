import Verif.Props.Robust
import Verif.Spec.Dcc
import Mathlib.LinearAlgebra.Matrix.SchurComplement
import Mathlib.LinearAlgebra.Matrix.Rank

/-!
# C37: GeodesicEwaCovariance, C38: DCCCovariance, C39: FactorCovariance
-/

set_option linter.all false

open Matrix

namespace Precise

open Spec Obj

variable {ι : Type} [Fintype ι] [DecidableEq ι]

theorem psd_covOf (xs : List (ι → ℝ)) : PSD (covOf xs) := by
  refine ⟨symm_covOf _, fun u => ?_⟩
  rw [quad_covOf]
  refine div_nonneg (List.sum_nonneg fun a ha => ?_) (Nat.cast_nonneg _)
  obtain ⟨x, _, rfl⟩ := List.mem_map.1 ha
  exact mul_self_nonneg _

/-! ## C37 -/

section Geodesic
variable (L : Lapack)

noncomputable def geoFold (pr : RParam ℝ) (xs : List (ι → ℝ)) : EwaState ι ℝ := xs.foldl (geodesicUpdate L) (ewaInit pr.r)

theorem geoFold_snoc (pr : RParam ℝ) (xs : List (ι → ℝ)) (x : ι → ℝ) :
    geoFold L pr (xs ++ [x]) = geodesicUpdate L (geoFold L pr xs) x := by simp [geoFold]

theorem geoFold_symm (pr : RParam ℝ) (xs : List (ι → ℝ)) : Symm (geoFold L pr xs).cov := by
  induction xs using List.reverseRecOn with
  | nil => exact symm_zero
  | append_singleton xs x ih =>
    rw [geoFold_snoc]
    generalize geoFold L pr xs = s at ih ⊢
    unfold geodesicUpdate
    split
    · exact symm_empUpdate ih x
    · exact (C37_step_pd L _ _ _).1

theorem geoFold_inv (pr : RParam ℝ) (ys : List (ι → ℝ)) :
    (geoFold L pr ys).nSamples = ys.length ∧ (geoFold L pr ys).r = pr.r ∧ (geoFold L pr ys).nBurn = ewaBurnN pr.r := by
  induction ys using List.reverseRecOn with
  | nil => exact ⟨rfl, rfl, rfl⟩
  | append_singleton ys x ih =>
    rw [geoFold_snoc]
    generalize geoFold L pr ys = s at ih ⊢
    unfold geodesicUpdate
    split
    · exact ⟨by simp [ewaBurnStep, empUpdate, ih.1], ih.2⟩
    · exact ⟨by simp [ih.1], ih.2⟩

theorem geo_attrs (pr : RParam ℝ) (calls : List (Call ι ℝ)) (C : Matrix ι ι ℝ)
    (hC : ((new (geodesicCls L ι) pr).run calls).covariance = .ok C) :
    used pr.diff calls ≠ [] ∧ C = (geoFold L pr (used pr.diff calls)).cov := by
  obtain ⟨h1, h2⟩ := run_covariance_inv (geodesic_lawful L ι) pr calls C hC
  exact ⟨h1, h2.trans (toSymmetric_of_symm (geoFold_symm L pr _))⟩

/-- C37: the update rule after the burn-in: a geodesic step of size `r` from the reported covariance towards the
outer product of the innovation. -/
theorem C37_update (pr : RParam ℝ) (calls calls' : List (Call ι ℝ)) (y : ι → ℝ)
    (hy : used pr.diff calls' = used pr.diff calls ++ [y]) (hb : ewaBurnN pr.r ≤ (used pr.diff calls).length)
    (C C' : Matrix ι ι ℝ) (m : ι → ℝ)
    (hC : ((new (geodesicCls L ι) pr).run calls).covariance = .ok C) (hm : ((new (geodesicCls L ι) pr).run calls).location = .ok m)
    (hC' : ((new (geodesicCls L ι) pr).run calls').covariance = .ok C') :
    C' = geodesicStep L C (outer (y - m) (y - m)) pr.r := by
  obtain ⟨h0, e1⟩ := geo_attrs L pr calls C hC
  obtain ⟨_, e2⟩ := geo_attrs L pr calls' C' hC'
  obtain ⟨_, e3⟩ := run_location_inv (geodesic_lawful L ι) pr calls m hm
  change m = (geoFold L pr (used pr.diff calls)).mean at e3
  obtain ⟨hn, hr, hbn⟩ := geoFold_inv L pr (used pr.diff calls)
  rw [hy, geoFold_snoc] at e2
  generalize geoFold L pr (used pr.diff calls) = s at *
  subst e1 e3
  rw [e2]
  unfold geodesicUpdate
  rw [if_neg (by rw [hn, hbn]; omega)]
  simp only []
  rw [hr]; rfl

/-- C37: as soon as the burn-in is over the covariance is positive-definite, whatever the data and the rate; during
the burn-in it is the sample covariance, hence PSD. -/
theorem C37_pd (pr : RParam ℝ) (calls : List (Call ι ℝ)) (C : Matrix ι ι ℝ)
    (hC : ((new (geodesicCls L ι) pr).run calls).covariance = .ok C) :
    (ewaBurnN pr.r < (used pr.diff calls).length → PD C) ∧
    ((used pr.diff calls).length ≤ ewaBurnN pr.r → C = covOf (used pr.diff calls)) ∧ PSD C := by
  obtain ⟨h0, e1⟩ := geo_attrs L pr calls C hC
  generalize used pr.diff calls = xs at *
  have A : ewaBurnN pr.r < xs.length → PD C := by
    intro hlen
    obtain ⟨ys, y, rfl⟩ := List.eq_nil_or_concat xs |>.resolve_left h0
    rw [List.concat_eq_append] at *
    rw [e1, geoFold_snoc]
    obtain ⟨hn, hr, hbn⟩ := geoFold_inv L pr ys
    generalize geoFold L pr ys = s at *
    unfold geodesicUpdate
    rw [if_neg (by rw [hn, hbn]; simp at hlen; omega)]
    exact C37_step_pd L _ _ _
  have B : ∀ ys : List (ι → ℝ), ys.length ≤ ewaBurnN pr.r → (geoFold L pr ys).toEmpState = empFold ys := by
    intro ys
    induction ys using List.reverseRecOn with
    | nil => intro _; rfl
    | append_singleton ys y ih =>
      intro hl
      have hl' : ys.length + 1 ≤ ewaBurnN pr.r := by simpa using hl
      rw [geoFold_snoc, empFold_snoc, ← ih (by omega)]
      obtain ⟨hn, hr, hbn⟩ := geoFold_inv L pr ys
      generalize geoFold L pr ys = s at *
      unfold geodesicUpdate
      rw [if_pos (by rw [hn, hbn]; omega)]
      rfl
  have B' : xs.length ≤ ewaBurnN pr.r → C = covOf xs := fun hl => by
    rw [e1, ← empFold_cov h0, ← B xs hl]
  refine ⟨A, B', ?_⟩
  rcases lt_or_ge (ewaBurnN pr.r) xs.length with h | h
  · exact (A h).psd
  · rw [B' h]; exact psd_covOf xs

/-- flooring the spectrum of a rank-one matrix -/
theorem makePosDef_outer (d : ι → ℝ) {e : ℝ} (he : 0 < e) : ∃ c, makePosDef L (outer d d) e = e • 1 + c • outer d d ∧
    e + c * normSq d = max (normSq d) e := by
  have hs := symm_outer (ι := ι) (K := ℝ) d
  have ho := L.eigh_orth (outer d d) hs
  have hsp := L.eigh_spec hs
  set v := (L.eigh (outer d d)).2
  set w := (L.eigh (outer d d)).1
  have hsq : outer d d * outer d d = normSq d • outer d d := by
    ext i j
    simp only [Matrix.mul_apply, outer, Matrix.of_apply, Matrix.smul_apply, smul_eq_mul, normSq, Finset.sum_mul]
    exact Finset.sum_congr rfl fun k _ => by ring
  have hw : ∀ i, w i * w i = normSq d * w i := by
    have h1 : spec v (fun i => w i * w i) = spec v (fun i => normSq d * w i) := by
      rw [spec_smul, ← hsp, ← hsq, hsp, spec_mul ho]
    have h2 := congrArg (fun M => vᵀ * M * v) h1
    simp only [spec_conj ho] at h2
    intro i
    have := congrFun (congrFun h2 i) i
    simpa [diagonal] using this
  have hn := normSq_nonneg d
  rw [makePosDef_of_spec L ho (by rw [toSymmetric_of_symm hs]; exact hsp)]
  have hv : ∀ c, spec v (fun i => e + c * w i) = e • 1 + c • outer d d := fun c => by
    rw [spec_add, spec_smul, ← hsp]
    congr 1
    have := spec_smul v (fun _ => (1:ℝ)) e
    simp only [mul_one] at this
    rw [this, spec_one ho]
  rcases le_total (normSq d) e with h | h
  · refine ⟨0, ?_, by rw [max_eq_right h]; ring⟩
    rw [← hv 0]
    congr 1; ext i
    have := hw i
    rw [zero_mul, add_zero, max_eq_right]
    rcases eq_or_ne (w i) 0 with h0 | h0
    · rw [h0]; exact he.le
    · rw [mul_right_cancel₀ h0 this]; exact h
  · have hp : 0 < normSq d := lt_of_lt_of_le he h
    refine ⟨(normSq d - e) / normSq d, ?_, by rw [max_eq_left h]; field_simp; ring⟩
    rw [← hv]
    congr 1; ext i
    have := hw i
    rcases eq_or_ne (w i) 0 with h0 | h0
    · rw [h0, mul_zero, add_zero, max_eq_right he.le]
    · rw [mul_right_cancel₀ h0 this, max_eq_left h]; field_simp; ring

theorem det_makePosDef_outer [Nonempty ι] (d : ι → ℝ) {e : ℝ} (he : 0 < e) :
    (makePosDef L (outer d d) e).det = e ^ (Fintype.card ι - 1) * max (normSq d) e := by
  obtain ⟨c, hc, hm⟩ := makePosDef_outer L d he
  rw [hc, ← hm]
  have e1 : e • (1 : Matrix ι ι ℝ) + c • outer d d = e • (1 + replicateCol Unit ((c / e) • d) * replicateRow Unit d) := by
    ext i j
    simp only [Matrix.add_apply, Matrix.smul_apply, smul_eq_mul, outer, Matrix.of_apply, Matrix.mul_apply, Finset.univ_unique,
      Finset.sum_singleton, replicateCol_apply, replicateRow_apply, Pi.smul_apply]
    field_simp
  have hcard : 0 < Fintype.card ι := Fintype.card_pos
  rw [e1, det_smul, det_one_add_replicateCol_mul_replicateRow]
  obtain ⟨n, hn⟩ : ∃ n, Fintype.card ι = n + 1 := ⟨_, (Nat.succ_pred_eq_of_pos hcard).symm⟩
  rw [hn, pow_succ, Nat.add_sub_cancel, dotProduct_smul, smul_eq_mul, mul_assoc]
  congr 1
  have : d ⬝ᵥ d = normSq d := rfl
  rw [this]; field_simp

/-- C37, the shipped behaviour: each update after the burn-in pulls the determinant geometrically towards that of the
floored rank-one innovation matrix, `(1e-8)^(p-1) · max(|δ|², 1e-8)`, which is tiny for `p ≥ 2` whatever the true
covariance is. -/
theorem C37_det_update [Nonempty ι] (pr : RParam ℝ) (calls calls' : List (Call ι ℝ)) (y : ι → ℝ)
    (hy : used pr.diff calls' = used pr.diff calls ++ [y]) (hb : ewaBurnN pr.r ≤ (used pr.diff calls).length)
    (C C' : Matrix ι ι ℝ) (m : ι → ℝ) (hmin : MinEigGE C (1 / 10 ^ 8))
    (hC : ((new (geodesicCls L ι) pr).run calls).covariance = .ok C) (hm : ((new (geodesicCls L ι) pr).run calls).location = .ok m)
    (hC' : ((new (geodesicCls L ι) pr).run calls').covariance = .ok C') :
    C'.det = C.det ^ (1 - pr.r) * ((1 / 10 ^ 8) ^ (Fintype.card ι - 1) * max (normSq (y - m)) (1 / 10 ^ 8)) ^ pr.r := by
  have he : (0:ℝ) < 1 / 10 ^ 8 := by positivity
  have hs : Symm C := by
    rw [(geo_attrs L pr calls C hC).2]; exact geoFold_symm L pr _
  rw [C37_update L pr calls calls' y hy hb C C' m hC hm hC', ← det_makePosDef_outer L (y - m) he,
    ← C37_det L C _ hs (symm_makePosDef L _ _) hmin (minEig_makePosDef L _ _)]
  congr 1
  -- the step floors its target itself
  unfold geodesicStep
  rw [(C50_identity L (makePosDef L (outer (y - m) (y - m))) (1 / 10 ^ 8) (minEig_makePosDef L _ _)).2 (symm_makePosDef L _ _)]

end Geodesic

/-! ## C38 -/

section DCC

noncomputable def dccFold (pr : DCCParam) (xs : List (ι → ℝ)) : DCCState ι := xs.foldl dccUpdate (dccInit pr)

theorem dccFold_snoc (pr : DCCParam) (xs : List (ι → ℝ)) (x : ι → ℝ) : dccFold pr (xs ++ [x]) = dccUpdate (dccFold pr xs) x := by
  simp [dccFold]

theorem dccFold_inv (pr : DCCParam) (ys : List (ι → ℝ)) : (dccFold pr ys).nSamples = ys.length ∧ (dccFold pr ys).r = pr.r ∧
    (dccFold pr ys).volR = pr.volR.getD pr.r ∧ (dccFold pr ys).nBurn = ewaBurnN (min pr.r (pr.volR.getD pr.r)) := dcc_inv pr ys

/-- number of observations averaged plainly -/
noncomputable abbrev dccBurn (pr : DCCParam) : ℕ := ewaBurnN (min pr.r (pr.volR.getD pr.r))

theorem take_succ_getD (xs : List (ι → ℝ)) (t : ℕ) (ht : t < xs.length) (d : ι → ℝ) : xs.take t ++ [xs.getD t d] = xs.take (t + 1) := by
  rw [List.take_add_one, List.getD_eq_getElem?_getD, List.getElem?_eq_getElem ht]; rfl

theorem dccFold_mean (pr : DCCParam) (xs : List (ι → ℝ)) : (dccFold pr xs).mean = recencyMean (pr.volR.getD pr.r) (dccBurn pr) xs := by
  rcases eq_or_ne xs [] with rfl | hx
  · ext i; simp [recencyMean, dccFold, dccInit]
  · ext i
    refine closed_of_step (pr.volR.getD pr.r) (dccBurn pr) (le_trans (by norm_num) (ewaBurnN_ge _)) (fun xs => (dccFold pr xs).mean i)
      (fun _ x => x i) (fun ys y hy => ?_) (fun ys y hy => ?_) xs hx 0
    all_goals
      obtain ⟨hn, hr, hv, hb⟩ := dccFold_inv pr ys
      simp only [dccFold_snoc]
      generalize dccFold pr ys = s at *
      unfold dccUpdate
      simp only []
      rw [hb, hn]
    · rw [if_pos hy]
    · rw [if_neg (by unfold dccBurn at hy; omega), hv]

theorem dccFold_h (pr : DCCParam) (xs : List (ι → ℝ)) (hx : xs ≠ []) : (dccFold pr xs).h = trackedVar (pr.volR.getD pr.r) (dccBurn pr) xs := by
  ext i
  have := closed_of_step (pr.volR.getD pr.r) (dccBurn pr) (le_trans (by norm_num) (ewaBurnN_ge _)) (fun xs => (dccFold pr xs).h i)
      (fun ys y => (y i - (dccFold pr ys).mean i) ^ 2) (fun ys y hy => ?_) (fun ys y hy => ?_) xs hx 0
  · rw [this]
    unfold trackedVar innovation
    simp only [dccFold_mean, Pi.sub_apply]
  all_goals
      obtain ⟨hn, hr, hv, hb⟩ := dccFold_inv pr ys
      simp only [dccFold_snoc]
      generalize dccFold pr ys = s at *
      unfold dccUpdate
      simp only []
      rw [hb, hn]
  · rw [if_pos hy, pow_two]
  · rw [if_neg (by unfold dccBurn at hy; omega), hv, pow_two]

theorem dccFold_Q (pr : DCCParam) (xs : List (ι → ℝ)) (hx : xs ≠ []) :
    (dccFold pr xs).Q = dccQuasi pr.r (pr.volR.getD pr.r) (dccBurn pr) xs := by
  ext i j
  have := closed_of_step pr.r (dccBurn pr) (le_trans (by norm_num) (ewaBurnN_ge _)) (fun xs => (dccFold pr xs).Q i j)
      (fun ys y => (y i - (dccFold pr ys).mean i) / Real.sqrt (max ((dccFold pr (ys ++ [y])).h i) EPS) *
        ((y j - (dccFold pr ys).mean j) / Real.sqrt (max ((dccFold pr (ys ++ [y])).h j) EPS))) (fun ys y hy => ?_) (fun ys y hy => ?_) xs hx 0
  · rw [this]
    unfold dccQuasi dccResidual
    simp only [Matrix.of_apply]
    refine Finset.sum_congr rfl fun t ht => ?_
    rw [take_succ_getD _ _ (Finset.mem_range.1 ht), dccFold_mean, dccFold_h pr (xs.take (t+1)) (by
      have := Finset.mem_range.1 ht
      intro h; rw [List.take_eq_nil_iff] at h; rcases h with h | h
      · omega
      · exact hx h)]
    rfl
  all_goals
      obtain ⟨hn, hr, hv, hb⟩ := dccFold_inv pr ys
      simp only [dccFold_snoc]
      generalize dccFold pr ys = s at *
      unfold dccUpdate
      simp only []
      rw [hb, hn]
  · simp only [if_pos hy, Matrix.add_apply, Matrix.smul_apply, Matrix.sub_apply, outer, Matrix.of_apply, smul_eq_mul]
    ring
  · simp only [if_neg (by unfold dccBurn at hy; omega : ¬ ys.length + 1 ≤ ewaBurnN (min pr.r (pr.volR.getD pr.r))), Matrix.add_apply,
      Matrix.smul_apply, outer, Matrix.of_apply, smul_eq_mul, hr]

theorem trackedVar_nonneg {r : ℝ} (h0 : 0 ≤ r) (h1 : r ≤ 1) (b : ℕ) (xs : List (ι → ℝ)) (i : ι) : 0 ≤ trackedVar r b xs i :=
  Finset.sum_nonneg fun t _ => mul_nonneg (recencyWeight_nonneg h0 h1 _ _ _) (sq_nonneg _)

theorem psd_dccQuasi {r : ℝ} (h0 : 0 ≤ r) (h1 : r ≤ 1) (volR : ℝ) (b : ℕ) (xs : List (ι → ℝ)) : PSD (dccQuasi r volR b xs) := by
  have e : dccQuasi r volR b xs = ∑ t ∈ Finset.range xs.length, recencyWeight r b xs.length t • outer (dccResidual volR b xs t) (dccResidual volR b xs t) := by
    ext i j
    simp [dccQuasi, Matrix.sum_apply, outer]
  rw [e]
  generalize xs.length = n
  generalize Finset.range n = S
  induction S using Finset.induction_on with
  | empty => simpa using psd_zero
  | insert a S ha ih => rw [Finset.sum_insert ha]; exact ((psd_outer _).smul (recencyWeight_nonneg h0 h1 _ _ _)).add ih

theorem dcc_attrs (pr : DCCParam) (calls : List (Call ι ℝ)) (C : Matrix ι ι ℝ)
    (hC : ((new (dccCls ι) pr).run calls).covariance = .ok C) :
    used pr.diff calls ≠ [] ∧ C = toSymmetric (dccCov (dccFold pr (used pr.diff calls))) := by
  obtain ⟨h1, h2⟩ := run_covariance_inv (dcc_lawful ι) pr calls C hC
  exact ⟨h1, h2⟩

/-- C38: `location_` is the recency mean at the volatility rate. -/
theorem C38_location (pr : DCCParam) (calls : List (Call ι ℝ)) (m : ι → ℝ)
    (hm : ((new (dccCls ι) pr).run calls).location = .ok m) :
    m = recencyMean (pr.volR.getD pr.r) (dccBurn pr) (used pr.diff calls) := by
  obtain ⟨_, h⟩ := run_location_inv (dcc_lawful ι) pr calls m hm
  exact h.trans (dccFold_mean pr _)

/-- C38: `covariance_` is `D R D`: the quasi-correlation of the standardized innovations rescaled to unit diagonal
(diagonal floored at 1e-12), times the tracked volatilities (variances floored at 1e-12). -/
theorem C38_drd (pr : DCCParam) (calls : List (Call ι ℝ)) (C : Matrix ι ι ℝ)
    (hC : ((new (dccCls ι) pr).run calls).covariance = .ok C) (i j : ι) :
    let xs := used pr.diff calls
    let h := trackedVar (pr.volR.getD pr.r) (dccBurn pr) xs
    let Q := dccQuasi pr.r (pr.volR.getD pr.r) (dccBurn pr) xs
    C i j = Real.sqrt (max (h i) (1 / 10 ^ 12)) * (Q i j / (Real.sqrt (max (Q i i) (1 / 10 ^ 12)) * Real.sqrt (max (Q j j) (1 / 10 ^ 12)))) *
      Real.sqrt (max (h j) (1 / 10 ^ 12)) := by
  obtain ⟨hx, e⟩ := dcc_attrs pr calls C hC
  have hQs : Symm (dccQuasi pr.r (pr.volR.getD pr.r) (dccBurn pr) (used pr.diff calls)) := fun a b => by
    simp only [dccQuasi, Matrix.of_apply]
    exact Finset.sum_congr rfl fun t _ => by ring
  have hs : Symm (dccCov (dccFold pr (used pr.diff calls))) := fun a b => by
    unfold dccCov
    simp only [Matrix.of_apply]
    rw [dccFold_Q pr _ hx, hQs a b]; ring
  rw [toSymmetric_of_symm hs] at e
  simp only [e, dccCov, Matrix.of_apply, dccFold_Q pr _ hx, dccFold_h pr _ hx, EPS]
  simp only [div_eq_mul_inv, mul_inv]
  ring

/-- C38: the result is PSD for correlation rates in [0,1], whatever the volatility rate. -/
theorem C38_psd (pr : DCCParam) (h0 : 0 ≤ pr.r) (h1 : pr.r ≤ 1) (calls : List (Call ι ℝ)) (C : Matrix ι ι ℝ)
    (hC : ((new (dccCls ι) pr).run calls).covariance = .ok C) : PSD C := by
  have hQ := psd_dccQuasi h0 h1 (pr.volR.getD pr.r) (dccBurn pr) (used pr.diff calls)
  set Q := dccQuasi pr.r (pr.volR.getD pr.r) (dccBurn pr) (used pr.diff calls) with hQd
  set g : ι → ℝ := fun i => Real.sqrt (max (trackedVar (pr.volR.getD pr.r) (dccBurn pr) (used pr.diff calls) i) (1 / 10 ^ 12)) /
    Real.sqrt (max (Q i i) (1 / 10 ^ 12)) with hg
  have e : C = diagonal g * Q * (diagonal g)ᵀ := by
    ext i j
    rw [C38_drd pr calls C hC i j, diagonal_transpose, mul_diagonal, diagonal_mul, ← hQd, hg]
    simp only [div_eq_mul_inv, mul_inv]
    ring
  rw [e]
  exact hQ.congr _

/-- C38: the reported variances: the tracked variance, floored at 1e-12, whenever the quasi-correlation's diagonal
entry is at least 1e-12; scaled down by that entry otherwise. The tracked variances are never negative. -/
theorem C38_diagonal (pr : DCCParam) (calls : List (Call ι ℝ)) (C : Matrix ι ι ℝ)
    (hC : ((new (dccCls ι) pr).run calls).covariance = .ok C) (i : ι) :
    let xs := used pr.diff calls
    let h := trackedVar (pr.volR.getD pr.r) (dccBurn pr) xs
    let Q := dccQuasi pr.r (pr.volR.getD pr.r) (dccBurn pr) xs
    (1 / 10 ^ 12 ≤ Q i i → C i i = max (h i) (1 / 10 ^ 12)) ∧
    (Q i i ≤ 1 / 10 ^ 12 → C i i = Q i i * 10 ^ 12 * max (h i) (1 / 10 ^ 12)) ∧
    (0 ≤ pr.volR.getD pr.r → pr.volR.getD pr.r ≤ 1 → 0 ≤ h i) := by
  intro xs h Q
  have e := C38_drd pr calls C hC i i
  simp only [] at e
  have hm : (0:ℝ) < max (h i) (1 / 10 ^ 12) := lt_of_lt_of_le (by positivity) (le_max_right _ _)
  have hq : (0:ℝ) < max (Q i i) (1 / 10 ^ 12) := lt_of_lt_of_le (by positivity) (le_max_right _ _)
  have e2 : C i i = max (h i) (1 / 10 ^ 12) * (Q i i / max (Q i i) (1 / 10 ^ 12)) := by
    rw [e, Real.mul_self_sqrt hq.le]
    have := Real.mul_self_sqrt hm.le
    calc _ = Real.sqrt (max (h i) (1 / 10 ^ 12)) * Real.sqrt (max (h i) (1 / 10 ^ 12)) * (Q i i / max (Q i i) (1 / 10 ^ 12)) := by ring
      _ = _ := by rw [this]
  refine ⟨fun hge => ?_, fun hle => ?_, fun a b => trackedVar_nonneg a b _ _ _⟩
  · rw [e2, max_eq_left hge, div_self, mul_one]
    have : (0:ℝ) < 1 / 10 ^ 12 := by positivity
    linarith
  · rw [e2, max_eq_right hle]; ring

/-- C38: standardizing by a volatility that already contains the observation caps the residuals: the squared
standardized innovation is at most the number of observations so far during the burn-in and at most `1/vol_r` after it,
however extreme the observation. -/
theorem C38_residual_bound {volR : ℝ} (h0 : 0 < volR) (h1 : volR ≤ 1) (b : ℕ) (xs : List (ι → ℝ)) (t : ℕ) (ht : t < xs.length) (i : ι) :
    (t < b → dccResidual volR b xs t i ^ 2 ≤ t + 1) ∧ (b ≤ t → dccResidual volR b xs t i ^ 2 ≤ 1 / volR) := by
  have hlen : (xs.take (t + 1)).length = t + 1 := by simp; omega
  have hinn : innovation volR b (xs.take (t + 1)) t = innovation volR b xs t := by
    unfold innovation
    rw [List.take_take, min_eq_left (Nat.le_succ t)]
    congr 1
    simp [List.getD_eq_getElem?_getD, List.getElem?_take]
  have hge : recencyWeight volR b (t + 1) t * innovation volR b xs t i ^ 2 ≤ trackedVar volR b (xs.take (t + 1)) i := by
    unfold trackedVar
    rw [hlen, ← hinn]
    refine Finset.single_le_sum (f := fun k => recencyWeight volR b (t + 1) k * innovation volR b (xs.take (t + 1)) k i ^ 2)
      (fun k _ => mul_nonneg (recencyWeight_nonneg h0.le h1 _ _ _) (sq_nonneg _)) (Finset.mem_range.2 (Nat.lt_succ_self t))
  have hm : (0:ℝ) < max (trackedVar volR b (xs.take (t + 1)) i) (1 / 10 ^ 12) := lt_of_lt_of_le (by positivity) (le_max_right _ _)
  have hge' := hge.trans (le_max_left _ (1 / 10 ^ 12 : ℝ))
  unfold dccResidual
  rw [div_pow, Real.sq_sqrt hm.le, div_le_iff₀ hm, div_le_iff₀ hm]
  generalize max (trackedVar volR b (xs.take (t + 1)) i) (1 / 10 ^ 12) = M at *
  generalize innovation volR b xs t i ^ 2 = q at *
  constructor
  · intro hb
    have : recencyWeight volR b (t + 1) t = 1 / ((t + 1 : ℕ) : ℝ) := by unfold recencyWeight; rw [if_pos (by omega)]
    rw [this, one_div, inv_mul_le_iff₀ (by positivity)] at hge'
    push_cast at hge'; exact hge'
  · intro hb
    rw [weight_last volR b t hb, mul_comm] at hge'
    rw [div_mul_eq_mul_div, one_mul, le_div_iff₀ h0]; exact hge'

theorem burn_half : ewaBurnN (1 / 2 : ℝ) = 5 := by
  unfold ewaBurnN; norm_num
  rfl

/-- C38, the unprotected case: when the quasi-correlation's diagonal underflows its floor the reported variance is lost
although the tracked variance is not: here `covariance_` is 0 with a tracked variance of at least 1/10. -/
theorem C38_collapse_witness : ∃ (pr : DCCParam) (calls : List (Call (Fin 1) ℝ)),
    0 < pr.r ∧ pr.r ≤ 1 ∧ ((new (dccCls (Fin 1)) pr).run calls).covariance = .ok 0 ∧
    1 / 10 ≤ trackedVar (pr.volR.getD pr.r) (dccBurn pr) (used pr.diff calls) 0 := by
  obtain ⟨pr, hr, hv, hd⟩ : ∃ pr : DCCParam, pr.r = 1 ∧ pr.volR.getD pr.r = 1 / 2 ∧ pr.diff = false := ⟨⟨1, some (1/2), false⟩, rfl, rfl, rfl⟩
  have hb : dccBurn pr = 5 := by unfold dccBurn; rw [hv, hr, min_eq_right (by norm_num), burn_half]
  have hu : used pr.diff [Call.partialFit (.batch (burnRows ++ [0]))] = burnRows ++ [0] := by rw [hd]; exact used_batch _
  have hne : used pr.diff [Call.partialFit (.batch (burnRows ++ [0]))] ≠ [] := by rw [hu]; simp
  refine ⟨pr, [.partialFit (.batch (burnRows ++ [0]))], by rw [hr]; norm_num, by rw [hr], ?_, ?_⟩
  · obtain ⟨C, hC⟩ := run_cov_ok (dcc_lawful (Fin 1)) pr _ hne
    rw [hC]
    congr 1
    have hdiag := (C38_diagonal pr _ C hC 0).2.1
    have hQ : dccQuasi pr.r (pr.volR.getD pr.r) (dccBurn pr) (used pr.diff [Call.partialFit (.batch (burnRows ++ [0]))]) 0 0 = 0 := by
      rw [← dccFold_Q pr _ hne, hu, dccFold_snoc]
      have hm : (dccFold pr burnRows).mean 0 = 0 := by
        rw [dccFold_mean, hv, hb]
        simp [recencyMean, burnRows, Finset.sum_range_succ, recencyWeight]
      obtain ⟨hn, hr', hv', hb'⟩ := dccFold_inv pr burnRows
      have hb2 : (dccFold pr burnRows).nBurn = 5 := hb'.trans hb
      have hn2 : (dccFold pr burnRows).nSamples = 5 := hn
      generalize dccFold pr burnRows = s at *
      unfold dccUpdate
      simp only []
      rw [if_neg (by rw [hb2, hn2]; omega), hr', hr]
      simp [outer, hm]
    rw [hQ] at hdiag
    ext i j
    fin_cases i; fin_cases j
    have := hdiag (by positivity)
    simpa using this
  · rw [hv, hb, hu]
    refine le_trans (le_of_eq ?_) (Finset.single_le_sum (f := fun t => recencyWeight (1/2 : ℝ) 5 (burnRows ++ [0]).length t * innovation (1/2) 5 (burnRows ++ [0]) t 0 ^ 2)
      (fun k _ => mul_nonneg (recencyWeight_nonneg (by norm_num) (by norm_num) _ _ _) (sq_nonneg _)) (Finset.mem_range.2 (by simp [burnRows] : 0 < (burnRows ++ [0]).length)))
    simp [recencyWeight, innovation, burnRows, recencyMean]
    norm_num

end DCC

/-! ## C39 -/

section Factor

noncomputable def factorFold (pr : FactorParam) (xs : List (ι → ℝ)) : FactorState ι := xs.foldl factorUpdate (factorInit pr)

theorem factorFold_snoc (pr : FactorParam) (xs : List (ι → ℝ)) (x : ι → ℝ) :
    factorFold pr (xs ++ [x]) = factorUpdate (factorFold pr xs) x := by simp [factorFold]

theorem factorFold_inv (pr : FactorParam) (ys : List (ι → ℝ)) : (factorFold pr ys).nSamples = ys.length ∧ (factorFold pr ys).r = pr.r ∧
    (factorFold pr ys).k = min pr.k (Fintype.card ι) ∧ (factorFold pr ys).nBurn = min pr.k (Fintype.card ι) + 1 := factor_inv pr ys

theorem factorFold_mean (pr : FactorParam) (xs : List (ι → ℝ)) :
    (factorFold pr xs).mean = recencyMean pr.r (min pr.k (Fintype.card ι) + 1) xs := by
  rcases eq_or_ne xs [] with rfl | hx
  · ext i; simp [recencyMean, factorFold, factorInit]
  · ext i
    refine closed_of_step pr.r (min pr.k (Fintype.card ι) + 1) (by omega) (fun xs => (factorFold pr xs).mean i)
      (fun _ x => x i) (fun ys y hy => ?_) (fun ys y hy => ?_) xs hx 0
    all_goals
      obtain ⟨hn, hr, hk, hb⟩ := factorFold_inv pr ys
      simp only [factorFold_snoc]
      generalize factorFold pr ys = s at *
      unfold factorUpdate
      simp only []
      rw [hb, hn]
    · rw [if_pos hy]
    · rw [if_neg (by omega), hr]

theorem factorFold_var (pr : FactorParam) (xs : List (ι → ℝ)) :
    (factorFold pr xs).var = trackedVar pr.r (min pr.k (Fintype.card ι) + 1) xs := by
  rcases eq_or_ne xs [] with rfl | hx
  · ext i; simp [trackedVar, factorFold, factorInit]
  ext i
  have := closed_of_step pr.r (min pr.k (Fintype.card ι) + 1) (by omega) (fun xs => (factorFold pr xs).var i)
      (fun ys y => (y i - (factorFold pr ys).mean i) ^ 2) (fun ys y hy => ?_) (fun ys y hy => ?_) xs hx 0
  · rw [this]
    unfold trackedVar innovation
    simp only [factorFold_mean, Pi.sub_apply]
  all_goals
      obtain ⟨hn, hr, hk, hb⟩ := factorFold_inv pr ys
      simp only [factorFold_snoc]
      generalize factorFold pr ys = s at *
      unfold factorUpdate
      simp only []
      rw [hb, hn]
  · rw [if_pos hy, pow_two]
  · rw [if_neg (by omega), hr, pow_two]

/-- number of non-zero rows -/
noncomputable def nzCount (V : List (ι → ℝ)) : ℕ := open Classical in V.countP fun v => decide (v ≠ 0)

theorem vecNorm_zero : vecNorm (0 : ι → ℝ) = 0 := by simp [vecNorm, normSq]

theorem factorLoop_facts (lr : ℝ) (V : List (ι → ℝ)) : ∀ u, (factorLoop lr V u).length = V.length ∧ nzCount (factorLoop lr V u) ≤ nzCount V + 1 := by
  classical
  induction V with
  | nil => intro u; exact ⟨rfl, by simp [factorLoop, nzCount]⟩
  | cons v vs ih =>
    intro u
    unfold factorLoop
    simp only []
    split
    · refine ⟨rfl, ?_⟩
      unfold nzCount
      simp only [List.countP_cons]
      split_ifs <;> omega
    · rename_i hn
      have hv : v ≠ 0 := by
        rintro rfl
        rw [vecNorm_zero] at hn
        exact hn (by unfold EPS; positivity)
      obtain ⟨l, c⟩ := ih (fun i => u i - (∑ i, u i * (v i / vecNorm v)) * (v i / vecNorm v))
      refine ⟨by simp [l], ?_⟩
      unfold nzCount at c ⊢
      simp only [List.countP_cons]
      rw [if_pos (by simpa using hv : decide (v ≠ 0) = true)]
      split_ifs <;> omega

theorem factorFold_V (pr : FactorParam) (xs : List (ι → ℝ)) :
    (factorFold pr xs).V.length = min pr.k (Fintype.card ι) ∧ nzCount (factorFold pr xs).V ≤ xs.length := by
  induction xs using List.reverseRecOn with
  | nil =>
    refine ⟨by simp [factorFold, factorInit], ?_⟩
    simp [factorFold, factorInit, nzCount, List.countP_replicate]
  | append_singleton xs x ih =>
    rw [factorFold_snoc]
    generalize factorFold pr xs = s at *
    unfold factorUpdate
    simp only []
    obtain ⟨a, b⟩ := factorLoop_facts (if s.nSamples + 1 ≤ s.nBurn then 1 / ((s.nSamples + 1 : ℕ) : ℝ) else s.r) s.V (fun i => x i - s.mean i)
    refine ⟨a.trans ih.1, b.trans ?_⟩
    rw [List.length_append, List.length_singleton]; omega

theorem factorActive_length (V : List (ι → ℝ)) : (factorActive V).length ≤ V.length ∧ (factorActive V).length ≤ nzCount V := by
  classical
  refine ⟨List.length_filter_le _ _, ?_⟩
  unfold factorActive nzCount
  rw [← List.countP_eq_length_filter]
  refine List.countP_mono_left fun v _ h => ?_
  have h' : EPS < vecNorm v := by simpa using h
  simp only [decide_eq_true_eq]
  rintro rfl
  rw [vecNorm_zero] at h'
  have : (0:ℝ) < EPS := by unfold EPS; positivity
  linarith

theorem factorPart_psd (V : List (ι → ℝ)) : PSD (factorPart V) := by
  unfold factorPart
  generalize factorActive V = A
  induction A with
  | nil => simpa using psd_zero
  | cons v A ih =>
    rw [List.map_cons, List.sum_cons]
    exact ((psd_outer v).smul (by unfold vecNorm; positivity)).add ih

theorem matrix_rank_add_le (A B : Matrix ι ι ℝ) : (A + B).rank ≤ A.rank + B.rank := by
  unfold Matrix.rank
  refine le_trans (Submodule.finrank_mono ?_) (Submodule.finrank_add_le_finrank_add_finrank _ _)
  rintro _ ⟨x, rfl⟩
  rw [Matrix.mulVecLin_add]
  exact Submodule.add_mem_sup ⟨x, rfl⟩ ⟨x, rfl⟩

theorem factorPart_rank (V : List (ι → ℝ)) : (factorPart V).rank ≤ (factorActive V).length := by
  unfold factorPart
  generalize factorActive V = A
  induction A with
  | nil => simp
  | cons v A ih =>
    rw [List.map_cons, List.sum_cons, List.length_cons]
    refine (matrix_rank_add_le _ _).trans ?_
    have : (1 / vecNorm v) • outer v v = vecMulVec ((1 / vecNorm v) • v) v := by
      ext i j; simp [outer, vecMulVec]; ring
    rw [this]
    have := rank_vecMulVec_le ((1 / vecNorm v) • v) v
    omega

theorem factorCaptured_eq (V : List (ι → ℝ)) (i : ι) : factorCaptured V i = factorPart V i i := by
  unfold factorCaptured factorPart
  have hA : ∀ v ∈ factorActive V, vecNorm v ≠ 0 := by
    intro v hv
    classical
    have h := (List.mem_filter.1 hv).2
    have h' : EPS < vecNorm v := by simpa using h
    have : (0:ℝ) < EPS := by unfold EPS; positivity
    linarith
  generalize factorActive V = A at *
  induction A with
  | nil => simp
  | cons v A ih =>
    rw [List.map_cons, List.sum_cons, List.map_cons, List.sum_cons, Matrix.add_apply, ih fun v hv => hA v (by simp [hv])]
    congr 1
    have := hA v (by simp)
    simp [outer]; field_simp

/-- C39: `covariance_` is a PSD matrix `F` of rank at most `min(k, d, n)` plus a non-negative diagonal, and each reported
variance is the larger of the tracked variance and the variance captured by the factors. -/
theorem C39_structure (pr : FactorParam) (calls : List (Call ι ℝ)) (C : Matrix ι ι ℝ)
    (hC : ((new (factorCls ι) pr).run calls).covariance = .ok C) :
    ∃ F : Matrix ι ι ℝ, ∃ D : ι → ℝ, PSD F ∧ F.rank ≤ min (min pr.k (Fintype.card ι)) (used pr.diff calls).length ∧ (∀ i, 0 ≤ D i) ∧
      C = F + diagonal D ∧
      ∀ i, C i i = max (trackedVar pr.r (min pr.k (Fintype.card ι) + 1) (used pr.diff calls) i) (F i i) := by
  obtain ⟨h1, h2⟩ := run_covariance_inv (factor_lawful ι) pr calls C hC
  change C = toSymmetric (factorCov (factorFold pr (used pr.diff calls))) at h2
  have hF := factorPart_psd (factorFold pr (used pr.diff calls)).V
  have hs : Symm (factorCov (factorFold pr (used pr.diff calls))) := hF.1.add (symm_diagonal _)
  rw [toSymmetric_of_symm hs] at h2
  obtain ⟨l1, l2⟩ := factorFold_V pr (used pr.diff calls)
  obtain ⟨a1, a2⟩ := factorActive_length (factorFold pr (used pr.diff calls)).V
  refine ⟨factorPart (factorFold pr (used pr.diff calls)).V, _, hF, ?_, ?_, h2, ?_⟩
  · have := factorPart_rank (factorFold pr (used pr.diff calls)).V
    omega
  · intro i; exact le_max_right _ _
  · intro i
    rw [h2, factorCov, Matrix.add_apply, diagonal_apply_eq, factorCaptured_eq, factorFold_var]
    rw [← max_add_add_left, add_sub_cancel, add_zero]

/-- C39: hence `covariance_` is PSD and no reported variance is negative. -/
theorem C39_psd (pr : FactorParam) (calls : List (Call ι ℝ)) (C : Matrix ι ι ℝ)
    (hC : ((new (factorCls ι) pr).run calls).covariance = .ok C) : PSD C := by
  obtain ⟨F, D, hF, -, hD, e, -⟩ := C39_structure pr calls C hC
  rw [e]
  exact hF.add (psd_diagonal hD)

end Factor

/-! ## Non-vacuity -/

section Examples
variable (L : Lapack)

-- C38, C39: both report a covariance on the demo stream, and it is as the theorems say
example : ∃ C, ((new (dccCls (Fin 2)) (⟨1/20, none, false⟩ : DCCParam)).run [.partialFit (.batch demoRows)]).covariance = .ok C ∧ PSD C := by
  obtain ⟨C, hC⟩ := run_cov_ok (dcc_lawful (Fin 2)) (⟨1/20, none, false⟩ : DCCParam) _ demo_ne
  exact ⟨C, hC, C38_psd _ (by norm_num) (by norm_num) _ C hC⟩
example : ∃ C, ((new (factorCls (Fin 2)) (⟨1, 1/20, false⟩ : FactorParam)).run [.partialFit (.batch demoRows)]).covariance = .ok C ∧ PSD C := by
  obtain ⟨C, hC⟩ := run_cov_ok (factor_lawful (Fin 2)) (⟨1, 1/20, false⟩ : FactorParam) _ demo_ne
  exact ⟨C, hC, C39_psd _ _ C hC⟩

/-- C37: six rows with `r = 1` are past the burn-in of 5, so the covariance is positive-definite -/
example (y : Fin 1 → ℝ) (pr : RParam ℝ) (hr : pr.r = 1) (hd : pr.diff = false) :
    ∃ C, ((new (geodesicCls L (Fin 1)) pr).run [.partialFit (.batch (burnRows ++ [y]))]).covariance = .ok C ∧ PD C := by
  have hu : used pr.diff [Call.partialFit (.batch (burnRows ++ [y]))] = burnRows ++ [y] := by rw [hd]; exact used_batch _
  obtain ⟨C, hC⟩ := run_cov_ok (geodesic_lawful L (Fin 1)) pr [Call.partialFit (.batch (burnRows ++ [y]))] (by
    show used pr.diff _ ≠ []; rw [hu]; simp)
  exact ⟨C, hC, (C37_pd L pr _ C hC).1 (by rw [hu, hr, burn_one]; simp [burnRows])⟩

/-- C37_det_update: the burn-in covariance 4/5 meets the eigenvalue hypothesis -/
example : MinEigGE (covOf burnRows) (1 / 10 ^ 8) := by
  intro x
  rw [burn_cov, quad_expand]
  simp [normSq]
  nlinarith [mul_self_nonneg (x 0)]

end Examples

end Precise
