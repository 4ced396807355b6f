import Verif.Props.Spiked

/-!
# C91: the candidate pairs and training draws of `research/schur_godambe.py`
-/

set_option linter.all false

open Matrix

namespace Precise.Theory

open Precise.Spec

variable {p : ℕ}

/-! ## The truth -/

theorem spikedTruth_eq (Q : Matrix (Fin p) (Fin p) ℝ) (k : ℕ) (spike bulk : ℝ) :
    spikedTruth Q k spike bulk = spec Q (spikedEvals k spike bulk) := by
  unfold spikedTruth
  have : (Matrix.of fun i j => Q i j * spikedEvals k spike bulk j) * Qᵀ = spec Q (spikedEvals k spike bulk) := by
    unfold spec
    congr 1
    ext i j
    rw [mul_diagonal]; rfl
  rw [this, toSymmetric_of_symm (symm_spec _ _)]

theorem sum_spikedEvals (k : ℕ) (hk : k ≤ p) (spike bulk : ℝ) : ∑ i : Fin p, spikedEvals k spike bulk i = k * spike + (p - k : ℕ) * bulk := by
  unfold spikedEvals
  rw [Finset.sum_ite]
  have h1 : (Finset.univ.filter fun i : Fin p => i.1 < k).card = k := by
    rw [Fin.card_filter_val_lt]; omega
  have h2 : (Finset.univ.filter fun i : Fin p => ¬ i.1 < k).card = p - k := by
    have := Finset.card_filter_add_card_filter_not (s := (Finset.univ : Finset (Fin p))) (fun i => i.1 < k)
    rw [h1, Finset.card_univ, Fintype.card_fin] at this
    omega
  rw [Finset.sum_const, Finset.sum_const, h1, h2, nsmul_eq_mul, nsmul_eq_mul]

theorem prod_spikedEvals (k : ℕ) (hk : k ≤ p) {spike bulk : ℝ} :
    ∏ i : Fin p, spikedEvals k spike bulk i = spike ^ k * bulk ^ (p - k) := by
  obtain ⟨m, rfl⟩ := Nat.exists_eq_add_of_le hk
  rw [Fin.prod_univ_add]
  simp [spikedEvals]

/-- C91: the spiked truth is what its parameters say, whatever orthogonal matrix was drawn: symmetric, every eigenvalue between `bulk` and `spike`,
total variance `k spike + (p - k) bulk`, determinant `spike^k bulk^(p-k)`; the first `k` columns of the drawn matrix have variance `spike`,
the others `bulk`. -/
theorem C91_truth (Q : Matrix (Fin p) (Fin p) ℝ) (hQ : Qᵀ * Q = 1) (k : ℕ) (hk : k ≤ p) (spike bulk : ℝ) (hb : 0 < bulk) (hs : bulk ≤ spike) :
    PD (spikedTruth Q k spike bulk) ∧ MinEigGE (spikedTruth Q k spike bulk) bulk ∧ MaxEigLE (spikedTruth Q k spike bulk) spike ∧
    (spikedTruth Q k spike bulk).trace = k * spike + (p - k : ℕ) * bulk ∧
    (spikedTruth Q k spike bulk).det = spike ^ k * bulk ^ (p - k) ∧
    ∀ j, spikedTruth Q k spike bulk *ᵥ (fun i => Q i j) = (if j.1 < k then spike else bulk) • fun i => Q i j := by
  have hev : ∀ i : Fin p, bulk ≤ spikedEvals k spike bulk i ∧ spikedEvals k spike bulk i ≤ spike := by
    intro i; unfold spikedEvals; split
    · exact ⟨hs, le_refl _⟩
    · exact ⟨le_refl _, hs⟩
  rw [spikedTruth_eq]
  refine ⟨pd_spec hQ fun i => lt_of_lt_of_le hb (hev i).1, minEig_spec hQ fun i => (hev i).1, maxEig_spec hQ fun i => (hev i).2, ?_, ?_, fun j => ?_⟩
  · rw [trace_spec hQ, sum_spikedEvals k hk]
  · have hd : Qᵀ.det * Q.det = 1 := by rw [← det_mul, hQ, det_one]
    unfold spec
    rw [det_mul, det_mul, det_diagonal, prod_spikedEvals k hk, mul_comm Q.det, mul_assoc, mul_comm Q.det, hd, mul_one]
  · have h1 : spec Q (spikedEvals k spike bulk) * Q = Q * diagonal (spikedEvals k spike bulk) := by
      unfold spec
      rw [Matrix.mul_assoc, hQ, Matrix.mul_one]
    ext i
    have := congrFun (congrFun h1 i) j
    rw [mul_apply, mul_diagonal] at this
    rw [mulVec, dotProduct, this, Pi.smul_apply, smul_eq_mul, mul_comm]; rfl

/-! ## The perturbed pair -/

theorem frob_quad {P : Matrix (Fin p) (Fin p) ℝ} {F : ℝ} (hF : ∑ i, ∑ j, P i j ^ 2 = F ^ 2) (h0 : 0 ≤ F) (x : Fin p → ℝ) : |quad P x| ≤ F * normSq x := by
  have hq : quad P x = ∑ k : Fin p × Fin p, P k.1 k.2 * (x k.1 * x k.2) := by
    rw [quad_expand, Fintype.sum_prod_type]
    exact Finset.sum_congr rfl fun i _ => Finset.sum_congr rfl fun j _ => by ring
  have hcs := Finset.sum_mul_sq_le_sq_mul_sq Finset.univ (fun k : Fin p × Fin p => P k.1 k.2) fun k => x k.1 * x k.2
  have e1 : ∑ k : Fin p × Fin p, P k.1 k.2 ^ 2 = F ^ 2 := by rw [Fintype.sum_prod_type]; exact hF
  have e2 : ∑ k : Fin p × Fin p, (x k.1 * x k.2) ^ 2 = normSq x ^ 2 := by
    rw [Fintype.sum_prod_type, sq (normSq x)]
    unfold normSq
    rw [Finset.sum_mul_sum]
    exact Finset.sum_congr rfl fun i _ => Finset.sum_congr rfl fun j _ => by ring
  rw [e1, e2, ← hq, ← mul_pow] at hcs
  exact abs_le_of_sq_le_sq hcs (mul_nonneg h0 (normSq_nonneg x))

/-- The perturbation before it is scaled to unit Frobenius norm. -/
noncomputable def rawP (Q G : Matrix (Fin p) (Fin p) ℝ) : Matrix (Fin p) (Fin p) ℝ :=
  (Matrix.of fun i j => if 3 ≤ j.1 then Q i j else 0) * toSymmetric G * (Matrix.of fun i j => if 3 ≤ j.1 then Q i j else 0)ᵀ

theorem noiseP_props (Q G : Matrix (Fin p) (Fin p) ℝ) (hne : rawP Q G ≠ 0) :
    Symm (noiseP Q G) ∧ ∑ i, ∑ j, noiseP Q G i j ^ 2 = 1 ∧ noiseP Q G ≠ 0 := by
  have heq : noiseP Q G = (1 / Real.sqrt (∑ i, ∑ j, rawP Q G i j ^ 2)) • rawP Q G := rfl
  have hpos : 0 < ∑ i, ∑ j, rawP Q G i j ^ 2 := by
    obtain ⟨i, hi⟩ := Function.ne_iff.1 hne
    obtain ⟨j, hj⟩ := Function.ne_iff.1 hi
    refine Finset.sum_pos' (fun i _ => Finset.sum_nonneg fun j _ => sq_nonneg _) ⟨i, Finset.mem_univ i, ?_⟩
    exact Finset.sum_pos' (fun j _ => sq_nonneg _) ⟨j, Finset.mem_univ j, by simpa using sq_pos_of_ne_zero hj⟩
  have hs := Real.sqrt_pos.2 hpos
  have h1 : ∑ i, ∑ j, noiseP Q G i j ^ 2 = 1 := by
    rw [heq]
    simp only [Matrix.smul_apply, smul_eq_mul, mul_pow, ← Finset.mul_sum]
    rw [div_pow, Real.sq_sqrt hpos.le]; field_simp
  refine ⟨?_, h1, fun h => by rw [h] at h1; simp at h1⟩
  rw [heq]
  exact Symm.smul _ ((symm_toSymmetric G).congr _)

/-- C91: the docstring of `_noise_subspace_pair`: with `0 <= eps_a < eps_b < bulk` both candidates are positive definite (smallest eigenvalue at least
`bulk - eps`) and A is strictly closer to the truth than B in divergence; so the full likelihood (`gamma = 1`) prefers A on average, for every drawn
orthogonal matrix and perturbation. -/
theorem C91_pair (Q G : Matrix (Fin p) (Fin p) ℝ) (hQ : Qᵀ * Q = 1) (hne : rawP Q G ≠ 0) (spike bulk : ℝ) (hk : 3 ≤ p) (hs : bulk ≤ spike)
    (epsA epsB : ℝ) (h0 : 0 ≤ epsA) (hab : epsA < epsB) (hb : epsB < bulk) :
    let T := spikedTruth Q 3 spike bulk
    let AB := noisePair T (noiseP Q G) epsA epsB
    MinEigGE AB.1 (bulk - epsA) ∧ MinEigGE AB.2 (bulk - epsB) ∧ PD AB.1 ∧ PD AB.2 ∧ kl AB.1 T < kl AB.2 T ∧
    ∀ sizes : List ℕ, sizes.sum = p → 0 < snrMu AB.1 AB.2 T sizes 1 := by
  intro T AB
  obtain ⟨n1, n2, n3⟩ := noiseP_props Q G hne
  obtain ⟨t1, t2, -, -, -, -⟩ := C91_truth Q hQ 3 hk spike bulk (by linarith) hs
  have hmin : ∀ e, 0 ≤ e → MinEigGE (T + e • noiseP Q G) (bulk - e) := by
    intro e he x
    rw [quad_add, quad_smul]
    have h1 := frob_quad (F := 1) (by rw [n2]; norm_num) (by norm_num) x
    have h2 := t2 x
    have h3 := mul_le_mul_of_nonneg_left (neg_le_of_abs_le h1) he
    have h4 : (bulk - e) * normSq x = bulk * normSq x + e * -(1 * normSq x) := by ring
    rw [h4]
    exact add_le_add h2 h3
  have hsym : ∀ e : ℝ, Symm (T + e • noiseP Q G) := fun e => t1.1.add (n1.smul e)
  have hA := pd_of_minEig (hsym epsA) (by linarith) (hmin epsA h0)
  have hB := pd_of_minEig (hsym epsB) (by linarith) (hmin epsB (by linarith))
  have hkl := (kl_ray t1 n1 h0 hab hA hB).2 n3
  refine ⟨hmin _ h0, hmin _ (by linarith), hA, hB, hkl, fun sizes hsz => ?_⟩
  have := C72_mu_kl AB.1 AB.2 T hA hB sizes hsz
  rw [this]
  exact sub_pos.2 hkl

/-! ## The training draws -/

theorem minEig_ridged (X : List (Fin p → ℝ)) (T : Matrix (Fin p) (Fin p) ℝ) : MinEigGE (ridged (npCov X) T) (ridge T) := by
  intro x
  unfold ridged
  rw [quad_toSymmetric, quad_add, quad_smul, quad_one]
  have := (psd_covOf X).2 x
  have h : quad (npCov X) x = quad (covOf X) x := rfl
  rw [h]; linarith

/-- C91: the lightly ridged estimate of a draw has the sample's covariances between different variables, every variance is larger than the sample's
by the same amount, and the total variance is larger by 2% of the truth's. -/
theorem C91_ridged (hp : 1 ≤ p) (X : List (Fin p → ℝ)) (T : Matrix (Fin p) (Fin p) ℝ) :
    (∀ i j, i ≠ j → ridged (npCov X) T i j = npCov X i j) ∧
    (∀ i j, ridged (npCov X) T i i - npCov X i i = ridged (npCov X) T j j - npCov X j j) ∧
    (ridged (npCov X) T).trace = (npCov X).trace + 2 / 100 * T.trace := by
  have hs : toSymmetric (npCov X + ridge T • (1 : Matrix (Fin p) (Fin p) ℝ)) = npCov X + ridge T • 1 :=
    toSymmetric_of_symm fun i j => by
      have h1 : npCov X i j = npCov X j i := (psd_covOf X).1 i j
      have h2 : (1 : Matrix (Fin p) (Fin p) ℝ) i j = (1 : Matrix (Fin p) (Fin p) ℝ) j i := symm_one i j
      rw [Matrix.add_apply, Matrix.add_apply, Matrix.smul_apply, Matrix.smul_apply, h1, h2]
  have hp' : (p : ℝ) ≠ 0 := by positivity
  unfold ridged
  rw [hs]
  refine ⟨fun i j h => by simp [h], fun i j => by simp, ?_⟩
  rw [Matrix.trace_add, Matrix.trace_smul, Matrix.trace_one, Fintype.card_fin, smul_eq_mul]
  unfold ridge
  field_simp

/-- C91: a training draw is used unless its total variance is numerically zero; then both estimates are positive definite, even when there are
fewer rows than variables. -/
theorem C91_draw_used (L : Lapack) (hp : 1 ≤ p) (T : Matrix (Fin p) (Fin p) ℝ) (hT : 1 / 10 ^ 9 < ridge T) (X : List (Fin p → ℝ))
    (hX : 2 / 10 ^ 9 < (npCov X).trace / p) :
    drawPair L T X = some (shrinkIso (npCov X) (1 / 2), ridged (npCov X) T) ∧ PD (shrinkIso (npCov X) (1 / 2)) ∧ PD (ridged (npCov X) T) := by
  obtain ⟨e1, -, e3⟩ := C90_estimates hp X (1 / 2) (by norm_num) (by norm_num)
  have hc : (1:ℝ) / 10 ^ 9 < 1 / 2 * ((npCov X).trace / p) := by linarith
  have h0 : (0:ℝ) < 1 / 10 ^ 9 := by positivity
  refine ⟨?_, pd_of_minEig e1 (h0.trans hc) e3, pd_of_minEig (symm_toSymmetric _) (h0.trans hT) (minEig_ridged X T)⟩
  unfold drawPair
  simp only [isSpd_of_minEig L hc e3, isSpd_of_minEig L hT (minEig_ridged X T), Bool.and_self, if_true]

theorem filterMap_drawPair (L : Lapack) (hp : 1 ≤ p) (T : Matrix (Fin p) (Fin p) ℝ) (hT : 1 / 10 ^ 9 < ridge T) (draws : List (List (Fin p → ℝ)))
    (hX : ∀ X ∈ draws, 2 / 10 ^ 9 < (npCov X).trace / p) :
    draws.filterMap (drawPair L T) = draws.map fun X => (shrinkIso (npCov X) (1 / 2), ridged (npCov X) T) := by
  induction draws with
  | nil => rfl
  | cons X ds ih =>
    rw [List.filterMap_cons, (C91_draw_used L hp T hT X (hX X (by simp))).1, ih fun Y hY => hX Y (by simp [hY])]
    rfl

theorem sum_map_sub {α : Type} (f g : α → ℝ) (l : List α) : (l.map fun a => f a - g a).sum = (l.map f).sum - (l.map g).sum := by
  induction l with
  | nil => simp
  | cons a l ih => simp only [List.map_cons, List.sum_cons, ih]; ring

theorem sum_indicator {α : Type} (q : α → Prop) [DecidablePred q] (l : List α) : (l.map fun a => if q a then (1:ℝ) else 0).sum = (l.countP fun a => decide (q a) : ℕ) := by
  induction l with
  | nil => simp
  | cons a l ih =>
    rw [List.map_cons, List.sum_cons, List.countP_cons, ih]
    by_cases h : q a <;> simp [h]; ring

open Classical in
/-- C91: the report at `gamma = 1` is about the divergences and nothing else: `mean` is the mean divergence of B minus that of A, and `power` is
the fraction of the draws on which A is closer to the truth. So on each draw the full-likelihood judge is right; a `power` below one
says that the lightly ridged estimate is closer on the other draws, not that the judge erred. -/
theorem C91_report_gamma_one (L : Lapack) (hp : 1 ≤ p) (T : Matrix (Fin p) (Fin p) ℝ) (hT : 1 / 10 ^ 9 < ridge T) (sizes : List ℕ) (hs : sizes.sum = p)
    (draws : List (List (Fin p → ℝ))) (hd : draws ≠ []) (hX : ∀ X ∈ draws, 2 / 10 ^ 9 < (npCov X).trace / p) :
    ∃ kA kB : ℝ, drawKl L T draws = (some kA, some kB) ∧ (drawReport L T sizes draws 1).mean = some (kB - kA) ∧
      kA * draws.length = (draws.map fun X => kl (shrinkIso (npCov X) (1 / 2)) T).sum ∧
      kB * draws.length = (draws.map fun X => kl (ridged (npCov X) T) T).sum ∧
      (drawReport L T sizes draws 1).power =
        some (((draws.countP fun X => decide (kl (shrinkIso (npCov X) (1 / 2)) T < kl (ridged (npCov X) T) T) : ℕ) : ℝ) / (draws.length : ℝ)) := by
  have hl : (draws.length : ℝ) ≠ 0 := by exact_mod_cast (List.length_pos_iff.2 hd).ne'
  have hmap : (draws.filterMap (drawPair L T)).map (fun AB => snrMu AB.1 AB.2 T sizes 1) =
      draws.map fun X => kl (ridged (npCov X) T) T - kl (shrinkIso (npCov X) (1 / 2)) T := by
    rw [filterMap_drawPair L hp T hT draws hX, List.map_map]
    refine List.map_congr_left fun X hX' => ?_
    obtain ⟨-, a1, a2⟩ := C91_draw_used L hp T hT X (hX X hX')
    exact C72_mu_kl _ _ T a1 a2 sizes hs
  refine ⟨(draws.map fun X => kl (shrinkIso (npCov X) (1 / 2)) T).sum / draws.length,
    (draws.map fun X => kl (ridged (npCov X) T) T).sum / draws.length, ?_, ?_, div_mul_cancel₀ _ hl, div_mul_cancel₀ _ hl, ?_⟩
  · unfold drawKl
    simp only [filterMap_drawPair L hp T hT draws hX, List.map_map]
    unfold mean?
    rw [if_neg (by simpa using hd), if_neg (by simpa using hd)]
    simp only [List.length_map]; rfl
  · unfold drawReport
    simp only [hmap, summary]
    unfold mean?
    rw [if_neg (by simpa using hd), sum_map_sub, List.length_map, sub_div]
  · unfold drawReport
    simp only [hmap, List.map_map]
    unfold mean?
    rw [if_neg (by simpa using hd), List.length_map]
    congr 2
    rw [← sum_indicator]
    congr 1
    refine List.map_congr_left fun X _ => ?_
    simp only [Function.comp, sub_pos]

/-- C91: the experiments use blocks of four variables, as many as fit; they cover the variables exactly when their number is a
multiple of four, and otherwise up to three variables are left over. -/
theorem C91_sizes (p : ℕ) :
    (∀ b ∈ drawSizes p, b = 4) ∧ (drawSizes p).sum ≤ p ∧ p < (drawSizes p).sum + 4 ∧ ((drawSizes p).sum = p ↔ 4 ∣ p) := by
  have hs : (drawSizes p).sum = p / 4 * 4 := by
    unfold drawSizes
    rw [List.sum_replicate, smul_eq_mul]
  refine ⟨fun b hb => List.eq_of_mem_replicate hb, ?_, ?_, ?_⟩ <;> omega

/-! ### Non-vacuity -/

example : ∃ (Q G : Matrix (Fin 4) (Fin 4) ℝ), Qᵀ * Q = 1 ∧ rawP Q G ≠ 0 := by
  refine ⟨1, 1, by simp, fun h => ?_⟩
  have h2 : toSymmetric (1 : Matrix (Fin 4) (Fin 4) ℝ) = 1 := toSymmetric_of_symm fun i j => by simp only [one_apply, eq_comm]
  have := congrFun (congrFun h 3) 3
  simp [rawP, h2, mul_apply, one_apply, Fin.sum_univ_four] at this

/-- The defaults satisfy the conditions on the numbers: `spike = 12`, `bulk = 0.4`, `eps = 0.05, 0.15`. -/
example : (0:ℝ) ≤ 5 / 100 ∧ (5 / 100 : ℝ) < 15 / 100 ∧ (15 / 100 : ℝ) < 4 / 10 ∧ (4 / 10 : ℝ) ≤ 12 := by norm_num

/-- and the ridge of the spiked truth with `p = 20` is far above the threshold of `_is_spd`, for any drawn orthogonal matrix -/
example (Q : Matrix (Fin 20) (Fin 20) ℝ) (hQ : Qᵀ * Q = 1) : (1:ℝ) / 10 ^ 9 < ridge (spikedTruth Q 3 12 (4 / 10)) := by
  unfold ridge
  rw [(C91_truth Q hQ 3 (by norm_num) 12 (4 / 10) (by norm_num) (by norm_num)).2.2.2.1]
  norm_num

end Precise.Theory
