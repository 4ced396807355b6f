import Verif.Lemmas.Bounded
import Verif.Lemmas.BlockMat
import Verif.Props.Location
import Verif.Props.Diagonal
import Verif.Props.Shrinkage
import Verif.Props.Robust
import Verif.Props.Dynamic
import Verif.Props.Blocks
import Verif.Props.Schur
import Verif.Props.GeodesicBetween
import Verif.Props.Defaults

/-!
# C95: bounded data give bounded estimates

If every observation used has entries of size at most `B`, every entry of `covariance_` is at most an explicit multiple of
`B²` (plus the numerical floor of the class), whatever the length of the stream.
-/

set_option linter.all false

open Matrix

namespace Precise

open Spec Obj

variable {ι : Type} [Fintype ι] [DecidableEq ι] (L : Lapack)

/-! ## Classes with an EWA state -/

/-- C95: EmpiricalCovariance: no entry exceeds `B²`. -/
theorem C95_empirical (d : Bool) (calls : List (Call ι ℝ)) (B : ℝ) (hx : ∀ x ∈ used d calls, ∀ i, |x i| ≤ B)
    (c : Matrix ι ι ℝ) (h : ((new (empiricalCls ι ℝ) d).run calls).covariance = .ok c) (i j : ι) : |c i j| ≤ B ^ 2 := by
  obtain ⟨s, ⟨hp, hs⟩, rfl⟩ := run_inv (empirical_lawful ι ℝ) d calls c h (SmallM B) smallM_init fun s x hxm hi => smallM_emp hi (hx x hxm)
  refine abs_toSymmetric_le (fun i j => ?_) i j
  exact psd_entry_le hp (fun k => by have := hs k; have := mul_self_nonneg (s.mean k); linarith) i j

/-- The covariance of EwaCovariance, which other classes post-process. -/
theorem ewa_small {r : ℝ} (h0 : 0 ≤ r) (h1 : r ≤ 1) (d : Bool) (calls : List (Call ι ℝ)) {B : ℝ} (hB : 0 ≤ B) (hx : ∀ x ∈ used d calls, ∀ i, |x i| ≤ B)
    (c : Matrix ι ι ℝ) (h : ((new (ewaCls ι ℝ) ⟨r, d⟩).run calls).covariance = .ok c) : PSD c ∧ (∀ i, c i i ≤ 4 * B ^ 2) ∧ ∀ i j, |c i j| ≤ 4 * B ^ 2 := by
  obtain ⟨s, hs, rfl⟩ := run_inv (ewa_lawful ι ℝ) (⟨r, d⟩ : RParam ℝ) calls c h (SmallE B r) (smallE_init hB r)
    fun s x hxm hi => smallE_update h0 h1 hi (hx x hxm)
  have e : toSymmetric ((ewaCls ι ℝ).toCov ⟨r, d⟩ s) = s.cov := toSymmetric_of_symm hs.1.psd.1
  rw [e]
  exact ⟨hs.1.psd, hs.1.var, psd_entry_le hs.1.psd hs.1.var⟩

/-- C95: EwaCovariance with `r` in [0,1]: no entry exceeds `4 B²`. -/
theorem C95_ewa (p : RParam ℝ) (h0 : 0 ≤ p.r) (h1 : p.r ≤ 1) (calls : List (Call ι ℝ)) (B : ℝ) (hB : 0 ≤ B) (hx : ∀ x ∈ used p.diff calls, ∀ i, |x i| ≤ B)
    (c : Matrix ι ι ℝ) (h : ((new (ewaCls ι ℝ) p).run calls).covariance = .ok c) (i j : ι) : |c i j| ≤ 4 * B ^ 2 :=
  (ewa_small h0 h1 p.diff calls hB hx c h).2.2 i j

/-- C95: and `4 B²` cannot be improved: with `r = 1`, after five rows `B` the row `-B` is reported with variance `4 B²`. -/
theorem C95_ewa_sharp (B : ℝ) : ∃ c, ((new (ewaCls (Fin 1) ℝ) ⟨1, false⟩).run
    [.partialFit (.batch (List.replicate 5 (fun _ => B) ++ [fun _ => -B]))]).covariance = .ok c ∧ c 0 0 = 4 * B ^ 2 := by
  have hb : ewaBurnN (1:ℝ) = 5 := by
    have : ⌈(1:ℝ) / 1⌉ = 1 := by norm_num
    unfold ewaBurnN; rw [this]; rfl
  set xs : List (Fin 1 → ℝ) := List.replicate 5 (fun _ => B) with hxs
  have hl : xs.length = 5 := by simp [hxs]
  have hu : used false [Call.partialFit (Input.batch (xs ++ [fun _ => -B]))] = xs ++ [fun _ => -B] := by
    rw [used, effective]; simp [rowsSinceFit, rowsOf]
  have hne : used (⟨1, false⟩ : RParam ℝ).diff [Call.partialFit (Input.batch (xs ++ [fun _ => -B]))] ≠ [] := by
    show used false _ ≠ []
    rw [hu]; simp
  refine ⟨_, (ewa_attrs ⟨1, false⟩ _ hne).2, ?_⟩
  show (ewaFold 1 (used false _)).cov 0 0 = _
  rw [hu]
  have h5 : (ewaFold (1:ℝ) xs).mean 0 = B := by
    rw [ewaFold_burn _ _ (by rw [hl, hb])]
    rw [empFold_mean (by simp [hxs])]; simp [meanOf, hxs]; ring
  rw [ewaFold_snoc, ewaUpdate_post (by rw [ewaFold_nBurn, ewaFold_n, hb, hl])]
  simp only [ewaBlend, Matrix.add_apply, Matrix.smul_apply, outer, of_apply, smul_eq_mul, ewaFold_r, h5]
  ring

/-- C95: HuberCovariance with `r` in [0,1], any `c`: no entry exceeds `4 B²`. -/
theorem C95_huber (pr : HuberParam) (h0 : 0 ≤ pr.r) (h1 : pr.r ≤ 1) (calls : List (Call ι ℝ)) (B : ℝ) (hB : 0 ≤ B) (hx : ∀ x ∈ used pr.diff calls, ∀ i, |x i| ≤ B)
    (c : Matrix ι ι ℝ) (h : ((new (huberCls L ι) pr).run calls).covariance = .ok c) (i j : ι) : |c i j| ≤ 4 * B ^ 2 := by
  obtain ⟨s, hs, rfl⟩ := run_inv (huber_lawful L ι) pr calls c h (SmallE B pr.r) (smallE_init hB pr.r)
    fun s x hxm hi => smallE_huber L pr h0 h1 hi (hx x hxm)
  exact abs_toSymmetric_le (psd_entry_le hs.1.psd hs.1.var) i j

/-- C95: AdaptiveEwaCovariance with `0 ≤ r`, `max_r` in [0,1]: no entry exceeds `4 B²`. -/
theorem C95_adaptive (pr : AdaParam) (h0 : 0 ≤ pr.r) (hm0 : 0 ≤ pr.maxR) (hm1 : pr.maxR ≤ 1) (calls : List (Call ι ℝ)) (B : ℝ) (hB : 0 ≤ B)
    (hx : ∀ x ∈ used pr.diff calls, ∀ i, |x i| ≤ B)
    (c : Matrix ι ι ℝ) (h : ((new (adaptiveCls L ι) pr).run calls).covariance = .ok c) (i j : ι) : |c i j| ≤ 4 * B ^ 2 := by
  obtain ⟨s, hs, rfl⟩ := run_inv (adaptive_lawful L ι) pr calls c h (SmallA B pr.r pr.maxR) ⟨small_init hB, rfl, rfl⟩
    fun s x hxm hi => smallA_update L h0 hm0 hm1 hi (hx x hxm)
  exact abs_toSymmetric_le (psd_entry_le hs.1.psd hs.1.var) i j

/-- C95: DiagonalCovariance with `r` in [0,1]: no entry exceeds `4 B²`. -/
theorem C95_diagonal (p : RParam ℝ) (h0 : 0 ≤ p.r) (h1 : p.r ≤ 1) (calls : List (Call ι ℝ)) (B : ℝ) (hB : 0 ≤ B) (hx : ∀ x ∈ used p.diff calls, ∀ i, |x i| ≤ B)
    (c : Matrix ι ι ℝ) (h : ((new (diagonalCls ι ℝ) p).run calls).covariance = .ok c) (i j : ι) : |c i j| ≤ 4 * B ^ 2 := by
  obtain ⟨s, hs, rfl⟩ := run_inv (diagonal_lawful ι ℝ) p calls c h (SmallD B p.r)
    ⟨⟨fun i => by simpa [diagonalCls, diagInit] using hB, fun i => by simp [diagonalCls, diagInit], fun i => by simp [diagonalCls, diagInit]; positivity⟩, rfl⟩
    fun s x hxm hi => smallD_update h0 h1 hi (hx x hxm)
  refine abs_toSymmetric_le (fun i j => ?_) i j
  show |Matrix.diagonal s.var i j| ≤ _
  by_cases hij : i = j
  · subst hij; rw [diagonal_apply_eq, abs_of_nonneg (hs.1.nonneg i)]; exact hs.1.var i
  · rw [diagonal_apply_ne _ hij, abs_zero]; positivity

/-! ## Shrinkage -/

theorem mix_identity_le {S : Matrix ι ι ℝ} {V : ℝ} [Nonempty ι] (hS : PSD S) (hV : ∀ i, S i i ≤ V) {a : ℝ} (h0 : 0 ≤ a) (h1 : a ≤ 1) (i : ι) :
    ((1 - a) • S + (a * (S.trace / (Fintype.card ι : ℝ))) • (1 : Matrix ι ι ℝ)) i i ≤ V := by
  have hc : (0:ℝ) < (Fintype.card ι : ℝ) := by exact_mod_cast Fintype.card_pos
  have ht : S.trace / (Fintype.card ι : ℝ) ≤ V := by
    rw [div_le_iff₀ hc, mul_comm]; exact trace_le_of_diag hV
  simp only [Matrix.add_apply, Matrix.smul_apply, smul_eq_mul, Matrix.one_apply_eq, mul_one]
  exact le_mix h0 h1 (hV i) ht

/-- C95: LedoitWolfCovariance and OASCovariance with `r` in (0,1]: no entry exceeds `4 B²`. -/
theorem C95_ledoit_wolf_oas [Nonempty ι] (p : RParam ℝ) (h0 : 0 < p.r) (h1 : p.r ≤ 1) (calls : List (Call ι ℝ)) (B : ℝ) (hB : 0 ≤ B)
    (hx : ∀ x ∈ used p.diff calls, ∀ i, |x i| ≤ B) (c : Matrix ι ι ℝ)
    (h : ((new (ledoitWolfCls ι ℝ) p).run calls).covariance = .ok c ∨ ((new (oasCls ι ℝ) p).run calls).covariance = .ok c) (i j : ι) :
    |c i j| ≤ 4 * B ^ 2 := by
  have hne : used p.diff calls ≠ [] := by
    rcases h with h | h
    · exact (run_covariance_inv (ledoitWolf_lawful ι ℝ) p calls c h).1
    · exact (run_covariance_inv (oas_lawful ι ℝ) p calls c h).1
  obtain ⟨S, hS⟩ := run_cov_ok (ewa_lawful ι ℝ) p calls hne
  obtain ⟨sp, sv, _⟩ := ewa_small h0.le h1 p.diff calls hB hx S hS
  rcases h with h | h
  · obtain ⟨a, a0, a1, e, _, hp, _⟩ := C27_convex p h0.le h1 calls c S h hS
    exact psd_entry_le hp (fun k => by rw [e]; exact mix_identity_le sp sv a0 a1 k) i j
  · obtain ⟨_, a0, a1, e, _⟩ := C28_intensity p h0 h1 calls c S h hS
    have hp := (C28_invertible p h0 h1 calls c S h hS).2.1
    exact psd_entry_le hp (fun k => by rw [e]; exact mix_identity_le sp sv a0 a1 k) i j

theorem sqrt_max_entry {Q : Matrix ι ι ℝ} (hQ : PSD Q) (i j : ι) (e : ℝ) :
    |Q i j| ≤ Real.sqrt (max (Q i i) e) * Real.sqrt (max (Q j j) e) := by
  rw [← Real.sqrt_mul ((hQ.diag_nonneg i).trans (le_max_left _ _))]
  refine Real.le_sqrt_of_sq_le ?_
  rw [sq_abs]
  have h := hQ.entry_sq_le i j
  have hi := hQ.diag_nonneg i
  have hj := hQ.diag_nonneg j
  have := mul_le_mul (le_max_left (Q i i) e) (le_max_left (Q j j) e) hj (hi.trans (le_max_left _ _))
  nlinarith

theorem avgCorr_abs {S : Matrix ι ι ℝ} (hS : PSD S) : |avgCorr S| ≤ 1 := by
  unfold avgCorr
  rcases Nat.lt_or_ge (Fintype.card ι) 2 with h | h
  · have : (Fintype.card ι : ℝ) * ((Fintype.card ι : ℝ) - 1) = 0 := by
      interval_cases Fintype.card ι <;> simp
    rw [this, div_zero, abs_zero]; exact zero_le_one
  · have h2 : (2:ℝ) ≤ (Fintype.card ι : ℝ) := by exact_mod_cast h
    have hpos : (0:ℝ) < (Fintype.card ι : ℝ) * ((Fintype.card ι : ℝ) - 1) := mul_pos (by linarith) (by linarith)
    rw [abs_div, abs_of_pos hpos, div_le_one hpos]
    refine (Finset.abs_sum_le_sum_abs _ _).trans ?_
    have hrow : ∀ i : ι, |∑ j, if i = j then 0 else S i j / (flooredSd S i * flooredSd S j)| ≤ (Fintype.card ι : ℝ) - 1 := by
      intro i
      refine (Finset.abs_sum_le_sum_abs _ _).trans ?_
      calc _ ≤ ∑ j : ι, (1 - if i = j then (1:ℝ) else 0) := Finset.sum_le_sum fun j _ => by
            by_cases hij : i = j
            · simp [hij]
            · simp only [if_neg hij, sub_zero]
              have hsd : ∀ k, 0 < flooredSd S k := fun k => Real.sqrt_pos.2 (lt_of_lt_of_le (by positivity) (le_max_right _ _))
              rw [abs_div, abs_of_pos (mul_pos (hsd i) (hsd j)), div_le_one (mul_pos (hsd i) (hsd j))]
              exact sqrt_max_entry hS i j _
        _ = _ := by rw [Finset.sum_sub_distrib]; simp
    calc _ ≤ ∑ i : ι, ((Fintype.card ι : ℝ) - 1) := Finset.sum_le_sum fun i _ => hrow i
      _ = _ := by simp; ring

/-- C95: ShrunkCovariance with `r` and `delta` in [0,1] and either target: no entry exceeds `max(4 B², 1e-12)`. -/
theorem C95_shrunk [Nonempty ι] (p : ShrunkParam) (h0 : 0 ≤ p.r) (h1 : p.r ≤ 1) (d0 : 0 ≤ p.delta) (d1 : p.delta ≤ 1) (calls : List (Call ι ℝ)) (B : ℝ) (hB : 0 ≤ B)
    (hx : ∀ x ∈ used p.diff calls, ∀ i, |x i| ≤ B) (c : Matrix ι ι ℝ) (h : ((new (shrunkCls ι) p).run calls).covariance = .ok c) (i j : ι) :
    |c i j| ≤ max (4 * B ^ 2) (1 / 10 ^ 12) := by
  have hne := (run_covariance_inv (shrunk_lawful ι) p calls c h).1
  obtain ⟨S, hS⟩ := run_cov_ok (ewa_lawful ι ℝ) (⟨p.r, p.diff⟩ : RParam ℝ) calls hne
  obtain ⟨sp, sv, se⟩ := ewa_small h0 h1 p.diff calls hB hx S hS
  by_cases ht : p.target = "identity"
  · obtain ⟨e, _, hp⟩ := C29_identity p ht calls c S h hS
    refine (psd_entry_le (hp h0 h1 d0 d1).1 (V := 4 * B ^ 2) (fun k => ?_) i j).trans (le_max_left _ _)
    rw [e]; exact mix_identity_le sp sv d0 d1 k
  · obtain ⟨e1, e2⟩ := C29_constant_correlation p ht calls c S h hS
    by_cases hij : i = j
    · subst hij; rw [e1]; exact (se i i).trans (le_max_left _ _)
    · rw [e2 i j hij]
      refine abs_mix d0 d1 ((se i j).trans (le_max_left _ _)) ?_
      rw [abs_mul]
      have hsd : ∀ k, 0 ≤ flooredSd S k ∧ flooredSd S k ≤ Real.sqrt (max (4 * B ^ 2) (1 / 10 ^ 12)) := fun k =>
        ⟨Real.sqrt_nonneg _, Real.sqrt_le_sqrt (max_le_max_right _ (sv k))⟩
      have h2 : |flooredSd S i * flooredSd S j| ≤ max (4 * B ^ 2) (1 / 10 ^ 12) := by
        rw [abs_of_nonneg (mul_nonneg (hsd i).1 (hsd j).1)]
        calc _ ≤ Real.sqrt (max (4 * B ^ 2) (1 / 10 ^ 12)) * Real.sqrt (max (4 * B ^ 2) (1 / 10 ^ 12)) :=
              mul_le_mul (hsd i).2 (hsd j).2 (hsd j).1 (Real.sqrt_nonneg _)
          _ = _ := Real.mul_self_sqrt (by positivity)
      calc _ ≤ 1 * |flooredSd S i * flooredSd S j| := mul_le_mul_of_nonneg_right (avgCorr_abs sp) (abs_nonneg _)
        _ ≤ _ := by rw [one_mul]; exact h2

/-! ## Partial moments -/

/-- C95: PartialMomentsCovariance with `r` in [0,1]: no entry exceeds `4 B²` by more than the float spacing `e` at such numbers. -/
theorem C95_partial_moments (p : RParam ℝ) (h0 : 0 ≤ p.r) (h1 : p.r ≤ 1) (calls : List (Call ι ℝ)) (B : ℝ) (hB : 0 ≤ B) (hx : ∀ x ∈ used p.diff calls, ∀ i, |x i| ≤ B)
    (e : ℝ) (he : ∀ y, 0 ≤ y → y ≤ 4 * (Fintype.card ι : ℝ) * B ^ 2 → L.spacing y ≤ e)
    (c : Matrix ι ι ℝ) (h : ((new (partialMomentsCls L ι) p).run calls).covariance = .ok c) (i j : ι) : |c i j| ≤ 4 * B ^ 2 + e := by
  obtain ⟨hne, hc⟩ := pm_attrs L p calls c h
  obtain ⟨d, hd⟩ := run_cov_ok (diagonal_lawful ι ℝ) p calls hne
  have hle := ewa_le_pmSum p.r h0 h1 (used p.diff calls)
  obtain ⟨S, hS⟩ := run_cov_ok (ewa_lawful ι ℝ) p calls hne
  have hSp := (ewa_small h0 h1 p.diff calls hB hx S hS).1
  rw [(ewa_attrs_inv p calls S hS).2] at hSp
  have hp : PSD (pmSum p.r (used p.diff calls)) := ⟨symm_pmSum _ _, fun x => (hSp.2 x).trans (hle x)⟩
  have hdiag : ∀ k, pmSum p.r (used p.diff calls) k k ≤ 4 * B ^ 2 := fun k => by
    have h3 := C95_diagonal p h0 h1 calls B hB hx d hd k k
    rw [(diagonal_attrs p calls d hd).2, diagonal_apply_eq, diagFold_closed _ _ hne] at h3
    rw [pmSum_closed _ _ hne]
    refine le_trans (le_of_eq ?_) ((le_abs_self _).trans h3)
    exact Finset.sum_congr rfl fun t _ => by ring
  have hpd := pd_nearestPosDef L (toSymmetric (pmSum p.r (used p.diff calls)))
  rw [toSymmetric_of_symm hp.1] at hc hpd
  have hm0 : makePosDef L (pmSum p.r (used p.diff calls)) 0 = pmSum p.r (used p.diff calls) := by
    rw [makePosDef_id L (fun x => by have := hp.2 x; linarith), toSymmetric_of_symm hp.1]
  have he0 : 0 ≤ e := (L.spacing_pos 0).le.trans (he 0 le_rfl (by positivity))
  have hf : frobNorm (pmSum p.r (used p.diff calls)) ≤ 4 * (Fintype.card ι : ℝ) * B ^ 2 := by
    unfold frobNorm
    refine Real.sqrt_le_iff.2 ⟨by positivity, ?_⟩
    have hent := psd_entry_le hp hdiag
    calc _ ≤ ∑ i : ι, ∑ j : ι, (4 * B ^ 2) * (4 * B ^ 2) := Finset.sum_le_sum fun i _ => Finset.sum_le_sum fun j _ => by
          rw [← abs_mul_abs_self]; exact mul_self_le_mul_self (abs_nonneg _) (hent i j)
      _ = _ := by simp; ring
  rw [hc]
  refine psd_entry_le hpd.psd (fun k => ?_) i j
  rcases (C49_terminates L (pmSum p.r (used p.diff calls)) 2 le_rfl).2 with h4 | h4
  · rw [h4, hm0]; linarith [hdiag k]
  · rw [h4, hm0, Matrix.add_apply, Matrix.smul_apply, Matrix.one_apply_eq, smul_eq_mul, mul_one]
    have := he (frobNorm (pmSum p.r (used p.diff calls))) (by unfold frobNorm; positivity) hf
    linarith [hdiag k]

/-! ## Blocks -/

theorem damped_small {p nb : ℕ} (hb : 1 ≤ nb) {a : Matrix (Fin p) (Fin p) ℝ} (h : PSD a) {g : ℝ} (g0 : 0 ≤ g) (g1 : g ≤ 1) :
    PSD (dampCross (fun i : Fin p => blockId p nb i) g a) ∧ ∀ i, dampCross (fun i : Fin p => blockId p nb i) g a i i = a i i := by
  refine ⟨?_, fun i => by simp [dampCross]⟩
  rw [dampCross_convex]
  exact (h.smul g0).add ((blockDiag_psd hb h).smul (by linarith))

/-- C95: SchurCovariance with `r` and `gamma` in [0,1], `n_blocks ≥ 1` and either interpolation: no entry exceeds `4 B² + 1e-8`. -/
theorem C95_schur {p : ℕ} (hp : 1 ≤ p) (pr : SchurParam) (h0 : 0 ≤ pr.r) (h1 : pr.r ≤ 1) (hn : 1 ≤ pr.nBlocks) (g0 : 0 ≤ pr.gamma) (g1 : pr.gamma ≤ 1)
    (calls : List (Call (Fin p) ℝ)) (B : ℝ) (hB : 0 ≤ B) (hx : ∀ x ∈ used pr.diff calls, ∀ i, |x i| ≤ B)
    (c : Matrix (Fin p) (Fin p) ℝ) (h : ((new (schurCls L p) pr).run calls).covariance = .ok c) (i j : Fin p) : |c i j| ≤ 4 * B ^ 2 + 1 / 10 ^ 8 := by
  obtain ⟨s, ⟨hs, _⟩, rfl⟩ := run_inv (schur_lawful L p) pr calls c h (SmallE B pr.r) (smallE_init hB pr.r)
    fun s x hxm hi => smallE_update h0 h1 hi (hx x hxm)
  have hnb : 1 ≤ schurNb pr.nBlocks p := by unfold schurNb; omega
  refine abs_toSymmetric_le (fun i j => ?_) i j
  show |schurCov L pr s i j| ≤ _
  unfold schurCov
  simp only []
  split
  · have e : (Matrix.of fun i j : Fin p => if blockId p (schurNb pr.nBlocks p) i ≠ blockId p (schurNb pr.nBlocks p) j then 0 else s.cov i j)
        = dampCross (fun i : Fin p => blockId p (schurNb pr.nBlocks p) i) 0 s.cov := by
      ext i j; simp [dampCross]
    rw [e]
    obtain ⟨dp, dd⟩ := damped_small hnb hs.psd (g := 0) le_rfl zero_le_one
    generalize dampCross (fun i : Fin p => blockId p (schurNb pr.nBlocks p) i) 0 s.cov = D at *
    refine psd_entry_le (C37_step_pd L _ _ _).psd (fun k => ?_) i j
    have h2 := C37_below_line L (makePosDef L D) (makePosDef L s.cov) pr.gamma g0 g1 (Pi.single k 1)
    rw [C50_idempotent, C50_idempotent, quad_single, quad_single] at h2
    refine h2.trans ?_
    simp only [Matrix.add_apply, Matrix.smul_apply, smul_eq_mul]
    have h3 := makePosDef_diag_le L dp (eps := 1 / 10 ^ 8) (by positivity) k
    have h4 := makePosDef_diag_le L hs.psd (eps := 1 / 10 ^ 8) (by positivity) k
    rw [dd] at h3
    have h5 := hs.var k
    exact le_mix g0 g1 (by linarith) (by linarith)
  · obtain ⟨dp, dd⟩ := damped_small hnb hs.psd g0 g1
    rw [toSymmetric_of_symm dp.1]
    exact makePosDef_entry_le L dp (by positivity) (fun k => by rw [dd]; exact hs.var k) i j

/-- C95: BlockCovariance (`n_blocks ≥ 1`) and SchurLedoitWolfCovariance with `r` in [0,1]: no entry exceeds `4 B² + 1e-8`. -/
theorem C95_block {p : ℕ} (hp : 1 ≤ p) (pr : BlockParam) (h0 : 0 ≤ pr.r) (h1 : pr.r ≤ 1) (hn : 1 ≤ pr.nBlocks)
    (calls : List (Call (Fin p) ℝ)) (B : ℝ) (hB : 0 ≤ B) (hx : ∀ x ∈ used pr.diff calls, ∀ i, |x i| ≤ B) (c : Matrix (Fin p) (Fin p) ℝ)
    (h : ((new (blockCls L p) pr).run calls).covariance = .ok c ∨ ((new (schurLWCls L p) pr).run calls).covariance = .ok c) (i j : Fin p) :
    |c i j| ≤ 4 * B ^ 2 + 1 / 10 ^ 8 := by
  rcases h with h | h
  · rw [(C26_is_schur L pr hn hp "linear" calls).1] at h
    exact C95_schur L hp _ h0 h1 hn le_rfl zero_le_one calls B hB hx c h i j
  · obtain ⟨_, g, hg, hs, _⟩ := C31_is_schur L pr calls c h
    obtain ⟨g0, g1, _⟩ := C31_gamma_range L pr calls g hg
    exact C95_schur L hp _ h0 h1 hn g0 g1 calls B hB hx c hs i j

/-! ## Geodesic -/

/-- The invariant of GeodesicEwaCovariance. -/
def SmallG (B r : ℝ) (s : EwaState ι ℝ) : Prop :=
  s.r = r ∧ (∀ i, |s.mean i| ≤ B) ∧ PSD s.cov ∧
    ((∀ i, s.cov i i ≤ 4 * B ^ 2) ∨ (MinEigGE s.cov (1 / 10 ^ 8) ∧ ∀ i, s.cov i i ≤ 4 * B ^ 2 + 1 / 10 ^ 8) ∧ s.nBurn ≤ s.nSamples)

theorem smallG_update {B r : ℝ} (h0 : 0 ≤ r) (h1 : r ≤ 1) {s : EwaState ι ℝ} (h : SmallG B r s) {x : ι → ℝ} (hx : ∀ i, |x i| ≤ B) :
    SmallG B r (geodesicUpdate L s x) := by
  obtain ⟨hr, hm, hp, hc⟩ := h
  unfold geodesicUpdate
  split
  · rename_i hb
    have hv : ∀ i, s.cov i i ≤ 4 * B ^ 2 := by
      rcases hc with hc | hc
      · exact hc
      · omega
    have hs := small_emp (⟨hm, hp, hv⟩ : Small B s.toEmpState) hx
    exact ⟨hr, hs.mean, hs.psd, Or.inl hs.var⟩
  · rename_i hb
    simp only []
    have ho : ∀ i, outer (fun i => x i - s.mean i) (fun i => x i - s.mean i) i i ≤ 4 * B ^ 2 := fun i => dev_sq (hx i) (hm i)
    have hpo : PSD (outer (fun i => x i - s.mean i) (fun i => x i - s.mean i)) := psd_outer _
    generalize outer (fun i => x i - s.mean i) (fun i => x i - s.mean i) = O at ho hpo
    refine ⟨hr, fun i => by simp only []; rw [hr]; exact abs_mix h0 h1 (hm i) (hx i), (C37_step_pd L _ _ _).psd, Or.inr ⟨⟨?_, fun k => ?_⟩, ?_⟩⟩
    · simp only []
      rw [hr]
      exact C37_eig_lower L _ _ _ h0 h1 _ (by positivity) (C50_floor L _ _).2.1 (C50_floor L _ _).2.1
    · simp only []
      rw [hr]
      have h2 := C37_below_line L s.cov O r h0 h1 (Pi.single k 1)
      rw [quad_single, quad_single] at h2
      refine h2.trans ?_
      simp only [Matrix.add_apply, Matrix.smul_apply, smul_eq_mul]
      have h4 := makePosDef_diag_le L hpo (eps := 1 / 10 ^ 8) (by positivity) k
      have h5 := ho k
      refine le_mix h0 h1 ?_ (by linarith)
      rcases hc with hc | ⟨hc, _⟩
      · have h3 := makePosDef_diag_le L hp (eps := 1 / 10 ^ 8) (by positivity) k
        linarith [hc k]
      · rw [makePosDef_id L hc.1, toSymmetric_of_symm hp.1]; exact hc.2 k
    · simp only []; omega

/-- C95: GeodesicEwaCovariance with `r` in [0,1]: no entry exceeds `4 B² + 1e-8`. -/
theorem C95_geodesic (p : RParam ℝ) (h0 : 0 ≤ p.r) (h1 : p.r ≤ 1) (calls : List (Call ι ℝ)) (B : ℝ) (hB : 0 ≤ B) (hx : ∀ x ∈ used p.diff calls, ∀ i, |x i| ≤ B)
    (c : Matrix ι ι ℝ) (h : ((new (geodesicCls L ι) p).run calls).covariance = .ok c) (i j : ι) : |c i j| ≤ 4 * B ^ 2 + 1 / 10 ^ 8 := by
  have h00 := small_init (ι := ι) hB
  obtain ⟨s, ⟨_, _, hp, hc⟩, rfl⟩ := run_inv (geodesic_lawful L ι) p calls c h (SmallG B p.r) ⟨rfl, h00.mean, h00.psd, Or.inl h00.var⟩
    fun s x hxm hi => smallG_update L h0 h1 hi (hx x hxm)
  refine abs_toSymmetric_le (psd_entry_le hp fun k => ?_) i j
  rcases hc with hc | hc
  · have := hc k; have : (0:ℝ) ≤ 1 / 10 ^ 8 := by positivity
    linarith
  · exact hc.1.2 k

/-! ## DCC and factor -/

theorem recencyMean_abs {r : ℝ} (h0 : 0 ≤ r) (h1 : r ≤ 1) {b : ℕ} (hb : 1 ≤ b) {xs : List (ι → ℝ)} {B : ℝ} (hB : 0 ≤ B) (hx : ∀ x ∈ xs, ∀ i, |x i| ≤ B) (i : ι) :
    |recencyMean r b xs i| ≤ B := by
  rcases eq_or_ne xs [] with rfl | hne
  · simpa [recencyMean] using hB
  · have hn : 1 ≤ xs.length := List.length_pos_iff.2 hne
    unfold recencyMean
    refine (Finset.abs_sum_le_sum_abs _ _).trans ?_
    calc _ ≤ ∑ t ∈ Finset.range xs.length, recencyWeight r b xs.length t * B := Finset.sum_le_sum fun t ht => by
          rw [abs_mul, abs_of_nonneg (recencyWeight_nonneg h0 h1 _ _ _)]
          refine mul_le_mul_of_nonneg_left ?_ (recencyWeight_nonneg h0 h1 _ _ _)
          have ht' := Finset.mem_range.1 ht
          rw [List.getD_eq_getElem _ _ ht']
          exact hx _ (List.getElem_mem ht') i
      _ = B := by rw [← Finset.sum_mul, recencyWeight_sum r b _ hb hn, one_mul]

theorem innovation_abs {r : ℝ} (h0 : 0 ≤ r) (h1 : r ≤ 1) {b : ℕ} (hb : 1 ≤ b) {xs : List (ι → ℝ)} {B : ℝ} (hB : 0 ≤ B) (hx : ∀ x ∈ xs, ∀ i, |x i| ≤ B)
    (t : ℕ) (ht : t < xs.length) (i : ι) : |innovation r b xs t i| ≤ 2 * B := by
  unfold innovation
  rw [Pi.sub_apply, List.getD_eq_getElem _ _ ht]
  exact dev_abs (hx _ (List.getElem_mem ht) i) (recencyMean_abs h0 h1 hb hB (fun x hxm => hx x (List.mem_of_mem_take hxm)) i)

theorem trackedVar_le {r : ℝ} (h0 : 0 ≤ r) (h1 : r ≤ 1) {b : ℕ} (hb : 1 ≤ b) {xs : List (ι → ℝ)} {B : ℝ} (hB : 0 ≤ B) (hx : ∀ x ∈ xs, ∀ i, |x i| ≤ B) (i : ι) :
    trackedVar r b xs i ≤ 4 * B ^ 2 := by
  rcases eq_or_ne xs [] with rfl | hne
  · simp [trackedVar]; positivity
  · have hn : 1 ≤ xs.length := List.length_pos_iff.2 hne
    unfold trackedVar
    calc _ ≤ ∑ t ∈ Finset.range xs.length, recencyWeight r b xs.length t * (4 * B ^ 2) := Finset.sum_le_sum fun t ht => by
          refine mul_le_mul_of_nonneg_left ?_ (recencyWeight_nonneg h0 h1 _ _ _)
          have := innovation_abs h0 h1 hb hB hx t (Finset.mem_range.1 ht) i
          rw [← sq_abs]
          nlinarith [abs_nonneg (innovation r b xs t i)]
      _ = _ := by rw [← Finset.sum_mul, recencyWeight_sum r b _ hb hn, one_mul]

/-- C95: DCCCovariance with both rates in [0,1]: no entry exceeds `max(4 B², 1e-12)`. -/
theorem C95_dcc (pr : DCCParam) (h0 : 0 ≤ pr.r) (h1 : pr.r ≤ 1) (v0 : 0 ≤ pr.volR.getD pr.r) (v1 : pr.volR.getD pr.r ≤ 1) (calls : List (Call ι ℝ))
    (B : ℝ) (hB : 0 ≤ B) (hx : ∀ x ∈ used pr.diff calls, ∀ i, |x i| ≤ B) (c : Matrix ι ι ℝ) (h : ((new (dccCls ι) pr).run calls).covariance = .ok c)
    (i j : ι) : |c i j| ≤ max (4 * B ^ 2) (1 / 10 ^ 12) := by
  rw [C38_drd pr calls c h i j]
  have hb : 1 ≤ dccBurn pr := by have := ewaBurnN_ge (min pr.r (pr.volR.getD pr.r)); unfold dccBurn; omega
  have hQ := psd_dccQuasi (ι := ι) h0 h1 (pr.volR.getD pr.r) (dccBurn pr) (used pr.diff calls)
  generalize dccQuasi pr.r (pr.volR.getD pr.r) (dccBurn pr) (used pr.diff calls) = Q at hQ ⊢
  set M := max (4 * B ^ 2) (1 / 10 ^ 12) with hM
  have hM0 : 0 ≤ M := by rw [hM]; positivity
  have hh : ∀ k, Real.sqrt (max (trackedVar (pr.volR.getD pr.r) (dccBurn pr) (used pr.diff calls) k) (1 / 10 ^ 12)) ≤ Real.sqrt M := fun k =>
    Real.sqrt_le_sqrt (max_le_max_right _ (trackedVar_le v0 v1 hb hB hx k))
  have hq : |Q i j / (Real.sqrt (max (Q i i) (1 / 10 ^ 12)) * Real.sqrt (max (Q j j) (1 / 10 ^ 12)))| ≤ 1 := by
    have hpos : ∀ k, 0 < Real.sqrt (max (Q k k) (1 / 10 ^ 12)) := fun k => Real.sqrt_pos.2 (lt_of_lt_of_le (by positivity) (le_max_right _ _))
    rw [abs_div, abs_of_pos (mul_pos (hpos i) (hpos j)), div_le_one (mul_pos (hpos i) (hpos j))]
    exact sqrt_max_entry hQ i j _
  rw [abs_mul, abs_mul, abs_of_nonneg (Real.sqrt_nonneg _), abs_of_nonneg (Real.sqrt_nonneg _)]
  calc _ ≤ Real.sqrt M * 1 * Real.sqrt M := by
        refine mul_le_mul (mul_le_mul (hh i) hq (abs_nonneg _) (Real.sqrt_nonneg _)) (hh j) (Real.sqrt_nonneg _) (by positivity)
    _ = M := by rw [mul_one, Real.mul_self_sqrt hM0]

/-- Deflating does not lengthen, and a component keeps its length below `M ≥ N ≥ |u|²`. -/
theorem factorLoop_norm {lr N M : ℝ} (h0 : 0 ≤ lr) (h1 : lr ≤ 1) (hN : 0 ≤ N) (hNM : N ≤ M) (hM : Real.sqrt N ≤ M) (V : List (ι → ℝ)) :
    ∀ u : ι → ℝ, normSq u ≤ N → (∀ v ∈ V, vecNorm v ≤ M) → ∀ v ∈ factorLoop lr V u, vecNorm v ≤ M := by
  induction V with
  | nil => intro u _ _ v hv; simp [factorLoop] at hv
  | cons w V ih =>
    intro u hu hV
    unfold factorLoop
    simp only []
    have hM0 : 0 ≤ M := hN.trans hNM
    split
    · intro v hv
      rcases List.mem_cons.1 hv with rfl | hv
      · exact (Real.sqrt_le_sqrt hu).trans hM
      · exact hV v (by simp [hv])
    · rename_i hw
      push Not at hw
      have hw0 : 0 < vecNorm w := lt_of_lt_of_le (by unfold EPS; positivity) hw
      have hwM := hV w (by simp)
      have hww : ∑ i, w i * w i = vecNorm w * vecNorm w := by
        unfold vecNorm; rw [Real.mul_self_sqrt (normSq_nonneg w)]; rfl
      set nw := vecNorm w with hnw
      set q := ∑ i, u i * (w i / nw) with hq
      have hqw : ∑ i, u i * w i = q * nw := by
        rw [hq, Finset.sum_mul]
        refine Finset.sum_congr rfl fun i _ => ?_
        field_simp
      have huu : ∑ i, u i * u i = normSq u := rfl
      have hdef : normSq (fun i => u i - q * (w i / nw)) = normSq u - q ^ 2 := by
        have e : ∀ i, (u i - q * (w i / nw)) * (u i - q * (w i / nw))
            = u i * u i - (2 * q / nw) * (u i * w i) + (q ^ 2 / nw ^ 2) * (w i * w i) := fun i => by field_simp; ring
        unfold normSq
        simp only [e]
        rw [Finset.sum_add_distrib, Finset.sum_sub_distrib, ← Finset.mul_sum, ← Finset.mul_sum, hqw, hww]
        field_simp; ring
      have hdn := normSq_nonneg (fun i => u i - q * (w i / nw))
      rw [hdef] at hdn
      intro v hv
      rcases List.mem_cons.1 hv with rfl | hv
      · unfold vecNorm
        refine Real.sqrt_le_iff.2 ⟨hM0, ?_⟩
        have e : normSq (fun i => (1 - lr) * w i + lr * q * u i) = (1 - lr) ^ 2 * (nw * nw) + 2 * (1 - lr) * lr * nw * q ^ 2 + lr ^ 2 * q ^ 2 * normSq u := by
          have e : ∀ i, ((1 - lr) * w i + lr * q * u i) * ((1 - lr) * w i + lr * q * u i)
              = (1 - lr) ^ 2 * (w i * w i) + 2 * (1 - lr) * lr * q * (u i * w i) + lr ^ 2 * q ^ 2 * (u i * u i) := fun i => by ring
          unfold normSq
          simp only [e]
          rw [Finset.sum_add_distrib, Finset.sum_add_distrib, ← Finset.mul_sum, ← Finset.mul_sum, ← Finset.mul_sum, hqw, hww]
          ring
        rw [e]
        have hq2 : q ^ 2 ≤ N := by linarith
        have a1 : nw * nw ≤ M * M := mul_self_le_mul_self hw0.le hwM
        have a2 : nw * q ^ 2 ≤ M * M := mul_le_mul hwM (hq2.trans hNM) (sq_nonneg q) hM0
        have a3 : q ^ 2 * normSq u ≤ M * M := mul_le_mul (hq2.trans hNM) (hu.trans hNM) (normSq_nonneg u) hM0
        have l1 : 0 ≤ 1 - lr := by linarith
        have b1 := mul_le_mul_of_nonneg_left a1 (sq_nonneg (1 - lr))
        have b2 := mul_le_mul_of_nonneg_left a2 (mul_nonneg (mul_nonneg zero_le_two l1) h0)
        have b3 := mul_le_mul_of_nonneg_left a3 (sq_nonneg lr)
        nlinarith
      · exact ih _ (by rw [hdef]; linarith [sq_nonneg q]) (fun v hv => hV v (by simp [hv])) v hv

theorem factorPart_diag_le (V : List (ι → ℝ)) {M : ℝ} (hV : ∀ v ∈ V, vecNorm v ≤ M) (hM : 0 ≤ M) (i : ι) :
    factorPart V i i ≤ (V.length : ℝ) * M := by
  have hA : ∀ v ∈ factorActive V, 0 < vecNorm v ∧ vecNorm v ≤ M := by
    intro v hv
    classical
    have h := List.mem_filter.1 hv
    have h' : EPS < vecNorm v := by simpa using h.2
    exact ⟨lt_trans (by unfold EPS; positivity) h', hV v h.1⟩
  have hl := (factorActive_length V).1
  unfold factorPart
  refine le_trans ?_ (mul_le_mul_of_nonneg_right (show ((factorActive V).length : ℝ) ≤ V.length by exact_mod_cast hl) hM)
  generalize factorActive V = A at *
  clear hl
  induction A with
  | nil => simp
  | cons v A ih =>
    rw [List.map_cons, List.sum_cons, Matrix.add_apply, List.length_cons]
    have h1 := ih fun v hv => hA v (by simp [hv])
    obtain ⟨hv0, hvM⟩ := hA v (by simp)
    have h2 : ((1 / vecNorm v) • outer v v) i i ≤ vecNorm v := by
      simp only [Matrix.smul_apply, outer, of_apply, smul_eq_mul]
      rw [one_div_mul_eq_div, div_le_iff₀ hv0]
      have e : vecNorm v * vecNorm v = normSq v := Real.mul_self_sqrt (normSq_nonneg v)
      rw [e]
      exact Finset.single_le_sum (f := fun i => v i * v i) (fun j _ => mul_self_nonneg _) (Finset.mem_univ i)
    push_cast
    linarith

/-- C95: FactorCovariance with `r` in [0,1] on `p` variables: no entry exceeds `max(4 B², k' M)` with `k' = min(k, p)` and
`M = max(2 B √p, 4 B² p)`. The first component is a length, not a variance, when it is started: the bound is not quadratic in `B`. -/
theorem C95_factor (pr : FactorParam) (h0 : 0 ≤ pr.r) (h1 : pr.r ≤ 1) (calls : List (Call ι ℝ)) (B : ℝ) (hB : 0 ≤ B)
    (hx : ∀ x ∈ used pr.diff calls, ∀ i, |x i| ≤ B) (c : Matrix ι ι ℝ) (h : ((new (factorCls ι) pr).run calls).covariance = .ok c) (i j : ι) :
    |c i j| ≤ max (4 * B ^ 2) (((min pr.k (Fintype.card ι) : ℕ) : ℝ) *
      max (2 * B * Real.sqrt (Fintype.card ι)) (4 * B ^ 2 * Fintype.card ι)) := by
  have hpsd := C39_psd pr calls c h
  set N : ℝ := 4 * B ^ 2 * Fintype.card ι with hN
  set M := max (2 * B * Real.sqrt (Fintype.card ι)) N with hM
  have hN0 : 0 ≤ N := by rw [hN]; positivity
  have hNM : N ≤ M := le_max_right _ _
  have hsN : Real.sqrt N ≤ M := by
    refine le_trans (le_of_eq ?_) (le_max_left _ _)
    rw [hN, Real.sqrt_mul (by positivity), show 4 * B ^ 2 = (2 * B) ^ 2 by ring, Real.sqrt_sq (by positivity)]
  obtain ⟨hne, hc⟩ := run_covariance_inv (factor_lawful ι) pr calls c h
  change c = toSymmetric (factorCov (factorFold pr (used pr.diff calls))) at hc
  have hV : ∀ v ∈ (factorFold pr (used pr.diff calls)).V, vecNorm v ≤ M := by
    clear hc hne h
    generalize used pr.diff calls = xs at hx
    induction xs using List.reverseRecOn with
    | nil =>
      intro v hv
      have : v = 0 := by
        have : v ∈ List.replicate (min pr.k (Fintype.card ι)) (0 : ι → ℝ) := hv
        exact List.eq_of_mem_replicate this
      rw [this, vecNorm_zero]; exact hN0.trans hNM
    | append_singleton xs x ih =>
      have hxs : ∀ y ∈ xs, ∀ i, |y i| ≤ B := fun y hy => hx y (by simp [hy])
      rw [factorFold_snoc]
      have ih' := ih hxs
      have hm : ∀ k, |(factorFold pr xs).mean k| ≤ B := fun k => by
        rw [factorFold_mean]; exact recencyMean_abs h0 h1 (by omega) hB hxs k
      have hr := (factorFold_inv pr xs).2.1
      generalize factorFold pr xs = s at *
      unfold factorUpdate
      simp only []
      refine factorLoop_norm ?_ ?_ hN0 hNM hsN s.V _ ?_ ih'
      · split
        · exact (inv_n_mem _).1
        · rw [hr]; exact h0
      · split
        · exact (inv_n_mem _).2
        · rw [hr]; exact h1
      · unfold normSq
        calc _ ≤ ∑ k : ι, 4 * B ^ 2 := Finset.sum_le_sum fun k _ => dev_sq (hx x (by simp) k) (hm k)
          _ = N := by simp [hN]; ring
  have hF := factorPart_psd (factorFold pr (used pr.diff calls)).V
  have hs : Symm (factorCov (factorFold pr (used pr.diff calls))) := hF.1.add (symm_diagonal _)
  rw [toSymmetric_of_symm hs] at hc
  refine psd_entry_le hpsd (fun k => ?_) i j
  rw [hc, factorCov, Matrix.add_apply, diagonal_apply_eq, factorCaptured_eq, factorFold_var, ← max_add_add_left, add_sub_cancel, add_zero]
  refine max_le_max (trackedVar_le h0 h1 (by omega) hB hx k) ?_
  have := factorPart_diag_le _ hV (hN0.trans hNM) k
  rwa [(factorFold_V pr (used pr.diff calls)).1] at this

/-- C95: TylerCovariance with `r` in [0,1), first observation not zero: no entry exceeds 1, whatever the data. -/
theorem C95_tyler [Nonempty ι] (p : RParam ℝ) (h0 : 0 ≤ p.r) (h1 : p.r < 1) (calls : List (Call ι ℝ)) (x : ι → ℝ) (xs : List (ι → ℝ))
    (hu : used p.diff calls = x :: xs) (hx : x ≠ 0) (c : Matrix ι ι ℝ) (h : ((new (tylerCls L ι) p).run calls).covariance = .ok c) (i j : ι) :
    |c i j| ≤ 1 := by
  obtain ⟨s, C, c', _, _, _, _, hc', _, _, hle, _⟩ := C36_shape L p h0 h1 calls x xs hu hx
  rw [hc'] at h
  cases h
  exact hle i j

/-! ## Out of the box -/

section OutOfBox
open Precise.Oos

/-- C95: out of the box: for `p ≥ 1` variables and data of size at most `B`, one bound holds for 16 of the 17 classes and every
stream of any length. `e` bounds the float spacing (PartialMomentsCovariance); the first row must not be zero (TylerCovariance). -/
theorem C95_out_of_box {p : ℕ} (hp : 1 ≤ p) (B : ℝ) (hB : 0 ≤ B) (e : ℝ) (he : ∀ y, 0 ≤ y → y ≤ 4 * (p : ℝ) * B ^ 2 → L.spacing y ≤ e)
    (calls : List (Call (Fin p) ℝ)) (hx : ∀ x ∈ rowsSinceFit calls [], ∀ i, |x i| ≤ B)
    (hfirst : (rowsSinceFit calls []).head? ≠ some 0)
    (a : String × (List (Call (Fin p) ℝ) → Except PyErr (Matrix (Fin p) (Fin p) ℝ))) (ha : a ∈ outOfBox L p) (hname : a.1 ≠ "SchurConditionalCovariance")
    (c : Matrix (Fin p) (Fin p) ℝ) (h : a.2 calls = .ok c) (i j : Fin p) :
    |c i j| ≤ 1 + e + 8 * (p : ℝ) * (B + B ^ 2) := by
  haveI : Nonempty (Fin p) := ⟨⟨0, hp⟩⟩
  have hp1 : (1:ℝ) ≤ (p : ℝ) := by exact_mod_cast hp
  have hx' : ∀ x ∈ used false calls, ∀ i, |x i| ≤ B := by
    have : used false calls = rowsSinceFit calls [] := by rw [used, effective]; rfl
    rw [this]; exact hx
  have he0 : 0 ≤ e := (L.spacing_pos 0).le.trans (he 0 le_rfl (by positivity))
  have hB2 : 0 ≤ B ^ 2 := sq_nonneg B
  have hpB : B + B ^ 2 ≤ (p : ℝ) * (B + B ^ 2) := by nlinarith
  have key : 4 * B ^ 2 ≤ 8 * (p : ℝ) * (B + B ^ 2) := by nlinarith
  have w0 : B ^ 2 ≤ 1 + e + 8 * (p : ℝ) * (B + B ^ 2) := by linarith
  have w1 : 4 * B ^ 2 ≤ 1 + e + 8 * (p : ℝ) * (B + B ^ 2) := by linarith
  have w2 : 4 * B ^ 2 + 1 / 10 ^ 8 ≤ 1 + e + 8 * (p : ℝ) * (B + B ^ 2) := by
    have : (1:ℝ) / 10 ^ 8 ≤ 1 := by norm_num
    linarith
  have w3 : max (4 * B ^ 2) (1 / 10 ^ 12) ≤ 1 + e + 8 * (p : ℝ) * (B + B ^ 2) := by
    have : (1:ℝ) / 10 ^ 12 ≤ 1 := by norm_num
    have h8 : 0 ≤ 8 * (p : ℝ) * (B + B ^ 2) := by positivity
    exact max_le w1 (by linarith)
  simp only [outOfBox, List.mem_cons, List.not_mem_nil, or_false] at ha
  rcases ha with rfl | rfl | rfl | rfl | rfl | rfl | rfl | rfl | rfl | rfl | rfl | rfl | rfl | rfl | rfl | rfl | rfl
  · exact (C95_empirical _ calls B hx' c h i j).trans w0
  · exact (C95_diagonal _ (by norm_num) (by norm_num) calls B hB hx' c h i j).trans w1
  · exact (C95_block L hp _ (by norm_num) (by norm_num) (by norm_num) calls B hB hx' c (Or.inl h) i j).trans w2
  · exact (C95_ewa _ (by norm_num) (by norm_num) calls B hB hx' c h i j).trans w1
  · exact (C95_adaptive L _ (by norm_num) (by norm_num) (by norm_num) calls B hB hx' c h i j).trans w1
  · exact (C95_ledoit_wolf_oas _ (by norm_num) (by norm_num) calls B hB hx' c (Or.inl h) i j).trans w1
  · exact (C95_ledoit_wolf_oas _ (by norm_num) (by norm_num) calls B hB hx' c (Or.inr h) i j).trans w1
  · exact (C95_shrunk _ (by norm_num) (by norm_num) (by norm_num) (by norm_num) calls B hB hx' c h i j).trans w3
  · exact (C95_schur L hp _ (by norm_num) (by norm_num) (by norm_num) (by norm_num) (by norm_num) calls B hB hx' c h i j).trans w2
  · exact absurd rfl hname
  · exact (C95_block L hp _ (by norm_num) (by norm_num) (by norm_num) calls B hB hx' c (Or.inr h) i j).trans w2
  · exact (C95_partial_moments L _ (by norm_num) (by norm_num) calls B hB hx' e (by simpa using he) c h i j).trans (by linarith)
  · exact (C95_huber L _ (by norm_num) (by norm_num) calls B hB hx' c h i j).trans w1
  · have hne := (run_covariance_inv (tyler_lawful L (Fin p)) (⟨1 / 20, false⟩ : RParam ℝ) calls c h).1
    have hu : used false calls = rowsSinceFit calls [] := by rw [used, effective]; rfl
    change used false calls ≠ [] at hne
    obtain ⟨x, xs, hxs⟩ := List.exists_cons_of_ne_nil hne
    have hx0 : x ≠ 0 := by
      rintro rfl
      rw [← hu, hxs] at hfirst
      exact hfirst rfl
    refine (C95_tyler L _ (by norm_num) (by norm_num) calls x xs hxs hx0 c h i j).trans ?_
    have h8 : 0 ≤ 8 * (p : ℝ) * (B + B ^ 2) := by positivity
    linarith
  · exact (C95_geodesic L _ (by norm_num) (by norm_num) calls B hB hx' c h i j).trans w2
  · exact (C95_dcc _ (by norm_num) (by norm_num) (by norm_num) (by norm_num) calls B hB hx' c h i j).trans w3
  · refine (C95_factor _ (by norm_num) (by norm_num) calls B hB hx' c h i j).trans (max_le w1 ?_)
    rw [Fintype.card_fin]
    have hs : Real.sqrt (p : ℝ) ≤ p := Real.sqrt_le_iff.2 ⟨by linarith, by nlinarith⟩
    have hk : ((min 2 p : ℕ) : ℝ) ≤ 2 := by exact_mod_cast min_le_left 2 p
    have hm : max (2 * B * Real.sqrt (p : ℝ)) (4 * B ^ 2 * p) ≤ 4 * (p : ℝ) * (B + B ^ 2) := by
      refine max_le ?_ (by nlinarith [mul_nonneg (by linarith : (0:ℝ) ≤ p) hB])
      have := mul_le_mul_of_nonneg_left hs (by positivity : 0 ≤ 2 * B)
      nlinarith [mul_nonneg (by linarith : (0:ℝ) ≤ p) hB, mul_nonneg (by linarith : (0:ℝ) ≤ p) hB2]
    have h8 : 0 ≤ 4 * (p : ℝ) * (B + B ^ 2) := by positivity
    have hk0 : (0:ℝ) ≤ ((min 2 p : ℕ) : ℝ) := by positivity
    have := mul_le_mul hk hm (by positivity) zero_le_two
    show ((min 2 p : ℕ) : ℝ) * _ ≤ _
    linarith

end OutOfBox

/-! ## Non-vacuity: the demo stream has entries of size at most 2, and every class reports a covariance on it -/

section Examples

theorem demo_bound : ∀ x ∈ used false [Call.partialFit (.batch demoRows)], ∀ i, |x i| ≤ (2:ℝ) := by
  rw [demo_used]
  intro x hx i
  simp only [demoRows, List.mem_cons, List.not_mem_nil, or_false] at hx
  rcases hx with rfl | rfl | rfl | rfl <;> fin_cases i <;> simp

example : ∃ c, ((new (ewaCls (Fin 2) ℝ) ⟨1/20, false⟩).run [.partialFit (.batch demoRows)]).covariance = .ok c ∧ ∀ i j, |c i j| ≤ 16 := by
  obtain ⟨c, hc⟩ := run_cov_ok (ewa_lawful (Fin 2) ℝ) (⟨1/20, false⟩ : RParam ℝ) _ demo_ne
  exact ⟨c, hc, fun i j => (C95_ewa _ (by norm_num) (by norm_num) _ 2 (by norm_num) demo_bound c hc i j).trans (by norm_num)⟩

example : ∃ c, ((new (geodesicCls L (Fin 2)) ⟨1/20, false⟩).run [.partialFit (.batch demoRows)]).covariance = .ok c ∧ ∀ i j, |c i j| ≤ 16 + 1 / 10 ^ 8 := by
  obtain ⟨c, hc⟩ := run_cov_ok (geodesic_lawful L (Fin 2)) (⟨1/20, false⟩ : RParam ℝ) _ demo_ne
  exact ⟨c, hc, fun i j => (C95_geodesic L _ (by norm_num) (by norm_num) _ 2 (by norm_num) demo_bound c hc i j).trans (by norm_num)⟩

example : ∃ c, ((new (factorCls (Fin 2)) (⟨1, 1/20, false⟩ : FactorParam)).run [.partialFit (.batch demoRows)]).covariance = .ok c ∧ ∀ i j, |c i j| ≤ 32 := by
  obtain ⟨c, hc⟩ := run_cov_ok (factor_lawful (Fin 2)) (⟨1, 1/20, false⟩ : FactorParam) _ demo_ne
  refine ⟨c, hc, fun i j => (C95_factor _ (by norm_num) (by norm_num) _ 2 (by norm_num) demo_bound c hc i j).trans ?_⟩
  have h2 : Real.sqrt 2 ≤ 2 := Real.sqrt_le_iff.2 ⟨by norm_num, by norm_num⟩
  have : min 1 (Fintype.card (Fin 2)) = 1 := by simp
  have mx : max (2 * 2 * Real.sqrt 2) (4 * 2 ^ 2 * 2) ≤ (32:ℝ) := max_le (by nlinarith) (by norm_num)
  refine max_le (by norm_num) ?_
  show ((min 1 (Fintype.card (Fin 2)) : ℕ) : ℝ) * _ ≤ _
  rw [this, Fintype.card_fin, Nat.cast_one, one_mul]
  exact_mod_cast mx

/-- C95_out_of_box: its hypotheses hold of the demo stream under the exact numpy backend. -/
example (a : String × (List (Call (Fin 2) ℝ) → Except PyErr (Matrix (Fin 2) (Fin 2) ℝ))) (ha : a ∈ Oos.outOfBox Lapack.exact 2)
    (hname : a.1 ≠ "SchurConditionalCovariance") (c : Matrix (Fin 2) (Fin 2) ℝ) (h : a.2 [.partialFit (.batch demoRows)] = .ok c) (i j : Fin 2) :
    |c i j| ≤ 98 := by
  have hr : rowsSinceFit [Call.partialFit (.batch demoRows)] [] = demoRows := by simp [rowsSinceFit, rowsOf]
  refine (C95_out_of_box Lapack.exact (p := 2) (by norm_num) 2 (by norm_num) 1 (fun y _ _ => ?_) [.partialFit (.batch demoRows)] ?_ ?_ a ha hname c h i j).trans (by norm_num)
  · show (1:ℝ) / 2 ^ 52 ≤ 1
    norm_num
  · have := demo_bound
    rw [demo_used] at this
    rw [hr]; exact this
  · rw [hr]
    simp only [demoRows, List.head?_cons, ne_eq, Option.some.injEq]
    intro h; have := congrFun h 0; simp at this

end Examples

end Precise
