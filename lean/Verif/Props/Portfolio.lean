import Verif.Spec.Portfolio
import Verif.Props.Regression
import Verif.Props.ShrinkFades
import Verif.Props.Translate

/-!
# C136: the portfolio read off `precision_`, and what shrinkage does to it
-/

set_option linter.all false

open Matrix

namespace Precise

open Spec Obj

variable {ι : Type} [Fintype ι] [DecidableEq ι]

theorem normSq_equal [Nonempty ι] : normSq (fun _ : ι => 1 / (Fintype.card ι : ℝ)) = 1 / (Fintype.card ι : ℝ) := by
  have hq : (Fintype.card ι : ℝ) ≠ 0 := card_ne
  simp only [normSq, Finset.sum_const, Finset.card_univ, nsmul_eq_mul]
  field_simp

theorem sum_equal [Nonempty ι] : ∑ _i : ι, 1 / (Fintype.card ι : ℝ) = 1 := by
  have hq : (Fintype.card ι : ℝ) ≠ 0 := card_ne
  simp only [Finset.sum_const, Finset.card_univ, nsmul_eq_mul]
  field_simp

/-- the portfolio whose products with `c` are all equal is the row sums of the inverse -/
theorem rowSum_of_const {c P : Matrix ι ι ℝ} (h : P * c = 1) {w : ι → ℝ} {k : ℝ} (hw : ∑ i, w i = 1) (hk : c *ᵥ w = fun _ => k) :
    rowSumWeights P = w := by
  have e : ∀ i, k * ∑ j, P i j = w i := by
    intro i
    have : P *ᵥ (c *ᵥ w) = w := by rw [mulVec_mulVec, h, one_mulVec]
    rw [hk] at this
    have := congrFun this i
    simp only [mulVec, dotProduct, ← Finset.sum_mul] at this
    rw [mul_comm]; exact this
  have hs : k * ∑ i, ∑ j, P i j = 1 := by rw [Finset.mul_sum, Finset.sum_congr rfl fun i _ => e i, hw]
  funext i
  have hne : ∑ i, ∑ j, P i j ≠ 0 := by intro h0; rw [h0, mul_zero] at hs; exact zero_ne_one hs
  rw [rowSumWeights, div_eq_iff hne, ← e i]
  linear_combination (-(∑ j, P i j)) * hs

section
variable {C : Cls ι ℝ} (L : Lapack) (o : Obj C) (c P : Matrix ι ι ℝ) (hc : o.covariance = .ok c) (hP : o.precision L = .ok P) (hpd : PD c)
include hc hP hpd

/-- C136: for every estimator: the rescaled row sums of `precision_` are the fully invested portfolio of least reported variance, the only one; that variance is one
over the sum of the entries. -/
theorem C136_portfolio [Nonempty ι] : ∑ i, rowSumWeights P i = 1 ∧ quad c (rowSumWeights P) = 1 / (∑ i, ∑ j, P i j) ∧
    ∀ v : ι → ℝ, ∑ i, v i = 1 → quad c (rowSumWeights P) ≤ quad c v ∧ (quad c v = quad c (rowSumWeights P) → v = rowSumWeights P) := by
  obtain ⟨h1, h2, h3⟩ := precision_facts L o c P hc hP hpd
  have hpos := h1.2 (fun _ => 1) (by intro h0; exact one_ne_zero (congrFun h0 (Classical.arbitrary ι)))
  rw [quad_expand] at hpos
  simp only [one_mul, mul_one] at hpos
  set s := ∑ i, ∑ j, P i j with hs
  set w := rowSumWeights P with hw
  have hsum : ∑ i, w i = 1 := by
    simp only [hw, rowSumWeights]
    rw [← Finset.sum_div, ← hs, div_self hpos.ne']
  have hcw : c *ᵥ w = fun _ => 1 / s := by
    have : w = (1 / s) • P *ᵥ (fun _ => 1) := by
      funext i
      simp only [hw, rowSumWeights, Pi.smul_apply, smul_eq_mul, mulVec, dotProduct, mul_one, ← hs]
      ring
    rw [this, mulVec_smul, mulVec_mulVec, h2, one_mulVec]
    funext i
    simp
  have hdot : ∀ u : ι → ℝ, u ⬝ᵥ c *ᵥ w = (∑ i, u i) / s := by
    intro u
    rw [hcw]
    simp only [dotProduct, ← Finset.sum_mul]
    ring
  refine ⟨hsum, ?_, fun v hv => ?_⟩
  · have := hdot w
    rw [hsum] at this
    exact this
  have hq : quad c v = quad c w + quad c (v - w) := by
    have hx : w ⬝ᵥ c *ᵥ (v - w) = 0 := by
      rw [dotProduct_mulVec, ← mulVec_transpose, hpd.1.transpose, dotProduct_comm, hdot]
      simp only [Pi.sub_apply, Finset.sum_sub_distrib, hv, hsum, sub_self, zero_div]
    have := quad_add_vec hpd.1 w (v - w) 1
    rw [one_smul, add_sub_cancel, hx] at this
    linarith
  refine ⟨by linarith [hpd.psd.2 (v - w)], fun heq => ?_⟩
  by_contra hne
  have := hpd.2 (v - w) (sub_ne_zero.2 hne)
  linarith

/-- C136: with eigenvalues of `covariance_` between `lo` and `hi` the squared weights add up to at most `hi / lo` times those of the equally weighted portfolio. -/
theorem C136_condition [Nonempty ι] (lo hi : ℝ) (h0 : 0 < lo) (hlo : MinEigGE c lo) (hhi : MaxEigLE c hi) :
    1 / (Fintype.card ι : ℝ) ≤ normSq (rowSumWeights P) ∧ normSq (rowSumWeights P) ≤ hi / lo * (1 / (Fintype.card ι : ℝ)) := by
  obtain ⟨hsum, _, hmin⟩ := C136_portfolio L o c P hc hP hpd
  have hq : (0:ℝ) < Fintype.card ι := card_pos'
  constructor
  · have h := Finset.sum_nonneg fun (i : ι) (_ : i ∈ Finset.univ) => mul_self_nonneg (rowSumWeights P i - 1 / (Fintype.card ι : ℝ))
    have e : ∑ i, (rowSumWeights P i - 1 / (Fintype.card ι : ℝ)) * (rowSumWeights P i - 1 / (Fintype.card ι : ℝ)) =
        normSq (rowSumWeights P) - 2 * (1 / (Fintype.card ι : ℝ)) * ∑ i, rowSumWeights P i + normSq (fun _ : ι => 1 / (Fintype.card ι : ℝ)) := by
      simp only [normSq, Finset.mul_sum]
      rw [← Finset.sum_sub_distrib, ← Finset.sum_add_distrib]
      exact Finset.sum_congr rfl fun i _ => by ring
    rw [e, hsum, normSq_equal] at h
    linarith
  · have h1 := (hmin _ sum_equal).1
    have h2 := hlo (rowSumWeights P)
    have h3 := hhi fun _ : ι => 1 / (Fintype.card ι : ℝ)
    rw [normSq_equal] at h3
    rw [div_mul_eq_mul_div, le_div_iff₀ h0]
    linarith

end

/-- the portfolio of `(1 - a) S + a t 1` -/
theorem shrunk_portfolio [Nonempty ι] {S : Matrix ι ι ℝ} (hS : PSD S) {a : ℝ} (a0 : 0 < a) (a1 : a ≤ 1) (ht : 0 < S.trace) {w : ι → ℝ} (hw : ∑ i, w i = 1)
    (hmin : ∀ v : ι → ℝ, ∑ i, v i = 1 → quad ((1 - a) • S + (a * (S.trace / (Fintype.card ι : ℝ))) • 1) w ≤
      quad ((1 - a) • S + (a * (S.trace / (Fintype.card ι : ℝ))) • 1) v) :
    normSq w ≤ 1 / (Fintype.card ι : ℝ) + (1 - a) / a ∧
    (a < 1 → ∀ v : ι → ℝ, ∑ i, v i = 1 → normSq v ≤ normSq w → quad S w ≤ quad S v) := by
  have hq : (0:ℝ) < Fintype.card ι := card_pos'
  set t := S.trace / (Fintype.card ι : ℝ) with htd
  have t0 : 0 < t := by rw [htd]; positivity
  have e : ∀ v : ι → ℝ, quad ((1 - a) • S + (a * t) • (1 : Matrix ι ι ℝ)) v = (1 - a) * quad S v + a * t * normSq v := by
    intro v; rw [quad_add, quad_smul, quad_smul]; congr 2; simp [quad, normSq, dotProduct]
  simp only [e] at hmin
  constructor
  · have h1 := hmin _ sum_equal
    rw [normSq_equal] at h1
    have h2 := maxEig_of_trace hS le_rfl fun _ : ι => 1 / (Fintype.card ι : ℝ)
    rw [normSq_equal, mul_one_div] at h2
    change _ ≤ t at h2
    have h3 : 0 ≤ (1 - a) * quad S w := mul_nonneg (by linarith) (hS.2 w)
    have h4 := mul_le_mul_of_nonneg_left h2 (by linarith : 0 ≤ 1 - a)
    have h5 : a * t * normSq w ≤ (1 - a) * t + a * t * (1 / (Fintype.card ι : ℝ)) := by linarith
    have h6 : (1 - a) * t + a * t * (1 / (Fintype.card ι : ℝ)) = a * t * (1 / (Fintype.card ι : ℝ) + (1 - a) / a) := by field_simp; ring
    rw [h6] at h5
    exact le_of_mul_le_mul_left h5 (by positivity)
  · intro ha v hv hn
    have h1 := hmin v hv
    have h2 := mul_le_mul_of_nonneg_left hn (by positivity : 0 ≤ a * t)
    exact le_of_mul_le_mul_left (by linarith : (1 - a) * quad S w ≤ (1 - a) * quad S v) (by linarith)

theorem Spec.PSD.trace_pos_of_ne {S : Matrix ι ι ℝ} (h : PSD S) (hS : S ≠ 0) : 0 < S.trace := by
  have h0 : 0 ≤ S.trace := Finset.sum_nonneg fun i _ => h.diag_nonneg i
  refine lt_of_le_of_ne h0 fun he => hS ?_
  have := sumSq_le_trace h
  rw [← he] at this
  ext i j
  have h1 : S i j ^ 2 ≤ sumSq S :=
    (Finset.single_le_sum (f := fun j => S i j ^ 2) (fun j _ => sq_nonneg _) (Finset.mem_univ j)).trans
      (Finset.single_le_sum (f := fun i => ∑ j, S i j ^ 2) (fun i _ => Finset.sum_nonneg fun j _ => sq_nonneg _) (Finset.mem_univ i))
  have : S i j ^ 2 = 0 := le_antisymm (by linarith) (sq_nonneg _)
  simpa using this

/-- C136: ShrunkCovariance with the identity target: the squared weights add up to at most `1 / n + (1 - delta) / delta`, whatever the data; and the portfolio is the
one of least EwaCovariance variance among all that are spread at least as widely. -/
theorem C136_identity [Nonempty ι] (L : Lapack) (p : ShrunkParam) (ht : p.target = "identity") (h0 : 0 ≤ p.r) (h1 : p.r ≤ 1) (d0 : 0 < p.delta) (d1 : p.delta ≤ 1)
    (calls : List (Call ι ℝ)) (c S P : Matrix ι ι ℝ) (h : ((new (shrunkCls ι) p).run calls).covariance = .ok c)
    (hP : ((new (shrunkCls ι) p).run calls).precision L = .ok P) (hS : ((new (ewaCls ι ℝ) ⟨p.r, p.diff⟩).run calls).covariance = .ok S) (hS0 : S ≠ 0) :
    normSq (rowSumWeights P) ≤ 1 / (Fintype.card ι : ℝ) + (1 - p.delta) / p.delta ∧
    (p.delta < 1 → ∀ v : ι → ℝ, ∑ i, v i = 1 → normSq v ≤ normSq (rowSumWeights P) → quad S (rowSumWeights P) ≤ quad S v) := by
  obtain ⟨hc, _, hk⟩ := C29_identity p ht calls c S h hS
  have hpd := (hk h0 h1 d0.le d1).2.2.2 d0 hS0
  obtain ⟨_, hSe⟩ := ewa_attrs_inv ⟨p.r, p.diff⟩ calls S hS
  have hPS : PSD S := by rw [hSe]; exact ewaFold_psd h0 h1 _
  obtain ⟨hsum, _, hmin⟩ := C136_portfolio L _ c P h hP hpd
  refine shrunk_portfolio hPS d0 d1 (hPS.trace_pos_of_ne hS0) hsum fun v hv => ?_
  rw [← hc]; exact (hmin v hv).1

/-- C136: OASCovariance: at most `1 / n + (max(1/r, 2) - 1) / 2`, whatever the data. -/
theorem C136_oas [Nonempty ι] (L : Lapack) (p : RParam ℝ) (h0 : 0 < p.r) (h1 : p.r ≤ 1) (calls : List (Call ι ℝ)) (c S P : Matrix ι ι ℝ)
    (h : ((new (oasCls ι ℝ) p).run calls).covariance = .ok c) (hP : ((new (oasCls ι ℝ) p).run calls).precision L = .ok P)
    (hS : ((new (ewaCls ι ℝ) p).run calls).covariance = .ok S) (hS0 : S ≠ 0) :
    normSq (rowSumWeights P) ≤ 1 / (Fintype.card ι : ℝ) + (max (1 / p.r) 2 - 1) / 2 := by
  have hpd := (C28_invertible p h0 h1 calls c S h hS).2.2.2.2 hS0
  have key := C28_intensity p h0 h1 calls c S h hS
  simp only at key
  obtain ⟨_, hSe⟩ := ewa_attrs_inv p calls S hS
  have hPS : PSD S := by rw [hSe]; exact ewaFold_psd h0.le h1 _
  have hts := sumSq_le_trace hPS
  have htr := hPS.trace_pos_of_ne hS0
  set q : ℝ := (Fintype.card ι : ℝ) with hq
  set n : ℝ := max (1 / p.r) 2 with hn
  change 0 ≤ sumSq S - S.trace ^ 2 / q ∧ 0 ≤ (if sumSq S - S.trace ^ 2 / q = 0 then (1:ℝ) else
      min 1 (((1 - 2 / q) * sumSq S + S.trace ^ 2) / ((n + 1 - 2 / q) * (sumSq S - S.trace ^ 2 / q)))) ∧ _ at key
  obtain ⟨k1, k2, k3, k4, k5⟩ := key
  have kpos := k5 hS0
  obtain ⟨hsum, _, hmin⟩ := C136_portfolio L _ c P h hP hpd
  have hn2 : 2 ≤ n := le_max_right _ _
  have hq1 : 1 ≤ q := by
    have : 1 ≤ Fintype.card ι := Fintype.card_pos
    rw [hq]; exact_mod_cast this
  obtain ⟨rho, hrho⟩ : ∃ rho, rho = (if sumSq S - S.trace ^ 2 / q = 0 then (1:ℝ) else
      min 1 (((1 - 2 / q) * sumSq S + S.trace ^ 2) / ((n + 1 - 2 / q) * (sumSq S - S.trace ^ 2 / q)))) := ⟨_, rfl⟩
  have e3 : rho ≤ 1 := by rw [hrho]; exact k3
  have e4 : c = (1 - rho) • S + (rho * (S.trace / q)) • 1 := by rw [hrho]; exact k4
  have e5 : 0 < rho := by rw [hrho]; exact kpos
  have e6 : 2 / (n + 1) ≤ rho := by
    have h21 : 2 / (n + 1) ≤ 1 := by rw [div_le_one (by linarith)]; linarith
    rw [hrho]
    split
    · exact h21
    · rename_i hz
      have hspread : 0 < sumSq S - S.trace ^ 2 / q := lt_of_le_of_ne k1 (Ne.symm hz)
      have hq2 : 2 ≤ q := by
        by_contra hlt
        have hc : Fintype.card ι = 1 := by
          have h1 : 1 ≤ Fintype.card ι := Fintype.card_pos
          have h2 : (Fintype.card ι : ℝ) < 2 := not_le.1 hlt
          have : Fintype.card ι < 2 := by exact_mod_cast h2
          omega
        have : q = 1 := by rw [hq, hc]; norm_num
        rw [this] at hspread
        linarith
      refine le_min h21 ?_
      set u := 1 / q with hu
      have hu0 : 0 < u := by rw [hu]; positivity
      have hu1 : u ≤ 1 / 2 := by rw [hu, div_le_div_iff₀ (by linarith) (by norm_num)]; linarith
      have e2 : 2 / q = 2 * u := by rw [hu]; ring
      have eT : S.trace ^ 2 / q = S.trace ^ 2 * u := by rw [hu]; ring
      rw [eT] at hspread ⊢
      rw [e2]
      have hd : 0 < (n + 1 - 2 * u) * (sumSq S - S.trace ^ 2 * u) := mul_pos (by linarith) hspread
      rw [div_le_div_iff₀ (by linarith) hd]
      have hT : 0 < S.trace ^ 2 := by positivity
      have hA : 0 ≤ S.trace ^ 2 - sumSq S := by linarith
      have hA0 : 0 < sumSq S := by have := mul_pos hT hu0; linarith
      nlinarith [mul_nonneg hA hu0.le, mul_nonneg hA (by linarith : 0 ≤ n - 1), mul_pos hT hu0, mul_nonneg (mul_pos hT hu0).le (by linarith : 0 ≤ n - 1),
        mul_nonneg hA0.le (by linarith : 0 ≤ n - 1), mul_nonneg (mul_nonneg hA0.le hu0.le) (by linarith : 0 ≤ n - 1)]
  have hb := (shrunk_portfolio hPS e5 e3 htr hsum fun v hv => by rw [← hq, ← e4]; exact (hmin v hv).1).1
  refine hb.trans (add_le_add le_rfl ?_)
  rw [div_le_div_iff₀ e5 (by norm_num)]
  rw [div_le_iff₀ (by linarith)] at e6
  linarith

/-! ## Without shrinkage the weights have no bound -/

/-- two columns that move almost together -/
def twinRows (h : ℝ) : List (Fin 2 → ℝ) := [![1, 1 + h], ![-1, -1 - h], ![0, h], ![0, -h]]

noncomputable def twinCov (h : ℝ) : Matrix (Fin 2) (Fin 2) ℝ := !![1 / 2, (1 + h) / 2; (1 + h) / 2, ((1 + h) ^ 2 + h ^ 2) / 2]

theorem twin_cov (h : ℝ) : covOf (twinRows h) = twinCov h := by
  ext i j
  fin_cases i <;> fin_cases j <;> simp [covOf, meanOf, twinRows, twinCov] <;> ring

theorem twin_pd {h : ℝ} (h0 : 0 < h) : PD (twinCov h) := by
  refine ⟨fun i j => by fin_cases i <;> fin_cases j <;> rfl, fun x hx => ?_⟩
  rw [quad_expand]
  simp only [twinCov, Fin.sum_univ_two, Matrix.of_apply, cons_val', cons_val_zero, cons_val_one, cons_val_fin_one]
  have hq : x 0 * (1 / 2) * x 0 + x 0 * ((1 + h) / 2) * x 1 + (x 1 * ((1 + h) / 2) * x 0 + x 1 * (((1 + h) ^ 2 + h ^ 2) / 2) * x 1) =
      1 / 2 * (x 0 + (1 + h) * x 1) ^ 2 + 1 / 2 * (h * x 1) ^ 2 := by ring
  rw [hq]
  by_contra hn
  have h1 : (h * x 1) ^ 2 = 0 := by nlinarith [sq_nonneg (x 0 + (1 + h) * x 1), sq_nonneg (h * x 1)]
  have h2 : (x 0 + (1 + h) * x 1) ^ 2 = 0 := by nlinarith [sq_nonneg (x 0 + (1 + h) * x 1), sq_nonneg (h * x 1)]
  have h3 : x 1 = 0 := (mul_eq_zero.1 (pow_eq_zero_iff (by norm_num) |>.1 h1)).resolve_left h0.ne'
  have h4 : x 0 + (1 + h) * x 1 = 0 := pow_eq_zero_iff (by norm_num) |>.1 h2
  refine hx (funext fun i => ?_)
  fin_cases i
  · show x 0 = 0; rw [h3] at h4; linarith
  · exact h3

theorem twin_weights {h : ℝ} (h0 : 0 < h) {P : Matrix (Fin 2) (Fin 2) ℝ} (hP : P * twinCov h = 1) : rowSumWeights P = ![1 + 1 / (2 * h), -(1 / (2 * h))] := by
  refine rowSum_of_const (k := 1 / 4) hP (by simp [Fin.sum_univ_two]) ?_
  funext i
  fin_cases i <;> simp [twinCov, mulVec, dotProduct, Fin.sum_univ_two] <;> field_simp <;> ring

theorem twin_used (h : ℝ) : used false [Call.partialFit (.batch (twinRows h))] = twinRows h := by
  simp [used, effective, rowsSinceFit, rowsOf]

/-- C136, finding: EmpiricalCovariance, EwaCovariance and LedoitWolfCovariance (during its burn-in it does not shrink) have no such bound: for every `B` there is a
batch of four rows of two columns with positive-definite `covariance_` and squared weights adding up to more than `B`. -/
theorem C136_plain_unbounded (L : Lapack) (B : ℝ) : ∃ xs : List (Fin 2 → ℝ), xs.length = 4 ∧ ∃ c P : Matrix (Fin 2) (Fin 2) ℝ, PD c ∧ B < normSq (rowSumWeights P) ∧
    ((new (empiricalCls (Fin 2) ℝ) false).run [.partialFit (.batch xs)]).covariance = .ok c ∧
    ((new (empiricalCls (Fin 2) ℝ) false).run [.partialFit (.batch xs)]).precision L = .ok P ∧
    ∀ r : ℝ, 0 < r → r ≤ 1 →
      ((new (ewaCls (Fin 2) ℝ) ⟨r, false⟩).run [.partialFit (.batch xs)]).covariance = .ok c ∧
      ((new (ewaCls (Fin 2) ℝ) ⟨r, false⟩).run [.partialFit (.batch xs)]).precision L = .ok P ∧
      ((new (ledoitWolfCls (Fin 2) ℝ) ⟨r, false⟩).run [.partialFit (.batch xs)]).covariance = .ok c ∧
      ((new (ledoitWolfCls (Fin 2) ℝ) ⟨r, false⟩).run [.partialFit (.batch xs)]).precision L = .ok P := by
  obtain ⟨h, h0, hB⟩ : ∃ h : ℝ, 0 < h ∧ B < 1 / (2 * h) := by
    refine ⟨1 / (2 * (|B| + 1)), by positivity, ?_⟩
    have : 1 / (2 * (1 / (2 * (|B| + 1)))) = |B| + 1 := by field_simp
    rw [this]; linarith [le_abs_self B]
  have hpd := twin_pd h0
  have hne : used false [Call.partialFit (.batch (twinRows h))] ≠ [] := by rw [twin_used]; simp [twinRows]
  have hcE : ((new (empiricalCls (Fin 2) ℝ) false).run [.partialFit (.batch (twinRows h))]).covariance = .ok (twinCov h) := by
    rw [(C15_batch false [.partialFit (.batch (twinRows h))] hne).2.1, twin_used, twin_cov]
  have hprec : ∀ {C : Cls (Fin 2) ℝ} (o : Obj C), o.covariance = .ok (twinCov h) → o.precision L = .ok (tryInvert L (twinCov h)) := by
    intro C o ho; simp [Obj.precision, ho, Except.map]
  refine ⟨twinRows h, rfl, twinCov h, tryInvert L (twinCov h), hpd, ?_, hcE, hprec _ hcE, fun r r0 r1 => ?_⟩
  · rw [twin_weights h0 (precision_facts L _ _ _ hcE (hprec _ hcE) hpd).2.2]
    simp only [normSq, Fin.sum_univ_two, cons_val_zero, cons_val_one]
    have : 0 < 1 / (2 * h) := by positivity
    nlinarith
  have hburn : (twinRows h).length ≤ ewaBurnN r := by have := (C19_burn_length r r0).2.2.1; simp [twinRows]; omega
  have hc : ((new (ewaCls (Fin 2) ℝ) ⟨r, false⟩).run [.partialFit (.batch (twinRows h))]).covariance = .ok (twinCov h) := by
    rw [(ewa_attrs (⟨r, false⟩ : RParam ℝ) [.partialFit (.batch (twinRows h))] hne).2]
    show Except.ok (ewaFold r (used false _)).cov = _
    rw [twin_used, ewaFold_burn r _ hburn, empFold_cov (by simp [twinRows]), twin_cov]
  have hl : ((new (ledoitWolfCls (Fin 2) ℝ) ⟨r, false⟩).run [.partialFit (.batch (twinRows h))]).covariance = .ok (twinCov h) := by
    obtain ⟨c, hc'⟩ := run_cov_ok (ledoitWolf_lawful (Fin 2) ℝ) (⟨r, false⟩ : RParam ℝ) [.partialFit (.batch (twinRows h))] hne
    obtain ⟨a, _, _, _, _, _, _, _, hb, _⟩ := C27_convex (⟨r, false⟩ : RParam ℝ) r0.le r1 _ c _ hc' hc
    rw [hc', hb (by show (used false _).length ≤ _; rw [twin_used]; exact hburn)]
  exact ⟨hc, hprec _ hc, hl, hprec _ hl⟩

/-- Non-vacuity: the demonstration rows: OASCovariance and ShrunkCovariance meet the hypotheses. -/
example (L : Lapack) : ∃ c P : Matrix (Fin 2) (Fin 2) ℝ, ((new (oasCls (Fin 2) ℝ) (⟨1/20, false⟩ : RParam ℝ)).run [.partialFit (.batch demoRows)]).covariance = .ok c ∧
    ((new (oasCls (Fin 2) ℝ) (⟨1/20, false⟩ : RParam ℝ)).run [.partialFit (.batch demoRows)]).precision L = .ok P ∧ normSq (rowSumWeights P) ≤ 10 := by
  obtain ⟨c, hc⟩ := run_cov_ok (oas_lawful (Fin 2) ℝ) (⟨1/20, false⟩ : RParam ℝ) _ demo_ne
  have hp : ((new (oasCls (Fin 2) ℝ) (⟨1/20, false⟩ : RParam ℝ)).run [.partialFit (.batch demoRows)]).precision L = .ok (tryInvert L c) := by
    unfold Obj.precision; rw [hc]; rfl
  refine ⟨c, _, hc, hp, (C136_oas L (⟨1/20, false⟩ : RParam ℝ) (by norm_num) (by norm_num) _ c _ _ hc hp (demo_attrs (1/20) (by norm_num)) ?_).trans ?_⟩
  · intro h
    have := congrFun (congrFun h 0) 1
    simp at this
  · norm_num

end Precise
