import Verif.Props.Bounded
import Verif.Props.Schur

/-!
# C128: the data-driven shrinkage of LedoitWolf, OAS and the two Schur estimators is at most of the order of the rate `r`
-/

set_option linter.all false

open Matrix

namespace Precise

open Spec Obj

/-- The sum of the squared entries (specification). -/
def sumSq {ι : Type} [Fintype ι] (a : Matrix ι ι ℝ) : ℝ := ∑ i, ∑ j, a i j ^ 2

section
variable {ι : Type} [Fintype ι] [DecidableEq ι]

omit [DecidableEq ι] in
theorem sumSq_le_trace {S : Matrix ι ι ℝ} (h : PSD S) : sumSq S ≤ S.trace ^ 2 := by
  unfold sumSq
  rw [pow_two, trace, Finset.sum_mul_sum]
  refine Finset.sum_le_sum fun i _ => Finset.sum_le_sum fun j _ => ?_
  have := h.entry_sq_le i j
  simpa [pow_two, diag] using this

/-- How far the target is from `S`. -/
theorem sumSq_target [Nonempty ι] (S : Matrix ι ι ℝ) :
    sumSq ((S.trace / (Fintype.card ι : ℝ)) • 1 - S) = sumSq S - S.trace ^ 2 / (Fintype.card ι : ℝ) := by
  have hq : (Fintype.card ι : ℝ) ≠ 0 := card_ne
  set mu := S.trace / (Fintype.card ι : ℝ) with hmu
  have h1 : ∀ i j, ((mu • (1 : Matrix ι ι ℝ) - S) i j) ^ 2 = S i j ^ 2 + (if i = j then mu ^ 2 - 2 * mu * S i j else 0) := by
    intro i j
    by_cases h : i = j
    · subst h; simp; ring
    · simp [h]
  unfold sumSq
  simp only [h1, Finset.sum_add_distrib, Finset.sum_ite_eq, Finset.mem_univ, if_true, Finset.sum_sub_distrib, ← Finset.mul_sum]
  have : ∑ i, S i i = S.trace := rfl
  rw [this]
  simp only [Finset.sum_const, Finset.card_univ, nsmul_eq_mul]
  have e : S.trace = (Fintype.card ι : ℝ) * mu := by rw [hmu]; field_simp
  rw [e]; field_simp; ring

omit [DecidableEq ι] in
theorem sumSq_smul (a : ℝ) (S : Matrix ι ι ℝ) : sumSq (a • S) = a ^ 2 * sumSq S := by
  unfold sumSq; simp only [Matrix.smul_apply, smul_eq_mul, mul_pow, Finset.mul_sum]

omit [DecidableEq ι] in
theorem sumSq_nonneg (S : Matrix ι ι ℝ) : 0 ≤ sumSq S := Finset.sum_nonneg fun i _ => Finset.sum_nonneg fun j _ => sq_nonneg _

theorem sumSq_shrink [Nonempty ι] (a : ℝ) (S : Matrix ι ι ℝ) :
    sumSq ((1 - a) • S + (a * (S.trace / (Fintype.card ι : ℝ))) • 1 - S) = a ^ 2 * (sumSq S - S.trace ^ 2 / (Fintype.card ι : ℝ)) := by
  rw [← sumSq_target, ← sumSq_smul]
  congr 1
  ext i j
  simp only [Matrix.sub_apply, Matrix.add_apply, Matrix.smul_apply, smul_eq_mul]
  ring

/-- C128: OASCovariance differs from EwaCovariance, on any data and after any number of observations, by at most `2 r tr(S)²` in squared
Frobenius norm. -/
theorem C128_oas [Nonempty ι] (p : RParam ℝ) (h0 : 0 < p.r) (h1 : p.r ≤ 1) (calls : List (Call ι ℝ)) (c S : Matrix ι ι ℝ)
    (h : ((new (oasCls ι ℝ) p).run calls).covariance = .ok c)
    (hS : ((new (ewaCls ι ℝ) p).run calls).covariance = .ok S) : sumSq (c - S) ≤ 2 * p.r * S.trace ^ 2 := by
  have key := C28_intensity p h0 h1 calls c S h hS
  simp only at key
  obtain ⟨_, hSe⟩ := ewa_attrs_inv p calls S hS
  have hP : PSD S := by rw [hSe]; exact ewaFold_psd h0.le h1 _
  have ht := sumSq_le_trace hP
  set q : ℝ := (Fintype.card ι : ℝ) with hq
  change 0 ≤ sumSq S - S.trace ^ 2 / q ∧ 0 ≤ (if sumSq S - S.trace ^ 2 / q = 0 then (1:ℝ) else
      min 1 (((1 - 2 / q) * sumSq S + S.trace ^ 2) / ((max (1 / p.r) 2 + 1 - 2 / q) * (sumSq S - S.trace ^ 2 / q)))) ∧ _ at key
  obtain ⟨k1, k2, k3, k4, -⟩ := key
  have hrhs : 0 ≤ 2 * p.r * S.trace ^ 2 := by positivity
  rw [k4, sumSq_shrink]
  change (if sumSq S - S.trace ^ 2 / q = 0 then (1:ℝ) else
      min 1 (((1 - 2 / q) * sumSq S + S.trace ^ 2) / ((max (1 / p.r) 2 + 1 - 2 / q) * (sumSq S - S.trace ^ 2 / q)))) ^ 2 *
        (sumSq S - S.trace ^ 2 / q) ≤ _
  change (if sumSq S - S.trace ^ 2 / q = 0 then (1:ℝ) else
      min 1 (((1 - 2 / q) * sumSq S + S.trace ^ 2) / ((max (1 / p.r) 2 + 1 - 2 / q) * (sumSq S - S.trace ^ 2 / q)))) ≤ 1 at k3
  by_cases hz : sumSq S - S.trace ^ 2 / q = 0
  · rw [hz, mul_zero]; exact hrhs
  rw [if_neg hz] at k2 k3 ⊢
  have hspread : 0 < sumSq S - S.trace ^ 2 / q := lt_of_le_of_ne k1 (Ne.symm hz)
  have hq2 : 2 ≤ q := by
    by_contra hlt
    have hc : Fintype.card ι = 1 := by
      have h1 : 1 ≤ Fintype.card ι := Fintype.card_pos
      have h2 : (Fintype.card ι : ℝ) < 2 := not_le.1 hlt
      have : Fintype.card ι < 2 := by exact_mod_cast h2
      omega
    have : q = 1 := by rw [hq, hc]; norm_num
    rw [this] at hspread
    linarith
  have h2q : 2 / q ≤ 1 := by rw [div_le_iff₀ (by linarith)]; linarith
  have h2q0 : 0 ≤ 2 / q := by positivity
  set n : ℝ := max (1 / p.r) 2 with hn
  have hn1 : 1 / p.r ≤ n := le_max_left _ _
  have hn0 : 0 < 1 / p.r := by positivity
  have hfac : n ≤ n + 1 - 2 / q := by linarith
  have hnum : (1 - 2 / q) * sumSq S + S.trace ^ 2 ≤ 2 * S.trace ^ 2 := by
    have := mul_le_mul_of_nonneg_right (by linarith : 1 - 2 / q ≤ 1) (sumSq_nonneg S)
    linarith
  set rho := min 1 (((1 - 2 / q) * sumSq S + S.trace ^ 2) / ((n + 1 - 2 / q) * (sumSq S - S.trace ^ 2 / q))) with hrho
  have e1 : rho ^ 2 * (sumSq S - S.trace ^ 2 / q) ≤ rho * (sumSq S - S.trace ^ 2 / q) := by
    refine mul_le_mul_of_nonneg_right ?_ k1
    nlinarith
  have e2 : rho * (sumSq S - S.trace ^ 2 / q) ≤ ((1 - 2 / q) * sumSq S + S.trace ^ 2) / (n + 1 - 2 / q) := by
    have := mul_le_mul_of_nonneg_right (min_le_right (1:ℝ) (((1 - 2 / q) * sumSq S + S.trace ^ 2) / ((n + 1 - 2 / q) * (sumSq S - S.trace ^ 2 / q)))) k1
    refine this.trans (le_of_eq ?_)
    rw [← div_div, div_mul_cancel₀ _ hspread.ne']
  have e3 : ((1 - 2 / q) * sumSq S + S.trace ^ 2) / (n + 1 - 2 / q) ≤ 2 * S.trace ^ 2 / (1 / p.r) :=
    div_le_div₀ (by positivity) hnum hn0 (by linarith)
  have e4 : 2 * S.trace ^ 2 / (1 / p.r) = 2 * p.r * S.trace ^ 2 := by field_simp
  linarith

/-! ## LedoitWolf -/

theorem scatter_dev {B : ℝ} {s : EmpState ι ℝ} (h : Small B s) {x : ι → ℝ} (hx : ∀ i, |x i| ≤ B) (i j : ι) :
    (outer (fun i => x i - s.mean i) (fun i => x i - s.mean i) i j - s.cov i j) ^ 2 ≤ 64 * B ^ 4 := by
  have h1 := psd_entry_le h.psd h.var i j
  have hd : ∀ k, |x k - s.mean k| ≤ 2 * B := fun k => (abs_sub _ _).trans (by linarith [hx k, h.mean k])
  have hB : 0 ≤ 2 * B := (abs_nonneg _).trans (hd i)
  have h2 : |(x i - s.mean i) * (x j - s.mean j)| ≤ 4 * B ^ 2 := by
    rw [abs_mul]
    refine (mul_le_mul (hd i) (hd j) (abs_nonneg _) hB).trans (le_of_eq (by ring))
  have h3 : |outer (fun i => x i - s.mean i) (fun i => x i - s.mean i) i j - s.cov i j| ≤ 8 * B ^ 2 := by
    refine (abs_sub _ _).trans ?_
    simp only [outer, of_apply]
    linarith
  have := pow_le_pow_left₀ (abs_nonneg _) h3 2
  rw [sq_abs] at this
  refine this.trans (le_of_eq (by ring))

theorem lw_pi_le [Nonempty ι] {B r : ℝ} (hB : 0 ≤ B) (h0 : 0 ≤ r) (h1 : r ≤ 1) (xs : List (ι → ℝ)) (hx : ∀ x ∈ xs, ∀ i, |x i| ≤ B) :
    SmallE B r (ewaFold r xs) ∧ 0 ≤ (lwFold r xs).piBar ∧
      (lwFold r xs).piBar ≤ (1 - (1 - r) ^ (xs.length - ewaBurnN r)) * (64 * (Fintype.card ι : ℝ) * B ^ 4) := by
  induction xs using List.reverseRecOn with
  | nil => exact ⟨smallE_init hB r, le_rfl, by simp [lwFold]⟩
  | append_singleton xs x ih =>
    obtain ⟨i1, i2, i3⟩ := ih fun y hy => hx y (by simp [hy])
    have hxx := hx x (by simp)
    have hs : SmallE B r (ewaFold r (xs ++ [x])) := by
      rw [ewaFold_snoc]; exact smallE_update h0 h1 i1 hxx
    refine ⟨hs, ?_⟩
    rw [lwFold_snoc]
    have e := lwFold_toEwa r xs
    have ecov : (lwFold r xs).cov = (ewaFold r xs).cov := by rw [e]
    have emean : (lwFold r xs).mean = (ewaFold r xs).mean := by rw [e]
    have er : (lwFold r xs).r = r := by rw [e, ewaFold_r]
    by_cases hb : xs.length < ewaBurnN r
    · have hpi : (lwFold r xs).piBar = 0 := lwFold_burn r xs hb.le
      have hu : (lwUpdate (lwFold r xs) x).piBar = 0 := by
        unfold lwUpdate
        rw [if_pos (by rw [e, ewaFold_n, ewaFold_nBurn]; exact hb)]
        exact hpi
      rw [hu]
      refine ⟨le_rfl, ?_⟩
      have : (xs ++ [x]).length - ewaBurnN r = 0 := by simp; omega
      rw [this]; simp
    · set Q : ℝ := (∑ i, ∑ j, (outer (fun i => x i - (ewaFold r xs).mean i) (fun i => x i - (ewaFold r xs).mean i) i j - (ewaFold r xs).cov i j) ^ 2) /
        (Fintype.card ι : ℝ) with hQ
      have hu : (lwUpdate (lwFold r xs) x).piBar = (1 - r) * (lwFold r xs).piBar + r * Q := by
        unfold lwUpdate
        rw [if_neg (by rw [e, ewaFold_n, ewaFold_nBurn]; exact hb)]
        simp only []
        rw [hQ, ← ecov, ← emean, er]
      have hq : (0:ℝ) < (Fintype.card ι : ℝ) := card_pos'
      have hQ0 : 0 ≤ Q := div_nonneg (Finset.sum_nonneg fun i _ => Finset.sum_nonneg fun j _ => sq_nonneg _) hq.le
      have hQ1 : Q ≤ 64 * (Fintype.card ι : ℝ) * B ^ 4 := by
        rw [hQ, div_le_iff₀ hq]
        refine (Finset.sum_le_sum fun i _ => Finset.sum_le_sum fun j _ => scatter_dev i1.1 hxx i j).trans (le_of_eq ?_)
        simp only [Finset.sum_const, Finset.card_univ, nsmul_eq_mul]
        ring
      have hlen : (xs ++ [x]).length - ewaBurnN r = xs.length - ewaBurnN r + 1 := by simp; omega
      rw [hu, hlen, pow_succ]
      set M : ℝ := 64 * (Fintype.card ι : ℝ) * B ^ 4 with hM
      set w := (1 - r) ^ (xs.length - ewaBurnN r) with hw
      refine ⟨add_nonneg (mul_nonneg (by linarith) i2) (mul_nonneg h0 hQ0), ?_⟩
      have a1 := mul_le_mul_of_nonneg_left i3 (by linarith : 0 ≤ 1 - r)
      have a2 := mul_le_mul_of_nonneg_left hQ1 h0
      calc _ ≤ (1 - r) * ((1 - w) * M) + r * M := add_le_add a1 a2
        _ = _ := by ring

/-- What the code's clipping gives: `a² d² ≤ r π`. -/
theorem lwCov_dist [Nonempty ι] (s : LWState ι ℝ) (h0 : 0 ≤ s.r) (hp : 0 ≤ s.piBar) :
    sumSq (lwCov s - s.cov) ≤ (Fintype.card ι : ℝ) * (s.r * s.piBar) := by
  have hq : (0:ℝ) < (Fintype.card ι : ℝ) := card_pos'
  unfold lwCov
  simp only []
  have hd : (∑ i, ∑ j, (s.cov i j - ((s.cov.trace / (Fintype.card ι : ℝ)) • (1 : Matrix ι ι ℝ)) i j) ^ 2) =
      sumSq s.cov - s.cov.trace ^ 2 / (Fintype.card ι : ℝ) := by
    rw [← sumSq_target]
    unfold sumSq
    refine Finset.sum_congr rfl fun i _ => Finset.sum_congr rfl fun j _ => ?_
    rw [Matrix.sub_apply]; ring
  rw [hd]
  set D := sumSq s.cov - s.cov.trace ^ 2 / (Fintype.card ι : ℝ) with hD
  split_ifs with hc
  · rw [sub_self]
    have : sumSq (0 : Matrix ι ι ℝ) = 0 := by simp [sumSq]
    rw [this]; positivity
  · push Not at hc
    obtain ⟨c1, c2⟩ := hc
    rw [sumSq_shrink, ← hD]
    set a := min (max (min (s.piBar * s.r) (D / (Fintype.card ι : ℝ)) / (D / (Fintype.card ι : ℝ))) 0) 1 with ha
    have hb0 : 0 ≤ min (s.piBar * s.r) (D / (Fintype.card ι : ℝ)) := le_min (mul_nonneg hp h0) c1.le
    have a0 : 0 ≤ a := le_min (le_max_right _ _) zero_le_one
    have a1 : a ≤ 1 := min_le_right _ _
    have a2 : a ≤ min (s.piBar * s.r) (D / (Fintype.card ι : ℝ)) / (D / (Fintype.card ι : ℝ)) := by
      refine (min_le_left _ _).trans ?_
      rw [max_eq_left (div_nonneg hb0 c1.le)]
    have a3 : a * (D / (Fintype.card ι : ℝ)) ≤ s.piBar * s.r := by
      rw [le_div_iff₀ c1] at a2
      exact a2.trans (min_le_left _ _)
    have hDD : D = (Fintype.card ι : ℝ) * (D / (Fintype.card ι : ℝ)) := by field_simp
    have hD0 : 0 ≤ D := by rw [hDD]; positivity
    calc a ^ 2 * D ≤ a * D := mul_le_mul_of_nonneg_right (by nlinarith) hD0
      _ = (Fintype.card ι : ℝ) * (a * (D / (Fintype.card ι : ℝ))) := by field_simp
      _ ≤ _ := by rw [mul_comm s.r]; exact mul_le_mul_of_nonneg_left a3 hq.le

/-- C128: LedoitWolfCovariance on data bounded by `B` differs from EwaCovariance by at most `64 d² B⁴ r (1 - (1-r)^k)` in squared Frobenius
norm, `k` the number of observations after the burn-in: no shrinkage at first, and never more than of order `r`. -/
theorem C128_ledoit_wolf [Nonempty ι] (p : RParam ℝ) (h0 : 0 ≤ p.r) (h1 : p.r ≤ 1) (calls : List (Call ι ℝ)) (B : ℝ) (hB : 0 ≤ B)
    (hx : ∀ x ∈ used p.diff calls, ∀ i, |x i| ≤ B) (c S : Matrix ι ι ℝ)
    (h : ((new (ledoitWolfCls ι ℝ) p).run calls).covariance = .ok c)
    (hS : ((new (ewaCls ι ℝ) p).run calls).covariance = .ok S) :
    sumSq (c - S) ≤ p.r * (1 - (1 - p.r) ^ ((used p.diff calls).length - ewaBurnN p.r)) * (64 * (Fintype.card ι : ℝ) ^ 2 * B ^ 4) := by
  obtain ⟨hne, hc⟩ := lw_attrs p calls c h
  obtain ⟨_, hSe⟩ := ewa_attrs_inv p calls S hS
  obtain ⟨-, i2, i3⟩ := lw_pi_le hB h0 h1 (used p.diff calls) hx
  have e := lwFold_toEwa p.r (used p.diff calls)
  have ecov : (lwFold p.r (used p.diff calls)).cov = S := by rw [e, hSe]
  have er : (lwFold p.r (used p.diff calls)).r = p.r := by rw [e, ewaFold_r]
  have hd := lwCov_dist (lwFold p.r (used p.diff calls)) (by rw [er]; exact h0) i2
  rw [← hc, ecov, er] at hd
  refine hd.trans ?_
  have hq : (0:ℝ) < (Fintype.card ι : ℝ) := card_pos'
  have := mul_le_mul_of_nonneg_left i3 (mul_nonneg hq.le h0)
  refine le_trans (le_of_eq ?_) (this.trans (le_of_eq ?_)) <;> ring

/-- C128: up to the end of the burn-in LedoitWolfCovariance is EmpiricalCovariance, and OASCovariance is within `2 r tr(S)²` of it, however few
the observations. -/
theorem C128_few [Nonempty ι] (p : RParam ℝ) (h0 : 0 < p.r) (h1 : p.r ≤ 1) (calls : List (Call ι ℝ))
    (hl : (used p.diff calls).length ≤ ewaBurnN p.r) (E : Matrix ι ι ℝ)
    (hE : ((new (empiricalCls ι ℝ) p.diff).run calls).covariance = .ok E) :
    ((new (ledoitWolfCls ι ℝ) p).run calls).covariance = .ok E ∧
    ∃ c, ((new (oasCls ι ℝ) p).run calls).covariance = .ok c ∧ sumSq (c - E) ≤ 2 * p.r * E.trace ^ 2 := by
  have hne := (run_covariance_inv (empirical_lawful ι ℝ) p.diff calls E hE).1
  change used p.diff calls ≠ [] at hne
  have hS : ((new (ewaCls ι ℝ) p).run calls).covariance = .ok E := (C19_burn_in_is_empirical p calls hl).2.1.trans hE
  obtain ⟨c, hc⟩ := run_cov_ok (oas_lawful ι ℝ) p calls hne
  obtain ⟨w, hw⟩ := run_cov_ok (ledoitWolf_lawful ι ℝ) p calls hne
  obtain ⟨a, _, _, _, _, _, _, _, hb, _⟩ := C27_convex p h0.le h1 calls w E hw hS
  refine ⟨by rw [hw, hb hl], c, hc, C128_oas p h0 h1 calls c E hc hS⟩

/-- C128: the fixed shrinkage of ShrunkCovariance towards the identity, in contrast, never fades: its distance from EwaCovariance is
`delta²` times the distance of the target. -/
theorem C128_shrunk_stays [Nonempty ι] (p : ShrunkParam) (ht : p.target = "identity") (calls : List (Call ι ℝ)) (c S : Matrix ι ι ℝ)
    (h : ((new (shrunkCls ι) p).run calls).covariance = .ok c)
    (hS : ((new (ewaCls ι ℝ) ⟨p.r, p.diff⟩).run calls).covariance = .ok S) :
    sumSq (c - S) = p.delta ^ 2 * sumSq ((S.trace / (Fintype.card ι : ℝ)) • 1 - S) := by
  rw [(C29_identity p ht calls c S h hS).1, sumSq_shrink, sumSq_target]

end

/-! ## The Schur estimators -/

section
variable {p : ℕ} (L : Lapack)

theorem sumCross_nonneg (bid : Fin p → ℕ) {m : Matrix (Fin p) (Fin p) ℝ} (h : ∀ i j, 0 ≤ m i j) : 0 ≤ sumCross bid m :=
  Finset.sum_nonneg fun i _ => Finset.sum_nonneg fun j _ => by split <;> simp [h]

theorem sumCross_le (bid : Fin p → ℕ) {m : Matrix (Fin p) (Fin p) ℝ} {M : ℝ} (hM : 0 ≤ M) (h : ∀ i j, m i j ≤ M) : sumCross bid m ≤ (p : ℝ) ^ 2 * M := by
  unfold sumCross
  refine (Finset.sum_le_sum fun i _ => Finset.sum_le_sum fun j _ => (?_ : _ ≤ M)).trans (le_of_eq ?_)
  · split
    · exact h i j
    · exact hM
  · simp only [Finset.sum_const, Finset.card_univ, nsmul_eq_mul, Fintype.card_fin]; ring

theorem slw_pi_le (pr : BlockParam) {B : ℝ} (hB : 0 ≤ B) (h0 : 0 ≤ pr.r) (h1 : pr.r ≤ 1) (xs : List (Fin p → ℝ)) (hx : ∀ x ∈ xs, ∀ i, |x i| ≤ B) :
    SmallE B pr.r (ewaFold pr.r xs) ∧ 0 ≤ (slwFold pr xs).piCross ∧
      (slwFold pr xs).piCross ≤ (1 - (1 - pr.r) ^ (xs.length - ewaBurnN pr.r)) * (64 * (p : ℝ) ^ 2 * B ^ 4) := by
  induction xs using List.reverseRecOn with
  | nil => exact ⟨smallE_init hB pr.r, le_rfl, by simp [slwFold]⟩
  | append_singleton xs x ih =>
    obtain ⟨i1, i2, i3⟩ := ih fun y hy => hx y (by simp [hy])
    have hxx := hx x (by simp)
    have hs : SmallE B pr.r (ewaFold pr.r (xs ++ [x])) := by
      rw [ewaFold_snoc]; exact smallE_update h0 h1 i1 hxx
    refine ⟨hs, ?_⟩
    rw [slwFold_snoc]
    have e := slwFold_toEwa pr xs
    have ecov : (slwFold pr xs).cov = (ewaFold pr.r xs).cov := by rw [e]
    have emean : (slwFold pr xs).mean = (ewaFold pr.r xs).mean := by rw [e]
    have er : (slwFold pr xs).r = pr.r := by rw [e, ewaFold_r]
    by_cases hb : xs.length < ewaBurnN pr.r
    · have hpi : (slwFold pr xs).piCross = 0 := slwFold_burn pr xs hb.le
      have hu : (slwUpdate pr (slwFold pr xs) x).piCross = 0 := by
        unfold slwUpdate
        rw [if_pos (by rw [e, ewaFold_n, ewaFold_nBurn]; exact hb)]
        exact hpi
      rw [hu]
      refine ⟨le_rfl, ?_⟩
      have : (xs ++ [x]).length - ewaBurnN pr.r = 0 := by simp; omega
      rw [this]; simp
    · set Q : ℝ := sumCross (fun i : Fin p => blockId p (schurNb pr.nBlocks p) i) (Matrix.of fun i j =>
        (outer (fun i => x i - (ewaFold pr.r xs).mean i) (fun i => x i - (ewaFold pr.r xs).mean i) i j - (ewaFold pr.r xs).cov i j) ^ 2) with hQ
      have hu : (slwUpdate pr (slwFold pr xs) x).piCross = (1 - pr.r) * (slwFold pr xs).piCross + pr.r * Q := by
        unfold slwUpdate
        rw [if_neg (by rw [e, ewaFold_n, ewaFold_nBurn]; exact hb)]
        simp only []
        rw [hQ, ← ecov, ← emean, er]
      have hQ0 : 0 ≤ Q := sumCross_nonneg _ fun i j => sq_nonneg _
      have hQ1 : Q ≤ 64 * (p : ℝ) ^ 2 * B ^ 4 := by
        refine (sumCross_le _ (by positivity) fun i j => scatter_dev i1.1 hxx i j).trans (le_of_eq (by ring))
      have hlen : (xs ++ [x]).length - ewaBurnN pr.r = xs.length - ewaBurnN pr.r + 1 := by simp; omega
      rw [hu, hlen, pow_succ]
      set M : ℝ := 64 * (p : ℝ) ^ 2 * B ^ 4 with hM
      set w := (1 - pr.r) ^ (xs.length - ewaBurnN pr.r) with hw
      refine ⟨add_nonneg (mul_nonneg (by linarith) i2) (mul_nonneg h0 hQ0), ?_⟩
      have a1 := mul_le_mul_of_nonneg_left i3 (by linarith : 0 ≤ 1 - pr.r)
      have a2 := mul_le_mul_of_nonneg_left hQ1 h0
      calc _ ≤ (1 - pr.r) * ((1 - w) * M) + pr.r * M := add_le_add a1 a2
        _ = _ := by ring

/-- C128: the damping `gamma_` of SchurLedoitWolfCovariance on data bounded by `B` takes away little: `(1 - gamma_)²` times the sum of the squared
cross-block covariances is at most `64 d² B⁴ r (1 - (1-r)^k)`. -/
theorem C128_schur_ledoit_wolf (hp : 1 ≤ p) (pr : BlockParam) (hn : 1 ≤ pr.nBlocks) (h0 : 0 ≤ pr.r) (h1 : pr.r ≤ 1) (calls : List (Call (Fin p) ℝ)) (B : ℝ)
    (hB : 0 ≤ B) (hx : ∀ x ∈ used pr.diff calls, ∀ i, |x i| ≤ B) (g : ℝ) (S : Matrix (Fin p) (Fin p) ℝ)
    (h : slwGammaAttr L ((new (schurLWCls L p) pr).run calls) = .ok g)
    (hS : ((new (ewaCls (Fin p) ℝ) ⟨pr.r, pr.diff⟩).run calls).covariance = .ok S) :
    (1 - g) ^ 2 * crossSum (slices p (schurNb pr.nBlocks p)) (Matrix.of fun i j => S i j ^ 2) ≤
      pr.r * (1 - (1 - pr.r) ^ ((used pr.diff calls).length - ewaBurnN pr.r)) * (64 * (p : ℝ) ^ 2 * B ^ 4) := by
  have hbn : 1 ≤ schurNb pr.nBlocks p := by unfold schurNb; omega
  obtain ⟨hne, hg⟩ := slw_gamma_inv L pr calls g h
  obtain ⟨_, hSe⟩ := ewa_attrs_inv (⟨pr.r, pr.diff⟩ : RParam ℝ) calls S hS
  change S = (ewaFold pr.r (used pr.diff calls)).cov at hSe
  obtain ⟨g0, g1, -⟩ := C31_gamma_range L pr calls g h
  obtain ⟨-, i2, i3⟩ := slw_pi_le pr hB h0 h1 (used pr.diff calls) hx
  have e := slwFold_toEwa pr (used pr.diff calls)
  have ecov : (slwFold pr (used pr.diff calls)).cov = S := by rw [e, hSe]
  have er : (slwFold pr (used pr.diff calls)).r = pr.r := by rw [e, ewaFold_r]
  rw [crossSum_eq hbn]
  set m2 := sumCross (fun i : Fin p => blockId p (schurNb pr.nBlocks p) i) (Matrix.of fun i j => S i j ^ 2) with hm2
  have hm20 : 0 ≤ m2 := sumCross_nonneg _ fun i j => sq_nonneg _
  have key : (1 - g) ^ 2 * m2 ≤ pr.r * (slwFold pr (used pr.diff calls)).piCross := by
    have hgg : g = if 0 < m2 then min (max (1 - (slwFold pr (used pr.diff calls)).piCross * pr.r / m2) 0) 1 else 1 := by
      rw [hg]; unfold slwGamma; simp only []; rw [ecov, er]
    have a1 : (1 - g) ^ 2 * m2 ≤ (1 - g) * m2 := mul_le_mul_of_nonneg_right (by nlinarith) hm20
    refine a1.trans ?_
    split_ifs at hgg with hpos
    · have hle : 1 - (slwFold pr (used pr.diff calls)).piCross * pr.r / m2 ≤ g := by
        rw [hgg]
        refine le_min (le_max_left _ _) ?_
        have : 0 ≤ (slwFold pr (used pr.diff calls)).piCross * pr.r / m2 := by positivity
        linarith
      have h2 : (1 - g) * m2 ≤ (slwFold pr (used pr.diff calls)).piCross * pr.r / m2 * m2 := mul_le_mul_of_nonneg_right (by linarith) hm20
      rw [div_mul_cancel₀ _ hpos.ne'] at h2
      linarith
    · rw [hgg]; simp; positivity
  refine key.trans ((mul_le_mul_of_nonneg_left i3 h0).trans (le_of_eq ?_))
  ring

/-- C128: the damping `gamma_` of SchurConditionalCovariance takes away at most `2 d² / n`: `n` its effective sample size, the smaller of the number of
observations and `(2 - r)/r`, but at least 2. `R` is the EWA correlation. -/
theorem C128_schur_conditional (pr : BlockParam) (h0 : 0 ≤ pr.r) (h1 : pr.r ≤ 1) (hn : 2 ≤ pr.nBlocks) (hp : 2 ≤ p) (calls : List (Call (Fin p) ℝ)) (R : Matrix (Fin p) (Fin p) ℝ)
    (hR : ((new (ewaCls (Fin p) ℝ) ⟨pr.r, pr.diff⟩).run calls).correlation = .ok R) (g : ℝ)
    (hg : scGammaAttr L ((new (schurCondCls L p) pr).run calls) = .ok g) :
    (1 - g) ^ 2 * crossSum (slices p (nbClamped pr.nBlocks p)) (Matrix.of fun i j => R i j ^ 2) ≤
      2 * (p : ℝ) ^ 2 / max 2 (min ((used pr.diff calls).length : ℝ) ((2 - pr.r) / pr.r)) := by
  have hb : 1 ≤ nbClamped pr.nBlocks p := nbClamped_pos _ _ (by omega)
  have hRb : ∀ i j, |R i j| ≤ 1 := by
    cases hc : ((new (ewaCls (Fin p) ℝ) ⟨pr.r, pr.diff⟩).run calls).covariance with
    | error e => unfold Obj.correlation at hR; rw [hc] at hR; cases hR
    | ok S =>
      obtain ⟨_, hSe⟩ := ewa_attrs_inv (⟨pr.r, pr.diff⟩ : RParam ℝ) calls S hc
      have hP : PSD S := by rw [hSe]; exact ewaFold_psd h0 h1 _
      exact (C11_correlation _ S R hc hP hR).2.1
  have key := C32_gamma_formula L pr hn hp calls R hR
  simp only at key
  obtain ⟨g0, g1, -⟩ := C32_gamma L pr calls g hg
  rw [hg] at key
  have hgg := Except.ok.inj key
  set n : ℝ := max 2 (min ((used pr.diff calls).length : ℝ) ((2 - pr.r) / pr.r)) with hn'
  have hn0 : 0 < n := lt_of_lt_of_le (by norm_num) (le_max_left _ _)
  set den := crossSum (slices p (nbClamped pr.nBlocks p)) (Matrix.of fun i j => R i j ^ 2) with hden
  set num := crossSum (slices p (nbClamped pr.nBlocks p)) (Matrix.of fun i j => max (R i j ^ 2 - (1 + R i j ^ 2) / n) 0) with hnum
  have hden0 : 0 ≤ den := by rw [hden, crossSum_eq hb]; exact sumCross_nonneg _ fun i j => sq_nonneg _
  have a1 : (1 - g) ^ 2 * den ≤ (1 - g) * den := mul_le_mul_of_nonneg_right (by nlinarith) hden0
  refine a1.trans ?_
  have h2 : den - num ≤ 2 * (p : ℝ) ^ 2 / n := by
    have e : den - num = sumCross (fun i : Fin p => blockId p (nbClamped pr.nBlocks p) i)
        (Matrix.of fun i j => R i j ^ 2 - max (R i j ^ 2 - (1 + R i j ^ 2) / n) 0) := by
      rw [hden, hnum, crossSum_eq hb, crossSum_eq hb]
      unfold sumCross
      rw [← Finset.sum_sub_distrib]
      refine Finset.sum_congr rfl fun i _ => ?_
      rw [← Finset.sum_sub_distrib]
      refine Finset.sum_congr rfl fun j _ => ?_
      simp only [of_apply]
      split <;> simp
    rw [e]
    refine (sumCross_le _ (M := 2 / n) (by positivity) fun i j => ?_).trans (le_of_eq (by ring))
    simp only [of_apply]
    have h3 := le_max_left (R i j ^ 2 - (1 + R i j ^ 2) / n) 0
    have h4 : (1 + R i j ^ 2) / n ≤ 2 / n := by
      refine div_le_div_of_nonneg_right ?_ hn0.le
      have := abs_le.1 (hRb i j)
      nlinarith
    linarith
  rcases hden0.eq_or_lt with hz | hpos
  · rw [← hz, mul_zero]; positivity
  · have : g * den = num := by rw [hgg]; field_simp
    calc (1 - g) * den = den - num := by rw [← this]; ring
      _ ≤ _ := h2

/-- C128: as long as the eigenvalues of the EWA covariance are at least `1e-8`, the squared distance of SchurLedoitWolfCovariance from it has the same bound. -/
theorem C128_schur_ledoit_wolf_dist (hp : 1 ≤ p) (pr : BlockParam) (hn : 1 ≤ pr.nBlocks) (h0 : 0 ≤ pr.r) (h1 : pr.r ≤ 1) (calls : List (Call (Fin p) ℝ)) (B : ℝ)
    (hB : 0 ≤ B) (hx : ∀ x ∈ used pr.diff calls, ∀ i, |x i| ≤ B) (c S : Matrix (Fin p) (Fin p) ℝ)
    (h : ((new (schurLWCls L p) pr).run calls).covariance = .ok c)
    (hS : ((new (ewaCls (Fin p) ℝ) ⟨pr.r, pr.diff⟩).run calls).covariance = .ok S) (hmin : MinEigGE S (1 / 10 ^ 8)) :
    sumSq (c - S) ≤ pr.r * (1 - (1 - pr.r) ^ ((used pr.diff calls).length - ewaBurnN pr.r)) * (64 * (p : ℝ) ^ 2 * B ^ 4) := by
  have hbn : 1 ≤ schurNb pr.nBlocks p := by unfold schurNb; omega
  obtain ⟨-, g, hg, hc, -⟩ := C31_is_schur L pr calls c h
  obtain ⟨g0, g1, -⟩ := C31_gamma_range L pr calls g hg
  have b := C128_schur_ledoit_wolf L hp pr hn h0 h1 calls B hB hx g S hg hS
  refine le_trans (le_of_eq ?_) b
  have e := (C30_linear L ⟨pr.r, pr.nBlocks, g, "linear", pr.diff⟩ (show ("linear" : String) ≠ "geodesic" by decide) hn hp calls S hS).2.2 g0 g1 hmin
  have hcD : c = damped (slices p (schurNb pr.nBlocks p)) g S := Except.ok.inj (hc.symm.trans e)
  rw [hcD]
  unfold sumSq crossSum
  rw [Finset.mul_sum]
  refine Finset.sum_congr rfl fun i _ => ?_
  rw [Finset.mul_sum]
  refine Finset.sum_congr rfl fun j _ => ?_
  simp only [damped, Matrix.sub_apply, of_apply]
  split <;> ring

end

/-! Non-vacuity -/

/-- A stream that outlasts the burn-in, on which all four are fitted. -/
example : ∃ rows : List (Fin 2 → ℝ), ewaBurnN (1/20 : ℝ) < (used false [Call.fit (.batch rows)]).length ∧ (∀ x ∈ used false [Call.fit (.batch rows)], ∀ i, |x i| ≤ 1) ∧
    (∃ c, ((new (ledoitWolfCls (Fin 2) ℝ) ⟨1/20, false⟩).run [.fit (.batch rows)]).covariance = .ok c) ∧
    (∃ c, ((new (oasCls (Fin 2) ℝ) ⟨1/20, false⟩).run [.fit (.batch rows)]).covariance = .ok c) ∧
    (∃ S, ((new (ewaCls (Fin 2) ℝ) ⟨1/20, false⟩).run [.fit (.batch rows)]).covariance = .ok S) := by
  have hu : ∀ rows : List (Fin 2 → ℝ), used false [Call.fit (.batch rows)] = rows := fun rows => rfl
  refine ⟨List.replicate 300 ![1, 0] ++ [![0, 1]], ?_, ?_, ?_, ?_, ?_⟩
  · rw [hu]; have := (C19_burn_length (1/20 : ℝ) (by norm_num)).2.2.2.1
    simp only [List.length_append, List.length_replicate, List.length_singleton]; omega
  · rw [hu]; intro x hx i
    rcases List.mem_append.1 hx with h | h
    · rw [(List.mem_replicate.1 h).2]; fin_cases i <;> simp
    · rw [List.mem_singleton.1 h]; fin_cases i <;> simp
  · exact run_cov_ok (ledoitWolf_lawful _ _) _ _ (by show used false _ ≠ []; rw [hu]; exact List.append_ne_nil_of_right_ne_nil _ (List.cons_ne_nil _ _))
  · exact run_cov_ok (oas_lawful _ _) _ _ (by show used false _ ≠ []; rw [hu]; exact List.append_ne_nil_of_right_ne_nil _ (List.cons_ne_nil _ _))
  · exact run_cov_ok (ewa_lawful _ _) _ _ (by show used false _ ≠ []; rw [hu]; exact List.append_ne_nil_of_right_ne_nil _ (List.cons_ne_nil _ _))

end Precise
