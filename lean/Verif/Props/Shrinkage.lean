import Verif.Props.Diagonal
import Mathlib.Algebra.Order.Chebyshev

/-!
# C27: LedoitWolfCovariance, C28: OASCovariance, C29: ShrunkCovariance

All three are combinations of the EWA covariance `S` of the same calls and a target.
-/

set_option linter.all false

open Matrix

namespace Precise

open Spec Obj

/-- Shrinking `S` towards `mu I` with intensity `a`, `mu` the average variance (specification). -/
def shrinkTo {ι K : Type} [Fintype ι] [DecidableEq ι] [Field K] (a : K) (S : Matrix ι ι K) : Matrix ι ι K :=
  (1 - a) • S + (a * (S.trace / (Fintype.card ι : K))) • 1

section K
variable {ι K : Type} [Fintype ι] [DecidableEq ι] [Field K] [LinearOrder K] [IsStrictOrderedRing K] [FloorRing K]

theorem card_ne [Nonempty ι] : (Fintype.card ι : K) ≠ 0 := by exact_mod_cast Fintype.card_ne_zero
theorem card_pos' [Nonempty ι] : (0 : K) < (Fintype.card ι : K) := by exact_mod_cast Fintype.card_pos

theorem trace_shrinkTo [Nonempty ι] (a : K) (S : Matrix ι ι K) : (shrinkTo a S).trace = S.trace := by
  have h : (Fintype.card ι : K) ≠ 0 := card_ne
  unfold shrinkTo
  rw [trace_add, trace_smul, trace_smul, trace_one]
  simp only [smul_eq_mul]
  field_simp; ring

theorem quad_shrinkTo (a : K) (S : Matrix ι ι K) (x : ι → K) :
    quad (shrinkTo a S) x = (1 - a) * quad S x + a * (S.trace / (Fintype.card ι : K)) * normSq x := by
  unfold shrinkTo; rw [quad_add, quad_smul, quad_smul, quad_one]

theorem symm_shrinkTo (a : K) {S : Matrix ι ι K} (h : Symm S) : Symm (shrinkTo a S) := (h.smul _).add (symm_one.smul _)

theorem shrinkTo_psd {a : K} (h0 : 0 ≤ a) (h1 : a ≤ 1) {S : Matrix ι ι K} (h : PSD S) : PSD (shrinkTo a S) :=
  (h.smul (by linarith)).add (psd_one.smul (mul_nonneg h0 (div_nonneg h.trace_nonneg (Nat.cast_nonneg _))))

theorem trace_ge [Nonempty ι] {S : Matrix ι ι K} {lo : K} (h : MinEigGE S lo) : lo ≤ S.trace / (Fintype.card ι : K) := by
  rw [le_div_iff₀ card_pos', trace]
  have e : ∑ i : ι, lo ≤ ∑ i : ι, S.diag i := Finset.sum_le_sum fun i _ => by
    have := h (Pi.single i 1)
    rw [quad_single] at this
    simpa [normSq, Pi.single_apply] using this
  simpa [mul_comm] using e

theorem trace_le [Nonempty ι] {S : Matrix ι ι K} {hi : K} (h : MaxEigLE S hi) : S.trace / (Fintype.card ι : K) ≤ hi := by
  rw [div_le_iff₀ card_pos', trace]
  have e : ∑ i : ι, S.diag i ≤ ∑ i : ι, hi := Finset.sum_le_sum fun i _ => by
    have := h (Pi.single i 1)
    rw [quad_single] at this
    simpa [normSq, Pi.single_apply] using this
  simpa [mul_comm] using e

theorem shrinkTo_min [Nonempty ι] {a : K} (h0 : 0 ≤ a) (h1 : a ≤ 1) {S : Matrix ι ι K} {lo : K} (h : MinEigGE S lo) : MinEigGE (shrinkTo a S) lo := by
  intro x
  rw [quad_shrinkTo]
  have e1 := mul_le_mul_of_nonneg_left (h x) (by linarith : 0 ≤ 1 - a)
  have e2 := mul_le_mul_of_nonneg_right (mul_le_mul_of_nonneg_left (trace_ge h) h0) (normSq_nonneg x)
  linarith

theorem shrinkTo_max [Nonempty ι] {a : K} (h0 : 0 ≤ a) (h1 : a ≤ 1) {S : Matrix ι ι K} {hi : K} (h : MaxEigLE S hi) : MaxEigLE (shrinkTo a S) hi := by
  intro x
  rw [quad_shrinkTo]
  have e1 := mul_le_mul_of_nonneg_left (h x) (by linarith : 0 ≤ 1 - a)
  have e2 := mul_le_mul_of_nonneg_right (mul_le_mul_of_nonneg_left (trace_le h) h0) (normSq_nonneg x)
  linarith

theorem psd_trace_pos {S : Matrix ι ι K} (h : PSD S) (hS : S ≠ 0) : 0 < S.trace := by
  refine lt_of_le_of_ne h.trace_nonneg fun h0 => hS ?_
  have : ∀ i ∈ (Finset.univ : Finset ι), S i i = 0 :=
    (Finset.sum_eq_zero_iff_of_nonneg fun i _ => h.diag_nonneg i).1 h0.symm
  ext i j
  exact h.entry_zero (this i (Finset.mem_univ i)) j

theorem shrinkTo_pd [Nonempty ι] {a : K} (h0 : 0 < a) (h1 : a ≤ 1) {S : Matrix ι ι K} (h : PSD S) (hS : S ≠ 0) : PD (shrinkTo a S) :=
  (h.smul (by linarith)).add_pd (pd_one.smul (mul_pos h0 (div_pos (psd_trace_pos h hS) card_pos')))

/-! ## C27 -/

/-- the Ledoit-Wolf state after a stream -/
def lwFold (r : K) (xs : List (ι → K)) : LWState ι K := xs.foldl lwUpdate { toEwaState := ewaInit r, piBar := 0 }

omit [DecidableEq ι] in
theorem lwFold_snoc (r : K) (xs : List (ι → K)) (x : ι → K) : lwFold r (xs ++ [x]) = lwUpdate (lwFold r xs) x := by simp [lwFold]
omit [DecidableEq ι] in
theorem lwFold_toEwa (r : K) (xs : List (ι → K)) : (lwFold r xs).toEwaState = ewaFold r xs := lwFold_ewa _ xs

omit [DecidableEq ι] in
theorem lwFold_burn (r : K) (xs : List (ι → K)) (h : xs.length ≤ ewaBurnN r) : (lwFold r xs).piBar = 0 := by
  induction xs using List.reverseRecOn with
  | nil => rfl
  | append_singleton xs x ih =>
    simp only [List.length_append, List.length_singleton] at h
    rw [lwFold_snoc]
    unfold lwUpdate
    rw [if_pos (by rw [lwFold_toEwa, ewaFold_n, ewaFold_nBurn]; omega)]
    exact ih (by omega)

omit [DecidableEq ι] in
theorem lwFold_pi (r : K) (burn : List (ι → K)) (hb : burn.length = ewaBurnN r) (y : ℕ → ι → K) (k : ℕ) :
    (lwFold r (burn ++ (List.range k).map y)).piBar = ∑ t ∈ Finset.range k, r * (1 - r) ^ (k - 1 - t) *
      ((∑ i, ∑ j, ((y t i - (ewaFold r (burn ++ (List.range t).map y)).mean i) * (y t j - (ewaFold r (burn ++ (List.range t).map y)).mean j)
          - (ewaFold r (burn ++ (List.range t).map y)).cov i j) ^ 2) / (Fintype.card ι : K)) := by
  induction k with
  | zero => simp [lwFold_burn r burn hb.le]
  | succ k ih =>
    rw [List.range_succ, List.map_append, ← List.append_assoc, List.map_singleton, lwFold_snoc]
    have e := lwFold_toEwa r (burn ++ (List.range k).map y)
    unfold lwUpdate
    rw [if_neg (by rw [e, ewaFold_n, ewaFold_nBurn]; simp [hb])]
    simp only []
    rw [ih, e, ewaFold_r, Finset.sum_range_succ, Finset.mul_sum]
    congr 1
    · refine Finset.sum_congr rfl fun t ht => ?_
      rw [Finset.mem_range] at ht
      rw [show k + 1 - 1 - t = (k - 1 - t) + 1 by omega, pow_succ]
      ring
    · rw [show k + 1 - 1 - k = 0 by omega, pow_zero, mul_one]; rfl

/-- intensity used by the code -/
theorem lwCov_form (s : LWState ι K) : ∃ a, 0 ≤ a ∧ a ≤ 1 ∧ lwCov s = shrinkTo a s.cov ∧ (s.piBar ≤ 0 → a = 0) := by
  unfold lwCov
  simp only []
  split_ifs with h
  · exact ⟨0, le_rfl, zero_le_one, by simp [shrinkTo], fun _ => rfl⟩
  · refine ⟨_, le_min (le_max_right _ _) zero_le_one, min_le_right _ _, rfl, fun h' => absurd (Or.inr h') h⟩

theorem lw_attrs (p : RParam K) (calls : List (Call ι K)) (c : Matrix ι ι K)
    (h : ((new (ledoitWolfCls ι K) p).run calls).covariance = .ok c) :
    used p.diff calls ≠ [] ∧ c = lwCov (lwFold p.r (used p.diff calls)) := by
  obtain ⟨h1, h2⟩ := run_covariance_inv (ledoitWolf_lawful ι K) p calls c h
  refine ⟨h1, h2.trans (toSymmetric_of_symm ?_)⟩
  show Symm (lwCov (lwFold p.r (used p.diff calls)))
  obtain ⟨a, _, _, ha, _⟩ := lwCov_form (lwFold p.r (used p.diff calls))
  rw [ha]
  refine symm_shrinkTo a ?_
  rw [lwFold_toEwa]; exact symm_ewaFold _ _

/-- C27: `covariance_` is a convex combination of the EWA covariance of the same calls and its average variance times
the identity. Trace kept, PSD, eigenvalues within those of the EWA covariance; equal to it during the burn-in;
positive definite as soon as any shrinkage takes place. -/
theorem C27_convex [Nonempty ι] (p : RParam K) (h0 : 0 ≤ p.r) (h1 : p.r ≤ 1) (calls : List (Call ι K)) (c S : Matrix ι ι K)
    (h : ((new (ledoitWolfCls ι K) p).run calls).covariance = .ok c)
    (hS : ((new (ewaCls ι K) p).run calls).covariance = .ok S) :
    ∃ a, 0 ≤ a ∧ a ≤ 1 ∧ c = (1 - a) • S + (a * (S.trace / (Fintype.card ι : K))) • 1 ∧
      c.trace = S.trace ∧ PSD c ∧ (∀ lo, MinEigGE S lo → MinEigGE c lo) ∧ (∀ hi, MaxEigLE S hi → MaxEigLE c hi) ∧
      ((used p.diff calls).length ≤ ewaBurnN p.r → c = S) ∧ (0 < a → S ≠ 0 → PD c) := by
  obtain ⟨hne, hc⟩ := lw_attrs p calls c h
  obtain ⟨_, hS⟩ := ewa_attrs_inv p calls S hS
  obtain ⟨a, ha0, ha1, ha, hpi⟩ := lwCov_form (lwFold p.r (used p.diff calls))
  rw [lwFold_toEwa, ← hS, ← hc] at ha
  have hP : PSD S := by rw [hS]; exact ewaFold_psd h0 h1 _
  refine ⟨a, ha0, ha1, ha, ?_, ?_, ?_, ?_, ?_, ?_⟩
  · rw [ha, trace_shrinkTo]
  · rw [ha]; exact shrinkTo_psd ha0 ha1 hP
  · intro lo hlo; rw [ha]; exact shrinkTo_min ha0 ha1 hlo
  · intro hi hhi; rw [ha]; exact shrinkTo_max ha0 ha1 hhi
  · intro hb
    rw [ha, hpi (lwFold_burn p.r _ hb).le]; simp [shrinkTo]
  · intro hpos hS0; rw [ha]; exact shrinkTo_pd hpos ha1 hP hS0

/-- C27: the intensity after the burn-in is the Ledoit-Wolf ratio `min(1, r·π/d²)`: `d²` the (per-variable) squared distance
of the EWA covariance from its target, `π` the exponentially weighted mean of the squared distances of the innovation
products from the running EWA covariance. `m t`, `S t` are what EwaCovariance reports before row `t`. -/
theorem C27_intensity (p : RParam K) (hd : p.diff = false) (h0 : 0 < p.r) (h1 : p.r ≤ 1) (burn : List (ι → K)) (hb : burn.length = ewaBurnN p.r)
    (y : ℕ → ι → K) (k : ℕ) (m : ℕ → ι → K) (S : ℕ → Matrix ι ι K)
    (hm : ∀ t ≤ k, ((new (ewaCls ι K) p).run [.partialFit (.batch (burn ++ (List.range t).map y))]).location = .ok (m t))
    (hS : ∀ t ≤ k, ((new (ewaCls ι K) p).run [.partialFit (.batch (burn ++ (List.range t).map y))]).covariance = .ok (S t))
    (c : Matrix ι ι K) (hc : ((new (ledoitWolfCls ι K) p).run [.partialFit (.batch (burn ++ (List.range k).map y))]).covariance = .ok c) :
    let q : K := Fintype.card ι
    let mu := (S k).trace / q
    let d2 := (∑ i, ∑ j, (S k i j - if i = j then mu else 0) ^ 2) / q
    let π := ∑ t ∈ Finset.range k, p.r * (1 - p.r) ^ (k - 1 - t) *
      ((∑ i, ∑ j, ((y t i - m t i) * (y t j - m t j) - S t i j) ^ 2) / q)
    let a := if 0 < d2 then min 1 (p.r * π / d2) else 0
    c = (1 - a) • S k + (a * mu) • 1 := by
  intro q mu d2 π a
  have hu : ∀ t, used p.diff [Call.partialFit (.batch (burn ++ (List.range t).map y))] = burn ++ (List.range t).map y := by
    intro t; rw [hd, used_batch]
  have hne : ∀ t, used p.diff [Call.partialFit (.batch (burn ++ (List.range t).map y))] ≠ [] := by
    intro t; rw [hu]; intro h
    have := congrArg List.length h
    have := ewaBurnN_ge p.r
    rw [List.length_append, hb, List.length_nil] at *; omega
  have hmt : ∀ t ≤ k, m t = (ewaFold p.r (burn ++ (List.range t).map y)).mean := by
    intro t ht
    have := (ewa_attrs p _ (hne t)).1
    rw [hm t ht, hu] at this
    exact Except.ok.inj this
  have hSt : ∀ t ≤ k, S t = (ewaFold p.r (burn ++ (List.range t).map y)).cov := by
    intro t ht
    have := (ewa_attrs p _ (hne t)).2
    rw [hS t ht, hu] at this
    exact Except.ok.inj this
  have hpi : (lwFold p.r (burn ++ (List.range k).map y)).piBar = π := by
    rw [lwFold_pi p.r burn hb]
    refine Finset.sum_congr rfl fun t ht => ?_
    rw [Finset.mem_range] at ht
    rw [hmt t ht.le, hSt t ht.le]
  have hpi0 : 0 ≤ π := by
    refine Finset.sum_nonneg fun t _ => mul_nonneg (mul_nonneg h0.le (pow_nonneg (by linarith) _)) ?_
    exact div_nonneg (Finset.sum_nonneg fun i _ => Finset.sum_nonneg fun j _ => sq_nonneg _) (Nat.cast_nonneg _)
  obtain ⟨_, hc⟩ := lw_attrs p _ c hc
  rw [hu] at hc
  have e : (lwFold p.r (burn ++ (List.range k).map y)).cov = S k := by rw [lwFold_toEwa, hSt k le_rfl]
  have er : (lwFold p.r (burn ++ (List.range k).map y)).r = p.r := by rw [lwFold_toEwa, ewaFold_r]
  have ed : (∑ i, ∑ j, (S k i j - (((S k).trace / (Fintype.card ι : K)) • (1 : Matrix ι ι K)) i j) ^ 2) / (Fintype.card ι : K) = d2 := by
    simp only [d2, q, mu]
    congr 1
    refine Finset.sum_congr rfl fun i _ => Finset.sum_congr rfl fun j _ => ?_
    simp [Matrix.smul_apply, one_apply]
  rw [hc]
  unfold lwCov
  simp only []
  rw [e, er, hpi, ed]
  by_cases hd2 : 0 < d2
  · have ha : a = min 1 (p.r * π / d2) := if_pos hd2
    rcases hpi0.eq_or_lt with hz | hz
    · rw [if_pos (Or.inr hz.symm.le), ha, ← hz]; simp
    · rw [if_neg (by push Not; exact ⟨hd2, hz⟩)]
      have ea : min (max (min (π * p.r) d2 / d2) 0) 1 = a := by
        have h3 : 0 ≤ min (π * p.r) d2 / d2 := div_nonneg (le_min (mul_nonneg hpi0 h0.le) hd2.le) hd2.le
        rw [max_eq_left h3, ha]
        rcases le_total (π * p.r) d2 with h4 | h4
        · rw [min_eq_left h4, min_comm, mul_comm]
        · rw [min_eq_right h4, div_self hd2.ne', min_self, min_eq_left]
          rw [le_div_iff₀ hd2]; linarith
      rw [ea]
  · have ha : a = 0 := if_neg hd2
    rw [if_pos (Or.inl (not_lt.1 hd2)), ha]; simp

/-! ## C28 -/

theorem trace_sq {S : Matrix ι ι K} (h : Symm S) : (S * S).trace = ∑ i, ∑ j, S i j ^ 2 := by
  simp only [trace, diag, mul_apply]
  refine Finset.sum_congr rfl fun i _ => Finset.sum_congr rfl fun j _ => ?_
  rw [h j i]; ring

/-- Cauchy–Schwarz: `tr(S)² ≤ p·tr(S²)`. -/
theorem trace_sq_le {S : Matrix ι ι K} (h : Symm S) : S.trace * S.trace ≤ (Fintype.card ι : K) * (S * S).trace := by
  rw [trace_sq h]
  have h1 : S.trace ^ 2 ≤ (Fintype.card ι : K) * ∑ i, S i i ^ 2 := by
    have := sq_sum_le_card_mul_sum_sq (s := (Finset.univ : Finset ι)) (f := fun i => S i i)
    simpa [trace] using this
  have h2 : ∑ i, S i i ^ 2 ≤ ∑ i, ∑ j, S i j ^ 2 :=
    Finset.sum_le_sum fun i _ => Finset.single_le_sum (f := fun j => S i j ^ 2) (fun j _ => sq_nonneg _) (Finset.mem_univ i)
  have := mul_le_mul_of_nonneg_left h2 (Nat.cast_nonneg (Fintype.card ι) : (0:K) ≤ _)
  nlinarith

theorem oas_attrs (p : RParam K) (calls : List (Call ι K)) (c : Matrix ι ι K)
    (h : ((new (oasCls ι K) p).run calls).covariance = .ok c) :
    used p.diff calls ≠ [] ∧ c = oasCov (ewaFold p.r (used p.diff calls)) := by
  obtain ⟨h1, h2⟩ := run_covariance_inv (oas_lawful ι K) p calls c h
  refine ⟨h1, h2.trans (toSymmetric_of_symm ?_)⟩
  show Symm (oasCov (ewaFold p.r (used p.diff calls)))
  exact symm_shrinkTo _ (symm_ewaFold _ _)

/-- C28: the Oracle-Approximating intensity with effective sample size `max(1/r, 2)`. -/
theorem C28_intensity [Nonempty ι] (p : RParam K) (h0 : 0 < p.r) (h1 : p.r ≤ 1) (calls : List (Call ι K)) (c S : Matrix ι ι K)
    (h : ((new (oasCls ι K) p).run calls).covariance = .ok c)
    (hS : ((new (ewaCls ι K) p).run calls).covariance = .ok S) :
    let q : K := Fintype.card ι
    let n := max (1 / p.r) 2
    let spread := (∑ i, ∑ j, S i j ^ 2) - S.trace ^ 2 / q
    let rho := if spread = 0 then 1 else
      min 1 (((1 - 2 / q) * (∑ i, ∑ j, S i j ^ 2) + S.trace ^ 2) / ((n + 1 - 2 / q) * spread))
    0 ≤ spread ∧ 0 ≤ rho ∧ rho ≤ 1 ∧ c = (1 - rho) • S + (rho * (S.trace / q)) • 1 ∧ (S ≠ 0 → 0 < rho) := by
  intro q n spread rho
  obtain ⟨hne, hc⟩ := oas_attrs p calls c h
  obtain ⟨_, hS⟩ := ewa_attrs_inv p calls S hS
  have hsym : Symm S := by rw [hS]; exact symm_ewaFold _ _
  have hP : PSD S := by rw [hS]; exact ewaFold_psd h0.le h1 _
  have hq : (0 : K) < q := card_pos'
  have hq1 : (1 : K) ≤ q := by
    have : 1 ≤ Fintype.card ι := Fintype.card_pos
    show (1 : K) ≤ (Fintype.card ι : K)
    exact_mod_cast this
  have h2q : 2 / q ≤ 2 := by rw [div_le_iff₀ hq]; linarith
  have hn : (2 : K) ≤ n := le_max_right _ _
  have hfac : 0 < n + 1 - 2 / q := by linarith
  have ht2 : (0 : K) ≤ ∑ i, ∑ j, S i j ^ 2 := Finset.sum_nonneg fun i _ => Finset.sum_nonneg fun j _ => sq_nonneg _
  have hcs := trace_sq_le hsym
  rw [trace_sq hsym] at hcs
  have hspread : 0 ≤ spread := by
    show 0 ≤ (∑ i, ∑ j, S i j ^ 2) - S.trace ^ 2 / q
    rw [sub_nonneg, div_le_iff₀ hq]; change _ ≤ q * _ at hcs; linarith
  -- the numerator
  have hnum : 0 ≤ (1 - 2 / q) * (∑ i, ∑ j, S i j ^ 2) + S.trace ^ 2 ∧
      (spread ≠ 0 → S ≠ 0 → 0 < (1 - 2 / q) * (∑ i, ∑ j, S i j ^ 2) + S.trace ^ 2) := by
    by_cases hcard : Fintype.card ι = 1
    · have hq' : q = 1 := by show (Fintype.card ι : K) = 1; rw [hcard]; simp
      obtain ⟨i0, hi0⟩ := Fintype.card_eq_one_iff.1 hcard
      have hu : (Finset.univ : Finset ι) = {i0} := by ext j; simp [hi0 j]
      have e1 : (∑ i, ∑ j, S i j ^ 2) = S i0 i0 ^ 2 := by simp [hu]
      have e2 : S.trace = S i0 i0 := by simp [trace, hu]
      have hz : spread = 0 := by show (∑ i, ∑ j, S i j ^ 2) - S.trace ^ 2 / q = 0; rw [e1, e2, hq']; ring
      refine ⟨by rw [e1, e2, hq']; linarith [sq_nonneg (S i0 i0)], fun h => absurd hz h⟩
    · have h2 : (2 : K) ≤ q := by
        have h1 : 1 ≤ Fintype.card ι := Fintype.card_pos
        have : 2 ≤ Fintype.card ι := by omega
        show (2 : K) ≤ (Fintype.card ι : K); exact_mod_cast this
      have h3 : 2 / q ≤ 1 := by rw [div_le_iff₀ hq]; linarith
      have h4 := mul_nonneg (by linarith : 0 ≤ 1 - 2 / q) ht2
      refine ⟨by have := sq_nonneg S.trace; linarith, fun _ hS0 => ?_⟩
      have := pow_pos (psd_trace_pos hP hS0) 2
      linarith
  have hrho0 : 0 ≤ rho := by
    show 0 ≤ (if spread = 0 then (1:K) else _)
    split
    · exact zero_le_one
    · exact le_min zero_le_one (div_nonneg hnum.1 (mul_nonneg hfac.le hspread))
  have hrho1 : rho ≤ 1 := by
    show (if spread = 0 then (1:K) else _) ≤ 1
    split
    · exact le_rfl
    · exact min_le_left _ _
  refine ⟨hspread, hrho0, hrho1, ?_, ?_⟩
  · rw [hc]
    unfold oasCov
    simp only []
    rw [← hS, trace_sq hsym, ewaFold_r]
    have key : (if (max (1 / p.r) 2 + 1 - 2 / (Fintype.card ι : K)) * ((∑ i, ∑ j, S i j ^ 2) - S.trace * S.trace / (Fintype.card ι : K)) ≤ 0 then (1:K)
        else min (max (((1 - 2 / (Fintype.card ι : K)) * (∑ i, ∑ j, S i j ^ 2) + S.trace * S.trace) /
          ((max (1 / p.r) 2 + 1 - 2 / (Fintype.card ι : K)) * ((∑ i, ∑ j, S i j ^ 2) - S.trace * S.trace / (Fintype.card ι : K)))) 0) 1) = rho := by
      rw [← pow_two]
      change (if (n + 1 - 2 / q) * spread ≤ 0 then (1:K) else min (max (((1 - 2 / q) * (∑ i, ∑ j, S i j ^ 2) + S.trace ^ 2) / ((n + 1 - 2 / q) * spread)) 0) 1)
        = if spread = 0 then 1 else _
      by_cases hz : spread = 0
      · rw [if_pos hz, if_pos (by rw [hz, mul_zero])]
      · have hpos : 0 < spread := lt_of_le_of_ne hspread (Ne.symm hz)
        rw [if_neg hz, if_neg (not_le.2 (mul_pos hfac hpos)), max_eq_left (div_nonneg hnum.1 (mul_nonneg hfac.le hspread)), min_comm]
    rw [key]
  · intro hS0
    show 0 < (if spread = 0 then (1:K) else _)
    split
    · exact zero_lt_one
    · rename_i hz
      exact lt_min zero_lt_one (div_pos (hnum.2 hz hS0) (mul_pos hfac (lt_of_le_of_ne hspread (Ne.symm hz))))

/-- C28: trace kept, PSD, eigenvalues within those of the EWA covariance, and positive definite as soon as the EWA
covariance is not the zero matrix (even if it is singular). -/
theorem C28_invertible [Nonempty ι] (p : RParam K) (h0 : 0 < p.r) (h1 : p.r ≤ 1) (calls : List (Call ι K)) (c S : Matrix ι ι K)
    (h : ((new (oasCls ι K) p).run calls).covariance = .ok c)
    (hS : ((new (ewaCls ι K) p).run calls).covariance = .ok S) :
    c.trace = S.trace ∧ PSD c ∧ (∀ lo, MinEigGE S lo → MinEigGE c lo) ∧ (∀ hi, MaxEigLE S hi → MaxEigLE c hi) ∧ (S ≠ 0 → PD c) := by
  obtain ⟨_, hr0, hr1, hc, hpos⟩ := C28_intensity p h0 h1 calls c S h hS
  have hP : PSD S := by
    obtain ⟨_, hS⟩ := ewa_attrs_inv p calls S hS
    rw [hS]; exact ewaFold_psd h0.le h1 _
  change c = shrinkTo _ S at hc
  rw [hc]
  exact ⟨trace_shrinkTo _ _, shrinkTo_psd hr0 hr1 hP, fun lo hlo => shrinkTo_min hr0 hr1 hlo, fun hi hhi => shrinkTo_max hr0 hr1 hhi,
    fun hS0 => shrinkTo_pd (hpos hS0) hr1 hP hS0⟩

end K

/-! ## C29 -/

section R
variable {ι : Type} [Fintype ι] [DecidableEq ι]

/-- The standard deviations used by the constant-correlation target: variances floored at 1e-12 (specification). -/
noncomputable def flooredSd (S : Matrix ι ι ℝ) (i : ι) : ℝ := Real.sqrt (max (S i i) (1 / 10 ^ 12))

/-- The average off-diagonal correlation: mean of `S i j / (sd i sd j)` over the ordered pairs `i ≠ j`; 0 for a single
variable (specification). -/
noncomputable def avgCorr (S : Matrix ι ι ℝ) : ℝ :=
  (∑ i, ∑ j, if i = j then 0 else S i j / (flooredSd S i * flooredSd S j)) / ((Fintype.card ι : ℝ) * ((Fintype.card ι : ℝ) - 1))

theorem shrunkRbar_eq (S : Matrix ι ι ℝ) : shrunkRbar S (fun i => Real.sqrt (max (S i i) EPS)) = avgCorr S := by
  unfold shrunkRbar avgCorr
  split_ifs with h
  · have : (Fintype.card ι : ℝ) * ((Fintype.card ι : ℝ) - 1) = 0 := by
      rcases Nat.mul_eq_zero.1 h with h | h
      · rw [h]; simp
      · rcases Nat.eq_zero_or_pos (Fintype.card ι) with h0 | h0
        · rw [h0]; simp
        · rw [show Fintype.card ι = 1 by omega]; simp
    rw [this, div_zero]
  · rfl

theorem shrunk_attrs (p : ShrunkParam) (calls : List (Call ι ℝ)) (c S : Matrix ι ι ℝ)
    (h : ((new (shrunkCls ι) p).run calls).covariance = .ok c)
    (hS : ((new (ewaCls ι ℝ) ⟨p.r, p.diff⟩).run calls).covariance = .ok S) :
    Symm S ∧ c = toSymmetric ((1 - p.delta) • S + p.delta • (if p.target = "identity" then (S.trace / (Fintype.card ι : ℝ)) • (1 : Matrix ι ι ℝ)
      else Matrix.of fun i j => if i = j then S i i else avgCorr S * (flooredSd S i * flooredSd S j))) := by
  obtain ⟨h1, h2⟩ := run_covariance_inv (shrunk_lawful ι) p calls c h
  obtain ⟨_, hS⟩ := ewa_attrs_inv ⟨p.r, p.diff⟩ calls S hS
  refine ⟨by rw [hS]; exact symm_ewaFold _ _, h2.trans ?_⟩
  have e : (shrunkCls ι).toCov p (List.foldl ((shrunkCls ι).updateState p) ((shrunkCls ι).initState p) (used ((shrunkCls ι).diff p) calls))
    = shrunkCov p (ewaFold p.r (used p.diff calls)) := rfl
  rw [e]
  unfold shrunkCov
  simp only []
  rw [shrunkRbar_eq]
  congr 1
  rw [hS]
  rfl

/-- C29: with the constant-correlation target (any target name but "identity") every variance is kept exactly, whatever
`delta`, and each covariance is the mix of the EWA covariance and the average correlation times the standard deviations. -/
theorem C29_constant_correlation (p : ShrunkParam) (ht : p.target ≠ "identity") (calls : List (Call ι ℝ)) (c S : Matrix ι ι ℝ)
    (h : ((new (shrunkCls ι) p).run calls).covariance = .ok c)
    (hS : ((new (ewaCls ι ℝ) ⟨p.r, p.diff⟩).run calls).covariance = .ok S) :
    (∀ i, c i i = S i i) ∧
    ∀ i j, i ≠ j → c i j = (1 - p.delta) * S i j + p.delta * (avgCorr S * (flooredSd S i * flooredSd S j)) := by
  obtain ⟨hs, hc⟩ := shrunk_attrs p calls c S h hS
  rw [if_neg ht] at hc
  have hsym : Symm ((1 - p.delta) • S + p.delta • (Matrix.of fun i j => if i = j then S i i else avgCorr S * (flooredSd S i * flooredSd S j))) := by
    refine (hs.smul _).add (Spec.Symm.smul _ fun i j => ?_)
    simp only [of_apply]
    by_cases hij : i = j
    · subst hij; rfl
    · rw [if_neg hij, if_neg (Ne.symm hij)]; ring
  rw [toSymmetric_of_symm hsym] at hc
  constructor
  · intro i; rw [hc]; simp; ring
  · intro i j hij; rw [hc]; simp [hij]

/-- C29: the identity target keeps the trace; for `delta` in [0,1] and `r` in [0,1] the estimate is PSD, with
eigenvalues within those of the EWA covariance. -/
theorem C29_identity [Nonempty ι] (p : ShrunkParam) (ht : p.target = "identity") (calls : List (Call ι ℝ)) (c S : Matrix ι ι ℝ)
    (h : ((new (shrunkCls ι) p).run calls).covariance = .ok c)
    (hS : ((new (ewaCls ι ℝ) ⟨p.r, p.diff⟩).run calls).covariance = .ok S) :
    c = (1 - p.delta) • S + (p.delta * (S.trace / (Fintype.card ι : ℝ))) • 1 ∧ c.trace = S.trace ∧
    (0 ≤ p.r → p.r ≤ 1 → 0 ≤ p.delta → p.delta ≤ 1 →
      PSD c ∧ (∀ lo, MinEigGE S lo → MinEigGE c lo) ∧ (∀ hi, MaxEigLE S hi → MaxEigLE c hi) ∧ (0 < p.delta → S ≠ 0 → PD c)) := by
  obtain ⟨hs, hc⟩ := shrunk_attrs p calls c S h hS
  rw [if_pos ht, smul_smul] at hc
  change c = toSymmetric (shrinkTo p.delta S) at hc
  rw [toSymmetric_of_symm (symm_shrinkTo _ hs)] at hc
  refine ⟨hc, by rw [hc, trace_shrinkTo], fun h0 h1 d0 d1 => ?_⟩
  have hP : PSD S := by
    obtain ⟨_, hS⟩ := ewa_attrs_inv ⟨p.r, p.diff⟩ calls S hS
    rw [hS]; exact ewaFold_psd h0 h1 _
  rw [hc]
  exact ⟨shrinkTo_psd d0 d1 hP, fun lo hlo => shrinkTo_min d0 d1 hlo, fun hi hhi => shrinkTo_max d0 d1 hhi,
    fun hp hS0 => shrinkTo_pd hp d1 hP hS0⟩

/-- the constant-correlation target is PSD when its variances are those of `S` -/
theorem cc_target_psd {S : Matrix ι ι ℝ} (hP : PSD S) (hv : ∀ i, 1 / 10 ^ 12 ≤ S i i) :
    PSD (Matrix.of fun i j => if i = j then S i i else avgCorr S * (flooredSd S i * flooredSd S j)) := by
  have hd : ∀ i, flooredSd S i * flooredSd S i = S i i := by
    intro i; unfold flooredSd; rw [max_eq_left (hv i), Real.mul_self_sqrt (hP.diag_nonneg i)]
  have hdpos : ∀ i, 0 < flooredSd S i := by
    intro i; unfold flooredSd; exact Real.sqrt_pos.2 (lt_of_lt_of_le (by positivity) (le_max_right _ _))
  constructor
  · intro i j
    simp only [of_apply]
    by_cases hij : i = j
    · subst hij; rfl
    · rw [if_neg hij, if_neg (Ne.symm hij)]; ring
  intro x
  set ρ := avgCorr S with hρ
  have e : quad (Matrix.of fun i j => if i = j then S i i else ρ * (flooredSd S i * flooredSd S j)) x
      = (1 - ρ) * ∑ i, (flooredSd S i * x i) ^ 2 + ρ * (∑ i, flooredSd S i * x i) ^ 2 := by
    have e1 : (Matrix.of fun i j => if i = j then S i i else ρ * (flooredSd S i * flooredSd S j))
        = diagonal (fun i => (1 - ρ) * (flooredSd S i * flooredSd S i)) + ρ • outer (flooredSd S) (flooredSd S) := by
      ext i j
      simp only [of_apply, Matrix.add_apply, diagonal_apply, Matrix.smul_apply, outer, smul_eq_mul]
      by_cases hij : i = j
      · subst hij; rw [if_pos rfl, if_pos rfl, ← hd i]; ring
      · rw [if_neg hij, if_neg hij]; ring
    rw [e1, quad_add, quad_smul, quad_outer, quad_diagonal, Finset.mul_sum, pow_two]
    congr 1
    refine Finset.sum_congr rfl fun i _ => by ring
  rw [e]
  set y : ι → ℝ := fun i => flooredSd S i * x i with hy
  have hcs : (∑ i, y i) ^ 2 ≤ (Fintype.card ι : ℝ) * ∑ i, y i ^ 2 := by
    simpa using sq_sum_le_card_mul_sum_sq (s := (Finset.univ : Finset ι)) (f := y)
  have hsq : 0 ≤ ∑ i, y i ^ 2 := Finset.sum_nonneg fun i _ => sq_nonneg _
  change 0 ≤ (1 - ρ) * ∑ i, y i ^ 2 + ρ * (∑ i, y i) ^ 2
  by_cases hN : Fintype.card ι ≤ 1
  · have hz : ρ = 0 := by
      rw [hρ]; unfold avgCorr
      have : (Fintype.card ι : ℝ) * ((Fintype.card ι : ℝ) - 1) = 0 := by
        rcases Nat.le_one_iff_eq_zero_or_eq_one.1 hN with h | h <;> rw [h] <;> simp
      rw [this, div_zero]
    rw [hz]; linarith
  · have hN2 : (2 : ℝ) ≤ (Fintype.card ι : ℝ) := by exact_mod_cast (by omega : 2 ≤ Fintype.card ι)
    set N := (Fintype.card ι : ℝ) with hNdef
    have hpp : 0 < N * (N - 1) := mul_pos (by linarith) (by linarith)
    -- rho ≤ 1
    have hle : ρ ≤ 1 := by
      rw [hρ]; unfold avgCorr
      rw [div_le_one hpp]
      have hterm : ∀ i j : ι, (if i = j then (0:ℝ) else S i j / (flooredSd S i * flooredSd S j)) ≤ if i = j then 0 else 1 := by
        intro i j
        split
        · exact le_rfl
        · rw [div_le_one (mul_pos (hdpos i) (hdpos j))]
          refine le_of_sq_le_sq ?_ (mul_pos (hdpos i) (hdpos j)).le
          have := hP.entry_sq_le i j
          rw [← hd i, ← hd j] at this
          nlinarith
      calc _ ≤ ∑ i : ι, ∑ j : ι, (if i = j then (0:ℝ) else 1) :=
            Finset.sum_le_sum fun i _ => Finset.sum_le_sum fun j _ => hterm i j
        _ = N * (N - 1) := by
            have : ∀ i : ι, ∑ j : ι, (if i = j then (0:ℝ) else 1) = N - 1 := by
              intro i
              have h2 : ∀ j : ι, (if i = j then (0:ℝ) else 1) = 1 - if i = j then 1 else 0 := by
                intro j; split <;> simp
              rw [Finset.sum_congr rfl fun j _ => h2 j, Finset.sum_sub_distrib]
              simp [hNdef]
            rw [Finset.sum_congr rfl fun i _ => this i]
            rw [Finset.sum_const, nsmul_eq_mul, Finset.card_univ, ← hNdef]
    -- rho ≥ -1/(N-1)
    have hge : 0 ≤ 1 + (N - 1) * ρ := by
      have hq := hP.2 (fun i => 1 / flooredSd S i)
      rw [quad_expand] at hq
      have e2 : ∑ i, ∑ j, 1 / flooredSd S i * S i j * (1 / flooredSd S j) = N + N * (N - 1) * ρ := by
        have e3 : N * (N - 1) * ρ = ∑ i, ∑ j, if i = j then 0 else S i j / (flooredSd S i * flooredSd S j) := by
          rw [hρ]; unfold avgCorr; rw [← hNdef, mul_div_cancel₀ _ hpp.ne']
        rw [e3]
        have e4 : N = ∑ i : ι, ∑ j : ι, if i = j then (1:ℝ) else 0 := by simp [hNdef]
        rw [e4, ← Finset.sum_add_distrib]
        refine Finset.sum_congr rfl fun i _ => ?_
        rw [← Finset.sum_add_distrib]
        refine Finset.sum_congr rfl fun j _ => ?_
        have hi := (hdpos i).ne'
        have hj := (hdpos j).ne'
        by_cases hij : i = j
        · subst hij; rw [if_pos rfl, if_pos rfl, ← hd i]; field_simp; ring
        · rw [if_neg hij, if_neg hij]; field_simp; ring
      rw [e2] at hq
      nlinarith
    rcases le_total 0 ρ with hr | hr
    · have := mul_nonneg hr (sq_nonneg (∑ i, y i))
      have := mul_nonneg (by linarith : 0 ≤ 1 - ρ) hsq
      linarith
    · have := mul_le_mul_of_nonpos_left hcs hr
      nlinarith [mul_nonneg hge hsq]

/-- C29: with the constant-correlation target and `delta` in [0,1] the estimate is PSD, provided every EWA variance is at
least 1e-12. -/
theorem C29_psd (p : ShrunkParam) (ht : p.target ≠ "identity") (h0 : 0 ≤ p.r) (h1 : p.r ≤ 1) (d0 : 0 ≤ p.delta) (d1 : p.delta ≤ 1)
    (calls : List (Call ι ℝ)) (c S : Matrix ι ι ℝ)
    (h : ((new (shrunkCls ι) p).run calls).covariance = .ok c)
    (hS : ((new (ewaCls ι ℝ) ⟨p.r, p.diff⟩).run calls).covariance = .ok S) (hv : ∀ i, 1 / 10 ^ 12 ≤ S i i) : PSD c := by
  obtain ⟨hs, hc⟩ := shrunk_attrs p calls c S h hS
  rw [if_neg ht] at hc
  have hP : PSD S := by
    obtain ⟨_, hS⟩ := ewa_attrs_inv ⟨p.r, p.diff⟩ calls S hS
    rw [hS]; exact ewaFold_psd h0 h1 _
  have := (hP.smul (by linarith : 0 ≤ 1 - p.delta)).add ((cc_target_psd hP hv).smul d0)
  rw [hc, toSymmetric_of_symm this.1]
  exact this

/-- Rows of the witness: the first variable is constant. -/
def flatRows : List (Fin 3 → ℝ) := [![0, 1, 1], ![0, -1, -1]]

theorem flat_cov (r : ℝ) : (ewaFold r flatRows).cov = !![0, 0, 0; 0, 1, 1; 0, 1, 1] := by
  rw [ewaFold_burn r flatRows (by have := ewaBurnN_ge r; simp [flatRows]; omega), empFold_cov (by simp [flatRows])]
  ext i j
  fin_cases i <;> fin_cases j <;> simp [covOf, meanOf, flatRows]

/-- C29 (finding): when one variable is constant the constant-correlation output is indefinite: its variance is 0 but its
covariances are not (the floored standard deviation 1e-6 leaks into them), for every `delta ≠ 0`. -/
theorem C29_indefinite_witness (r delta : ℝ) (hdelta : delta ≠ 0) :
    ∃ c, ((new (shrunkCls (Fin 3)) (⟨r, delta, "constant_correlation", false⟩ : ShrunkParam)).run [.partialFit (.batch flatRows)]).covariance = .ok c ∧
      c 0 0 = 0 ∧ c 0 1 ≠ 0 ∧ ¬ PSD c := by
  have hu : used false [Call.partialFit (.batch flatRows)] = flatRows := used_batch _
  have hne : used false [Call.partialFit (.batch flatRows)] ≠ [] := by rw [hu]; simp [flatRows]
  obtain ⟨c, hc⟩ := run_cov_ok (shrunk_lawful (Fin 3)) (⟨r, delta, "constant_correlation", false⟩ : ShrunkParam) _ hne
  have hS := (ewa_attrs (⟨r, false⟩ : RParam ℝ) [Call.partialFit (.batch flatRows)] hne).2
  have e : (ewaFold (⟨r, false⟩ : RParam ℝ).r (used (⟨r, false⟩ : RParam ℝ).diff [Call.partialFit (.batch flatRows)])).cov = !![0, 0, 0; 0, 1, 1; 0, 1, 1] := by
    show (ewaFold r (used false _)).cov = _
    rw [hu, flat_cov]
  rw [e] at hS
  obtain ⟨k1, k2⟩ := C29_constant_correlation _ (by show "constant_correlation" ≠ "identity"; decide) _ c _ hc hS
  have hsd : flooredSd (!![0, 0, 0; 0, 1, 1; 0, 1, 1] : Matrix (Fin 3) (Fin 3) ℝ) = ![1 / 10 ^ 6, 1, 1] := by
    funext i
    fin_cases i
    · have h6 : ((1:ℝ) / 10 ^ 12) = (1 / 10 ^ 6) ^ 2 := by norm_num
      simp only [flooredSd]
      simp only [Fin.zero_eta, of_apply, cons_val_zero, cons_val]
      rw [max_eq_right (by positivity), h6, Real.sqrt_sq (by positivity)]
    · simp only [flooredSd]
      simp only [of_apply, cons_val, Fin.mk_one, cons_val_one]
      rw [max_eq_left (by norm_num), Real.sqrt_one]
    · simp only [flooredSd]
      simp only [of_apply, cons_val, Fin.reduceFinMk]
      rw [max_eq_left (by norm_num), Real.sqrt_one]
  have havg : avgCorr (!![0, 0, 0; 0, 1, 1; 0, 1, 1] : Matrix (Fin 3) (Fin 3) ℝ) = 1 / 3 := by
    unfold avgCorr
    rw [hsd]
    simp [Fin.sum_univ_three]
    norm_num
  have c01 : c 0 1 ≠ 0 := by
    rw [k2 0 1 (by decide), havg, hsd]
    simp [hdelta]
  refine ⟨c, hc, by rw [k1]; simp, c01, fun hP => c01 (hP.entry_zero (by rw [k1]; simp) 1)⟩

/-- Non-vacuous: the hypotheses of C27–C29 hold on a concrete stream. -/
theorem demo_ne : used false [Call.partialFit (.batch demoRows)] ≠ [] := by rw [demo_used]; simp [demoRows]
example : ∃ c, ((new (ledoitWolfCls (Fin 2) ℝ) (⟨1/20, false⟩ : RParam ℝ)).run [.partialFit (.batch demoRows)]).covariance = .ok c ∧ c.trace = 3 := by
  obtain ⟨c, hc⟩ := run_cov_ok (ledoitWolf_lawful (Fin 2) ℝ) (⟨1/20, false⟩ : RParam ℝ) _ demo_ne
  obtain ⟨a, _, _, _, ht, _⟩ := C27_convex (⟨1/20, false⟩ : RParam ℝ) (by norm_num) (by norm_num) _ c _ hc (demo_attrs (1/20) (by norm_num))
  refine ⟨c, hc, ht.trans ?_⟩
  simp [trace, Fin.sum_univ_two]; norm_num
example : ∃ c, ((new (oasCls (Fin 2) ℝ) (⟨1/20, false⟩ : RParam ℝ)).run [.partialFit (.batch demoRows)]).covariance = .ok c ∧ PD c := by
  obtain ⟨c, hc⟩ := run_cov_ok (oas_lawful (Fin 2) ℝ) (⟨1/20, false⟩ : RParam ℝ) _ demo_ne
  refine ⟨c, hc, (C28_invertible (⟨1/20, false⟩ : RParam ℝ) (by norm_num) (by norm_num) _ c _ hc (demo_attrs (1/20) (by norm_num))).2.2.2.2 ?_⟩
  intro h
  have := congrFun (congrFun h 0) 1
  simp at this
example : ∃ c, ((new (shrunkCls (Fin 2)) (⟨1/20, 1/2, "constant_correlation", false⟩ : ShrunkParam)).run [.partialFit (.batch demoRows)]).covariance = .ok c ∧ PSD c := by
  obtain ⟨c, hc⟩ := run_cov_ok (shrunk_lawful (Fin 2)) (⟨1/20, 1/2, "constant_correlation", false⟩ : ShrunkParam) _ demo_ne
  refine ⟨c, hc, C29_psd _ (by decide) (by norm_num) (by norm_num) (by norm_num) (by norm_num) _ c _ hc (demo_attrs (1/20) (by norm_num)) ?_⟩
  intro i; fin_cases i <;> simp <;> norm_num

end R

end Precise
