import Verif.Props.RoundingPsd

set_option linter.all false

/-!
# C75, continued: `correlation_` in floats

The correlation of every estimator is exactly symmetric; in doubles its diagonal is never above 1 (`sqrt(fl(a * a)) >= a`).
-/

namespace Precise

open Matrix Obj

variable {ι : Type} [Fintype ι]

/-- In doubles, squaring and taking the root never loses: `fl(sqrt(fl(a²))) ≥ a` (away from underflow). -/
theorem sqrt_sq_ge {a : ℝ} (ha : Rounding.double.rnd a = a) (h : (2 : ℝ) ^ (-100 : ℤ) ≤ a) :
    a ≤ Rounding.double.rnd (Real.sqrt (Rounding.double.rnd (a * a))) := by
  have a0 : 0 < a := (two_zpow_pos _).trans_le h
  have habs : |a| = a := abs_of_pos a0
  set L := Int.log 2 |a| with hL
  have hL1 : (2 : ℝ) ^ L ≤ a := (zpow_log_le a0.ne').trans_eq habs
  have hL2 : a < (2 : ℝ) ^ (L + 1) := (le_abs_self a).trans_lt (lt_zpow_log a)
  have hLl : -100 ≤ L := le_log_of a0.ne' (by rwa [habs])
  have s0 : 0 < a * a := mul_pos a0 a0
  have sabs : |a * a| = a * a := abs_of_pos s0
  have g1 : (2 : ℝ) ^ (2 * L) ≤ a * a := by
    rw [show 2 * L = L + L by ring, zpow_add₀ (by norm_num)]
    exact mul_le_mul hL1 hL1 (two_zpow_pos _).le a0.le
  have g2 : a * a < (2 : ℝ) ^ (2 * L + 2) := by
    rw [show 2 * L + 2 = (L + 1) + (L + 1) by ring, zpow_add₀ (by norm_num)]
    exact mul_lt_mul'' hL2 hL2 a0.le a0.le
  set y := Rounding.double.rnd (a * a) with hy
  -- the root stays in the binade of `a`
  have y1 : (2 : ℝ) ^ (2 * L) ≤ y := by
    have := rep_dyadic 1 (2 * L) (by omega) (by norm_num)
    rw [Int.cast_one, one_mul] at this
    exact Rounding.double.le_rnd this g1
  have z1 : (2 : ℝ) ^ L ≤ Real.sqrt y := by
    apply Real.le_sqrt_of_sq_le
    rw [← zpow_natCast, ← _root_.zpow_mul, mul_comm]; exact y1
  -- error of the square
  set P : ℝ := (2 : ℝ) ^ L with hP
  have P0 : 0 < P := two_zpow_pos _
  have hPP : (2 : ℝ) ^ (2 * L) = P * P := by rw [show 2 * L = L + L by ring, zpow_add₀ (by norm_num)]
  have herr : |y - a * a| ≤ 1 / 2 * (2 : ℝ) ^ ulpExp 53 (-1074) (a * a) := ieeeRnd_err (a * a)
  have key : (a - P / 2 ^ 53) ^ 2 < y := by
    rw [abs_le] at herr
    by_cases hc : a * a < (2 : ℝ) ^ (2 * L + 1)
    · have hl : ulpExp 53 (-1074) (a * a) = 2 * L - 52 := by
        have e1 := le_log_of s0.ne' (by rw [sabs]; exact g1)
        have e2 := log_le_of_lt s0.ne' (by rw [sabs]; exact hc)
        unfold ulpExp; push_cast; omega
      have : (2 : ℝ) ^ (2 * L - 52) = P * P / 2 ^ 52 := by
        rw [zpow_sub₀ (by norm_num), hPP]; norm_num
      rw [hl, this] at herr
      have : P * P ≤ P * a := mul_le_mul_of_nonneg_left hL1 P0.le
      nlinarith [mul_pos P0 P0, herr.1]
    · have hc' : (2 : ℝ) ^ (2 * L + 1) ≤ a * a := not_lt.1 hc
      have hl : ulpExp 53 (-1074) (a * a) = 2 * L - 51 := by
        have e1 := le_log_of s0.ne' (by rw [sabs]; exact hc')
        have e2 := log_le_of_lt s0.ne' (by rw [sabs]; exact g2)
        unfold ulpExp; push_cast; omega
      have e3 : (2 : ℝ) ^ (2 * L - 51) = P * P / 2 ^ 51 := by
        rw [zpow_sub₀ (by norm_num), hPP]; norm_num
      have e4 : (2 : ℝ) ^ (2 * L + 1) = 2 * (P * P) := by
        rw [zpow_add₀ (by norm_num), hPP]; norm_num; ring
      rw [hl, e3] at herr
      rw [e4] at hc'
      have h54 : 5 / 4 * P ≤ a := by
        by_contra hn
        push Not at hn
        nlinarith [mul_pos P0 P0]
      have : P * (5 / 4 * P) ≤ P * a := mul_le_mul_of_nonneg_left h54 P0.le
      nlinarith [mul_pos P0 P0, herr.1]
  have z2 : a - P / 2 ^ 53 < Real.sqrt y := Real.lt_sqrt_of_sq_lt key
  by_cases hza : a ≤ Real.sqrt y
  · exact Rounding.double.le_rnd ha hza
  push Not at hza
  generalize Real.sqrt y = z at z1 z2 hza
  have z0 : 0 < z := P0.trans_le z1
  have uz : ulpExp 53 (-1074) z = L - 52 := by
    have e1 := le_log_of z0.ne' (by rw [abs_of_pos z0]; exact z1)
    have e2 := log_le_of_lt z0.ne' (by rw [abs_of_pos z0]; exact hza.trans hL2)
    unfold ulpExp; push_cast; omega
  have ua : ulpExp 53 (-1074) a = L - 52 := by unfold ulpExp; rw [← hL]; push_cast; omega
  have hak : a = (halfEven (a / (2 : ℝ) ^ (L - 52)) : ℤ) * (2 : ℝ) ^ (L - 52) := by
    have : ieeeRnd 53 (-1074) a = a := ha
    unfold ieeeRnd at this; rw [ua] at this; exact this.symm
  generalize halfEven (a / (2 : ℝ) ^ (L - 52)) = k at hak
  show a ≤ ieeeRnd 53 (-1074) z
  unfold ieeeRnd
  rw [uz, hak]
  refine mul_le_mul_of_nonneg_right ?_ (two_zpow_pos _).le
  have hq : (0 : ℝ) < (2 : ℝ) ^ (L - 52) := two_zpow_pos _
  have hPq : P / 2 ^ 53 = 1 / 2 * (2 : ℝ) ^ (L - 52) := by
    rw [zpow_sub₀ (by norm_num)]; norm_num; ring
  have hz : (k : ℝ) - 1 / 2 < z / (2 : ℝ) ^ (L - 52) := by
    rw [lt_div_iff₀ hq]; rw [hPq] at z2; rw [sub_mul, ← hak]; exact z2
  have he := (abs_le.1 (halfEven_err (z / (2 : ℝ) ^ (L - 52)))).1
  have : (k : ℝ) - 1 < (halfEven (z / (2 : ℝ) ^ (L - 52)) : ℝ) := by linarith
  have : k - 1 < halfEven (z / (2 : ℝ) ^ (L - 52)) := by exact_mod_cast this
  exact_mod_cast (by omega : k ≤ halfEven (z / (2 : ℝ) ^ (L - 52)))

theorem covToCorrFl_symm {R : Rounding} {c : Matrix ι ι (Fl R)} (h : ∀ i j, c i j = c j i) (i j : ι) :
    covToCorrFl c i j = covToCorrFl c j i := by
  unfold covToCorrFl
  rw [of_apply, of_apply, h i j]
  have : c j j * c i i = c i i * c j j := Fl.ext (by rw [Fl.val_mul, Fl.val_mul, mul_comm])
  rw [this]

theorem covToCorrFl_nonneg {R : Rounding} {c : Matrix ι ι (Fl R)} (i j : ι) (h : 0 ≤ c i j) : 0 ≤ covToCorrFl c i j := by
  show (0 : ℝ) ≤ R.rnd ((c i j).val / R.rnd (R.rnd (Real.sqrt (R.rnd ((c j j).val * (c i i).val))) + R.rnd (1 / 10 ^ 12)))
  exact R.rnd_nonneg (div_nonneg h (R.rnd_nonneg (add_nonneg (R.rnd_nonneg (Real.sqrt_nonneg _)) (R.rnd_nonneg (by norm_num)))))

theorem covToCorrFl_diag {c : Matrix ι ι (Fl Rounding.double)} (i : ι) (h : 0 ≤ c i i) : covToCorrFl c i i ≤ 1 := by
  show Rounding.double.rnd ((c i i).val / Rounding.double.rnd (Rounding.double.rnd (Real.sqrt (Rounding.double.rnd ((c i i).val * (c i i).val)))
    + Rounding.double.rnd (1 / 10 ^ 12))) ≤ 1
  have h0 : 0 ≤ (c i i).val := h
  have hr := (c i i).rep
  generalize (c i i).val = a at h0 hr
  have hE : (2 : ℝ) ^ (-40 : ℤ) ≤ Rounding.double.rnd (1 / 10 ^ 12) := by
    have := rep_dyadic 1 (-40) (by norm_num) (by norm_num)
    rw [Int.cast_one, one_mul] at this
    exact Rounding.double.le_rnd this (by norm_num)
  have hE0 : 0 < Rounding.double.rnd (1 / 10 ^ 12) := (two_zpow_pos _).trans_le hE
  have hs : 0 ≤ Rounding.double.rnd (Real.sqrt (Rounding.double.rnd (a * a))) := Rounding.double.rnd_nonneg (Real.sqrt_nonneg _)
  have hD : a ≤ Rounding.double.rnd (Rounding.double.rnd (Real.sqrt (Rounding.double.rnd (a * a))) + Rounding.double.rnd (1 / 10 ^ 12)) := by
    refine Rounding.double.le_rnd hr ?_
    by_cases hc : (2 : ℝ) ^ (-100 : ℤ) ≤ a
    · linarith [sqrt_sq_ge hr hc]
    · push Not at hc
      have : (2 : ℝ) ^ (-100 : ℤ) ≤ (2 : ℝ) ^ (-40 : ℤ) := zpow_le_zpow_right₀ (by norm_num) (by norm_num)
      exact (hc.le.trans (this.trans hE)).trans (le_add_of_nonneg_left hs)
  exact Rounding.double.rnd_le Rounding.double.rnd_one (div_le_one_of_le₀ hD (h0.trans hD))

theorem correlationFl_inv {R : Rounding} {C : Cls ι (Fl R)} {o : Obj C} {r : Matrix ι ι (Fl R)} (h : o.correlationFl = .ok r) :
    ∃ c, o.covariance = .ok c ∧ r = covToCorrFl c := by
  unfold Obj.correlationFl at h
  cases hc : o.covariance with
  | error e => rw [hc] at h; cases h
  | ok c => rw [hc] at h; exact ⟨c, rfl, (Except.ok.inj h).symm⟩

/-- C75: in any format, after any history, `correlation_` of `EmpiricalCovariance` is exactly symmetric and its diagonal is nonnegative. -/
theorem C75_empirical_correlation {R : Rounding} (d : Bool) (calls : List (Call ι (Fl R))) (r : Matrix ι ι (Fl R))
    (h : ((new (empiricalCls ι (Fl R)) d).run calls).correlationFl = .ok r) :
    (∀ i, 0 ≤ r i i) ∧ ∀ i j, r i j = r j i := by
  obtain ⟨c, hc, rfl⟩ := correlationFl_inv h
  obtain ⟨h1, h2⟩ := C75_empirical_variance d calls c hc
  exact ⟨fun i => covToCorrFl_nonneg i i (h1 i), covToCorrFl_symm h2⟩

/-- C75: the same for `EwaCovariance` with a rate in `[0, 1]`. -/
theorem C75_ewa_correlation {R : Rounding} (p : RParam (Fl R)) (h0 : 0 ≤ p.r) (h1 : p.r ≤ 1) (calls : List (Call ι (Fl R)))
    (r : Matrix ι ι (Fl R)) (h : ((new (ewaFlCls R ι) p).run calls).correlationFl = .ok r) :
    (∀ i, 0 ≤ r i i) ∧ ∀ i j, r i j = r j i := by
  obtain ⟨c, hc, rfl⟩ := correlationFl_inv h
  obtain ⟨h1, h2⟩ := C75_ewa_variance p h0 h1 calls c hc
  exact ⟨fun i => covToCorrFl_nonneg i i (h1 i), covToCorrFl_symm h2⟩

/-- C75: in doubles the diagonal of `correlation_` never exceeds 1, for `EmpiricalCovariance`, `EwaCovariance` and `DiagonalCovariance`
(off the diagonal it can: `C75_correlation_above_one`). -/
theorem C75_correlation_diagonal (calls : List (Call ι (Fl Rounding.double))) (r : Matrix ι ι (Fl Rounding.double)) (i : ι) :
    (∀ d, ((new (empiricalCls ι (Fl Rounding.double)) d).run calls).correlationFl = .ok r → r i i ≤ 1) ∧
    (∀ p : RParam (Fl Rounding.double), 0 ≤ p.r → p.r ≤ 1 →
      ((new (ewaFlCls Rounding.double ι) p).run calls).correlationFl = .ok r → r i i ≤ 1) ∧
    ∀ [DecidableEq ι] (p : RParam (Fl Rounding.double)), 0 ≤ p.r → p.r ≤ 1 →
      ((new (diagonalFlCls Rounding.double ι) p).run calls).correlationFl = .ok r → r i i ≤ 1 ∧ ∀ j, i ≠ j → r i j = 0 := by
  refine ⟨fun d h => ?_, fun p h0 h1 h => ?_, fun p h0 h1 h => ?_⟩
  · obtain ⟨c, hc, rfl⟩ := correlationFl_inv h
    exact covToCorrFl_diag i ((C75_empirical_variance d calls c hc).1 i)
  · obtain ⟨c, hc, rfl⟩ := correlationFl_inv h
    exact covToCorrFl_diag i ((C75_ewa_variance p h0 h1 calls c hc).1 i)
  · obtain ⟨c, hc, rfl⟩ := correlationFl_inv h
    obtain ⟨e1, e2⟩ := C75_diagonal_variance p h0 h1 calls c hc
    refine ⟨covToCorrFl_diag i (e1 i), fun j hj => ?_⟩
    apply Fl.ext
    show Rounding.double.rnd ((c i j).val / _) = 0
    rw [e2 i j hj, Fl.val_zero, zero_div, Rounding.double.rnd_zero]

/-- Not vacuous: a history after which `correlation_` exists. -/
example : ∃ r, ((new (empiricalCls (Fin 2) (Fl Rounding.double)) false).run [.fit (.batch badRows)]).correlationFl = .ok r ∧
    1 < r 0 1 ∧ r 0 0 ≤ 1 := by
  obtain ⟨r, h, e⟩ := C75_correlation_above_one
  refine ⟨r, h, ?_, (C75_correlation_diagonal _ r 0).1 false h⟩
  show (1 : ℝ) < (r 0 1).val
  rw [e]; norm_num

end Precise
