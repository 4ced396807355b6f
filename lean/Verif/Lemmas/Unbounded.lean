import Verif.Spec.Exact

/-! Binary floating point with `p` bits and no limits on the exponent: what IEEE arithmetic is as long as nothing over- or
underflows. Powers of two are free factors there. -/

set_option linter.all false

namespace Precise

open Spec

/-- The exponent of the last place of `x` when there is no smallest exponent. -/
noncomputable def lastPlace (p : ℕ) (x : ℝ) : ℤ := Int.log 2 |x| - p + 1

/-- Round to nearest, ties to even, `p` bits, unbounded exponent. -/
noncomputable def unbRnd (p : ℕ) (x : ℝ) : ℝ := ieeeRnd p (lastPlace p x) x

theorem unbRnd_eq {p : ℕ} {x : ℝ} {e : ℤ} (h : e ≤ lastPlace p x) : unbRnd p x = ieeeRnd p e x := by
  have h1 : ulpExp p (lastPlace p x) x = lastPlace p x := by unfold ulpExp; rw [show Int.log 2 |x| - p + 1 = lastPlace p x from rfl, max_self]
  have h2 : ulpExp p e x = lastPlace p x := by unfold ulpExp; rw [show Int.log 2 |x| - p + 1 = lastPlace p x from rfl]; exact max_eq_left h
  unfold unbRnd ieeeRnd
  rw [h1, h2]

theorem unbRnd_zero (p : ℕ) : unbRnd p 0 = 0 := by unfold unbRnd; exact ieeeRnd_zero

theorem log_scale {x : ℝ} (hx : x ≠ 0) (k : ℤ) : Int.log 2 |(2 : ℝ) ^ k * x| = Int.log 2 |x| + k := by
  have h2 := two_zpow_pos k
  have hne : (2 : ℝ) ^ k * x ≠ 0 := mul_ne_zero h2.ne' hx
  have habs : |(2 : ℝ) ^ k * x| = (2 : ℝ) ^ k * |x| := by rw [abs_mul, abs_of_pos h2]
  apply le_antisymm
  · have : Int.log 2 |(2 : ℝ) ^ k * x| < Int.log 2 |x| + 1 + k := by
      apply log_le_of_lt hne
      rw [habs, zpow_add₀ (by norm_num), mul_comm]
      exact mul_lt_mul_of_pos_right (lt_zpow_log x) h2
    omega
  · apply le_log_of hne
    rw [habs, zpow_add₀ (by norm_num), mul_comm]
    exact mul_le_mul_of_nonneg_left (zpow_log_le hx) h2.le

/-- Powers of two commute with rounding. -/
theorem unbRnd_scale (p : ℕ) (k : ℤ) (x : ℝ) : unbRnd p ((2 : ℝ) ^ k * x) = (2 : ℝ) ^ k * unbRnd p x := by
  by_cases hx : x = 0
  · subst hx; simp [unbRnd_zero]
  have hl : lastPlace p ((2 : ℝ) ^ k * x) = lastPlace p x + k := by unfold lastPlace; rw [log_scale hx]; ring
  have h1 : ∀ y, ulpExp p (lastPlace p y) y = lastPlace p y := by
    intro y; unfold ulpExp; rw [show Int.log 2 |y| - p + 1 = lastPlace p y from rfl, max_self]
  unfold unbRnd ieeeRnd
  rw [h1, h1, hl, zpow_add₀ (by norm_num)]
  have h2 := (two_zpow_pos k).ne'
  have h3 := (two_zpow_pos (lastPlace p x)).ne'
  have : (2 : ℝ) ^ k * x / ((2 : ℝ) ^ lastPlace p x * (2 : ℝ) ^ k) = x / (2 : ℝ) ^ lastPlace p x := by
    field_simp
  rw [this]; ring

theorem unbRnd_mono {p : ℕ} (hp : 8 ≤ p) : Monotone (unbRnd p) := by
  intro x y h
  have a := unbRnd_eq (p := p) (x := x) (min_le_left (lastPlace p x) (lastPlace p y))
  have b := unbRnd_eq (p := p) (x := y) (min_le_right (lastPlace p x) (lastPlace p y))
  have c := ieeeRnd_mono (p := p) (emin := min (lastPlace p x) (lastPlace p y)) (by omega) h
  exact a.trans_le (c.trans_eq b.symm)

theorem unbRnd_idem {p : ℕ} (hp : 8 ≤ p) (x : ℝ) : unbRnd p (unbRnd p x) = unbRnd p x := by
  generalize hy : unbRnd p x = y
  have a := unbRnd_eq (p := p) (x := x) (min_le_left (lastPlace p x) (lastPlace p y))
  have b := unbRnd_eq (p := p) (x := y) (min_le_right (lastPlace p x) (lastPlace p y))
  have c := ieeeRnd_idem (p := p) (emin := min (lastPlace p x) (lastPlace p y)) (by omega) x
  rw [← a, hy] at c
  exact b.trans c

theorem unbRnd_neg (p : ℕ) (x : ℝ) : unbRnd p (-x) = - unbRnd p x := by
  have : lastPlace p (-x) = lastPlace p x := by unfold lastPlace; rw [abs_neg]
  unfold unbRnd
  rw [this]
  exact ieeeRnd_neg x

theorem unbRnd_err (p : ℕ) (x : ℝ) : |unbRnd p x - x| ≤ (1 / 2) ^ p * |x| := by
  by_cases hx0 : x = 0
  · subst hx0; simp [unbRnd_zero]
  have hu : ulpExp p (lastPlace p x) x = Int.log 2 |x| - p + 1 := by
    unfold ulpExp; rw [show lastPlace p x = Int.log 2 |x| - p + 1 from rfl, max_self]
  refine (ieeeRnd_err x).trans ?_
  rw [hu, show (Int.log 2 |x| - p + 1 : ℤ) = Int.log 2 |x| + (1 - p) by ring, zpow_add₀ (by norm_num),
    zpow_sub₀ (by norm_num), zpow_natCast, zpow_one, one_div_pow]
  have := zpow_log_le hx0
  have h2 : (0 : ℝ) < 2 ^ p := by positivity
  calc 1 / 2 * ((2 : ℝ) ^ Int.log 2 |x| * (2 / 2 ^ p)) = 1 / 2 ^ p * (2 : ℝ) ^ Int.log 2 |x| := by ring
    _ ≤ _ := mul_le_mul_of_nonneg_left this (by positivity)

theorem unbRnd_int {p : ℕ} (hp : 8 ≤ p) (n : ℕ) (hn : n ≤ 2 ^ p) : unbRnd p n = n := by
  have a := unbRnd_eq (p := p) (x := (n : ℝ)) (min_le_left (lastPlace p (n : ℝ)) 0)
  have := ieeeRnd_rep (p := p) (emin := min (lastPlace p (n : ℝ)) 0) (k := n) (e := 0) (by omega) (min_le_right _ _) (by
    push_cast; rw [abs_of_nonneg (by positivity)]; exact_mod_cast hn)
  rw [a]
  simpa using this

theorem maxInt_ok {p : ℕ} (hp : 8 ≤ p) : 250 ≤ 2 ^ p :=
  le_trans (by norm_num : 250 ≤ 2 ^ 8) (Nat.pow_le_pow_right (by norm_num) hp)

theorem unit_ok {p : ℕ} (hp : 8 ≤ p) : ((1 : ℝ) / 2) ^ p ≤ 1 / 8 := by
  calc ((1 : ℝ) / 2) ^ p ≤ (1 / 2) ^ 3 := pow_le_pow_of_le_one (by norm_num) (by norm_num) (by omega)
    _ = 1 / 8 := by norm_num

/-- `p`-bit binary floating point without over- or underflow. -/
noncomputable def Rounding.unbounded (p : ℕ) (hp : 8 ≤ p) : Rounding where
  rnd := unbRnd p
  u := (1 / 2) ^ p
  tiny := 0
  maxInt := 2 ^ p
  u_nonneg := by positivity
  u_le := unit_ok hp
  tiny_nonneg := le_rfl
  mono := unbRnd_mono hp
  idem := unbRnd_idem hp
  neg := unbRnd_neg p
  err := fun x _ => unbRnd_err p x
  err_tiny := by
    intro x hx
    have : x = 0 := abs_nonpos_iff.1 hx
    subst this; simp [unbRnd_zero]
  sub_exact := by
    intro x y _ _ h
    have : x - y = 0 := abs_nonpos_iff.1 (by simpa using h)
    rw [this, unbRnd_zero]
  int_exact := unbRnd_int hp
  maxInt_ge := maxInt_ok hp
  tiny_le := zero_le_one

theorem free_two_zpow (p : ℕ) (hp : 8 ≤ p) (k : ℤ) : Free (Rounding.unbounded p hp) ((2 : ℝ) ^ k) := unbRnd_scale p k

theorem free_neg {R : Rounding} {w : ℝ} (h : Free R w) : Free R (-w) := fun x => by
  rw [neg_mul, R.neg, h, neg_mul]

theorem free_one (R : Rounding) : Free R 1 := fun x => by rw [one_mul, one_mul]

end Precise
