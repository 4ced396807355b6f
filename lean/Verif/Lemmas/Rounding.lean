import Verif.Model.Rounding
import Mathlib.Tactic.Linarith
import Mathlib.Tactic.Positivity
import Mathlib.Tactic.Ring
import Mathlib.Tactic.FieldSimp
import Mathlib.Tactic.NormNum

/-! Nearest-even rounding in a binary format with gradual underflow satisfies `Rounding`. -/

set_option linter.all false

namespace Precise

theorem halfEven_err (x : ℝ) : |(halfEven x : ℝ) - x| ≤ 1 / 2 := by
  have h1 := Int.floor_add_fract x
  have h2 := Int.fract_nonneg x
  have h3 := Int.fract_lt_one x
  unfold halfEven
  rw [abs_le]
  split_ifs with a b c <;> push_cast <;> constructor <;> linarith

theorem halfEven_int (n : ℤ) : halfEven (n : ℝ) = n := by
  unfold halfEven; simp

theorem halfEven_mono : Monotone halfEven := by
  intro x y hxy
  have hf : ⌊x⌋ ≤ ⌊y⌋ := Int.floor_mono hxy
  have h1 := Int.floor_add_fract x
  have h2 := Int.floor_add_fract y
  rcases hf.lt_or_eq with h | h
  · have a : halfEven x ≤ ⌊x⌋ + 1 := by unfold halfEven; split_ifs <;> omega
    have b : ⌊y⌋ ≤ halfEven y := by unfold halfEven; split_ifs <;> omega
    omega
  · have hfr : Int.fract x ≤ Int.fract y := by
      have : ((⌊x⌋ : ℤ) : ℝ) = ⌊y⌋ := by rw [h]
      linarith
    unfold halfEven
    rw [h]
    split_ifs <;> first | omega | (exfalso; linarith) | skip

theorem halfEven_neg (x : ℝ) : halfEven (-x) = - halfEven x := by
  by_cases h0 : Int.fract x = 0
  · have : x = ⌊x⌋ := by have := Int.floor_add_fract x; linarith
    rw [this, ← Int.cast_neg, halfEven_int, halfEven_int]
  · have hfr : Int.fract (-x) = 1 - Int.fract x := Int.fract_neg h0
    have hfl : ⌊-x⌋ = -⌊x⌋ - 1 := by
      have a := Int.floor_add_fract x
      have b := Int.floor_add_fract (-x)
      have : ((⌊-x⌋ : ℤ) : ℝ) = ((-⌊x⌋ - 1 : ℤ) : ℝ) := by push_cast; linarith
      exact_mod_cast this
    unfold halfEven
    rw [hfr, hfl]
    split_ifs <;> first | omega | (exfalso; linarith) | skip

variable {p : ℕ} {emin : ℤ}

theorem ulpExp_neg (x : ℝ) : ulpExp p emin (-x) = ulpExp p emin x := by simp [ulpExp]

theorem ieeeRnd_neg (x : ℝ) : ieeeRnd p emin (-x) = - ieeeRnd p emin x := by
  unfold ieeeRnd
  rw [ulpExp_neg, neg_div, halfEven_neg]; push_cast; ring

theorem ieeeRnd_zero : ieeeRnd p emin 0 = 0 := by
  unfold ieeeRnd
  have := halfEven_int 0
  rw [Int.cast_zero] at this
  rw [zero_div, this]; simp

theorem two_zpow_pos (e : ℤ) : (0 : ℝ) < (2 : ℝ) ^ e := zpow_pos (by norm_num) _

theorem log_le_of_lt {x : ℝ} (hx : x ≠ 0) {e : ℤ} (h : |x| < (2 : ℝ) ^ e) : Int.log 2 |x| < e :=
  (Int.lt_zpow_iff_log_lt (by norm_num) (abs_pos.2 hx)).1 (by exact_mod_cast h)

theorem le_log_of {x : ℝ} (hx : x ≠ 0) {e : ℤ} (h : (2 : ℝ) ^ e ≤ |x|) : e ≤ Int.log 2 |x| :=
  (Int.zpow_le_iff_le_log (by norm_num) (abs_pos.2 hx)).1 (by exact_mod_cast h)

theorem zpow_log_le {x : ℝ} (hx : x ≠ 0) : (2 : ℝ) ^ Int.log 2 |x| ≤ |x| := by
  exact_mod_cast Int.zpow_log_le_self (R := ℝ) (b := 2) (by norm_num) (abs_pos.2 hx)

theorem lt_zpow_log (x : ℝ) : |x| < (2 : ℝ) ^ (Int.log 2 |x| + 1) := by
  exact_mod_cast Int.lt_zpow_succ_log_self (R := ℝ) (b := 2) (by norm_num) |x|

/-- A power of two divided by a smaller one is an integer. -/
theorem zpow_div_int {a b : ℤ} (h : b ≤ a) : (2 : ℝ) ^ a / (2 : ℝ) ^ b = (((2 : ℤ) ^ (a - b).toNat : ℤ) : ℝ) := by
  rw [← zpow_sub₀ (by norm_num)]
  obtain ⟨n, hn⟩ := Int.eq_ofNat_of_zero_le (sub_nonneg.2 h)
  rw [hn]; simp

/-- Numbers of the format are fixed. -/
theorem ieeeRnd_rep (hp : 1 ≤ p) {k e : ℤ} (he : emin ≤ e) (hk : |(k : ℝ)| ≤ (2 : ℝ) ^ p) :
    ieeeRnd p emin (k * (2 : ℝ) ^ e) = k * (2 : ℝ) ^ e := by
  by_cases h0 : k = 0
  · subst h0; simp [ieeeRnd_zero]
  have hx : (k : ℝ) * (2 : ℝ) ^ e ≠ 0 := mul_ne_zero (by exact_mod_cast h0) (two_zpow_pos e).ne'
  have habs : |(k : ℝ) * (2 : ℝ) ^ e| = |(k : ℝ)| * (2 : ℝ) ^ e := by rw [abs_mul, abs_of_pos (two_zpow_pos e)]
  have key : ∀ e' : ℤ, (∃ j : ℤ, (k : ℝ) * (2 : ℝ) ^ e / (2 : ℝ) ^ e' = j) → ulpExp p emin (k * (2 : ℝ) ^ e) = e' →
      ieeeRnd p emin (k * (2 : ℝ) ^ e) = k * (2 : ℝ) ^ e := by
    rintro e' ⟨j, hj⟩ hu
    unfold ieeeRnd
    rw [hu, hj, halfEven_int, ← hj, div_mul_cancel₀ _ (two_zpow_pos e').ne']
  rcases hk.lt_or_eq with hk | hk
  · have hl : Int.log 2 |(k : ℝ) * (2 : ℝ) ^ e| < p + e := by
      apply log_le_of_lt hx
      rw [habs, zpow_add₀ (by norm_num), zpow_natCast]
      exact mul_lt_mul_of_pos_right hk (two_zpow_pos e)
    have hu : ulpExp p emin (k * (2 : ℝ) ^ e) ≤ e := by unfold ulpExp; omega
    refine key _ ⟨k * 2 ^ (e - ulpExp p emin (k * (2 : ℝ) ^ e)).toNat, ?_⟩ rfl
    rw [mul_div_assoc, zpow_div_int hu]; push_cast; ring
  · have hpow : |(k : ℝ) * (2 : ℝ) ^ e| = (2 : ℝ) ^ ((p : ℤ) + e) := by
      rw [habs, hk, zpow_add₀ (by norm_num), zpow_natCast]
    have hl : Int.log 2 |(k : ℝ) * (2 : ℝ) ^ e| = p + e := by
      rw [hpow]; exact_mod_cast Int.log_zpow (R := ℝ) (b := 2) (by norm_num) ((p : ℤ) + e)
    have hu : ulpExp p emin (k * (2 : ℝ) ^ e) = e + 1 := by unfold ulpExp; omega
    refine key _ ?_ hu
    have h2 : (2 : ℝ) ^ e / (2 : ℝ) ^ (e + 1) = 1 / 2 := by
      rw [zpow_add₀ (by norm_num)]; field_simp [(two_zpow_pos e).ne']
    have hpp : (2 : ℝ) ^ p = 2 * (2 : ℝ) ^ (p - 1) := by
      obtain ⟨q, rfl⟩ : ∃ q, p = q + 1 := ⟨p - 1, by omega⟩
      rw [pow_succ]; simp; ring
    rw [mul_div_assoc, h2]
    rcases abs_choice (k : ℝ) with h | h <;> rw [h] at hk
    · exact ⟨2 ^ (p - 1), by rw [hk, hpp]; push_cast; ring⟩
    · exact ⟨-2 ^ (p - 1), by rw [show (k : ℝ) = -(2 : ℝ) ^ p by linarith, hpp]; push_cast; ring⟩

theorem emin_le_ulpExp (x : ℝ) : emin ≤ ulpExp p emin x := le_max_right _ _

/-- A rounded value is a number of the format. -/
theorem ieeeRnd_form (x : ℝ) : |((halfEven (x / (2 : ℝ) ^ ulpExp p emin x) : ℤ) : ℝ)| ≤ (2 : ℝ) ^ p := by
  have h1 : |x / (2 : ℝ) ^ ulpExp p emin x| ≤ (2 : ℝ) ^ p := by
    rw [abs_div, abs_of_pos (two_zpow_pos _), div_le_iff₀ (two_zpow_pos _)]
    refine (lt_zpow_log x).le.trans ?_
    rw [← zpow_natCast, ← zpow_add₀ (by norm_num)]
    apply zpow_le_zpow_right₀ (by norm_num)
    have : Int.log 2 |x| - p + 1 ≤ ulpExp p emin x := le_max_left _ _
    omega
  rw [abs_le] at h1 ⊢
  constructor
  · have := halfEven_mono h1.1
    rw [show -(2 : ℝ) ^ p = ((-2 ^ p : ℤ) : ℝ) by push_cast; rfl, halfEven_int] at this
    have : ((-2 ^ p : ℤ) : ℝ) ≤ _ := Int.cast_le.2 this
    push_cast at this; exact this
  · have := halfEven_mono h1.2
    rw [show (2 : ℝ) ^ p = ((2 ^ p : ℤ) : ℝ) by push_cast; rfl, halfEven_int] at this
    have : _ ≤ ((2 ^ p : ℤ) : ℝ) := Int.cast_le.2 this
    push_cast at this; exact this

theorem ieeeRnd_idem (hp : 1 ≤ p) (x : ℝ) : ieeeRnd p emin (ieeeRnd p emin x) = ieeeRnd p emin x := by
  conv_lhs => rw [ieeeRnd.eq_def p emin x]
  rw [ieeeRnd_rep hp (emin_le_ulpExp x) (ieeeRnd_form x)]
  rfl

theorem ulpExp_mono {x y : ℝ} (hx : 0 < x) (h : x ≤ y) : ulpExp p emin x ≤ ulpExp p emin y := by
  unfold ulpExp
  have : Int.log 2 |x| ≤ Int.log 2 |y| := Int.log_mono_right (abs_pos.2 hx.ne') (by
    rw [abs_of_pos hx, abs_of_pos (hx.trans_le h)]; exact h)
  omega

theorem ieeeRnd_nonneg {x : ℝ} (hx : 0 ≤ x) : 0 ≤ ieeeRnd p emin x := by
  unfold ieeeRnd
  have := halfEven_mono (div_nonneg hx (two_zpow_pos (ulpExp p emin x)).le)
  have h0 := halfEven_int 0
  rw [Int.cast_zero] at h0
  rw [h0] at this
  exact mul_nonneg (by exact_mod_cast this) (two_zpow_pos _).le

theorem ieeeRnd_mono_pos (hp : 1 ≤ p) {x y : ℝ} (hx : 0 < x) (h : x ≤ y) : ieeeRnd p emin x ≤ ieeeRnd p emin y := by
  rcases (ulpExp_mono (p := p) (emin := emin) hx h).eq_or_lt with he | he
  · unfold ieeeRnd
    rw [he]
    refine mul_le_mul_of_nonneg_right ?_ (two_zpow_pos _).le
    exact_mod_cast halfEven_mono (div_le_div_of_nonneg_right h (two_zpow_pos _).le)
  · have hy : 0 < y := hx.trans_le h
    have hlt : Int.log 2 |x| < Int.log 2 |y| ∧ ulpExp p emin y = Int.log 2 |y| - p + 1 := by
      unfold ulpExp at he ⊢; omega
    have hxe : ulpExp p emin x ≤ Int.log 2 |y| := by omega
    have hye : ulpExp p emin y ≤ Int.log 2 |y| := by omega
    have hxB : x ≤ (2 : ℝ) ^ Int.log 2 |y| := by
      have := lt_zpow_log x
      rw [abs_of_pos hx] at this
      refine this.le.trans (zpow_le_zpow_right₀ (by norm_num) ?_)
      rw [abs_of_pos hx] at hlt; omega
    have hBy : (2 : ℝ) ^ Int.log 2 |y| ≤ y := by
      have := zpow_log_le hy.ne'
      rwa [abs_of_pos hy] at this ⊢
    trans (2 : ℝ) ^ Int.log 2 |y|
    · unfold ieeeRnd
      have a := halfEven_mono (div_le_div_of_nonneg_right hxB (two_zpow_pos (ulpExp p emin x)).le)
      rw [zpow_div_int hxe, halfEven_int] at a
      have a' : (halfEven (x / (2 : ℝ) ^ ulpExp p emin x) : ℝ) ≤ _ := Int.cast_le.2 a
      rw [← zpow_div_int hxe, le_div_iff₀ (two_zpow_pos _)] at a'
      exact a'
    · unfold ieeeRnd
      have a := halfEven_mono (div_le_div_of_nonneg_right hBy (two_zpow_pos (ulpExp p emin y)).le)
      rw [zpow_div_int hye, halfEven_int] at a
      have a' : _ ≤ (halfEven (y / (2 : ℝ) ^ ulpExp p emin y) : ℝ) := Int.cast_le.2 a
      rw [← zpow_div_int hye, div_le_iff₀ (two_zpow_pos _)] at a'
      exact a'

theorem ieeeRnd_mono (hp : 1 ≤ p) : Monotone (ieeeRnd p emin) := by
  intro x y h
  rcases lt_or_ge 0 x with hx | hx
  · exact ieeeRnd_mono_pos hp hx h
  · rcases le_or_gt 0 y with hy | hy
    · have a : ieeeRnd p emin x ≤ 0 := by
        have := ieeeRnd_nonneg (p := p) (emin := emin) (neg_nonneg.2 hx)
        rw [ieeeRnd_neg] at this; linarith
      exact a.trans (ieeeRnd_nonneg hy)
    · have := ieeeRnd_mono_pos (emin := emin) hp (neg_pos.2 hy) (neg_le_neg h)
      rw [ieeeRnd_neg, ieeeRnd_neg] at this; linarith

theorem ieeeRnd_err (x : ℝ) : |ieeeRnd p emin x - x| ≤ 1 / 2 * (2 : ℝ) ^ ulpExp p emin x := by
  have h := halfEven_err (x / (2 : ℝ) ^ ulpExp p emin x)
  have e : ieeeRnd p emin x - x
      = (halfEven (x / (2 : ℝ) ^ ulpExp p emin x) - x / (2 : ℝ) ^ ulpExp p emin x) * (2 : ℝ) ^ ulpExp p emin x := by
    unfold ieeeRnd; rw [sub_mul, div_mul_cancel₀ _ (two_zpow_pos _).ne']
  rw [e, abs_mul, abs_of_pos (two_zpow_pos _)]
  exact mul_le_mul_of_nonneg_right h (two_zpow_pos _).le

/-- Every number of the format is an integer multiple of the smallest positive one. -/
theorem rep_multiple {x : ℝ} (h : ieeeRnd p emin x = x) : ∃ k : ℤ, x = k * (2 : ℝ) ^ emin := by
  refine ⟨halfEven (x / (2 : ℝ) ^ ulpExp p emin x) * 2 ^ (ulpExp p emin x - emin).toNat, ?_⟩
  have e := zpow_div_int (emin_le_ulpExp (p := p) (emin := emin) x)
  rw [div_eq_iff (two_zpow_pos _).ne'] at e
  conv_lhs => rw [← h]
  unfold ieeeRnd
  rw [e]; push_cast; ring

/-- Round-to-nearest-even with `p ≥ 8` bits and gradual underflow at `2 ^ emin`, `emin + p ≤ 1`. -/
noncomputable def Rounding.ieee (p : ℕ) (emin : ℤ) (hp : 8 ≤ p) (he : emin + p ≤ 1) : Rounding where
  rnd := ieeeRnd p emin
  u := (1 / 2) ^ p
  tiny := (2 : ℝ) ^ (emin + p - 1)
  maxInt := 2 ^ p
  u_nonneg := by positivity
  u_le := by
    calc ((1 : ℝ) / 2) ^ p ≤ (1 / 2) ^ 3 := pow_le_pow_of_le_one (by norm_num) (by norm_num) (by omega)
      _ = 1 / 8 := by norm_num
  tiny_nonneg := (two_zpow_pos _).le
  mono := ieeeRnd_mono (by omega)
  idem := ieeeRnd_idem (by omega)
  neg := ieeeRnd_neg
  err := by
    intro x hx
    have hx0 : x ≠ 0 := abs_pos.1 ((two_zpow_pos _).trans_le hx)
    have hl := le_log_of hx0 hx
    have hu : ulpExp p emin x = Int.log 2 |x| - p + 1 := by unfold ulpExp; omega
    refine (ieeeRnd_err x).trans ?_
    rw [hu, show (Int.log 2 |x| - p + 1 : ℤ) = Int.log 2 |x| + (1 - p) by ring, zpow_add₀ (by norm_num),
      zpow_sub₀ (by norm_num), zpow_natCast, zpow_one, one_div_pow]
    have := zpow_log_le hx0
    have h2 : (0 : ℝ) < 2 ^ p := by positivity
    calc 1 / 2 * ((2 : ℝ) ^ Int.log 2 |x| * (2 / 2 ^ p)) = 1 / 2 ^ p * (2 : ℝ) ^ Int.log 2 |x| := by ring
      _ ≤ _ := mul_le_mul_of_nonneg_left this (by positivity)
  err_tiny := by
    intro x hx
    have hval : (1 / 2 : ℝ) ^ p * (2 : ℝ) ^ (emin + p - 1) = 1 / 2 * (2 : ℝ) ^ emin := by
      rw [show emin + p - 1 = (emin + p) + (-1) by ring, zpow_add₀ (by norm_num), zpow_add₀ (by norm_num), zpow_natCast,
        one_div_pow, zpow_neg_one]
      have h2 : (2 : ℝ) ^ p ≠ 0 := by positivity
      field_simp
    rw [hval]
    by_cases hx0 : x = 0
    · subst hx0; rw [ieeeRnd_zero]; simp; exact (two_zpow_pos emin).le
    refine (ieeeRnd_err x).trans ?_
    have hl : ulpExp p emin x = emin := by
      have : Int.log 2 |x| < emin + p := log_le_of_lt hx0 (hx.trans_lt (zpow_lt_zpow_right₀ (by norm_num) (by omega)))
      unfold ulpExp; omega
    rw [hl]
  sub_exact := by
    intro x y hx hy h
    obtain ⟨a, ha⟩ := rep_multiple hx
    obtain ⟨b, hb⟩ := rep_multiple hy
    have e : x - y = ((a - b : ℤ) : ℝ) * (2 : ℝ) ^ emin := by rw [ha, hb]; push_cast; ring
    rw [e]
    refine ieeeRnd_rep (by omega) le_rfl ?_
    rw [e, abs_mul, abs_of_pos (two_zpow_pos emin)] at h
    have h2 : 2 * (2 : ℝ) ^ (emin + p - 1) = (2 : ℝ) ^ p * (2 : ℝ) ^ emin := by
      rw [show emin + p - 1 = (emin + p) + (-1) by ring, zpow_add₀ (by norm_num), zpow_add₀ (by norm_num), zpow_natCast,
        zpow_neg_one]; ring
    rw [h2] at h
    exact le_of_mul_le_mul_right h (two_zpow_pos emin)
  int_exact := by
    intro n hn
    have := ieeeRnd_rep (p := p) (emin := emin) (k := n) (e := 0) (by omega) (by omega) (by
      push_cast; rw [abs_of_nonneg (by positivity)]; exact_mod_cast hn)
    simpa using this
  maxInt_ge := by
    calc 250 ≤ 2 ^ 8 := by norm_num
      _ ≤ 2 ^ p := Nat.pow_le_pow_right (by norm_num) hp
  tiny_le := by
    calc (2 : ℝ) ^ (emin + p - 1) ≤ (2 : ℝ) ^ (0 : ℤ) := zpow_le_zpow_right₀ (by norm_num) (by omega)
      _ = 1 := zpow_zero _

/-- IEEE 754 double precision (without overflow). -/
noncomputable def Rounding.double : Rounding := Rounding.ieee 53 (-1074) (by norm_num) (by norm_num)

end Precise
