import Verif.Lemmas.Rounding

/-! Facts about rounded arithmetic used by the C75 theorems. -/

set_option linter.all false

namespace Precise

namespace Rounding

variable (R : Rounding)

theorem rnd_zero : R.rnd 0 = 0 := by
  have := R.int_exact 0 (Nat.zero_le _); simpa using this

theorem rnd_one : R.rnd 1 = 1 := by
  have := R.int_exact 1 (by have := R.maxInt_ge; omega); simpa using this

theorem rnd_two : R.rnd 2 = 2 := by
  have := R.int_exact 2 (by have := R.maxInt_ge; omega); simpa using this

theorem rnd_nonneg {x : ℝ} (h : 0 ≤ x) : 0 ≤ R.rnd x := by
  have := R.mono h; rwa [R.rnd_zero] at this

theorem rnd_nonpos {x : ℝ} (h : x ≤ 0) : R.rnd x ≤ 0 := by
  have := R.mono h; rwa [R.rnd_zero] at this

theorem rnd_le {x y : ℝ} (hy : R.rnd y = y) (h : x ≤ y) : R.rnd x ≤ y := by
  have := R.mono h; rwa [hy] at this

theorem le_rnd {x y : ℝ} (hy : R.rnd y = y) (h : y ≤ x) : y ≤ R.rnd x := by
  have := R.mono h; rwa [hy] at this

theorem abs_err (x : ℝ) : |R.rnd x - x| ≤ R.u * (|x| + R.tiny) := by
  have h0 := R.u_nonneg
  have h1 := R.tiny_nonneg
  have h2 := abs_nonneg x
  rcases le_total R.tiny |x| with h | h
  · exact (R.err x h).trans (mul_le_mul_of_nonneg_left (by linarith) h0)
  · exact (R.err_tiny x h).trans (mul_le_mul_of_nonneg_left (by linarith) h0)

theorem err_le {x X : ℝ} (h : |x| ≤ X) : |R.rnd x - x| ≤ R.u * (X + R.tiny) :=
  (R.abs_err x).trans (mul_le_mul_of_nonneg_left (by linarith) R.u_nonneg)

theorem sub_err {x y : ℝ} (hx : R.rnd x = x) (hy : R.rnd y = y) : |R.rnd (x - y) - (x - y)| ≤ R.u * |x - y| := by
  rcases le_total |x - y| (2 * R.tiny) with h | h
  · rw [R.sub_exact x y hx hy h]; simp
    exact mul_nonneg R.u_nonneg (abs_nonneg _)
  · exact R.err _ (by have := R.tiny_nonneg; linarith)

theorem two_le_nat {n : ℕ} (h : 2 ≤ n) : 2 ≤ R.rnd n := R.le_rnd R.rnd_two (by exact_mod_cast h)

theorem one_le_nat {n : ℕ} (h : 1 ≤ n) : 1 ≤ R.rnd n := R.le_rnd R.rnd_one (by exact_mod_cast h)

/-- One Welford increment never overshoots. -/
theorem welford_up {m x c : ℝ} (hm : R.rnd m = m) (hx : R.rnd x = x) (hc : 2 ≤ c) (h : m ≤ x) :
    0 ≤ R.rnd (R.rnd (x - m) / c) ∧ R.rnd (R.rnd (x - m) / c) ≤ x - m := by
  have hd : 0 ≤ R.rnd (x - m) := R.rnd_nonneg (by linarith)
  have hc0 : 0 < c := by linarith
  refine ⟨R.rnd_nonneg (by positivity), ?_⟩
  have hs := R.sub_err hx hm
  have h0 : 0 ≤ x - m := by linarith
  rw [abs_of_nonneg h0, abs_le] at hs
  rcases le_total (x - m) (2 * R.tiny) with ht | ht
  · have e := R.sub_exact x m hx hm (by rwa [abs_of_nonneg h0])
    rw [e] at hd ⊢
    exact R.rnd_le e (by rw [div_le_iff₀ hc0]; nlinarith)
  · have hu0 := R.u_nonneg
    have hu := R.u_le
    have hle : R.rnd (x - m) / c ≤ (1 + R.u) * (x - m) / 2 := by
      rw [div_le_div_iff₀ hc0 (by norm_num)]
      have : R.rnd (x - m) ≤ (1 + R.u) * (x - m) := by linarith
      have h2 : 0 ≤ (1 + R.u) * (x - m) := by positivity
      nlinarith
    have hbig : R.tiny ≤ (1 + R.u) * (x - m) / 2 := by nlinarith
    have hp : 0 ≤ (1 + R.u) * (x - m) / 2 := by positivity
    have he := R.err ((1 + R.u) * (x - m) / 2) (by rwa [abs_of_nonneg hp])
    rw [abs_of_nonneg hp, abs_le] at he
    refine (R.mono hle).trans ?_
    have : R.rnd ((1 + R.u) * (x - m) / 2) ≤ (1 + R.u) * ((1 + R.u) * (x - m) / 2) := by linarith
    refine this.trans ?_
    have : (1 + R.u) * (1 + R.u) ≤ 2 := by nlinarith
    nlinarith

theorem welford_down {m x c : ℝ} (hm : R.rnd m = m) (hx : R.rnd x = x) (hc : 2 ≤ c) (h : x ≤ m) :
    R.rnd (R.rnd (x - m) / c) ≤ 0 ∧ x - m ≤ R.rnd (R.rnd (x - m) / c) := by
  have e : R.rnd (R.rnd (x - m) / c) = - R.rnd (R.rnd (-x - -m) / c) := by
    rw [show -x - -m = -(x - m) by ring, R.neg, neg_div, R.neg, neg_neg]
  have := R.welford_up (m := -m) (x := -x) (by rw [R.neg, hm]) (by rw [R.neg, hx]) hc (by linarith)
  rw [e]; constructor <;> linarith [this.1, this.2]

/-- The rounded running mean stays between the previous mean and the new observation. -/
theorem welford_between {m x c : ℝ} (hm : R.rnd m = m) (hx : R.rnd x = x) (hc : 2 ≤ c) :
    min m x ≤ R.rnd (m + R.rnd (R.rnd (x - m) / c)) ∧ R.rnd (m + R.rnd (R.rnd (x - m) / c)) ≤ max m x := by
  rcases le_total m x with h | h
  · obtain ⟨a, b⟩ := R.welford_up hm hx hc h
    rw [min_eq_left h, max_eq_right h]
    exact ⟨R.le_rnd hm (by linarith), R.rnd_le hx (by linarith)⟩
  · obtain ⟨a, b⟩ := R.welford_down hm hx hc h
    rw [min_eq_right h, max_eq_left h]
    exact ⟨R.le_rnd hx (by linarith), R.rnd_le hm (by linarith)⟩

/-- The product that Welford adds to a variance is nonnegative. -/
theorem welford_prod_nonneg {m x c : ℝ} (hm : R.rnd m = m) (hx : R.rnd x = x) (hc : 2 ≤ c) :
    0 ≤ R.rnd (x - m) * R.rnd (R.rnd (x - R.rnd (m + R.rnd (R.rnd (x - m) / c))) / c) := by
  obtain ⟨a, b⟩ := R.welford_between hm hx hc
  have hc0 : (0 : ℝ) ≤ c := by linarith
  rcases le_total m x with h | h
  · rw [max_eq_right h] at b
    exact mul_nonneg (R.rnd_nonneg (by linarith)) (R.rnd_nonneg (div_nonneg (R.rnd_nonneg (by linarith)) hc0))
  · rw [min_eq_right h] at a
    exact mul_nonneg_of_nonpos_of_nonpos (R.rnd_nonpos (by linarith))
      (R.rnd_nonpos (div_nonpos_of_nonpos_of_nonneg (R.rnd_nonpos (by linarith)) hc0))

end Rounding

namespace Fl

variable {R : Rounding}

theorem rep (x : Fl R) : R.rnd x.val = x.val := x.2

@[ext] theorem ext {x y : Fl R} (h : x.val = y.val) : x = y := Subtype.ext h

@[simp] theorem val_zero : (0 : Fl R).val = 0 := rfl
@[simp] theorem val_one : (1 : Fl R).val = 1 := rfl
@[simp] theorem val_two : (2 : Fl R).val = 2 := rfl
theorem val_add (x y : Fl R) : (x + y).val = R.rnd (x.val + y.val) := rfl
theorem val_sub (x y : Fl R) : (x - y).val = R.rnd (x.val - y.val) := rfl
theorem val_mul (x y : Fl R) : (x * y).val = R.rnd (x.val * y.val) := rfl
theorem val_div (x y : Fl R) : (x / y).val = R.rnd (x.val / y.val) := rfl
theorem val_nat (n : ℕ) : (n : Fl R).val = R.rnd n := rfl
theorem le_def (x y : Fl R) : x ≤ y ↔ x.val ≤ y.val := Iff.rfl

end Fl

end Precise
