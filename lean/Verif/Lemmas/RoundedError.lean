import Verif.Lemmas.RoundedArith

/-! One-step rounding error of the Welford and of the exponential updates. -/

set_option linter.all false

namespace Precise.Rounding

variable (R : Rounding)

theorem prod_err {a α b β A B ε η : ℝ} (h1 : |a - α| ≤ ε) (h2 : |b - β| ≤ η) (h3 : |a| ≤ A) (h4 : |β| ≤ B) :
    |a * b - α * β| ≤ A * η + B * ε := by
  have e : a * b - α * β = a * (b - β) + β * (a - α) := by ring
  rw [e]
  refine (abs_add_le _ _).trans (add_le_add ?_ ?_)
  · rw [abs_mul]; exact mul_le_mul h3 h2 (abs_nonneg _) ((abs_nonneg _).trans h3)
  · rw [abs_mul]; exact mul_le_mul h4 h1 (abs_nonneg _) ((abs_nonneg _).trans h4)

theorem sub_err_le {x y X : ℝ} (hx : R.rnd x = x) (hy : R.rnd y = y) (h : |x - y| ≤ X) :
    |R.rnd (x - y) - (x - y)| ≤ R.u * X := (R.sub_err hx hy).trans (mul_le_mul_of_nonneg_left h R.u_nonneg)

/-- One exponential blend in floats against the exact one. -/
theorem blend_err {r m T y Y e f M N : ℝ} (hr : R.rnd r = r) (h0 : 0 ≤ r) (h1 : r ≤ 1) (hm : |m - T| ≤ e) (hT : |T| ≤ M)
    (hy : |y - Y| ≤ f) (hN : |y| ≤ N) :
    |R.rnd (R.rnd (R.rnd (1 - r) * m) + R.rnd (r * y)) - ((1 - r) * T + r * Y)|
      ≤ (1 - r) * (1 + 4 * R.u) * e + r * f + 4 * R.u * ((1 - r) * M + r * N + R.tiny) := by
  have hu0 := R.u_nonneg
  have hu := R.u_le
  have hl := R.tiny_nonneg
  have hq := R.sub_err R.rnd_one hr
  rw [abs_of_nonneg (by linarith : (0:ℝ) ≤ 1 - r)] at hq
  have hq0 : 0 ≤ R.rnd (1 - r) := R.rnd_nonneg (by linarith)
  set q := R.rnd (1 - r) with hqd
  have hq1 : q ≤ (1 + R.u) * (1 - r) := by have := (abs_le.1 hq).2; linarith
  have he : 0 ≤ e := (abs_nonneg _).trans hm
  have hM0 : 0 ≤ M := (abs_nonneg _).trans hT
  have hN0 : 0 ≤ N := (abs_nonneg _).trans hN
  have hμ : |m| ≤ M + e := by
    have : m = T + (m - T) := by ring
    rw [this]; exact (abs_add_le _ _).trans (add_le_add hT hm)
  set μ := M + e with hμd
  have hμ0 : 0 ≤ μ := by positivity
  set A := (1 - r) * μ with hA
  set B := r * N with hB
  have hA0 : 0 ≤ A := mul_nonneg (by linarith) hμ0
  have hB0 : 0 ≤ B := mul_nonneg h0 hN0
  have hqm : |q * m| ≤ (1 + R.u) * A := by
    rw [abs_mul, abs_of_nonneg hq0]
    calc q * |m| ≤ ((1 + R.u) * (1 - r)) * μ := mul_le_mul hq1 hμ (abs_nonneg _) (mul_nonneg (by linarith) (by linarith))
      _ = _ := by rw [hA]; ring
  have hry : |r * y| ≤ B := by rw [abs_mul, abs_of_nonneg h0]; exact mul_le_mul_of_nonneg_left hN h0
  have ha := R.err_le hqm
  have hb := R.err_le hry
  set a := R.rnd (q * m)
  set b := R.rnd (r * y)
  have ha1 : |a| ≤ (1 + R.u) * A + R.u * ((1 + R.u) * A + R.tiny) := by
    rw [show a = q * m + (a - q * m) by ring]; exact (abs_add_le _ _).trans (add_le_add hqm ha)
  have hb1 : |b| ≤ B + R.u * (B + R.tiny) := by
    rw [show b = r * y + (b - r * y) by ring]; exact (abs_add_le _ _).trans (add_le_add hry hb)
  have hab : |a + b| ≤ ((1 + R.u) * A + R.u * ((1 + R.u) * A + R.tiny)) + (B + R.u * (B + R.tiny)) :=
    (abs_add_le _ _).trans (add_le_add ha1 hb1)
  have hs := R.err_le hab
  set s := R.rnd (a + b)
  have h3 : |(q - (1 - r)) * m| ≤ R.u * A := by
    rw [abs_mul]
    calc |q - (1 - r)| * |m| ≤ (R.u * (1 - r)) * μ := mul_le_mul hq hμ (abs_nonneg _) (mul_nonneg hu0 (by linarith))
      _ = _ := by rw [hA]; ring
  have h4 : |(1 - r) * (m - T)| ≤ (1 - r) * e := by
    rw [abs_mul, abs_of_nonneg (by linarith : (0:ℝ) ≤ 1 - r)]; exact mul_le_mul_of_nonneg_left hm (by linarith)
  have h5 : |r * (y - Y)| ≤ r * f := by
    rw [abs_mul, abs_of_nonneg h0]; exact mul_le_mul_of_nonneg_left hy h0
  have e1 : s - ((1 - r) * T + r * Y)
      = (s - (a + b)) + ((a - q * m) + ((q - (1 - r)) * m + ((1 - r) * (m - T) + ((b - r * y) + r * (y - Y))))) := by ring
  rw [e1]
  refine (abs_add_le _ _).trans ?_
  refine (add_le_add hs ((abs_add_le _ _).trans (add_le_add ha ((abs_add_le _ _).trans (add_le_add h3
    ((abs_add_le _ _).trans (add_le_add h4 ((abs_add_le _ _).trans (add_le_add hb h5))))))))).trans ?_
  have hAe : (1 - r) * M = A - (1 - r) * e := by rw [hA, hμd]; ring
  rw [hAe]
  have k1 : R.u * R.u ≤ R.u / 8 := by nlinarith
  have k2 : R.u * R.u * R.u ≤ R.u / 64 := by nlinarith
  have k3 : R.u * R.u * A ≤ R.u / 8 * A := mul_le_mul_of_nonneg_right k1 hA0
  have k4 : R.u * R.u * R.u * A ≤ R.u / 64 * A := mul_le_mul_of_nonneg_right k2 hA0
  have k5 : R.u * R.u * B ≤ R.u / 8 * B := mul_le_mul_of_nonneg_right k1 hB0
  have k6 : R.u * R.u * R.tiny ≤ R.u / 8 * R.tiny := mul_le_mul_of_nonneg_right k1 hl
  have p1 : 0 ≤ R.u * A := mul_nonneg hu0 hA0
  have p2 : 0 ≤ R.u * B := mul_nonneg hu0 hB0
  have p3 : 0 ≤ R.u * R.tiny := mul_nonneg hu0 hl
  clear_value A B q a b s
  linarith

/-- One Welford mean step in floats against the exact one. -/
theorem mean_err {m T x e M : ℝ} {c : ℕ} (hc : 2 ≤ c) (hc' : c ≤ R.maxInt) (hm : R.rnd m = m) (hx : R.rnd x = x)
    (hmM : |m| ≤ M) (hxM : |x| ≤ M) (he : |m - T| ≤ e) :
    |R.rnd (m + R.rnd (R.rnd (x - m) / R.rnd (c : ℝ))) - (T + (x - T) / (c : ℝ))|
      ≤ (1 - 1 / (c : ℝ)) * e + R.u * (M + 2 * R.tiny) + 5 * (R.u * M) / (c : ℝ) := by
  have hu0 := R.u_nonneg
  have hu := R.u_le
  have hl := R.tiny_nonneg
  have hM0 : 0 ≤ M := (abs_nonneg _).trans hxM
  rw [R.int_exact c hc']
  have hc2 : (2 : ℝ) ≤ c := by exact_mod_cast hc
  have hc0 : (0 : ℝ) < c := by linarith
  have hxm : |x - m| ≤ 2 * M := by
    rw [sub_eq_add_neg]; refine (abs_add_le _ _).trans ?_; rw [abs_neg]; linarith
  have hd := R.sub_err_le hx hm hxm
  set d := R.rnd (x - m) with hdd
  have hd1 : |d| ≤ 2 * M + R.u * (2 * M) := by
    rw [show d = (x - m) + (d - (x - m)) by ring]; exact (abs_add_le _ _).trans (add_le_add hxm hd)
  have hdc : |d / c| ≤ (2 * M + R.u * (2 * M)) / c := by
    rw [abs_div, abs_of_pos hc0]; exact div_le_div_of_nonneg_right hd1 hc0.le
  have hg := R.err_le hdc
  have hrange : |m + R.rnd (d / c)| ≤ M := by
    rw [abs_le] at hmM hxM ⊢
    rcases le_total m x with h | h
    · obtain ⟨a, b⟩ := R.welford_up hm hx hc2 h
      rw [← hdd] at a b; constructor <;> linarith
    · obtain ⟨a, b⟩ := R.welford_down hm hx hc2 h
      rw [← hdd] at a b; constructor <;> linarith
  have hs := R.err_le hrange
  set g := R.rnd (d / c)
  have h3 : |(d - (x - m)) / c| ≤ R.u * (2 * M) / c := by
    rw [abs_div, abs_of_pos hc0]; exact div_le_div_of_nonneg_right hd hc0.le
  have hone : 0 ≤ 1 - 1 / (c : ℝ) := by
    have : 1 / (c : ℝ) ≤ 1 := by rw [div_le_one hc0]; linarith
    linarith
  have h4 : |(1 - 1 / (c : ℝ)) * (m - T)| ≤ (1 - 1 / (c : ℝ)) * e := by
    rw [abs_mul, abs_of_nonneg hone]; exact mul_le_mul_of_nonneg_left he hone
  have e1 : R.rnd (m + g) - (T + (x - T) / c)
      = (R.rnd (m + g) - (m + g)) + ((g - d / c) + ((d - (x - m)) / c + (1 - 1 / (c : ℝ)) * (m - T))) := by
    field_simp; ring
  rw [e1]
  refine (abs_add_le _ _).trans ((add_le_add hs ((abs_add_le _ _).trans (add_le_add hg
    ((abs_add_le _ _).trans (add_le_add h3 h4))))).trans ?_)
  have k1 : R.u * R.u * M ≤ R.u * M / 8 := by
    have : R.u * (R.u * M) ≤ 1 / 8 * (R.u * M) := mul_le_mul_of_nonneg_right hu (mul_nonneg hu0 hM0)
    linarith
  have p : 0 ≤ R.u * M := mul_nonneg hu0 hM0
  have e2 : R.u * ((2 * M + R.u * (2 * M)) / c + R.tiny) + R.u * (2 * M) / c
      = R.u * R.tiny + (4 * (R.u * M) + 2 * (R.u * R.u * M)) / c := by field_simp; ring
  have k2 : (4 * (R.u * M) + 2 * (R.u * R.u * M)) / c ≤ 5 * (R.u * M) / c :=
    div_le_div_of_nonneg_right (by linarith) hc0.le
  linarith

/-- Difference of two numbers bounded by `M`, in floats, against the exact difference from a nearby centre. -/
theorem dev_err {m T x E M : ℝ} (hm : R.rnd m = m) (hx : R.rnd x = x) (hmM : |m| ≤ M) (hxM : |x| ≤ M) (he : |m - T| ≤ E) :
    |R.rnd (x - m) - (x - T)| ≤ R.u * (2 * M) + E ∧ |R.rnd (x - m)| ≤ 9 / 4 * M := by
  have hxm : |x - m| ≤ 2 * M := by
    rw [sub_eq_add_neg]; refine (abs_add_le _ _).trans ?_; rw [abs_neg]; linarith
  have hM0 : 0 ≤ M := (abs_nonneg _).trans hxM
  have hd := R.sub_err_le hx hm hxm
  constructor
  · rw [show R.rnd (x - m) - (x - T) = (R.rnd (x - m) - (x - m)) + -(m - T) by ring]
    refine (abs_add_le _ _).trans (add_le_add hd ?_); rwa [abs_neg]
  · rw [show R.rnd (x - m) = (x - m) + (R.rnd (x - m) - (x - m)) by ring]
    refine ((abs_add_le _ _).trans (add_le_add hxm hd)).trans ?_
    have := mul_le_mul_of_nonneg_right R.u_le (by positivity : (0:ℝ) ≤ 2 * M)
    linarith

/-- One Welford covariance step in floats against the exact one. -/
theorem cov_err {c C xi xj mi Ti mj Tj e E M : ℝ} {n : ℕ} (hn : 2 ≤ n) (hn' : n ≤ R.maxInt)
    (rxi : R.rnd xi = xi) (rxj : R.rnd xj = xj) (rmi : R.rnd mi = mi) (rmj : R.rnd mj = mj)
    (bxi : |xi| ≤ M) (bxj : |xj| ≤ M) (bmi : |mi| ≤ M) (bmj : |mj| ≤ M) (bTj : |Tj| ≤ M)
    (hi : |mi - Ti| ≤ E) (hj : |mj - Tj| ≤ E) (hc : |c - C| ≤ e) (hC : |C| ≤ 4 * (M * M))
    (hl1 : R.tiny ≤ M) (hl2 : R.tiny ≤ M * M) :
    |R.rnd (R.rnd (R.rnd (c * R.rnd ((n - 1 : ℕ) : ℝ)) / R.rnd (n : ℝ)) + R.rnd (R.rnd (xi - mi) * R.rnd (R.rnd (xj - mj) / R.rnd (n : ℝ))))
        - (C * ((n - 1 : ℕ) : ℝ) / (n : ℝ) + (xi - Ti) * ((xj - Tj) / (n : ℝ)))|
      ≤ (1 - 1 / (n : ℝ)) * (1 + 4 * R.u) * e + 33 * (R.u * (M * M)) + (17 * (R.u * (M * M)) + 5 * (M * E)) / (n : ℝ) := by
  have hu0 := R.u_nonneg
  have hu := R.u_le
  have hl := R.tiny_nonneg
  have hM0 : 0 ≤ M := (abs_nonneg _).trans bxi
  rw [R.int_exact n hn', R.int_exact (n - 1) (by omega)]
  have hn2 : (2 : ℝ) ≤ n := by exact_mod_cast hn
  have hn0 : (0 : ℝ) < n := by linarith
  have hk : ((n - 1 : ℕ) : ℝ) = (n : ℝ) - 1 := by rw [Nat.cast_sub (by omega)]; simp
  rw [hk]
  set k : ℝ := (n : ℝ) - 1 with hkd
  have hk0 : 0 ≤ k := by rw [hkd]; linarith
  set ν : ℝ := 1 / (n : ℝ) with hν
  have hν0 : 0 ≤ ν := by rw [hν]; positivity
  have hν2 : ν ≤ 1 / 2 := by rw [hν, div_le_div_iff₀ hn0 (by norm_num)]; linarith
  have hdiv : ∀ y : ℝ, y / (n : ℝ) = y * ν := fun y => by rw [hν]; ring
  have hs : k * ν = 1 - ν := by rw [hkd, hν]; field_simp
  have he0 : 0 ≤ e := (abs_nonneg _).trans hc
  have hE0 : 0 ≤ E := (abs_nonneg _).trans hi
  set B := M * M with hB
  have hB0 : 0 ≤ B := mul_nonneg hM0 hM0
  -- the scaled old entry
  have hcκ : |c| ≤ 4 * B + e := by
    rw [show c = C + (c - C) by ring]; exact (abs_add_le _ _).trans (add_le_add hC hc)
  set κ := 4 * B + e with hκ
  have hκ0 : 0 ≤ κ := by positivity
  have hck : |c * k| ≤ κ * k := by rw [abs_mul, abs_of_nonneg hk0]; exact mul_le_mul_of_nonneg_right hcκ hk0
  have ha := R.err_le hck
  set a := R.rnd (c * k)
  have ha1 : |a| ≤ κ * k + R.u * (κ * k + R.tiny) := by
    rw [show a = c * k + (a - c * k) by ring]; exact (abs_add_le _ _).trans (add_le_add hck ha)
  have ha2 : |a * ν| ≤ (κ * k + R.u * (κ * k + R.tiny)) * ν := by
    rw [abs_mul, abs_of_nonneg hν0]; exact mul_le_mul_of_nonneg_right ha1 hν0
  simp only [hdiv]
  have hb := R.err_le ha2
  set b := R.rnd (a * ν)
  have hb1 : |b| ≤ (κ * k + R.u * (κ * k + R.tiny)) * ν + R.u * ((κ * k + R.u * (κ * k + R.tiny)) * ν + R.tiny) := by
    rw [show b = a * ν + (b - a * ν) by ring]; exact (abs_add_le _ _).trans (add_le_add ha2 hb)
  -- the new product
  obtain ⟨hd, hd1⟩ := R.dev_err rmi rxi bmi bxi hi
  obtain ⟨hz, hz1⟩ := R.dev_err rmj rxj bmj bxj hj
  set d := R.rnd (xi - mi)
  set z := R.rnd (xj - mj)
  have hzν : |z * ν| ≤ 9 / 4 * M * ν := by rw [abs_mul, abs_of_nonneg hν0]; exact mul_le_mul_of_nonneg_right hz1 hν0
  have hw := R.err_le hzν
  set w := R.rnd (z * ν)
  have hw1 : |w - (xj - Tj) * ν| ≤ R.u * (9 / 4 * M * ν + R.tiny) + (R.u * (2 * M) + E) * ν := by
    rw [show w - (xj - Tj) * ν = (w - z * ν) + (z - (xj - Tj)) * ν by ring]
    refine (abs_add_le _ _).trans (add_le_add hw ?_)
    rw [abs_mul, abs_of_nonneg hν0]; exact mul_le_mul_of_nonneg_right hz hν0
  have hw2 : |w| ≤ 3 / 2 * M := by
    rw [show w = z * ν + (w - z * ν) by ring]
    refine ((abs_add_le _ _).trans (add_le_add hzν hw)).trans ?_
    have h1 : M * ν ≤ M * (1 / 2) := mul_le_mul_of_nonneg_left hν2 hM0
    have h2 : R.u * (9 / 4 * M * ν + R.tiny) ≤ 1 / 8 * (9 / 4 * M * ν + R.tiny) :=
      mul_le_mul_of_nonneg_right hu (by positivity)
    linarith
  have hω : |(xj - Tj) * ν| ≤ 2 * M * ν := by
    rw [abs_mul, abs_of_nonneg hν0]
    refine mul_le_mul_of_nonneg_right ?_ hν0
    rw [sub_eq_add_neg]; refine (abs_add_le _ _).trans ?_; rw [abs_neg]; linarith
  have hp := prod_err hd hw1 hd1 hω
  have hdw : |d * w| ≤ 4 * B := by
    rw [abs_mul]
    refine (mul_le_mul hd1 hw2 (abs_nonneg _) (by positivity)).trans ?_
    have : 9 / 4 * M * (3 / 2 * M) = 27 / 8 * B := by rw [hB]; ring
    rw [this]; linarith
  have hP := R.err_le hdw
  set P := R.rnd (d * w)
  have hP1 : |P| ≤ 4 * B + R.u * (4 * B + R.tiny) := by
    rw [show P = d * w + (P - d * w) by ring]; exact (abs_add_le _ _).trans (add_le_add hdw hP)
  have hsum := R.err_le ((abs_add_le b P).trans (add_le_add hb1 hP1))
  have h4 : |(c - C) * k * ν| ≤ (1 - ν) * e := by
    rw [mul_assoc, hs, abs_mul, abs_of_nonneg (by linarith : (0:ℝ) ≤ 1 - ν), mul_comm]
    exact mul_le_mul_of_nonneg_left hc (by linarith)
  have ha3 : |(a - c * k) * ν| ≤ R.u * (κ * k + R.tiny) * ν := by
    rw [abs_mul, abs_of_nonneg hν0]; exact mul_le_mul_of_nonneg_right ha hν0
  have e1 : R.rnd (b + P) - (C * k * ν + (xi - Ti) * ((xj - Tj) * ν))
      = (R.rnd (b + P) - (b + P)) + ((b - a * ν) + ((a - c * k) * ν + ((c - C) * k * ν + ((P - d * w)
        + (d * w - (xi - Ti) * ((xj - Tj) * ν)))))) := by ring
  rw [e1]
  refine (abs_add_le _ _).trans ((add_le_add hsum ((abs_add_le _ _).trans (add_le_add hb ((abs_add_le _ _).trans (add_le_add ha3
    ((abs_add_le _ _).trans (add_le_add h4 ((abs_add_le _ _).trans (add_le_add hP hp))))))))).trans ?_)
  have hkν : κ * k * ν = κ * (1 - ν) := by rw [mul_assoc, hs]
  clear_value a b d z w P κ B k ν
  set σ := κ * (1 - ν) with hσ
  have hσ0 : 0 ≤ σ := mul_nonneg hκ0 (by linarith)
  -- rewrite everything in the monomials σ, B, λ
  have q1 : (κ * k + R.u * (κ * k + R.tiny)) * ν = σ + R.u * σ + R.u * (R.tiny * ν) := by
    linear_combination (1 + R.u) * hkν
  have q2 : R.u * (κ * k + R.tiny) * ν = R.u * σ + R.u * (R.tiny * ν) := by linear_combination R.u * hkν
  rw [q1, q2]
  have t1 : R.tiny * ν ≤ B * (1 / 2) := mul_le_mul hl2 hν2 hν0 hB0
  have t1' : 0 ≤ R.tiny * ν := mul_nonneg hl hν0
  have uu : R.u * R.u ≤ 1 / 8 * R.u := mul_le_mul_of_nonneg_right hu hu0
  have uuu : R.u * R.u * R.u ≤ 1 / 64 * R.u := by
    have := mul_le_mul_of_nonneg_right uu hu0
    linarith only [this, uu]
  have s1 : R.u * R.u * σ ≤ 1 / 8 * R.u * σ := mul_le_mul_of_nonneg_right uu hσ0
  have s2 : R.u * R.u * R.u * σ ≤ 1 / 64 * R.u * σ := mul_le_mul_of_nonneg_right uuu hσ0
  have uB : 0 ≤ R.u * B := mul_nonneg hu0 hB0
  have uσ : 0 ≤ R.u * σ := mul_nonneg hu0 hσ0
  have s3 : R.u * (R.tiny * ν) ≤ R.u * (B * (1 / 2)) := mul_le_mul_of_nonneg_left t1 hu0
  have s3' : 0 ≤ R.u * (R.tiny * ν) := mul_nonneg hu0 t1'
  have s4 : R.u * R.u * (R.tiny * ν) ≤ 1 / 8 * R.u * (R.tiny * ν) := mul_le_mul_of_nonneg_right uu t1'
  have s5 : R.u * R.tiny ≤ R.u * B := mul_le_mul_of_nonneg_left hl2 hu0
  have s6 : R.u * R.u * B ≤ 1 / 8 * R.u * B := mul_le_mul_of_nonneg_right uu hB0
  have s7 : R.u * R.u * R.tiny ≤ 1 / 8 * R.u * R.tiny := mul_le_mul_of_nonneg_right uu hl
  have s8 : M * R.tiny ≤ B := by rw [hB]; exact mul_le_mul_of_nonneg_left hl1 hM0
  have s9 : R.u * (M * R.tiny) ≤ R.u * B := mul_le_mul_of_nonneg_left s8 hu0
  have s10 : R.u * R.u * R.u * (R.tiny * ν) ≤ 1 / 64 * R.u * (R.tiny * ν) := mul_le_mul_of_nonneg_right uuu t1'
  have q3 : 9 / 4 * M * (R.u * (9 / 4 * M * ν + R.tiny) + (R.u * (2 * M) + E) * ν) + 2 * M * ν * (R.u * (2 * M) + E)
      = (81 / 16 + 9 / 2 + 4) * (R.u * B) * ν + 9 / 4 * (R.u * (M * R.tiny)) + 17 / 4 * (M * E) * ν := by rw [hB]; ring
  rw [q3]
  have hME : 0 ≤ M * E * ν := mul_nonneg (mul_nonneg hM0 hE0) hν0
  have uBν : 0 ≤ R.u * B * ν := mul_nonneg uB hν0
  have q4 : (1 - ν) * (1 + 4 * R.u) * e = (1 - ν) * e + 4 * (R.u * σ) - 16 * (R.u * B) + 16 * (R.u * B * ν) := by
    rw [hσ, hκ]; ring
  rw [q4]
  clear_value σ
  linarith only [s1, s2, s3, s3', s4, s5, s6, s7, s9, s10, uB, uσ, hME, uBν]

end Precise.Rounding
