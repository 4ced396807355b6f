import Verif.Props.Dynamic
import Verif.Props.Conditional
import Verif.Props.Ewa
import Verif.Props.Diagonal
import Verif.Lemmas.EwaClosed
import Verif.Lemmas.Bounded

/-!
# C102: DCCCovariance and the EWMA/EWMA ConditionalCovariance

README.md:84 and `conditional.py:13` present `DCCCovariance(r)` as the special case `ConditionalCovariance(EwaCovariance(r),
EwaCovariance(r))`. The locations agree; nothing else does.
-/

set_option linter.all false

namespace Precise

open Spec Matrix Obj

variable {ι : Type} [Fintype ι]

/-! ## Quadratic forms of the EWA covariance -/

/-- One observation, along a fixed direction. -/
theorem exact_step (r : ℝ) (b : ℕ) (u : ι → ℝ) (xs : List (ι → ℝ)) (x : ι → ℝ) :
    (xs.length < b →
      u ⬝ᵥ (ewaExact r b (xs ++ [x])).mean = (1 - 1 / ((xs.length : ℝ) + 1)) * (u ⬝ᵥ (ewaExact r b xs).mean) + 1 / ((xs.length : ℝ) + 1) * (u ⬝ᵥ x) ∧
      quad (ewaExact r b (xs ++ [x])).cov u = (xs.length : ℝ) / (xs.length + 1) * quad (ewaExact r b xs).cov u
        + (xs.length : ℝ) / (xs.length + 1) ^ 2 * (u ⬝ᵥ x - u ⬝ᵥ (ewaExact r b xs).mean) ^ 2) ∧
    (b ≤ xs.length →
      u ⬝ᵥ (ewaExact r b (xs ++ [x])).mean = (1 - r) * (u ⬝ᵥ (ewaExact r b xs).mean) + r * (u ⬝ᵥ x) ∧
      quad (ewaExact r b (xs ++ [x])).cov u = (1 - r) * quad (ewaExact r b xs).cov u
        + r * (u ⬝ᵥ x - u ⬝ᵥ (ewaExact r b xs).mean) ^ 2) := by
  obtain ⟨h1, h2, h3⟩ := ewaExact_const r b xs
  constructor
  · intro h
    rw [ewaExact_snoc, ewaUpdate_burn (by rw [h2, h3]; exact h), empUpdate_cov, empUpdate_mean, h3]
    constructor
    · have e : (fun i => (1 - 1 / ((xs.length : ℝ) + 1)) * (ewaExact r b xs).mean i + 1 / ((xs.length : ℝ) + 1) * x i)
          = (1 - 1 / ((xs.length : ℝ) + 1)) • (ewaExact r b xs).mean + (1 / ((xs.length : ℝ) + 1)) • x := by ext i; simp
      rw [e, dotProduct_add, dotProduct_smul, dotProduct_smul, smul_eq_mul, smul_eq_mul]
    · rw [quad_add, quad_smul, quad_smul, quad_outer, dotProduct_comm (x - _) u, dotProduct_sub]; ring
  · intro h
    rw [ewaExact_tail r b xs x h]
    simp only [ewaBlend]
    constructor
    · have e : (fun i => (1 - r) * (ewaExact r b xs).mean i + r * x i) = (1 - r) • (ewaExact r b xs).mean + r • x := by ext i; simp
      rw [e, dotProduct_add, dotProduct_smul, dotProduct_smul, smul_eq_mul, smul_eq_mul]
    · have e : (fun i => x i - (ewaExact r b xs).mean i) = x - (ewaExact r b xs).mean := rfl
      rw [e, quad_add, quad_smul, quad_smul, quad_outer, dotProduct_comm (x - _) u, dotProduct_sub]; ring

/-- If a combination of the coordinates stays within `η` of zero, its EWA variance is at most `4η²`. -/
theorem exact_upper {r : ℝ} (h0 : 0 ≤ r) (h1 : r ≤ 1) (b : ℕ) (u : ι → ℝ) {η : ℝ} (hη : 0 ≤ η) (xs : List (ι → ℝ)) (hx : ∀ x ∈ xs, |u ⬝ᵥ x| ≤ η) :
    |u ⬝ᵥ (ewaExact r b xs).mean| ≤ η ∧ quad (ewaExact r b xs).cov u ≤ 4 * η ^ 2 := by
  induction xs using List.reverseRecOn with
  | nil =>
    have e1 : (ewaExact r b ([] : List (ι → ℝ))).mean = 0 := rfl
    have e2 : (ewaExact r b ([] : List (ι → ℝ))).cov = 0 := rfl
    rw [e1, e2]
    simp [quad]
    exact ⟨hη, by positivity⟩
  | append_singleton xs x ih =>
    obtain ⟨i1, i2⟩ := ih fun y hy => hx y (by simp [hy])
    have hxx := hx x (by simp)
    have hd : (u ⬝ᵥ x - u ⬝ᵥ (ewaExact r b xs).mean) ^ 2 ≤ 4 * η ^ 2 := by
      have := dev_sq hxx i1; nlinarith
    by_cases hb : xs.length < b
    · obtain ⟨e1, e2⟩ := (exact_step r b u xs x).1 hb
      have hn : (0:ℝ) ≤ (xs.length : ℝ) := Nat.cast_nonneg _
      rw [e1, e2]
      refine ⟨abs_mix (by positivity) (by rw [div_le_one (by positivity)]; linarith) i1 hxx, ?_⟩
      generalize (xs.length : ℝ) = n at *
      have a1 : n / (n + 1) * quad (ewaExact r b xs).cov u ≤ n / (n + 1) * (4 * η ^ 2) := mul_le_mul_of_nonneg_left i2 (by positivity)
      have a2 : n / (n + 1) ^ 2 * (u ⬝ᵥ x - u ⬝ᵥ (ewaExact r b xs).mean) ^ 2 ≤ n / (n + 1) ^ 2 * (4 * η ^ 2) :=
        mul_le_mul_of_nonneg_left hd (by positivity)
      have a3 : n / (n + 1) + n / (n + 1) ^ 2 ≤ 1 := by
        have : n / (n + 1) + n / (n + 1) ^ 2 = 1 - 1 / (n + 1) ^ 2 := by field_simp; ring
        rw [this]; have : (0:ℝ) ≤ 1 / (n + 1) ^ 2 := by positivity
        linarith
      have := mul_le_mul_of_nonneg_right a3 (by positivity : (0:ℝ) ≤ 4 * η ^ 2)
      nlinarith
    · obtain ⟨e1, e2⟩ := (exact_step r b u xs x).2 (by omega)
      rw [e1, e2]
      exact ⟨abs_mix h0 h1 i1 hxx, le_mix h0 h1 i2 hd⟩

/-- What the first two observations leave in the EWA variance of a combination of the coordinates. -/
theorem exact_lower {r : ℝ} (h0 : 0 ≤ r) (h1 : r ≤ 1) (b : ℕ) (hb : 2 ≤ b) (u x y : ι → ℝ) (zs : List (ι → ℝ)) :
    (1 - r) ^ (zs.length + 2 - b) / (2 * (min (zs.length + 2) b : ℕ)) * (u ⬝ᵥ y - u ⬝ᵥ x) ^ 2
      ≤ quad (ewaExact r b (x :: y :: zs)).cov u := by
  induction zs using List.reverseRecOn with
  | nil =>
    have e0 : (x :: y :: ([] : List (ι → ℝ))) = [x] ++ [y] := rfl
    have e1 : ([x] : List (ι → ℝ)) = [] ++ [x] := rfl
    have f0 := (exact_step r b u [x] y).1 (by simp; omega)
    have f1 := (exact_step r b u [] x).1 (by simp; omega)
    rw [← e1] at f1
    have q0 : quad (ewaExact r b ([] : List (ι → ℝ))).cov u = 0 := by
      show quad (0 : Matrix ι ι ℝ) u = 0
      simp [quad]
    rw [e0, f0.2, f1.1, f1.2, q0]
    rw [min_eq_left (by simpa using hb)]
    have : ([] : List (ι → ℝ)).length + 2 - b = 0 := by simp; omega
    rw [this]
    simp
    norm_num
  | append_singleton zs z ih =>
    have e0 : x :: y :: (zs ++ [z]) = (x :: y :: zs) ++ [z] := by simp
    have hl : (x :: y :: zs).length = zs.length + 2 := by simp
    rw [e0]
    by_cases hn : zs.length + 2 < b
    · rw [((exact_step r b u (x :: y :: zs) z).1 (by rw [hl]; exact hn)).2, hl]
      rw [List.length_append, List.length_singleton, min_eq_left (by omega), show zs.length + 1 + 2 - b = 0 by omega]
      rw [min_eq_left (by omega), show zs.length + 2 - b = 0 by omega] at ih
      have a2 : (0:ℝ) ≤ ((zs.length + 2 : ℕ) : ℝ) / ((zs.length + 2 : ℕ) + 1) ^ 2 * (u ⬝ᵥ z - u ⬝ᵥ (ewaExact r b (x :: y :: zs)).mean) ^ 2 := by positivity
      have a1 := mul_le_mul_of_nonneg_left ih (by positivity : (0:ℝ) ≤ ((zs.length + 2 : ℕ) : ℝ) / ((zs.length + 2 : ℕ) + 1))
      refine le_trans ?_ (le_add_of_nonneg_right a2)
      refine le_trans (le_of_eq ?_) a1
      push_cast
      field_simp
      ring
    · rw [((exact_step r b u (x :: y :: zs) z).2 (by rw [hl]; omega)).2]
      rw [List.length_append, List.length_singleton, min_eq_right (by omega), show zs.length + 1 + 2 - b = (zs.length + 2 - b) + 1 by omega]
      rw [min_eq_right (by omega)] at ih
      have a2 : (0:ℝ) ≤ r * (u ⬝ᵥ z - u ⬝ᵥ (ewaExact r b (x :: y :: zs)).mean) ^ 2 := by positivity
      have a1 := mul_le_mul_of_nonneg_left ih (by linarith : (0:ℝ) ≤ 1 - r)
      refine le_trans ?_ (le_add_of_nonneg_right a2)
      refine le_trans (le_of_eq ?_) a1
      rw [pow_succ]; ring

/-- The bound: how far the correlation estimated from residuals whose second row is at least `U` and whose other rows are at most
`M` can be from `±1`. -/
noncomputable def slack (r : ℝ) (b n : ℕ) (M U : ℝ) : ℝ := (16 * M ^ 2 + 2 / 10 ^ 12) * (min n b : ℕ) / ((1 - r) ^ (n - b) * (U - M) ^ 2)

omit [Fintype ι] in
theorem mul_single_dot [Fintype ι] [DecidableEq ι] (i : ι) (a : ℝ) (x : ι → ℝ) : (Pi.single i a : ι → ℝ) ⬝ᵥ x = a * x i := by
  simp [dotProduct, Pi.single_apply]

theorem quad_two [DecidableEq ι] {c : Matrix ι ι ℝ} (hc : Symm c) (i j : ι) (a b : ℝ) :
    quad c (Pi.single i a + Pi.single j b) = a ^ 2 * c i i + b ^ 2 * c j j + 2 * (a * b * c i j) := by
  have e : quad c (Pi.single i a + Pi.single j b) = (Pi.single i a + Pi.single j b : ι → ℝ) ⬝ᵥ (c *ᵥ (Pi.single i a + Pi.single j b)) := rfl
  rw [e, add_dotProduct, mul_single_dot, mul_single_dot, mulVec_add]
  simp only [Pi.add_apply, Matrix.mulVec, dotProduct, Pi.single_apply]
  simp only [mul_ite, mul_zero, Finset.sum_ite_eq', Finset.mem_univ, if_true]
  rw [hc j i]; ring

/-- The algebra of the bound. -/
theorem corr_slack {c1 c2 d u v lam M U : ℝ} (hM : 0 ≤ M) (hMU : M < U) (hu : U ≤ |u|) (hv : U ≤ |v|) (hlam : 0 < lam)
    (h1 : lam * (1 - M / U) ^ 2 ≤ (1 / u) ^ 2 * c1) (h2 : lam * (1 - M / U) ^ 2 ≤ (1 / v) ^ 2 * c2)
    (h3 : (1 / u) ^ 2 * c1 + (1 / v) ^ 2 * c2 - 2 * (1 / u * (1 / v) * d) ≤ 16 * M ^ 2 / U ^ 2) (huv : 0 < u * v) :
    1 - (8 * M ^ 2 + EPS) / (lam * (U - M) ^ 2) ≤ d / (Real.sqrt (c2 * c1) + EPS) := by
  have hU : 0 < U := lt_of_le_of_lt hM hMU
  have hE : (0:ℝ) < EPS := by unfold EPS; positivity
  have hk : 0 < (1 - M / U) ^ 2 := by
    have : M / U < 1 := (div_lt_one hU).2 hMU
    have : 0 < 1 - M / U := by linarith
    positivity
  have hu0 : u ≠ 0 := by rintro rfl; simp at huv
  have hv0 : v ≠ 0 := by rintro rfl; simp at huv
  set a := (1 / u) ^ 2 * c1 with ha
  set b := (1 / v) ^ 2 * c2 with hb
  set l := lam * (1 - M / U) ^ 2 with hl
  have hl0 : 0 < l := mul_pos hlam hk
  have ha0 : 0 < a := lt_of_lt_of_le hl0 h1
  have hb0 : 0 < b := lt_of_lt_of_le hl0 h2
  have ec1 : c1 = u ^ 2 * a := by rw [ha]; field_simp
  have ec2 : c2 = v ^ 2 * b := by rw [hb]; field_simp
  have hs : Real.sqrt (c2 * c1) = u * v * Real.sqrt (a * b) := by
    rw [ec1, ec2, show v ^ 2 * b * (u ^ 2 * a) = (u * v) ^ 2 * (a * b) by ring, Real.sqrt_mul (by positivity), Real.sqrt_sq huv.le]
  have hq : l ≤ Real.sqrt (a * b) := by
    apply Real.le_sqrt_of_sq_le
    nlinarith
  have hamgm : 2 * Real.sqrt (a * b) ≤ a + b := by
    have h := Real.sq_sqrt (mul_pos ha0 hb0).le
    nlinarith [sq_nonneg (a - b), Real.sqrt_nonneg (a * b), sq_nonneg (a + b - 2 * Real.sqrt (a * b))]
  set q := Real.sqrt (a * b) with hqd
  have hq0 : 0 < q := lt_of_lt_of_le hl0 hq
  have hd : u * v * (q - 8 * M ^ 2 / U ^ 2) ≤ d := by
    have : q - 8 * M ^ 2 / U ^ 2 ≤ 1 / u * (1 / v) * d := by
      have : (16:ℝ) * M ^ 2 / U ^ 2 = 2 * (8 * M ^ 2 / U ^ 2) := by ring
      linarith
    have := mul_le_mul_of_nonneg_left this huv.le
    refine this.trans (le_of_eq ?_)
    field_simp
  rw [hs]
  have hU2 : U ^ 2 ≤ u * v := by
    have : u * v = |u| * |v| := by rw [← abs_mul, abs_of_pos huv]
    rw [this, pow_two]
    exact mul_le_mul hu hv hU.le (abs_nonneg _)
  set P := u * v with hP
  have hden : 0 < P * q + EPS := by positivity
  rw [le_div_iff₀ hden]
  have hU2' : (0:ℝ) < U ^ 2 := by positivity
  have hlU : lam * (U - M) ^ 2 = l * U ^ 2 := by rw [hl]; field_simp
  rw [hlU]
  have key : (8 * M ^ 2 / U ^ 2) * P + EPS ≤ (8 * M ^ 2 + EPS) / (l * U ^ 2) * (P * q + EPS) := by
    have k1 : (8 * M ^ 2 / U ^ 2) * P + EPS ≤ (8 * M ^ 2 + EPS) / U ^ 2 * P := by
      have : EPS ≤ EPS / U ^ 2 * P := by
        rw [div_mul_eq_mul_div, le_div_iff₀ hU2']; exact mul_le_mul_of_nonneg_left hU2 hE.le
      have e : (8 * M ^ 2 + EPS) / U ^ 2 * P = (8 * M ^ 2 / U ^ 2) * P + EPS / U ^ 2 * P := by ring
      linarith
    have k2 : (8 * M ^ 2 + EPS) / (l * U ^ 2) * (P * l) = (8 * M ^ 2 + EPS) / U ^ 2 * P := by field_simp
    have k3 : (8 * M ^ 2 + EPS) / (l * U ^ 2) * (P * l) ≤ (8 * M ^ 2 + EPS) / (l * U ^ 2) * (P * q + EPS) := by
      apply mul_le_mul_of_nonneg_left _ (by positivity)
      have := mul_le_mul_of_nonneg_left hq huv.le
      linarith
    linarith
  nlinarith

/-- Residuals whose second row dwarfs the others: the EWA correlation has the sign of the second row's product and is close to
`±1`. -/
theorem corr_dominated [DecidableEq ι] {r : ℝ} (h0 : 0 ≤ r) (h1 : r < 1) (b : ℕ) (hb : 2 ≤ b) (x y : ι → ℝ) (zs : List (ι → ℝ)) (i j : ι)
    {M U : ℝ} (hM : 0 ≤ M) (hMU : M < U) (hui : U ≤ |y i|) (huj : U ≤ |y j|)
    (hx : ∀ e ∈ x :: zs, |e i| ≤ M ∧ |e j| ≤ M) :
    let c := (ewaExact r b (x :: y :: zs)).cov
    (0 < y i * y j → 1 - slack r b (zs.length + 2) M U ≤ covToCorr c i j) ∧
    (y i * y j < 0 → covToCorr c i j ≤ -(1 - slack r b (zs.length + 2) M U)) := by
  intro c
  have hU : 0 < U := lt_of_le_of_lt hM hMU
  have hsym : Symm c := by
    intro a d
    have := recencyCov_eq r b (by omega) (x :: y :: zs) (by simp)
    have cm := covOf_comm (ι := ι)
    rw [show c a d = recencyCov r b (x :: y :: zs) a d from this a d, show c d a = recencyCov r b (x :: y :: zs) d a from this d a]
    simp only [recencyCov, Matrix.of_apply]
    rw [cm _ a d, cm _ a d]
    congr 2
    refine Finset.sum_congr rfl fun t _ => by ring
  have hpow : 0 < (1 - r) ^ (zs.length + 2 - b) := pow_pos (by linarith) _
  set lam : ℝ := (1 - r) ^ (zs.length + 2 - b) / (2 * (min (zs.length + 2) b : ℕ)) with hlam
  have hmin : (0:ℝ) < (min (zs.length + 2) b : ℕ) := by
    have : 0 < min (zs.length + 2) b := by omega
    exact_mod_cast this
  have hl0 : 0 < lam := by positivity
  have hrat : 0 ≤ M / U ∧ M / U < 1 := ⟨by positivity, (div_lt_one hU).2 hMU⟩
  -- each reciprocal-scaled coordinate keeps the weight of the second row
  have hlow : ∀ k : ι, U ≤ |y k| → |x k| ≤ M → lam * (1 - M / U) ^ 2 ≤ (1 / y k) ^ 2 * c k k := by
    intro k hk hxk
    have h := exact_lower h0 h1.le b hb (Pi.single k (1 / y k) : ι → ℝ) x y zs
    have hy0 : y k ≠ 0 := by
      intro h0; rw [h0, abs_zero] at hk; linarith
    rw [mul_single_dot, mul_single_dot, one_div_mul_cancel hy0] at h
    have e := quad_two hsym k k (1 / y k) 0
    simp only [Pi.single_zero, add_zero] at e
    rw [show (ewaExact r b (x :: y :: zs)).cov = c from rfl, e] at h
    refine le_trans ?_ (h.trans (le_of_eq (by ring)))
    apply mul_le_mul_of_nonneg_left _ hl0.le
    have hb' : |1 / y k * x k| ≤ M / U := by
      rw [abs_mul, abs_div, abs_one, one_div_mul_eq_div, div_le_div_iff₀ (by positivity) hU]
      nlinarith [abs_nonneg (x k)]
    have := (abs_le.1 hb').2
    apply pow_le_pow_left₀ (by linarith)
    linarith
  have hx0 := hx x (by simp)
  have hA := hlow i hui hx0.1
  have hB := hlow j huj hx0.2
  have hyi : y i ≠ 0 := by intro h; rw [h, abs_zero] at hui; linarith
  have hyj : y j ≠ 0 := by intro h; rw [h, abs_zero] at huj; linarith
  -- a combination that does not see the second row
  have hup : (1 / y i) ^ 2 * c i i + (1 / y j) ^ 2 * c j j - 2 * (1 / y i * (1 / y j) * c i j) ≤ 16 * M ^ 2 / U ^ 2 := by
    have h := (exact_upper h0 h1.le b (Pi.single i (1 / y i) + Pi.single j (-(1 / y j)) : ι → ℝ) (η := 2 * (M / U)) (by linarith [hrat.1])
      (x :: y :: zs) (by
        intro e he
        rw [add_dotProduct, mul_single_dot, mul_single_dot]
        have hcase : e = y ∨ e ∈ x :: zs := by
          simp only [List.mem_cons] at he ⊢
          tauto
        rcases hcase with rfl | hm
        · rw [one_div_mul_cancel hyi, neg_mul, one_div_mul_cancel hyj]
          simp; exact hrat.1
        · have hs : ∀ k : ι, U ≤ |y k| → |e k| ≤ M → |1 / y k * e k| ≤ M / U := by
            intro k hk hek
            rw [abs_mul, abs_div, abs_one, one_div_mul_eq_div, div_le_div_iff₀ (by linarith) hU]
            nlinarith [abs_nonneg (e k)]
          have h1 := hs i hui (hx e hm).1
          have h2 := hs j huj (hx e hm).2
          refine (abs_add_le _ _).trans ?_
          rw [neg_mul, abs_neg]
          linarith)).2
    rw [show (ewaExact r b (x :: y :: zs)).cov = c from rfl, quad_two hsym] at h
    have e1 : 4 * (2 * (M / U)) ^ 2 = 16 * M ^ 2 / U ^ 2 := by ring
    rw [e1] at h
    refine le_trans (le_of_eq ?_) h
    ring
  have hsl : slack r b (zs.length + 2) M U = (8 * M ^ 2 + EPS) / (lam * (U - M) ^ 2) := by
    have hne : U - M ≠ 0 := by intro h; linarith
    unfold slack EPS
    rw [hlam]
    field_simp
    ring
  rw [hsl]
  constructor
  · intro hp
    exact corr_slack hM hMU hui huj hl0 hA hB hup hp
  · intro hp
    have := corr_slack (c1 := c i i) (c2 := c j j) (d := - c i j) (u := y i) (v := - y j) hM hMU hui (by rwa [abs_neg]) hl0 hA
      (by rw [one_div, inv_neg, neg_sq, ← one_div]; exact hB)
      (by
        refine le_trans (le_of_eq ?_) hup
        rw [one_div_neg_eq_neg_one_div]; ring)
      (by nlinarith)
    unfold covToCorr
    simp only [Matrix.of_apply]
    rw [neg_div] at this
    linarith

/-! ## The EWMA volatility model -/

theorem quad_e [DecidableEq ι] (c : Matrix ι ι ℝ) (i : ι) : quad c (Pi.single i 1) = c i i := by
  have e : quad c (Pi.single i 1) = (Pi.single i 1 : ι → ℝ) ⬝ᵥ (c *ᵥ Pi.single i 1) := rfl
  rw [e, mul_single_dot, one_mul, Matrix.mulVec_single_one]; rfl

/-- An estimator run on one coordinate reports that coordinate of the estimator run on all. -/
theorem exact_coord (r : ℝ) (b : ℕ) (xs : List (ι → ℝ)) (i : ι) :
    (ewaExact r b ((xs.map fun x => x i).map fun y (_ : Fin 1) => y)).mean 0 = (ewaExact r b xs).mean i ∧
    (ewaExact r b ((xs.map fun x => x i).map fun y (_ : Fin 1) => y)).cov 0 0 = (ewaExact r b xs).cov i i := by
  classical
  induction xs using List.reverseRecOn with
  | nil => exact ⟨rfl, rfl⟩
  | append_singleton xs x ih =>
    rw [List.map_append, List.map_append, List.map_singleton, List.map_singleton]
    set ys : List (Fin 1 → ℝ) := (xs.map fun x => x i).map fun y (_ : Fin 1) => y with hys
    have hl : ys.length = xs.length := by simp [hys]
    have s1 := exact_step r b (Pi.single (0 : Fin 1) 1) ys (fun _ => x i)
    have s2 := exact_step r b (Pi.single i 1) xs x
    simp only [quad_e, mul_single_dot, one_mul, hl] at s1 s2
    by_cases h : xs.length < b
    · rw [(s1.1 h).1, (s1.1 h).2, (s2.1 h).1, (s2.1 h).2, ih.1, ih.2]; exact ⟨rfl, rfl⟩
    · rw [(s1.2 (by omega)).1, (s1.2 (by omega)).2, (s2.2 (by omega)).1, (s2.2 (by omega)).2, ih.1, ih.2]; exact ⟨rfl, rfl⟩

/-- `EwaCovariance(r)` as the volatility model of a ConditionalCovariance. -/
noncomputable def ewaVol (r : ℝ) : VolArg (ewaCls (Fin 1) ℝ) Unit := .est (Obj.new (ewaCls (Fin 1) ℝ) ⟨r, false⟩)

theorem ewaVol_forecast (r : ℝ) (xs : List (ι → ℝ)) (hx : xs ≠ []) (i : ι) :
    forecastMean (ewaVol r) (xs.map fun x => x i) = (ewaExact r (ewaBurnN r) xs).mean i ∧
    forecastVar (ewaVol r) (xs.map fun x => x i) = (ewaExact r (ewaBurnN r) xs).cov i i := by
  have e : ∀ ys : List ℝ, volAfter (V := ewaCls (Fin 1) ℝ) (⟨r, false⟩ : RParam ℝ) ys
      = (Obj.new (ewaCls (Fin 1) ℝ) ⟨r, false⟩).run (feedCalls (ys.map fun y (_ : Fin 1) => y)) := by
    intro ys
    unfold volAfter feedCalls
    rw [List.map_map]; rfl
  have hu : used false (feedCalls ((xs.map fun x => x i).map fun y (_ : Fin 1) => y)) = (xs.map fun x => x i).map fun y (_ : Fin 1) => y :=
    used_feedCalls _
  have hne : used false (feedCalls ((xs.map fun x => x i).map fun y (_ : Fin 1) => y)) ≠ [] := by
    rw [hu]; simpa using hx
  have ha := ewa_attrs (ι := Fin 1) (K := ℝ) ⟨r, false⟩ (feedCalls ((xs.map fun x => x i).map fun y (_ : Fin 1) => y)) hne
  simp only [] at ha
  rw [hu] at ha
  have hc := exact_coord r (ewaBurnN r) xs i
  constructor
  · unfold forecastMean ewaVol
    simp only []
    rw [show (Obj.new (ewaCls (Fin 1) ℝ) ⟨r, false⟩).params = (⟨r, false⟩ : RParam ℝ) from rfl, e, ha.1]
    exact hc.1
  · unfold forecastVar ewaVol
    simp only []
    rw [show (Obj.new (ewaCls (Fin 1) ℝ) ⟨r, false⟩).params = (⟨r, false⟩ : RParam ℝ) from rfl, e, ha.2]
    exact hc.2

/-- C102: the second standardized residual is the raw change since the first row times a million: after one row the EWMA variance
is 0, which is floored at 1e-12. -/
theorem C102_second_residual (r : ℝ) (x y : ι → ℝ) (zs : List (ι → ℝ)) :
    standardized (ewaVol r) (x :: y :: zs) 0 = x ∧
    standardized (ewaVol r) (x :: y :: zs) 1 = fun i => 10 ^ 6 * (y i - x i) := by
  have hb := ewaBurnN_ge r
  constructor
  · ext i
    show (x i - forecastMean (ewaVol r) []) / Real.sqrt (max (forecastVar (ewaVol r) []) (1 / 10 ^ 12)) = x i
    have e1 : forecastMean (ewaVol r) [] = 0 := rfl
    have e2 : forecastVar (ewaVol r) [] = 1 := rfl
    rw [e1, e2, max_eq_left (by norm_num)]
    simp
  · ext i
    show (y i - forecastMean (ewaVol r) (([x] : List (ι → ℝ)).map fun x => x i)) /
      Real.sqrt (max (forecastVar (ewaVol r) (([x] : List (ι → ℝ)).map fun x => x i)) (1 / 10 ^ 12)) = _
    obtain ⟨h1, h2⟩ := ewaVol_forecast r [x] (by simp) i
    rw [h1, h2]
    have hx := ewaExact_burn r (ewaBurnN r) [x] (by simp; omega)
    have m1 : (ewaExact r (ewaBurnN r) [x]).mean i = x i := by
      rw [hx]; simp [empFold, empUpdate, empInit]
    have c1 : (ewaExact r (ewaBurnN r) [x]).cov i i = 0 := by
      rw [hx, empFold_cov (by simp)]; simp [covOf, meanOf]
    rw [m1, c1, max_eq_right (by norm_num), show (1:ℝ) / 10 ^ 12 = (1 / 10 ^ 6) ^ 2 by norm_num, Real.sqrt_sq (by positivity)]
    field_simp

/-- The residuals as a list. -/
theorem residuals_cons (r : ℝ) (x y : ι → ℝ) (zs : List (ι → ℝ)) :
    (List.range (x :: y :: zs).length).map (standardized (ewaVol r) (x :: y :: zs))
      = x :: (fun i => 10 ^ 6 * (y i - x i)) :: (List.range zs.length).map fun t => standardized (ewaVol r) (x :: y :: zs) (t + 2) := by
  obtain ⟨h0, h1⟩ := C102_second_residual r x y zs
  rw [List.length_cons, List.length_cons, List.range_succ_eq_map, List.map_cons, List.range_succ_eq_map, List.map_cons, List.map_cons,
    List.map_map, List.map_map, h0, show standardized (ewaVol r) (x :: y :: zs) (Nat.succ 0) = _ from h1]
  rfl

/-- The rows on which the theorem speaks: the first row and every standardized residual from the third row on lie within `M` in the
coordinates `i`, `j`, and both coordinates move by at least `δ` between the first two rows, where `M < 10⁶ δ`. -/
structure Ordinary (r : ℝ) (x y : ι → ℝ) (zs : List (ι → ℝ)) (i j : ι) (M δ : ℝ) : Prop where
  hM : 0 ≤ M
  hMU : M < 10 ^ 6 * δ
  hi : δ ≤ |y i - x i|
  hj : δ ≤ |y j - x j|
  first : |x i| ≤ M ∧ |x j| ≤ M
  later : ∀ t, 2 ≤ t → t < zs.length + 2 → |standardized (ewaVol r) (x :: y :: zs) t i| ≤ M ∧ |standardized (ewaVol r) (x :: y :: zs) t j| ≤ M

theorem Ordinary.corr [DecidableEq ι] {r : ℝ} {x y : ι → ℝ} {zs : List (ι → ℝ)} {i j : ι} {M δ : ℝ} (h : Ordinary r x y zs i j M δ)
    {rc : ℝ} (h0 : 0 ≤ rc) (h1 : rc < 1) (b : ℕ) (hb : 2 ≤ b) :
    let c := (ewaExact rc b ((List.range (x :: y :: zs).length).map (standardized (ewaVol r) (x :: y :: zs)))).cov
    (0 < (y i - x i) * (y j - x j) → 1 - slack rc b (zs.length + 2) M (10 ^ 6 * δ) ≤ covToCorr c i j) ∧
    ((y i - x i) * (y j - x j) < 0 → covToCorr c i j ≤ -(1 - slack rc b (zs.length + 2) M (10 ^ 6 * δ))) := by
  intro c
  have hc : c = (ewaExact rc b (x :: (fun i => 10 ^ 6 * (y i - x i)) ::
      (List.range zs.length).map fun t => standardized (ewaVol r) (x :: y :: zs) (t + 2))).cov := by
    show (ewaExact rc b ((List.range (x :: y :: zs).length).map (standardized (ewaVol r) (x :: y :: zs)))).cov = _
    rw [residuals_cons]
  have hd := corr_dominated h0 h1 b hb x (fun i => 10 ^ 6 * (y i - x i))
    ((List.range zs.length).map fun t => standardized (ewaVol r) (x :: y :: zs) (t + 2)) i j h.hM h.hMU
    (by rw [abs_mul, abs_of_pos (by positivity : (0:ℝ) < 10 ^ 6)]; exact mul_le_mul_of_nonneg_left h.hi (by positivity))
    (by rw [abs_mul, abs_of_pos (by positivity : (0:ℝ) < 10 ^ 6)]; exact mul_le_mul_of_nonneg_left h.hj (by positivity))
    (by
      intro e he
      rcases List.mem_cons.1 he with rfl | he
      · exact h.first
      · obtain ⟨t, ht, rfl⟩ := List.mem_map.1 he
        exact h.later (t + 2) (by omega) (by have := List.mem_range.1 ht; omega))
  rw [List.length_map, List.length_range, ← hc] at hd
  have e : (10:ℝ) ^ 6 * (y i - x i) * (10 ^ 6 * (y j - x j)) = 10 ^ 12 * ((y i - x i) * (y j - x j)) := by ring
  rw [e] at hd
  exact ⟨fun hp => hd.1 (by positivity), fun hp => hd.2 (by nlinarith)⟩

/-- C102 (finding): with an EWMA volatility model and an EWMA correlation model, the off-diagonal covariance has the sign of the
change between the first two rows and the implied correlation is within `slack` of `±1`, whatever happens in the later rows; the slack
shrinks with `10¹²` and grows only as `(1 - r)^-(n - burn)`. -/
theorem C102_second_row_decides [DecidableEq ι] (rv rc : ℝ) (h0 : 0 ≤ rc) (h1 : rc < 1) (calls : List (Call ι ℝ)) (x y : ι → ℝ)
    (zs : List (ι → ℝ)) (hxs : rowsSinceFit calls [] = x :: y :: zs) (i j : ι) (M δ : ℝ) (hord : Ordinary rv x y zs i j M δ) (H : Matrix ι ι ℝ)
    (hH : ((CondObj.new (ewaVol rv) (Obj.new (ewaCls ι ℝ) ⟨rc, false⟩)).run calls).covariance = .ok H) :
    let sd : ι → ℝ := fun i => Real.sqrt (max (forecastVar (ewaVol rv) ((x :: y :: zs).map fun x => x i)) (1 / 10 ^ 12))
    (0 < (y i - x i) * (y j - x j) → (1 - slack rc (ewaBurnN rc) (zs.length + 2) M (10 ^ 6 * δ)) * (sd i * sd j) ≤ H i j) ∧
    ((y i - x i) * (y j - x j) < 0 → H i j ≤ -((1 - slack rc (ewaBurnN rc) (zs.length + 2) M (10 ^ 6 * δ)) * (sd i * sd j))) := by
  intro sd
  have hb := ewaBurnN_ge rc
  obtain ⟨-, -, hc⟩ := C40_composition (ewaVol rv) (by unfold ewaVol; simp) (Obj.new (ewaCls ι ℝ) ⟨rc, false⟩) calls
  rw [hxs] at hc
  obtain ⟨-, -, hc⟩ := hc (by simp)
  have hne : used false (feedCalls ((List.range (x :: y :: zs).length).map (standardized (ewaVol rv) (x :: y :: zs)))) ≠ [] := by
    rw [used_feedCalls]; simp
  have ha := (ewa_attrs (ι := ι) (K := ℝ) ⟨rc, false⟩ _ hne).2
  simp only [used_feedCalls] at ha
  have hR : ((Obj.new (ewaCls ι ℝ) (Obj.new (ewaCls ι ℝ) ⟨rc, false⟩).params).run
      (feedCalls ((List.range (x :: y :: zs).length).map (standardized (ewaVol rv) (x :: y :: zs))))).correlation
      = .ok (covToCorr (ewaExact rc (ewaBurnN rc) ((List.range (x :: y :: zs).length).map (standardized (ewaVol rv) (x :: y :: zs)))).cov) := by
    unfold Obj.correlation
    rw [show (Obj.new (ewaCls ι ℝ) ⟨rc, false⟩).params = (⟨rc, false⟩ : RParam ℝ) from rfl, ha]; rfl
  have e := hc _ hR
  rw [hH] at e
  have eH := congrFun (congrFun (Except.ok.inj e) i) j
  simp only [Matrix.of_apply] at eH
  obtain ⟨d1, d2⟩ := hord.corr h0 h1 (ewaBurnN rc) (by omega)
  have hs : 0 ≤ sd i * sd j := mul_nonneg (Real.sqrt_nonneg _) (Real.sqrt_nonneg _)
  rw [eH]
  change (_ → _ ≤ sd i * _ * sd j) ∧ (_ → sd i * _ * sd j ≤ _)
  refine ⟨fun hp => ?_, fun hp => ?_⟩
  · have := mul_le_mul_of_nonneg_right (d1 hp) hs
    linarith
  · have := mul_le_mul_of_nonneg_right (d2 hp) hs
    linarith

/-- C102 (finding): with EmpiricalCovariance as the correlation model the second row is never forgotten: the slack grows only linearly
in the number of rows, `(16 M² + 2e-12) n / (10⁶ δ - M)²`. -/
theorem C102_never_forgotten [DecidableEq ι] (rv : ℝ) (calls : List (Call ι ℝ)) (x y : ι → ℝ) (zs : List (ι → ℝ))
    (hxs : rowsSinceFit calls [] = x :: y :: zs) (i j : ι) (M δ : ℝ) (hord : Ordinary rv x y zs i j M δ) (H : Matrix ι ι ℝ)
    (hH : ((CondObj.new (ewaVol rv) (Obj.new (empiricalCls ι ℝ) false)).run calls).covariance = .ok H) :
    let sd : ι → ℝ := fun i => Real.sqrt (max (forecastVar (ewaVol rv) ((x :: y :: zs).map fun x => x i)) (1 / 10 ^ 12))
    let s : ℝ := (16 * M ^ 2 + 2 / 10 ^ 12) * (zs.length + 2 : ℕ) / (10 ^ 6 * δ - M) ^ 2
    (0 < (y i - x i) * (y j - x j) → (1 - s) * (sd i * sd j) ≤ H i j) ∧
    ((y i - x i) * (y j - x j) < 0 → H i j ≤ -((1 - s) * (sd i * sd j))) := by
  intro sd s
  obtain ⟨-, -, hc⟩ := C40_composition (ewaVol rv) (by unfold ewaVol; simp) (Obj.new (empiricalCls ι ℝ) false) calls
  rw [hxs] at hc
  obtain ⟨-, -, hc⟩ := hc (by simp)
  set es := (List.range (x :: y :: zs).length).map (standardized (ewaVol rv) (x :: y :: zs)) with hes
  have hne : es ≠ [] := by rw [hes]; simp
  have hlen : es.length = zs.length + 2 := by rw [hes]; simp
  have ha := (emp_cov_of (ι := ι) false rfl es hne).1
  have hcov : covOf es = (ewaExact 0 (zs.length + 2) es).cov := by
    rw [ewaExact_burn 0 (zs.length + 2) es (by omega), empFold_cov hne]
  have hR : ((Obj.new (empiricalCls ι ℝ) (Obj.new (empiricalCls ι ℝ) false).params).run (feedCalls es)).correlation
      = .ok (covToCorr (ewaExact 0 (zs.length + 2) es).cov) := by
    unfold Obj.correlation
    rw [show (Obj.new (empiricalCls ι ℝ) false).params = false from rfl, ha, hcov]; rfl
  have e := hc _ hR
  rw [hH] at e
  have eH := congrFun (congrFun (Except.ok.inj e) i) j
  simp only [Matrix.of_apply] at eH
  obtain ⟨d1, d2⟩ := hord.corr (le_refl (0:ℝ)) (by norm_num) (zs.length + 2) (by omega)
  have hsl : slack 0 (zs.length + 2) (zs.length + 2) M (10 ^ 6 * δ) = s := by
    unfold slack; simp [s]
  rw [hsl] at d1 d2
  have hs : 0 ≤ sd i * sd j := mul_nonneg (Real.sqrt_nonneg _) (Real.sqrt_nonneg _)
  rw [eH]
  change (_ → _ ≤ sd i * _ * sd j) ∧ (_ → sd i * _ * sd j ≤ _)
  refine ⟨fun hp => ?_, fun hp => ?_⟩
  · have := mul_le_mul_of_nonneg_right (d1 hp) hs
    linarith
  · have := mul_le_mul_of_nonneg_right (d2 hp) hs
    linarith

theorem sqrt_diag_le [DecidableEq ι] (rv rc : ℝ) (h0 : 0 ≤ rc) (h1 : rc < 1) (calls : List (Call ι ℝ)) (x y : ι → ℝ)
    (zs : List (ι → ℝ)) (hxs : rowsSinceFit calls [] = x :: y :: zs) (i j : ι) (H : Matrix ι ι ℝ)
    (hH : ((CondObj.new (ewaVol rv) (Obj.new (ewaCls ι ℝ) ⟨rc, false⟩)).run calls).covariance = .ok H) :
    Real.sqrt (H i i * H j j) ≤ Real.sqrt (max (forecastVar (ewaVol rv) ((x :: y :: zs).map fun x => x i)) (1 / 10 ^ 12)) *
      Real.sqrt (max (forecastVar (ewaVol rv) ((x :: y :: zs).map fun x => x j)) (1 / 10 ^ 12)) := by
  have hx : rowsSinceFit calls [] ≠ [] := by rw [hxs]; simp
  set es := (List.range (rowsSinceFit calls []).length).map (standardized (ewaVol rv) (rowsSinceFit calls [])) with hes
  have hne : used false (feedCalls es) ≠ [] := by
    rw [used_feedCalls, hes]; simpa using hx
  have ha := (ewa_attrs (ι := ι) (K := ℝ) ⟨rc, false⟩ _ hne).2
  have hpsd := C21_psd (ι := ι) (K := ℝ) ⟨rc, false⟩ h0 h1.le _ _ ha
  have hHi := (C40_psd (ewaVol rv) (by unfold ewaVol; simp) (Obj.new (ewaCls ι ℝ) ⟨rc, false⟩) calls _ H hx ha hH).2.2 hpsd
  have hb : ∀ k, 0 ≤ H k k ∧ H k k ≤ max (forecastVar (ewaVol rv) ((x :: y :: zs).map fun x => x k)) (1 / 10 ^ 12) := by
    intro k
    rw [hHi k, ← hxs]
    have hc := hpsd.diag_nonneg k
    set c := (ewaFold rc (used false (feedCalls es))).cov k k
    have hm0 : (0:ℝ) ≤ max (forecastVar (ewaVol rv) ((rowsSinceFit calls []).map fun x => x k)) (1 / 10 ^ 12) :=
      le_trans (by positivity) (le_max_right _ _)
    have hf : c / (c + 1 / 10 ^ 12) ≤ 1 := by
      rw [div_le_one (by positivity)]
      have : (0:ℝ) < 1 / 10 ^ 12 := by positivity
      linarith
    exact ⟨mul_nonneg hm0 (by positivity), mul_le_of_le_one_right hm0 hf⟩
  rw [← Real.sqrt_mul (le_trans (hb i).1 (hb i).2)]
  exact Real.sqrt_le_sqrt (mul_le_mul (hb i).2 (hb j).2 (hb j).1 (le_trans (hb i).1 (hb i).2))

/-- C102 (finding), the shipped default `ConditionalCovariance()` (both rates 0.05): if both coordinates move by at least 1 between the
first two rows and every other residual is within 10, then for the first 200 rows the implied correlation is at least 0.999 in absolute
value, with the sign of that first move. -/
theorem C102_default_two_hundred_rows [DecidableEq ι] (calls : List (Call ι ℝ)) (x y : ι → ℝ) (zs : List (ι → ℝ))
    (hxs : rowsSinceFit calls [] = x :: y :: zs) (hn : (x :: y :: zs).length ≤ 200) (i j : ι) (hord : Ordinary (1 / 20) x y zs i j 10 1)
    (H : Matrix ι ι ℝ) (hH : ((CondObj.new (ewaVol (1 / 20)) (Obj.new (ewaCls ι ℝ) ⟨1 / 20, false⟩)).run calls).covariance = .ok H) :
    (0 < (y i - x i) * (y j - x j) → 999 / 1000 * Real.sqrt (H i i * H j j) ≤ H i j) ∧
    ((y i - x i) * (y j - x j) < 0 → H i j ≤ -(999 / 1000 * Real.sqrt (H i i * H j j))) := by
  set sd : ι → ℝ := fun i => Real.sqrt (max (forecastVar (ewaVol (1 / 20)) ((x :: y :: zs).map fun x => x i)) (1 / 10 ^ 12)) with hsd
  have hle := sqrt_diag_le (1 / 20) (1 / 20) (by norm_num) (by norm_num) calls x y zs hxs i j H hH
  have hbn : ewaBurnN (1 / 20 : ℝ) = 20 := by
    unfold ewaBurnN; norm_num; rfl
  obtain ⟨d1, d2⟩ := C102_second_row_decides (1 / 20) (1 / 20) (by norm_num) (by norm_num) calls x y zs hxs i j 10 1 hord H hH
  have hs : 0 ≤ sd i * sd j := mul_nonneg (Real.sqrt_nonneg _) (Real.sqrt_nonneg _)
  have hsl : slack (1 / 20) (ewaBurnN (1 / 20 : ℝ)) (zs.length + 2) 10 (10 ^ 6 * 1) ≤ 1 / 1000 := by
    unfold slack
    rw [hbn]
    have hm : ((min (zs.length + 2) 20 : ℕ) : ℝ) ≤ 20 := by
      have : min (zs.length + 2) 20 ≤ 20 := min_le_right _ _
      exact_mod_cast this
    have hp : (1 - 1 / 20 : ℝ) ^ 180 ≤ (1 - 1 / 20) ^ (zs.length + 2 - 20) :=
      pow_le_pow_of_le_one (by norm_num) (by norm_num) (by simp only [List.length_cons] at hn; omega)
    have hq : (9 / 100000 : ℝ) ≤ (1 - 1 / 20 : ℝ) ^ 180 := by norm_num
    have hpos : (0:ℝ) < (1 - 1 / 20) ^ (zs.length + 2 - 20) := by positivity
    rw [div_le_div_iff₀ (by positivity) (by norm_num)]
    have : (9 / 100000 : ℝ) * (10 ^ 6 * 1 - 10) ^ 2 ≤ (1 - 1 / 20) ^ (zs.length + 2 - 20) * (10 ^ 6 * 1 - 10) ^ 2 :=
      mul_le_mul_of_nonneg_right (hq.trans hp) (by positivity)
    have h2 : (16 * 10 ^ 2 + 2 / 10 ^ 12 : ℝ) * (min (zs.length + 2) 20 : ℕ) ≤ (16 * 10 ^ 2 + 2 / 10 ^ 12) * 20 :=
      mul_le_mul_of_nonneg_left hm (by positivity)
    nlinarith
  refine ⟨fun hp => ?_, fun hp => ?_⟩
  · refine le_trans (mul_le_mul_of_nonneg_left hle (by norm_num)) (le_trans ?_ (d1 hp))
    exact mul_le_mul_of_nonneg_right (by linarith) hs
  · refine le_trans (d2 hp) ?_
    apply neg_le_neg
    refine le_trans (mul_le_mul_of_nonneg_left hle (by norm_num)) ?_
    exact mul_le_mul_of_nonneg_right (by linarith) hs

/-! ## DCCCovariance on the same rows -/

/-- The tracked variance in excess of the EWA variance. -/
theorem gap_formula (r : ℝ) (b : ℕ) (hb : 1 ≤ b) (xs : List (ι → ℝ)) (hx : xs ≠ []) (i : ι) :
    trackedVar r b xs i - (ewaExact r b xs).cov i i
      = (1 - r) ^ (xs.length - b) / (min xs.length b : ℕ) * ∑ t ∈ Finset.range (min xs.length b), innovation r b xs t i ^ 2 / ((t : ℝ) + 1) := by
  classical
  induction xs using List.reverseRecOn with
  | nil => exact absurd rfl hx
  | append_singleton xs x ih =>
    have hin : ∀ t < xs.length, innovation r b (xs ++ [x]) t i = innovation r b xs t i := by
      intro t ht
      unfold innovation
      rw [List.take_append_of_le_length (by omega), List.getD_eq_getElem?_getD, List.getElem?_append_left ht, ← List.getD_eq_getElem?_getD]
    have hlast : innovation r b (xs ++ [x]) xs.length i = x i - (ewaExact r b xs).mean i := by
      unfold innovation
      rw [List.take_left, Pi.sub_apply, recencyMean_eq r b hb, List.getD_eq_getElem?_getD, List.getElem?_concat_length]
      rfl
    have s2 := exact_step r b (Pi.single i 1) xs x
    simp only [quad_e, mul_single_dot, one_mul] at s2
    rw [← trackedVar_eq r b hb (xs ++ [x]) (by simp) i]
    have hG : xs ≠ [] → (diagExact r b xs).var i - (ewaExact r b xs).cov i i
        = (1 - r) ^ (xs.length - b) / (min xs.length b : ℕ) * ∑ t ∈ Finset.range (min xs.length b), innovation r b xs t i ^ 2 / ((t : ℝ) + 1) := by
      intro h; rw [trackedVar_eq r b hb xs h]; exact ih h
    rw [List.length_append, List.length_singleton]
    by_cases h : xs.length < b
    · rw [diagExact_burn r b xs x (by omega), (s2.1 h).2, min_eq_left (by omega), show xs.length + 1 - b = 0 by omega, Finset.sum_range_succ,
        hlast, Finset.sum_congr rfl fun t ht => by rw [hin t (Finset.mem_range.1 ht)]]
      rw [min_eq_left (by omega), show xs.length - b = 0 by omega] at hG
      set S := ∑ t ∈ Finset.range xs.length, innovation r b xs t i ^ 2 / ((t : ℝ) + 1) with hS
      by_cases he : xs = []
      · subst he
        simp [S, diagExact, ewaExact, empInit]
        ring
      · have hg := hG he
        have hn : (0:ℝ) < (xs.length : ℝ) := by exact_mod_cast List.length_pos_of_ne_nil he
        have hg' : (xs.length : ℝ) * ((diagExact r b xs).var i - (ewaExact r b xs).cov i i) = S := by
          rw [hg]; field_simp
        rw [← hg']
        push_cast
        field_simp
        ring
    · have hne : xs ≠ [] := by intro e; subst e; simp at h; omega
      rw [diagExact_post r b xs x (by omega), (s2.2 (by omega)).2, min_eq_right (by omega), show xs.length + 1 - b = (xs.length - b) + 1 by omega,
        Finset.sum_congr rfl fun t ht => by rw [hin t (by have := Finset.mem_range.1 ht; omega)]]
      have hg := hG hne
      rw [min_eq_right (by omega)] at hg
      have : (1 - r) ^ (xs.length - b + 1) / (b : ℝ) * ∑ t ∈ Finset.range b, innovation r b xs t i ^ 2 / ((t : ℝ) + 1)
          = (1 - r) * ((diagExact r b xs).var i - (ewaExact r b xs).cov i i) := by rw [hg, pow_succ]; ring
      rw [this]; ring

/-- C102: fed the same rows, the two report the same `n_samples_` and the same `location_`. -/
theorem C102_location (r : ℝ) (calls : List (Call ι ℝ)) [DecidableEq ι] :
    let d := (new (dccCls ι) ⟨r, none, false⟩).run calls
    let o := (CondObj.new (ewaVol r) (Obj.new (ewaCls ι ℝ) ⟨r, false⟩)).run calls
    d.nSamples = o.nSamples ∧ d.location = o.location := by
  intro d o
  obtain ⟨a1, a2, a3⟩ := C40_composition (ewaVol r) (by unfold ewaVol; simp) (Obj.new (ewaCls ι ℝ) ⟨r, false⟩) calls
  have hu : used false calls = rowsSinceFit calls [] := rfl
  constructor
  · rw [a1, ← hu]
    exact C04_n_samples (dcc_lawful ι) ⟨r, none, false⟩ calls
  · rcases eq_or_ne (rowsSinceFit calls []) [] with h | h
    · rw [(a2 h).1]
      exact (run_unfitted (dcc_lawful ι) ⟨r, none, false⟩ calls h).2
    · rw [(a3 h).1]
      rw [show d.location = .ok (dccFold ⟨r, none, false⟩ (used false calls)).mean from run_location (dcc_lawful ι) ⟨r, none, false⟩ calls h]
      rw [dccFold_mean]
      congr 1
      ext i
      rw [(ewaVol_forecast r _ h i).1, recencyMean_eq r _ (le_trans (by norm_num) (ewaBurnN_ge r))]
      simp [dccBurn, hu]

/-- C102: the variances differ: DCC's tracked variance exceeds the variance of the EWMA volatility model by
`(1-r)^(n-b)/min(n,b) · Σ_{t < min(n,b)} ε_t²/(t+1)`, `ε_t` the one-step-ahead innovations and `b` the burn-in: never negative, and
positive as soon as one of the first `b` rows differs from what the rows before it forecast (the first row from zero). -/
theorem C102_variance_gap (r : ℝ) (h1 : r < 1) (calls : List (Call ι ℝ)) (hx : rowsSinceFit calls [] ≠ []) (i : ι) :
    let xs := rowsSinceFit calls []
    let b := ewaBurnN r
    let gap := trackedVar r b xs i - forecastVar (ewaVol r) (xs.map fun x => x i)
    gap = (1 - r) ^ (xs.length - b) / (min xs.length b : ℕ) * ∑ t ∈ Finset.range (min xs.length b), innovation r b xs t i ^ 2 / ((t : ℝ) + 1) ∧
    0 ≤ gap ∧ (0 < gap ↔ ∃ t < min xs.length b, innovation r b xs t i ≠ 0) := by
  intro xs b gap
  have hb : 1 ≤ b := le_trans (by norm_num) (ewaBurnN_ge r)
  have e : gap = (1 - r) ^ (xs.length - b) / (min xs.length b : ℕ) * ∑ t ∈ Finset.range (min xs.length b), innovation r b xs t i ^ 2 / ((t : ℝ) + 1) := by
    show trackedVar r b xs i - forecastVar (ewaVol r) (xs.map fun x => x i) = _
    rw [(ewaVol_forecast r xs hx i).2]
    exact gap_formula r b hb xs hx i
  have hpos : 0 < (1 - r) ^ (xs.length - b) / ((min xs.length b : ℕ) : ℝ) := by
    have : 0 < min xs.length b := lt_min (List.length_pos_of_ne_nil hx) (by omega)
    have h2 : (0:ℝ) < (min xs.length b : ℕ) := by exact_mod_cast this
    have h3 : 0 < (1 - r) ^ (xs.length - b) := pow_pos (by linarith) _
    positivity
  have hnn : ∀ t ∈ Finset.range (min xs.length b), 0 ≤ innovation r b xs t i ^ 2 / ((t : ℝ) + 1) := fun t _ => by positivity
  refine ⟨e, ?_, ?_⟩
  · rw [e]; exact mul_nonneg hpos.le (Finset.sum_nonneg hnn)
  · rw [e, mul_pos_iff_of_pos_left hpos]
    constructor
    · intro h
      by_contra hno
      push Not at hno
      rw [Finset.sum_eq_zero] at h
      · exact lt_irrefl _ h
      · intro t ht; rw [hno t (Finset.mem_range.1 ht)]; simp
    · rintro ⟨t, ht, hne⟩
      exact Finset.sum_pos' hnn ⟨t, Finset.mem_range.2 ht, by positivity⟩

/-- C102: hence, as long as DCC's quasi-correlation has not underflowed its floor, every variance the ConditionalCovariance reports is at
most the one DCCCovariance reports. -/
theorem C102_variance_order [DecidableEq ι] (r : ℝ) (h0 : 0 ≤ r) (h1 : r < 1) (calls : List (Call ι ℝ)) (D H : Matrix ι ι ℝ) (i : ι)
    (hD : ((new (dccCls ι) ⟨r, none, false⟩).run calls).covariance = .ok D)
    (hH : ((CondObj.new (ewaVol r) (Obj.new (ewaCls ι ℝ) ⟨r, false⟩)).run calls).covariance = .ok H)
    (hQ : 1 / 10 ^ 12 ≤ dccQuasi r r (ewaBurnN r) (rowsSinceFit calls []) i i) : H i i ≤ D i i := by
  have hx : rowsSinceFit calls [] ≠ [] := (dcc_attrs ⟨r, none, false⟩ calls D hD).1
  have hdiag := (C38_diagonal ⟨r, none, false⟩ calls D hD i).1 (by simp only [Option.getD_none, dccBurn, min_self]; exact hQ)
  simp only [Option.getD_none, dccBurn, min_self] at hdiag
  rw [show used false calls = rowsSinceFit calls [] from rfl] at hdiag
  have hg := (C102_variance_gap r h1 calls hx i).2.1
  set es := (List.range (rowsSinceFit calls []).length).map (standardized (ewaVol r) (rowsSinceFit calls [])) with hes
  have hne : used false (feedCalls es) ≠ [] := by
    rw [used_feedCalls, hes]; simpa using hx
  have ha := (ewa_attrs (ι := ι) (K := ℝ) ⟨r, false⟩ _ hne).2
  have hpsd := C21_psd (ι := ι) (K := ℝ) ⟨r, false⟩ h0 h1.le _ _ ha
  have hHi := (C40_psd (ewaVol r) (by unfold ewaVol; simp) (Obj.new (ewaCls ι ℝ) ⟨r, false⟩) calls _ H hx ha hH).2.2 hpsd i
  rw [hHi, hdiag]
  set c := (ewaFold r (used false (feedCalls es))).cov i i
  have hc : 0 ≤ c := hpsd.diag_nonneg i
  have hmax : max (forecastVar (ewaVol r) ((rowsSinceFit calls []).map fun x => x i)) (1 / 10 ^ 12)
      ≤ max (trackedVar r (ewaBurnN r) (rowsSinceFit calls []) i) (1 / 10 ^ 12) := max_le_max (by linarith) le_rfl
  have hm0 : (0:ℝ) ≤ max (forecastVar (ewaVol r) ((rowsSinceFit calls []).map fun x => x i)) (1 / 10 ^ 12) :=
    le_trans (by positivity) (le_max_right _ _)
  have hf : c / (c + 1 / 10 ^ 12) ≤ 1 := by
    rw [div_le_one (by positivity)]
    have : (0:ℝ) < 1 / 10 ^ 12 := by positivity
    linarith
  exact (mul_le_of_le_one_right hm0 hf).trans hmax

/-- C102: after a single row the two already disagree completely: DCCCovariance reports `x xᵀ` (every coordinate at least 1e-6 in
size), the composition reports the zero matrix. -/
theorem C102_first_row [DecidableEq ι] (r : ℝ) (x : ι → ℝ) (hx : ∀ i, 1 / 10 ^ 6 ≤ |x i|) :
    ((new (dccCls ι) ⟨r, none, false⟩).run [.partialFit (.row x)]).covariance = .ok (Matrix.of fun i j => x i * x j) ∧
    ((CondObj.new (ewaVol r) (Obj.new (ewaCls ι ℝ) ⟨r, false⟩)).run [.partialFit (.row x)]).covariance = .ok 0 := by
  have hb := ewaBurnN_ge r
  have hrows : rowsSinceFit [Call.partialFit (.row x)] [] = [x] := rfl
  have hne : used false [Call.partialFit (.row x)] ≠ [] := by show [x] ≠ []; simp
  constructor
  · have hcov := run_covariance (dcc_lawful ι) ⟨r, none, false⟩ [Call.partialFit (.row x)] hne
    obtain ⟨D, hD⟩ : ∃ D, ((new (dccCls ι) ⟨r, none, false⟩).run [.partialFit (.row x)]).covariance = .ok D := ⟨_, hcov⟩
    rw [hD]
    congr 1
    ext i j
    have e := C38_drd ⟨r, none, false⟩ _ D hD i j
    simp only [Option.getD_none, dccBurn, min_self] at e
    rw [show used false [Call.partialFit (.row x)] = [x] from rfl] at e
    have hsq : ∀ k, (1:ℝ) / 10 ^ 12 ≤ x k ^ 2 := fun k => by
      have := mul_le_mul (hx k) (hx k) (by positivity) (abs_nonneg _)
      rw [abs_mul_abs_self] at this
      refine le_trans (le_of_eq (by norm_num)) (this.trans (le_of_eq (by ring)))
    have hin : ∀ k, innovation r (ewaBurnN r) [x] 0 k = x k := fun k => by simp [innovation, recencyMean]
    have hh : ∀ k, trackedVar r (ewaBurnN r) [x] k = x k ^ 2 := fun k => by
      simp only [trackedVar, List.length_singleton, Finset.sum_range_one, hin, recencyWeight]
      rw [if_pos (by omega)]; simp
    have hx0 : ∀ k, x k ≠ 0 := fun k h => by
      have := hx k; rw [h, abs_zero] at this; norm_num at this
    have hres : ∀ k, dccResidual r (ewaBurnN r) [x] 0 k = x k / |x k| := fun k => by
      unfold dccResidual
      rw [hin, show ([x] : List (ι → ℝ)).take (0 + 1) = [x] from rfl, hh, max_eq_left (hsq k), Real.sqrt_sq_eq_abs]
    have hQ : ∀ k l, dccQuasi r r (ewaBurnN r) [x] k l = x k / |x k| * (x l / |x l|) := fun k l => by
      simp only [dccQuasi, Matrix.of_apply, List.length_singleton, Finset.sum_range_one, hres, recencyWeight]
      rw [if_pos (by omega)]; simp
    have hQ1 : ∀ k, dccQuasi r r (ewaBurnN r) [x] k k = 1 := fun k => by
      rw [hQ]
      have h1 := abs_ne_zero.2 (hx0 k)
      field_simp
      rw [sq_abs]
    rw [e, hh, hh, hQ1, hQ1, hQ, max_eq_left (hsq i), max_eq_left (hsq j), max_eq_left (by norm_num), Real.sqrt_sq_eq_abs, Real.sqrt_sq_eq_abs]
    have h1 := abs_ne_zero.2 (hx0 i)
    have h2 := abs_ne_zero.2 (hx0 j)
    simp
    field_simp
  · obtain ⟨-, -, hc⟩ := C40_composition (ewaVol r) (by unfold ewaVol; simp) (Obj.new (ewaCls ι ℝ) ⟨r, false⟩) [.partialFit (.row x)]
    rw [hrows] at hc
    obtain ⟨-, -, hc⟩ := hc (by simp)
    set es := (List.range ([x] : List (ι → ℝ)).length).map (standardized (ewaVol r) [x]) with hes
    have hne' : used false (feedCalls es) ≠ [] := by rw [used_feedCalls, hes]; simp
    have ha := (ewa_attrs (ι := ι) (K := ℝ) ⟨r, false⟩ _ hne').2
    have hz : (ewaFold r (used false (feedCalls es))).cov = 0 := by
      rw [used_feedCalls]
      have hl : es.length = 1 := by rw [hes]; simp
      obtain ⟨e, he⟩ : ∃ e, es = [e] := List.length_eq_one_iff.1 hl
      rw [he, ewaFold_burn r [e] (by simp; omega), empFold_cov (by simp)]
      ext i j; simp [covOf, meanOf]
    have hR : ((Obj.new (ewaCls ι ℝ) (Obj.new (ewaCls ι ℝ) ⟨r, false⟩).params).run (feedCalls es)).correlation = .ok (covToCorr (0 : Matrix ι ι ℝ)) := by
      unfold Obj.correlation
      rw [show (Obj.new (ewaCls ι ℝ) ⟨r, false⟩).params = (⟨r, false⟩ : RParam ℝ) from rfl, ha, hz]; rfl
    rw [hc _ hR]
    congr 1
    ext i j
    simp [covToCorr]

/-! ## The two disagree in sign -/

/-- Three rows that co-move once and then move apart. -/
def apart : List (Fin 2 → ℝ) := [![0, 0], ![1, 1], ![2, -1]]

theorem burn_twentieth : ewaBurnN (1 / 20 : ℝ) = 20 := by unfold ewaBurnN; norm_num; rfl

theorem apart_ordinary : Ordinary (1 / 20) ![0, 0] ![1, 1] [![2, -1]] (0 : Fin 2) 1 10 1 where
  hM := by norm_num
  hMU := by norm_num
  hi := by norm_num
  hj := by norm_num
  first := by norm_num
  later := by
    intro t h2 h3
    have ht : t = 2 := by simp at h3; omega
    subst ht
    have hf := fun k => ewaVol_forecast (1 / 20) [![(0:ℝ), 0], ![1, 1]] (by simp) (k : Fin 2)
    have hst : ∀ k : Fin 2, standardized (ewaVol (1 / 20)) (![(0:ℝ), 0] :: ![1, 1] :: [![2, -1]]) 2 k = 2 * ((![2, -1] : Fin 2 → ℝ) k - 1 / 2) := by
      intro k
      show ((![2, -1] : Fin 2 → ℝ) k - forecastMean (ewaVol (1 / 20)) (([![(0:ℝ), 0], ![1, 1]] : List (Fin 2 → ℝ)).map fun x => x k)) /
        Real.sqrt (max (forecastVar (ewaVol (1 / 20)) (([![(0:ℝ), 0], ![1, 1]] : List (Fin 2 → ℝ)).map fun x => x k)) (1 / 10 ^ 12)) = _
      rw [(hf k).1, (hf k).2]
      have hx := ewaExact_burn (1 / 20) (ewaBurnN (1 / 20 : ℝ)) [![(0:ℝ), 0], ![1, 1]] (by rw [burn_twentieth]; simp)
      have m1 : (ewaExact (1 / 20) (ewaBurnN (1 / 20 : ℝ)) [![(0:ℝ), 0], ![1, 1]]).mean k = 1 / 2 := by
        rw [hx, empFold_mean (by simp)]; fin_cases k <;> norm_num [meanOf]
      have c1 : (ewaExact (1 / 20) (ewaBurnN (1 / 20 : ℝ)) [![(0:ℝ), 0], ![1, 1]]).cov k k = (1 / 2) ^ 2 := by
        rw [hx, empFold_cov (by simp)]; fin_cases k <;> norm_num [covOf, meanOf]
      rw [m1, c1, max_eq_left (by norm_num), Real.sqrt_sq (by norm_num)]
      ring
    rw [hst, hst]
    norm_num [abs_le]

/-- C102 (finding): three rows on which the two disagree even in sign, at the shipped rates: DCCCovariance reports a negative
covariance, ConditionalCovariance() a correlation above 0.999. -/
theorem C102_opposite_signs : ∃ D H : Matrix (Fin 2) (Fin 2) ℝ,
    ((new (dccCls (Fin 2)) ⟨1 / 20, none, false⟩).run [.partialFit (.batch apart)]).covariance = .ok D ∧
    ((CondObj.new (ewaVol (1 / 20)) (Obj.new (ewaCls (Fin 2) ℝ) ⟨1 / 20, false⟩)).run [.partialFit (.batch apart)]).covariance = .ok H ∧
    D 0 1 < 0 ∧ 0 < H 0 1 ∧ 999 / 1000 * Real.sqrt (H 0 0 * H 1 1) ≤ H 0 1 := by
  have hrows : rowsSinceFit [Call.partialFit (.batch apart)] [] = ![0, 0] :: ![1, 1] :: [![2, -1]] := rfl
  obtain ⟨D, hD⟩ := run_cov_ok (dcc_lawful (Fin 2)) ⟨1 / 20, none, false⟩ [Call.partialFit (.batch apart)] (by
    show used false [Call.partialFit (.batch apart)] ≠ []
    rw [used_batch]; simp [apart])
  obtain ⟨-, -, hc⟩ := C40_composition (ewaVol (1 / 20)) (by unfold ewaVol; simp) (Obj.new (ewaCls (Fin 2) ℝ) ⟨1 / 20, false⟩)
    [Call.partialFit (.batch apart)]
  obtain ⟨-, -, hc⟩ := hc (by rw [hrows]; simp)
  set es := (List.range (rowsSinceFit [Call.partialFit (.batch apart)] []).length).map
    (standardized (ewaVol (1 / 20)) (rowsSinceFit [Call.partialFit (.batch apart)] [])) with hes
  have hne : used false (feedCalls es) ≠ [] := by rw [used_feedCalls, hes, hrows]; simp
  have ha := (ewa_attrs (ι := Fin 2) (K := ℝ) ⟨1 / 20, false⟩ _ hne).2
  obtain ⟨H, hH⟩ : ∃ H, ((CondObj.new (ewaVol (1 / 20)) (Obj.new (ewaCls (Fin 2) ℝ) ⟨1 / 20, false⟩)).run
      [.partialFit (.batch apart)]).covariance = .ok H := by
    refine ⟨_, hc (covToCorr (ewaFold (1 / 20) (used false (feedCalls es))).cov) ?_⟩
    unfold Obj.correlation
    rw [show (Obj.new (ewaCls (Fin 2) ℝ) ⟨1 / 20, false⟩).params = (⟨1 / 20, false⟩ : RParam ℝ) from rfl, ha]; rfl
  refine ⟨D, H, hD, hH, ?_, ?_, ?_⟩
  · have e := C38_drd ⟨1 / 20, none, false⟩ _ D hD 0 1
    simp only [Option.getD_none, dccBurn, min_self, burn_twentieth] at e
    rw [show used false [Call.partialFit (.batch apart)] = apart from used_batch _] at e
    have hrec : ∀ k : Fin 2, recencyMean (1 / 20 : ℝ) 20 ([] : List (Fin 2 → ℝ)) k = 0 ∧ recencyMean (1 / 20 : ℝ) 20 [![(0:ℝ), 0]] k = 0 ∧
        recencyMean (1 / 20 : ℝ) 20 [![(0:ℝ), 0], ![1, 1]] k = 1 / 2 := by
      intro k
      fin_cases k <;> norm_num [recencyMean, recencyWeight, Finset.sum_range_succ]
    have hin : ∀ k : Fin 2, innovation (1 / 20 : ℝ) 20 apart 0 k = 0 ∧ innovation (1 / 20 : ℝ) 20 apart 1 k = 1 ∧
        innovation (1 / 20 : ℝ) 20 apart 2 k = (![2, -1] : Fin 2 → ℝ) k - 1 / 2 := by
      intro k
      have h := hrec k
      unfold innovation apart
      simp only [Pi.sub_apply]
      refine ⟨?_, ?_, ?_⟩
      · show (![(0:ℝ), 0] : Fin 2 → ℝ) k - recencyMean (1 / 20 : ℝ) 20 [] k = 0
        rw [h.1]; fin_cases k <;> simp
      · show (![(1:ℝ), 1] : Fin 2 → ℝ) k - recencyMean (1 / 20 : ℝ) 20 [![(0:ℝ), 0]] k = 1
        rw [h.2.1]; fin_cases k <;> simp
      · show (![(2:ℝ), -1] : Fin 2 → ℝ) k - recencyMean (1 / 20 : ℝ) 20 [![(0:ℝ), 0], ![1, 1]] k = _
        rw [h.2.2]
    have hin2 : ∀ k : Fin 2, innovation (1 / 20 : ℝ) 20 [![(0:ℝ), 0], ![1, 1]] 0 k = 0 ∧ innovation (1 / 20 : ℝ) 20 [![(0:ℝ), 0], ![1, 1]] 1 k = 1 := by
      intro k
      have h := hin k
      exact ⟨h.1, h.2.1⟩
    have hv2 : ∀ k : Fin 2, trackedVar (1 / 20 : ℝ) 20 (apart.take (1 + 1)) k = 1 / 2 := by
      intro k
      show trackedVar (1 / 20 : ℝ) 20 [![(0:ℝ), 0], ![1, 1]] k = 1 / 2
      have h := hin2 k
      unfold trackedVar
      show ∑ t ∈ Finset.range 2, recencyWeight (1 / 20 : ℝ) 20 2 t * _ = _
      simp only [Finset.sum_range_succ, Finset.sum_range_zero, h.1, h.2, recencyWeight]
      norm_num
    have hv3 : ∀ k : Fin 2, trackedVar (1 / 20 : ℝ) 20 (apart.take (2 + 1)) k = 13 / 12 := by
      intro k
      show trackedVar (1 / 20 : ℝ) 20 apart k = 13 / 12
      have h := hin k
      unfold trackedVar
      show ∑ t ∈ Finset.range 3, recencyWeight (1 / 20 : ℝ) 20 3 t * _ = _
      simp only [Finset.sum_range_succ, Finset.sum_range_zero, h.1, h.2.1, h.2.2, recencyWeight]
      fin_cases k <;> norm_num
    have hQ : dccQuasi (1 / 20) (1 / 20) 20 apart 0 1 < 0 := by
      unfold dccQuasi
      simp only [Matrix.of_apply]
      show ∑ t ∈ Finset.range 3, recencyWeight (1 / 20 : ℝ) 20 3 t * _ < 0
      unfold dccResidual
      simp only [Finset.sum_range_succ, Finset.sum_range_zero, (hin 0).1, (hin 1).1, (hin 0).2.1, (hin 1).2.1, (hin 0).2.2, (hin 1).2.2, hv2, hv3,
        recencyWeight, div_mul_div_comm]
      rw [max_eq_left (by norm_num : (1:ℝ) / 10 ^ 12 ≤ 1 / 2), max_eq_left (by norm_num : (1:ℝ) / 10 ^ 12 ≤ 13 / 12),
        Real.mul_self_sqrt (by norm_num), Real.mul_self_sqrt (by norm_num)]
      norm_num
    rw [e]
    have p : ∀ a : ℝ, 0 < Real.sqrt (max a (1 / 10 ^ 12)) := fun a => Real.sqrt_pos.2 (lt_of_lt_of_le (by positivity) (le_max_right _ _))
    have h1 := div_neg_of_neg_of_pos hQ (mul_pos (p (dccQuasi (1 / 20) (1 / 20) 20 apart 0 0)) (p (dccQuasi (1 / 20) (1 / 20) 20 apart 1 1)))
    exact mul_neg_of_neg_of_pos (mul_neg_of_pos_of_neg (p _) h1) (p _)
  · have h := (C102_second_row_decides (1 / 20) (1 / 20) (by norm_num) (by norm_num) _ _ _ _ hrows 0 1 10 1 apart_ordinary H hH).1 (by norm_num)
    refine lt_of_lt_of_le (mul_pos ?_ (mul_pos ?_ ?_)) h
    · unfold slack; rw [burn_twentieth]; norm_num
    · exact Real.sqrt_pos.2 (lt_of_lt_of_le (by positivity) (le_max_right _ _))
    · exact Real.sqrt_pos.2 (lt_of_lt_of_le (by positivity) (le_max_right _ _))
  · exact (C102_default_two_hundred_rows _ _ _ _ hrows (by simp) 0 1 apart_ordinary H hH).1 (by norm_num)

/-! ## Non-vacuity -/

-- the hypothesis of `C102_variance_order` on one row: the quasi-correlation of a single row has unit diagonal
example : (1:ℝ) / 10 ^ 12 ≤ dccQuasi (1 / 20) (1 / 20) (ewaBurnN (1 / 20 : ℝ)) (rowsSinceFit [Call.partialFit (.row (![3, 4] : Fin 2 → ℝ))] []) 0 0 := by
  show (1:ℝ) / 10 ^ 12 ≤ dccQuasi (1 / 20) (1 / 20) (ewaBurnN (1 / 20 : ℝ)) [![3, 4]] 0 0
  rw [burn_twentieth]
  simp only [dccQuasi, dccResidual, Matrix.of_apply, List.length_singleton, Finset.sum_range_one]
  have hin : innovation (1 / 20 : ℝ) 20 [(![3, 4] : Fin 2 → ℝ)] 0 0 = 3 := by simp [innovation, recencyMean]
  have hh : trackedVar (1 / 20 : ℝ) 20 [(![3, 4] : Fin 2 → ℝ)] 0 = 9 := by
    simp only [trackedVar, List.length_singleton, Finset.sum_range_one, hin, recencyWeight]; norm_num
  rw [hin, show ([(![3, 4] : Fin 2 → ℝ)]).take (0 + 1) = [![3, 4]] from rfl, hh, max_eq_left (by norm_num), div_mul_div_comm, Real.mul_self_sqrt (by norm_num)]
  norm_num [recencyWeight]

-- `Ordinary` (the hypothesis of the three dominance theorems) holds of the rows `apart`
example : Ordinary (1 / 20) ![0, 0] ![1, 1] [![2, -1]] (0 : Fin 2) 1 10 1 := apart_ordinary

end Precise
