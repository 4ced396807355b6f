import Verif.Lemmas.RoundedError
import Verif.Lemmas.EwaClosed
import Verif.Lemmas.Emp
import Verif.Lemmas.Recency
import Verif.Lemmas.Innov
import Verif.Props.Rounding
import Verif.Spec.Recency

/-!
# C76: rounding errors

The float objects against the textbook statistics of the same (float) observations, in exact arithmetic. The
Welford bounds grow at most linearly with the number of observations; the exponential ones do not grow at all.
-/

set_option linter.all false

namespace Precise

open Spec Obj

variable {ι : Type} [Fintype ι] {R : Rounding}

/-- The real numbers denoted by a list of float observations. -/
def vals (xs : List (ι → Fl R)) : List (ι → ℝ) := xs.map fun x i => (x i).val

/-- Every value is at most `M` in size. -/
def Bounded (M : ℝ) (xs : List (ι → Fl R)) : Prop := ∀ x ∈ xs, ∀ i, |(x i).val| ≤ M

theorem abs_convex {M T x c : ℝ} (hc : 1 ≤ c) (hT : |T| ≤ M) (hx : |x| ≤ M) : |T + (x - T) / c| ≤ M := by
  have hc0 : 0 < c := by linarith
  have h1 : 1 / c ≤ 1 := by rw [div_le_one hc0]; exact hc
  have h0 : 0 ≤ 1 / c := by positivity
  rw [show T + (x - T) / c = (1 - 1 / c) * T + 1 / c * x by field_simp; ring]
  refine (abs_add_le _ _).trans ?_
  rw [abs_mul, abs_mul, abs_of_nonneg h0, abs_of_nonneg (by linarith : 0 ≤ 1 - 1 / c)]
  nlinarith

/-- Invariant of the two Welford runs, in floats and exact. -/
structure EmpErr (M : ℝ) (n : ℕ) (s : EmpState ι (Fl R)) (S : EmpState ι ℝ) : Prop where
  n1 : s.nSamples = n
  n2 : S.nSamples = n
  zero : n = 0 → (∀ i, (s.mean i).val = 0) ∧ (∀ i, S.mean i = 0) ∧ (∀ i j, (s.cov i j).val = 0) ∧ ∀ i j, S.cov i j = 0
  mean : ∀ i, |(s.mean i).val| ≤ M
  exact : ∀ i, |S.mean i| ≤ M
  err : ∀ i, |(s.mean i).val - S.mean i| ≤ R.u * (M + 2 * R.tiny) * ((n + 11) / 2)

theorem empErr_mean_step {M : ℝ} {n : ℕ} {s : EmpState ι (Fl R)} {S : EmpState ι ℝ} (hn : n + 1 ≤ R.maxInt)
    (h : EmpErr M n s S) (x : ι → Fl R) (hx : ∀ i, |(x i).val| ≤ M) (i : ι) :
    |((empUpdate s x).mean i).val| ≤ M ∧ |(empUpdate S fun i => (x i).val).mean i| ≤ M ∧
    |((empUpdate s x).mean i).val - (empUpdate S fun i => (x i).val).mean i|
      ≤ R.u * (M + 2 * R.tiny) * (((n + 1 : ℕ) + 11) / 2) := by
  have hu0 := R.u_nonneg
  have hl := R.tiny_nonneg
  have hM0 : 0 ≤ M := (abs_nonneg _).trans (hx i)
  have e1 : ((empUpdate s x).mean i).val
      = R.rnd ((s.mean i).val + R.rnd (R.rnd ((x i).val - (s.mean i).val) / R.rnd ((n + 1 : ℕ) : ℝ))) := by
    rw [← h.n1]; rfl
  have e2 : (empUpdate S fun i => (x i).val).mean i = S.mean i + ((x i).val - S.mean i) / ((n + 1 : ℕ) : ℝ) := by
    rw [← h.n2]; rfl
  rw [e1, e2]
  rcases Nat.eq_zero_or_pos n with rfl | hpos
  · obtain ⟨h1, h2, -⟩ := h.zero rfl
    rw [first_mean (h1 i), h2 i]
    have : (0 : ℝ) + ((x i).val - 0) / ((0 + 1 : ℕ) : ℝ) = (x i).val := by norm_num
    rw [this, sub_self, abs_zero]
    exact ⟨hx i, hx i, by positivity⟩
  · have h2 : 2 ≤ n + 1 := by omega
    have hr := R.welford_between (s.mean i).rep (x i).rep (R.two_le_nat h2)
    refine ⟨?_, abs_convex (by exact_mod_cast (by omega : 1 ≤ n + 1)) (h.exact i) (hx i), ?_⟩
    · have a := abs_le.1 (h.mean i)
      have b := abs_le.1 (hx i)
      exact abs_le.2 ⟨(le_min a.1 b.1).trans hr.1, hr.2.trans (max_le a.2 b.2)⟩
    · refine (R.mean_err h2 hn (s.mean i).rep (x i).rep (h.mean i) (hx i) (h.err i)).trans ?_
      have hc0 : (0 : ℝ) < ((n + 1 : ℕ) : ℝ) := by positivity
      have key : R.u * M ≤ R.u * (M + 2 * R.tiny) := mul_le_mul_of_nonneg_left (by linarith) hu0
      set A := R.u * (M + 2 * R.tiny)
      have hcc : (n : ℝ) = ((n + 1 : ℕ) : ℝ) - 1 := by push_cast; ring
      rw [hcc]
      set c : ℝ := ((n + 1 : ℕ) : ℝ)
      have : 5 * (R.u * M) / c ≤ 5 * A / c := div_le_div_of_nonneg_right (by linarith) hc0.le
      have e3 : (1 - 1 / c) * (A * ((c - 1 + 11) / 2)) + A + 5 * A / c = A * ((c + 11) / 2) := by field_simp; ring
      linarith

theorem empErr_step {M : ℝ} {n : ℕ} {s : EmpState ι (Fl R)} {S : EmpState ι ℝ} (hn : n + 1 ≤ R.maxInt)
    (h : EmpErr M n s S) (x : ι → Fl R) (hx : ∀ i, |(x i).val| ≤ M) :
    EmpErr M (n + 1) (empUpdate s x) (empUpdate S fun i => (x i).val) where
  n1 := by show s.nSamples + 1 = _; rw [h.n1]
  n2 := by show S.nSamples + 1 = _; rw [h.n2]
  zero := fun e => absurd e (Nat.succ_ne_zero _)
  mean := fun i => (empErr_mean_step hn h x hx i).1
  exact := fun i => (empErr_mean_step hn h x hx i).2.1
  err := fun i => (empErr_mean_step hn h x hx i).2.2

theorem empErr_init {M : ℝ} (hM : 0 ≤ M) : EmpErr M 0 (empInit : EmpState ι (Fl R)) empInit where
  n1 := rfl
  n2 := rfl
  zero := fun _ => ⟨fun _ => rfl, fun _ => rfl, fun _ _ => rfl, fun _ _ => rfl⟩
  mean := fun i => by show |(0 : ℝ)| ≤ M; simpa using hM
  exact := fun i => by show |(0 : ℝ)| ≤ M; simpa using hM
  err := fun i => by
    show |(0 : ℝ) - 0| ≤ _
    have hu0 := R.u_nonneg
    have hl := R.tiny_nonneg
    simp only [sub_self, abs_zero]
    positivity

theorem vals_snoc (xs : List (ι → Fl R)) (x : ι → Fl R) : vals (xs ++ [x]) = vals xs ++ [fun i => (x i).val] := by
  simp [vals]

theorem empErr_fold {M : ℝ} (hM : 0 ≤ M) (xs : List (ι → Fl R)) (hb : Bounded M xs) (hn : xs.length ≤ R.maxInt) :
    EmpErr M xs.length (xs.foldl empUpdate empInit) (empFold (vals xs)) := by
  induction xs using List.reverseRecOn with
  | nil => exact empErr_init hM
  | append_singleton xs x ih =>
    rw [vals_snoc, empFold_snoc, List.foldl_append, List.length_append]
    rw [List.length_append] at hn
    exact empErr_step hn (ih (fun y hy => hb y (List.mem_append_left _ hy)) (by omega)) x (hb x (by simp))

/-- The covariance part of the invariant. -/
structure CovErr (M : ℝ) (e : ℝ) (s : EmpState ι (Fl R)) (S : EmpState ι ℝ) : Prop where
  exact : ∀ i j, |S.cov i j| ≤ 4 * (M * M)
  err : ∀ i j, |(s.cov i j).val - S.cov i j| ≤ e

theorem covErr_step {M : ℝ} {n : ℕ} {s : EmpState ι (Fl R)} {S : EmpState ι ℝ} (hn : n + 1 ≤ R.maxInt)
    (hl1 : R.tiny ≤ M) (hl2 : R.tiny ≤ M * M) (hnu : 16 * ((n + 1 : ℕ) * R.u) ≤ 1)
    (h : EmpErr M n s S) (hc : CovErr M (75 * n * (R.u * (M * M))) s S) (x : ι → Fl R) (hx : ∀ i, |(x i).val| ≤ M) :
    CovErr M (75 * (n + 1 : ℕ) * (R.u * (M * M))) (empUpdate s x) (empUpdate S fun i => (x i).val) := by
  have hu0 := R.u_nonneg
  have hl := R.tiny_nonneg
  have hM0 : 0 ≤ M := hl.trans hl1
  have hstep := empErr_step hn h x hx
  have hB0 : 0 ≤ M * M := mul_nonneg hM0 hM0
  have hcpos : (0 : ℝ) < ((n + 1 : ℕ) : ℝ) := by positivity
  have eS : ∀ i j, (empUpdate S fun i => (x i).val).cov i j
      = S.cov i j * ((n + 1 - 1 : ℕ) : ℝ) / ((n + 1 : ℕ) : ℝ)
        + ((x i).val - S.mean i) * (((x j).val - (empUpdate S fun i => (x i).val).mean j) / ((n + 1 : ℕ) : ℝ)) := by
    intro i j; rw [← h.n2]; rfl
  have es : ∀ i j, ((empUpdate s x).cov i j).val
      = R.rnd (R.rnd (R.rnd ((s.cov i j).val * R.rnd ((n + 1 - 1 : ℕ) : ℝ)) / R.rnd ((n + 1 : ℕ) : ℝ))
        + R.rnd (R.rnd ((x i).val - (s.mean i).val)
          * R.rnd (R.rnd ((x j).val - ((empUpdate s x).mean j).val) / R.rnd ((n + 1 : ℕ) : ℝ)))) := by
    intro i j; rw [← h.n1]; rfl
  rcases Nat.eq_zero_or_pos n with rfl | hpos
  · obtain ⟨h1, h2, h3, h4⟩ := h.zero rfl
    have hm1 : ∀ j, ((empUpdate s x).mean j).val = (x j).val := by
      intro j
      have : ((empUpdate s x).mean j).val
        = R.rnd ((s.mean j).val + R.rnd (R.rnd ((x j).val - (s.mean j).val) / R.rnd ((0 + 1 : ℕ) : ℝ))) := by
        rw [← h.n1]; rfl
      rw [this, first_mean (h1 j)]
    have hm2 : ∀ j, (empUpdate S fun i => (x i).val).mean j = (x j).val := by
      intro j
      have : (empUpdate S fun i => (x i).val).mean j = S.mean j + ((x j).val - S.mean j) / ((0 + 1 : ℕ) : ℝ) := by
        rw [← h.n2]; rfl
      rw [this, h2]; norm_num
    have z1 : ∀ i j, (empUpdate S fun i => (x i).val).cov i j = 0 := by
      intro i j; rw [eS, hm2, h4]; simp
    have z2 : ∀ i j, ((empUpdate s x).cov i j).val = 0 := by
      intro i j
      rw [es, hm1, h3, zero_mul, R.rnd_zero, zero_div, R.rnd_zero, sub_self, R.rnd_zero, zero_div, R.rnd_zero, mul_zero,
        R.rnd_zero, zero_add, R.rnd_zero]
    refine ⟨fun i j => ?_, fun i j => ?_⟩
    · rw [z1, abs_zero]; positivity
    · rw [z1, z2, sub_self, abs_zero]; positivity
  · have h2 : 2 ≤ n + 1 := by omega
    have hc2 : (2 : ℝ) ≤ ((n + 1 : ℕ) : ℝ) := by exact_mod_cast h2
    have hcc : (n : ℝ) = ((n + 1 : ℕ) : ℝ) - 1 := by push_cast; ring
    refine ⟨fun i j => ?_, fun i j => ?_⟩
    · rw [eS, show n + 1 - 1 = n by omega, hcc]
      set c : ℝ := ((n + 1 : ℕ) : ℝ)
      have d1 : |(x i).val - S.mean i| ≤ 2 * M := by
        rw [sub_eq_add_neg]; refine (abs_add_le _ _).trans ?_; rw [abs_neg]; linarith [hx i, h.exact i]
      have d2 : |((x j).val - (empUpdate S fun i => (x i).val).mean j) / c| ≤ 2 * M / c := by
        rw [abs_div, abs_of_pos hcpos]
        refine div_le_div_of_nonneg_right ?_ hcpos.le
        rw [sub_eq_add_neg]; refine (abs_add_le _ _).trans ?_; rw [abs_neg]; linarith [hx j, hstep.exact j]
      refine (abs_add_le _ _).trans ?_
      have a1 : |S.cov i j * (c - 1) / c| ≤ 4 * (M * M) * ((c - 1) / c) := by
        rw [mul_div_assoc, abs_mul, abs_of_nonneg (div_nonneg (by linarith) hcpos.le)]
        exact mul_le_mul_of_nonneg_right (hc.exact i j) (div_nonneg (by linarith) hcpos.le)
      have a2 : |((x i).val - S.mean i) * (((x j).val - (empUpdate S fun i => (x i).val).mean j) / c)| ≤ 2 * M * (2 * M / c) := by
        rw [abs_mul]; exact mul_le_mul d1 d2 (abs_nonneg _) (by positivity)
      refine (add_le_add a1 a2).trans (le_of_eq ?_)
      field_simp; ring
    · rw [es, eS]
      have E1 : ∀ k, |(s.mean k).val - S.mean k| ≤ R.u * (M + 2 * R.tiny) * (((n + 1 : ℕ) + 11) / 2) := by
        intro k
        refine (h.err k).trans (mul_le_mul_of_nonneg_left ?_ (by positivity))
        push_cast; linarith
      refine (R.cov_err h2 hn (x i).rep (x j).rep (s.mean i).rep ((empUpdate s x).mean j).rep (hx i) (hx j) (h.mean i)
        (hstep.mean j) (hstep.exact j) (E1 i) (hstep.err j) (hc.err i j) (hc.exact i j) hl1 hl2).trans ?_
      rw [hcc]
      set c : ℝ := ((n + 1 : ℕ) : ℝ)
      set B := M * M with hB
      have kE : M * (R.u * (M + 2 * R.tiny) * ((c + 11) / 2)) ≤ 3 * (R.u * B) * ((c + 11) / 2) := by
        have : M * (R.u * (M + 2 * R.tiny)) ≤ 3 * (R.u * B) := by
          have h3 : R.u * (M * R.tiny) ≤ R.u * (M * M) := mul_le_mul_of_nonneg_left (mul_le_mul_of_nonneg_left hl1 hM0) hu0
          rw [hB]; linarith
        calc _ = M * (R.u * (M + 2 * R.tiny)) * ((c + 11) / 2) := by ring
          _ ≤ _ := mul_le_mul_of_nonneg_right this (by linarith)
      have hb0 : 0 ≤ R.u * B := mul_nonneg hu0 hB0
      set b := R.u * B
      have k1 : (17 * b + 5 * (M * (R.u * (M + 2 * R.tiny) * ((c + 11) / 2)))) / c
          ≤ (17 * b + 5 * (3 * b * ((c + 11) / 2))) / c := div_le_div_of_nonneg_right (by linarith) hcpos.le
      have k2 : (17 * b + 5 * (3 * b * ((c + 11) / 2))) / c = 15 / 2 * b + (199 / 2) * b * (1 / c) := by field_simp; ring
      have k3 : (1 / c : ℝ) ≤ 1 / 2 := by rw [div_le_div_iff₀ hcpos (by norm_num)]; linarith
      have k3' : (0 : ℝ) ≤ 1 / c := by positivity
      have k4 : b * (1 / c) ≤ b * (1 / 2) := mul_le_mul_of_nonneg_left k3 hb0
      have k5 : (1 - 1 / c) * (1 + 4 * R.u) * (75 * (c - 1) * b)
          = 75 * b * (c - 2 + 1 / c) * (1 + 4 * R.u) := by field_simp; ring
      have k6 : (c - 2 + 1 / c) * (1 + 4 * R.u) ≤ c - 5 / 4 := by
        have : (c - 2 + 1 / c) * (4 * R.u) ≤ c * (4 * R.u) := mul_le_mul_of_nonneg_right (by linarith) (by linarith)
        nlinarith
      have k7 : 75 * b * ((c - 2 + 1 / c) * (1 + 4 * R.u)) ≤ 75 * b * (c - 5 / 4) := mul_le_mul_of_nonneg_left k6 (by linarith)
      rw [k5]
      nlinarith

theorem covErr_fold {M : ℝ} (hl1 : R.tiny ≤ M) (hl2 : R.tiny ≤ M * M) (xs : List (ι → Fl R)) (hb : Bounded M xs)
    (hn : xs.length ≤ R.maxInt) (hnu : 16 * (xs.length * R.u) ≤ 1) :
    CovErr M (75 * xs.length * (R.u * (M * M))) (xs.foldl empUpdate empInit) (empFold (vals xs)) := by
  have hM0 : 0 ≤ M := R.tiny_nonneg.trans hl1
  induction xs using List.reverseRecOn with
  | nil =>
    refine ⟨fun i j => ?_, fun i j => ?_⟩
    · show |(0 : ℝ)| ≤ _; rw [abs_zero]; positivity
    · show |(0 : ℝ) - 0| ≤ _; simp
  | append_singleton xs x ih =>
    rw [vals_snoc, empFold_snoc, List.foldl_append, List.length_append]
    rw [List.length_append] at hn hnu
    have hb' : Bounded M xs := fun y hy => hb y (List.mem_append_left _ hy)
    have hu0 := R.u_nonneg
    refine covErr_step hn hl1 hl2 hnu (empErr_fold hM0 xs hb' (by omega)) (ih hb' (by omega) ?_) x (hb x (by simp))
    push_cast at hnu
    have h1 : ((([x] : List (ι → Fl R)).length : ℕ) : ℝ) = 1 := by simp
    rw [h1] at hnu
    nlinarith

/-- Symmetrization in floats. -/
theorem sym_err {M e : ℝ} (hM : 0 ≤ M) (hl2 : R.tiny ≤ M * M) {a : Matrix ι ι (Fl R)} {C : ℝ} {i j : ι}
    (h1 : |(a i j).val - C| ≤ e) (h2 : |(a j i).val - C| ≤ e) (hC : |C| ≤ 4 * (M * M)) :
    |(toSymmetric a i j).val - C| ≤ e + 5 / 2 * (R.u * e) + 11 * (R.u * (M * M)) := by
  have hu0 := R.u_nonneg
  have hu := R.u_le
  have hl := R.tiny_nonneg
  have hB0 : 0 ≤ M * M := mul_nonneg hM hM
  have he : 0 ≤ e := (abs_nonneg _).trans h1
  set B := M * M
  show |R.rnd (R.rnd ((a i j).val + (a j i).val) / 2) - C| ≤ _
  set α := (a i j).val
  set β := (a j i).val
  have hα : |α| ≤ 4 * B + e := by rw [show α = C + (α - C) by ring]; exact (abs_add_le _ _).trans (add_le_add hC h1)
  have hβ : |β| ≤ 4 * B + e := by rw [show β = C + (β - C) by ring]; exact (abs_add_le _ _).trans (add_le_add hC h2)
  have hs : |α + β| ≤ 8 * B + 2 * e := (abs_add_le _ _).trans (by linarith)
  have hd := R.err_le hs
  set d := R.rnd (α + β)
  have hd1 : |d / 2| ≤ (8 * B + 2 * e + R.u * (8 * B + 2 * e + R.tiny)) / 2 := by
    rw [abs_div, abs_of_pos (by norm_num : (0:ℝ) < 2)]
    refine div_le_div_of_nonneg_right ?_ (by norm_num)
    rw [show d = (α + β) + (d - (α + β)) by ring]; exact (abs_add_le _ _).trans (add_le_add hs hd)
  have hf := R.err_le hd1
  have e1 : R.rnd (d / 2) - C = (R.rnd (d / 2) - d / 2) + ((d - (α + β)) / 2 + ((α - C) / 2 + (β - C) / 2)) := by ring
  rw [e1]
  have half : ∀ y Y : ℝ, |y| ≤ Y → |y / 2| ≤ Y / 2 := fun y Y h => by
    rw [abs_div, abs_of_pos (by norm_num : (0:ℝ) < 2)]; linarith
  refine (abs_add_le _ _).trans ((add_le_add hf ((abs_add_le _ _).trans (add_le_add (half _ _ hd)
    ((abs_add_le _ _).trans (add_le_add (half _ _ h1) (half _ _ h2)))))).trans ?_)
  have uu : R.u * R.u ≤ 1 / 8 * R.u := mul_le_mul_of_nonneg_right hu hu0
  have s1 : R.u * R.u * B ≤ 1 / 8 * R.u * B := mul_le_mul_of_nonneg_right uu hB0
  have s2 : R.u * R.u * e ≤ 1 / 8 * R.u * e := mul_le_mul_of_nonneg_right uu he
  have s3 : R.u * R.u * R.tiny ≤ 1 / 8 * R.u * R.tiny := mul_le_mul_of_nonneg_right uu hl
  have s4 : R.u * R.tiny ≤ R.u * B := mul_le_mul_of_nonneg_left hl2 hu0
  have p1 : 0 ≤ R.u * B := mul_nonneg hu0 hB0
  have p2 : 0 ≤ R.u * e := mul_nonneg hu0 he
  linarith only [s1, s2, s3, s4, p1, p2]

theorem vals_ne {xs : List (ι → Fl R)} (h : xs ≠ []) : vals xs ≠ [] := by simpa [vals] using h

/-- C76: `EmpiricalCovariance.location_` computed in floats differs from the exact mean of the observations by at most
`u (M + 2 tiny) (n + 11) / 2`, where `M` bounds the data: the error grows at most linearly. -/
theorem C76_empirical_location_error (d : Bool) (calls : List (Call ι (Fl R))) (m : ι → Fl R) (M : ℝ)
    (h : ((new (empiricalCls ι (Fl R)) d).run calls).location = .ok m) (hb : Bounded M (used d calls))
    (hn : (used d calls).length ≤ R.maxInt) (i : ι) :
    |(m i).val - meanOf (vals (used d calls)) i| ≤ R.u * (M + 2 * R.tiny) * (((used d calls).length + 11) / 2) := by
  obtain ⟨hne, rfl⟩ := run_location_inv (empirical_lawful ι (Fl R)) d calls m h
  change used d calls ≠ [] at hne
  have hM : 0 ≤ M := by
    obtain ⟨x, hx⟩ := List.exists_mem_of_ne_nil _ hne
    exact (abs_nonneg _).trans (hb x hx i)
  rw [← empFold_mean (vals_ne hne)]
  exact (empErr_fold hM _ hb hn).err i

/-- C76: every entry of `EmpiricalCovariance.covariance_` computed in floats differs from the exact population covariance
of the observations by at most `100 n u M²`. -/
theorem C76_empirical_covariance_error (d : Bool) (calls : List (Call ι (Fl R))) (c : Matrix ι ι (Fl R)) (M : ℝ)
    (h : ((new (empiricalCls ι (Fl R)) d).run calls).covariance = .ok c) (hb : Bounded M (used d calls))
    (hl1 : R.tiny ≤ M) (hl2 : R.tiny ≤ M * M) (hn : (used d calls).length ≤ R.maxInt)
    (hnu : 16 * ((used d calls).length * R.u) ≤ 1) (i j : ι) :
    |(c i j).val - covOf (vals (used d calls)) i j| ≤ 100 * (used d calls).length * (R.u * (M * M)) := by
  obtain ⟨hne, rfl⟩ := run_covariance_inv (empirical_lawful ι (Fl R)) d calls c h
  change used d calls ≠ [] at hne
  have hM : 0 ≤ M := R.tiny_nonneg.trans hl1
  have key := covErr_fold hl1 hl2 _ hb hn hnu
  have e : ∀ i j, (empFold (vals (used d calls))).cov i j = covOf (vals (used d calls)) i j := fun i j => by
    rw [empFold_cov (vals_ne hne)]
  have k1 := key.err i j
  have k2 := key.err j i
  have k3 := key.exact i j
  rw [e] at k1 k2 k3
  rw [covOf_comm _ j i] at k2
  refine (sym_err hM hl2 (a := ((used d calls).foldl empUpdate empInit).cov) k1 k2 k3).trans ?_
  have hu0 := R.u_nonneg
  have hB0 : 0 ≤ M * M := mul_nonneg hM hM
  have hn1 : (1 : ℝ) ≤ (used d calls).length := by exact_mod_cast List.length_pos_iff.2 hne
  set n : ℝ := ((used d calls).length : ℝ)
  set b := R.u * (M * M)
  have hb0 : 0 ≤ b := mul_nonneg hu0 hB0
  have t1 : n * R.u * b ≤ 1 / 16 * b := mul_le_mul_of_nonneg_right (by linarith) hb0
  have t2 : b ≤ n * b := by nlinarith
  have e2 : R.u * (75 * n * b) = 75 * (n * R.u * b) := by ring
  rw [e2]
  linarith only [t1, t2, hb0]

/-! ### EWA -/

/-- The float EWA run with a given burn-in. -/
noncomputable def ewaFloat (r : Fl R) (b : ℕ) (xs : List (ι → Fl R)) : EwaState ι (Fl R) :=
  xs.foldl ewaUpdate { toEmpState := empInit, r := r, nBurn := b }

theorem ewaFloat_snoc (r : Fl R) (b : ℕ) (xs : List (ι → Fl R)) (x : ι → Fl R) :
    ewaFloat r b (xs ++ [x]) = ewaUpdate (ewaFloat r b xs) x := by simp [ewaFloat]

theorem ewaFloat_const (r : Fl R) (b : ℕ) (xs : List (ι → Fl R)) :
    (ewaFloat r b xs).r = r ∧ (ewaFloat r b xs).nBurn = b ∧ (ewaFloat r b xs).nSamples = xs.length := by
  induction xs using List.reverseRecOn with
  | nil => exact ⟨rfl, rfl, rfl⟩
  | append_singleton xs x ih =>
    rw [ewaFloat_snoc]
    unfold ewaUpdate
    split
    · exact ⟨ih.1, ih.2.1, by show _ + 1 = _; rw [ih.2.2]; simp⟩
    · exact ⟨ih.1, ih.2.1, by show _ + 1 = _; rw [ih.2.2]; simp⟩

theorem ewaFloat_burn (r : Fl R) (b : ℕ) (xs : List (ι → Fl R)) (h : xs.length ≤ b) :
    (ewaFloat r b xs).toEmpState = xs.foldl empUpdate empInit := by
  induction xs using List.reverseRecOn with
  | nil => rfl
  | append_singleton xs x ih =>
    rw [List.length_append] at h
    simp only [List.length_singleton] at h
    obtain ⟨-, h2, h3⟩ := ewaFloat_const r b xs
    rw [ewaFloat_snoc, List.foldl_append, ewaUpdate, if_pos (by rw [h2, h3]; omega), ← ih (by omega)]
    rfl

theorem ewaFloat_tail (r : Fl R) (b : ℕ) (xs : List (ι → Fl R)) (x : ι → Fl R) (h : b ≤ xs.length) :
    (ewaFloat r b (xs ++ [x])).toEmpState = ewaBlend r (ewaFloat r b xs).toEmpState x := by
  obtain ⟨h1, h2, h3⟩ := ewaFloat_const r b xs
  rw [ewaFloat_snoc, ewaUpdate, if_neg (by rw [h2, h3]; omega), h1]

/-- The burn-in is short: at most `5 / r` observations, and at most 250. -/
theorem ewaBurnNFl_le {r : Fl R} (h0 : 0 < r.val) (h1 : r.val ≤ 1) :
    5 ≤ ewaBurnNFl r ∧ ewaBurnNFl r ≤ 250 ∧ (ewaBurnNFl r : ℝ) ≤ 5 / r.val := by
  have hu0 := R.u_nonneg
  have hu := R.u_le
  have hl := R.tiny_le
  have e : (1 / r).val = R.rnd (1 / r.val) := rfl
  have h5 : (5 : ℤ) ≤ min 250 (max 5 ⌈(1 / r).val⌉) := le_min (by norm_num) (le_max_left _ _)
  have h250 : min 250 (max 5 ⌈(1 / r).val⌉) ≤ (250 : ℤ) := min_le_left _ _
  have hz : ((ewaBurnNFl r : ℕ) : ℤ) = min 250 (max 5 ⌈(1 / r).val⌉) := by
    unfold ewaBurnNFl; exact Int.toNat_of_nonneg (by omega)
  refine ⟨by omega, by omega, ?_⟩
  have hinv : 1 ≤ 1 / r.val := by rw [le_div_iff₀ h0]; linarith
  have hle : ((ewaBurnNFl r : ℕ) : ℤ) ≤ max 5 ⌈(1 / r).val⌉ := by rw [hz]; exact min_le_right _ _
  have hle' : ((ewaBurnNFl r : ℕ) : ℝ) ≤ ((max 5 ⌈(1 / r).val⌉ : ℤ) : ℝ) := by exact_mod_cast hle
  refine hle'.trans ?_
  rw [show 5 / r.val = 5 * (1 / r.val) by ring]
  push_cast
  refine max_le (by linarith) ?_
  have hc := Int.ceil_lt_add_one (1 / r).val
  have hr := (abs_le.1 (R.abs_err (1 / r.val))).2
  rw [abs_of_pos (by linarith : (0:ℝ) < 1 / r.val)] at hr
  rw [e] at hc ⊢
  have : R.u * (1 / r.val + R.tiny) ≤ 1 / 8 * (1 / r.val + R.tiny) :=
    mul_le_mul_of_nonneg_right hu (by have := R.tiny_nonneg; linarith)
  linarith

/-- Mean part of the EWA invariant. -/
theorem ewa_mean_err {M : ℝ} (hM : 0 ≤ M) {r : Fl R} (h0 : 0 < r.val) (h1 : r.val ≤ 1) (hru : 8 * R.u ≤ r.val) {b : ℕ}
    (hb5 : (b : ℝ) ≤ 5 / r.val) (hb250 : b ≤ 250) (xs : List (ι → Fl R)) (hb : Bounded M xs) (i : ι) :
    |(ewaExact r.val b (vals xs)).mean i| ≤ M ∧
    |((ewaFloat r b xs).mean i).val - (ewaExact r.val b (vals xs)).mean i| ≤ 9 * (R.u * (M + 2 * R.tiny)) / r.val := by
  have hu0 := R.u_nonneg
  have hl := R.tiny_nonneg
  have hA : 0 ≤ R.u * (M + 2 * R.tiny) := by positivity
  induction xs using List.reverseRecOn with
  | nil =>
    refine ⟨?_, ?_⟩
    · show |(0 : ℝ)| ≤ M; simpa using hM
    · show |(0 : ℝ) - 0| ≤ _; simp only [sub_self, abs_zero]; positivity
  | append_singleton xs x ih =>
    by_cases hl' : (xs ++ [x]).length ≤ b
    · have hlen : (vals (xs ++ [x])).length ≤ b := by simpa [vals] using hl'
      have E := empErr_fold hM (xs ++ [x]) hb (by have := R.maxInt_ge; omega)
      have e1 : (ewaExact r.val b (vals (xs ++ [x]))).mean = (empFold (vals (xs ++ [x]))).mean := by
        rw [← ewaExact_burn r.val b _ hlen]
      have e2 : (ewaFloat r b (xs ++ [x])).mean = ((xs ++ [x]).foldl empUpdate empInit : EmpState ι (Fl R)).mean := by
        rw [← ewaFloat_burn r b _ hl']
      rw [e1, e2]
      refine ⟨E.exact i, (E.err i).trans ?_⟩
      have hnb : ((xs ++ [x]).length : ℝ) ≤ b := by exact_mod_cast hl'
      have hinv : 1 ≤ 1 / r.val := by rw [le_div_iff₀ h0]; linarith
      rw [show 9 * (R.u * (M + 2 * R.tiny)) / r.val = R.u * (M + 2 * R.tiny) * (9 * (1 / r.val)) by ring]
      refine mul_le_mul_of_nonneg_left ?_ hA
      rw [show 5 / r.val = 5 * (1 / r.val) by ring] at hb5
      linarith
    · rw [List.length_append, List.length_singleton] at hl'
      have hbl : b ≤ xs.length := by omega
      have hbl' : b ≤ (vals xs).length := by simpa [vals] using hbl
      obtain ⟨i1, i2⟩ := ih fun y hy => hb y (List.mem_append_left _ hy)
      have hx : |(x i).val| ≤ M := hb x (by simp) i
      have e1 : (ewaExact r.val b (vals (xs ++ [x]))).mean i
          = (1 - r.val) * (ewaExact r.val b (vals xs)).mean i + r.val * (x i).val := by
        rw [vals_snoc, show (ewaExact r.val b (vals xs ++ [fun i => (x i).val])).mean
          = (ewaExact r.val b (vals xs ++ [fun i => (x i).val])).toEmpState.mean from rfl, ewaExact_tail _ _ _ _ hbl']
        rfl
      have e2 : ((ewaFloat r b (xs ++ [x])).mean i).val
          = R.rnd (R.rnd (R.rnd (1 - r.val) * ((ewaFloat r b xs).mean i).val) + R.rnd (r.val * (x i).val)) := by
        rw [show (ewaFloat r b (xs ++ [x])).mean = (ewaFloat r b (xs ++ [x])).toEmpState.mean from rfl, ewaFloat_tail _ _ _ _ hbl]
        rfl
      rw [e1, e2]
      constructor
      · refine (abs_add_le _ _).trans ?_
        rw [abs_mul, abs_mul, abs_of_pos h0, abs_of_nonneg (by linarith : 0 ≤ 1 - r.val)]
        nlinarith
      · refine (R.blend_err r.rep h0.le h1 i2 i1 (by simp : |(x i).val - (x i).val| ≤ 0) hx).trans ?_
        set e := 9 * (R.u * (M + 2 * R.tiny)) / r.val with he
        have he0 : 0 ≤ e := by positivity
        have hre : r.val * e = 9 * (R.u * (M + 2 * R.tiny)) := by rw [he]; field_simp
        have k1 : (1 - r.val) * (1 + 4 * R.u) * e ≤ (1 - r.val / 2) * e := by
          refine mul_le_mul_of_nonneg_right ?_ he0
          have : 0 ≤ R.u * r.val := mul_nonneg hu0 h0.le
          nlinarith
        have k2 : 4 * R.u * ((1 - r.val) * M + r.val * M + R.tiny) ≤ 4 * (R.u * (M + 2 * R.tiny)) := by
          have : 0 ≤ R.u * R.tiny := mul_nonneg hu0 hl
          nlinarith
        have k3 : (1 - r.val / 2) * e = e - 9 / 2 * (R.u * (M + 2 * R.tiny)) := by rw [sub_mul, one_mul, div_mul_eq_mul_div, hre]; ring
        linarith

/-- C76: with `r ≥ 8 u`, `EwaCovariance.location_` computed in floats differs from the exact recency-weighted mean of the
observations by at most `9 u (M + 2 tiny) / r`, however long the stream: rounding errors do not accumulate. -/
theorem C76_ewa_location_error (p : RParam (Fl R)) (h0 : 0 < p.r.val) (h1 : p.r.val ≤ 1) (hru : 8 * R.u ≤ p.r.val)
    (calls : List (Call ι (Fl R))) (m : ι → Fl R) (M : ℝ)
    (h : ((new (ewaFlCls R ι) p).run calls).location = .ok m) (hb : Bounded M (used p.diff calls)) (i : ι) :
    |(m i).val - recencyMean p.r.val (ewaBurnNFl p.r) (vals (used p.diff calls)) i|
      ≤ 9 * (R.u * (M + 2 * R.tiny)) / p.r.val := by
  obtain ⟨hne, rfl⟩ := run_location_inv (ewaFl_lawful R ι) p calls m h
  change used p.diff calls ≠ [] at hne
  have hM : 0 ≤ M := by
    obtain ⟨x, hx⟩ := List.exists_mem_of_ne_nil _ hne
    exact (abs_nonneg _).trans (hb x hx i)
  obtain ⟨g1, g2, g3⟩ := ewaBurnNFl_le h0 h1
  rw [← recencyMean_eq _ _ (by omega)]
  exact (ewa_mean_err hM h0 h1 hru g3 g2 _ hb i).2

set_option maxHeartbeats 800000 in
/-- Covariance part of the EWA invariant. -/
theorem ewa_cov_err {M : ℝ} (hl1 : R.tiny ≤ M) (hl2 : R.tiny ≤ M * M) {r : Fl R} (h0 : 0 < r.val) (h1 : r.val ≤ 1)
    (hru : 80 * R.u ≤ r.val) {b : ℕ} (hb5 : (b : ℝ) ≤ 5 / r.val) (hb250 : b ≤ 250) (xs : List (ι → Fl R))
    (hb : Bounded M xs) (i j : ι) :
    |(ewaExact r.val b (vals xs)).cov i j| ≤ 4 * (M * M) ∧
    |((ewaFloat r b xs).cov i j).val - (ewaExact r.val b (vals xs)).cov i j| ≤ 375 * (R.u * (M * M)) / r.val := by
  have hu0 := R.u_nonneg
  have hu := R.u_le
  have hl := R.tiny_nonneg
  have hM : 0 ≤ M := hl.trans hl1
  have hB0 : 0 ≤ M * M := mul_nonneg hM hM
  have hinv : 1 ≤ 1 / r.val := by rw [le_div_iff₀ h0]; linarith
  induction xs using List.reverseRecOn with
  | nil =>
    refine ⟨?_, ?_⟩
    · show |(0 : ℝ)| ≤ _; rw [abs_zero]; positivity
    · show |(0 : ℝ) - 0| ≤ _; simp only [sub_self, abs_zero]; positivity
  | append_singleton xs x ih =>
    by_cases hl' : (xs ++ [x]).length ≤ b
    · have hlen : (vals (xs ++ [x])).length ≤ b := by simpa [vals] using hl'
      have hnb : ((xs ++ [x]).length : ℝ) ≤ b := by exact_mod_cast hl'
      have hn5 : ((xs ++ [x]).length : ℝ) ≤ 5 / r.val := hnb.trans hb5
      have hnu : 16 * (((xs ++ [x]).length : ℝ) * R.u) ≤ 1 := by
        have h2 : ((xs ++ [x]).length : ℝ) * R.u ≤ 5 / r.val * (r.val / 80) :=
          mul_le_mul hn5 (by linarith) hu0 (by positivity)
        have h3 : 5 / r.val * (r.val / 80) = 1 / 16 := by field_simp; norm_num
        linarith
      have E := covErr_fold hl1 hl2 (xs ++ [x]) hb (by have := R.maxInt_ge; omega) hnu
      have e1 : (ewaExact r.val b (vals (xs ++ [x]))).cov = (empFold (vals (xs ++ [x]))).cov := by
        rw [← ewaExact_burn r.val b _ hlen]
      have e2 : (ewaFloat r b (xs ++ [x])).cov = ((xs ++ [x]).foldl empUpdate empInit : EmpState ι (Fl R)).cov := by
        rw [← ewaFloat_burn r b _ hl']
      rw [e1, e2]
      refine ⟨E.exact i j, (E.err i j).trans ?_⟩
      rw [show 375 * (R.u * (M * M)) / r.val = 75 * (5 / r.val) * (R.u * (M * M)) by ring]
      refine mul_le_mul_of_nonneg_right ?_ (by positivity)
      linarith
    · rw [List.length_append, List.length_singleton] at hl'
      have hbl : b ≤ xs.length := by omega
      have hbl' : b ≤ (vals xs).length := by simpa [vals] using hbl
      have hb' : Bounded M xs := fun y hy => hb y (List.mem_append_left _ hy)
      obtain ⟨i1, i2⟩ := ih hb'
      have hmean := fun k => ewa_mean_err hM h0 h1 (by linarith) hb5 hb250 xs hb' k
      have hx : ∀ k, |(x k).val| ≤ M := fun k => hb x (by simp) k
      have e1 : (ewaExact r.val b (vals (xs ++ [x]))).cov i j
          = (1 - r.val) * (ewaExact r.val b (vals xs)).cov i j
            + r.val * (((x i).val - (ewaExact r.val b (vals xs)).mean i) * ((x j).val - (ewaExact r.val b (vals xs)).mean j)) := by
        rw [vals_snoc, show (ewaExact r.val b (vals xs ++ [fun i => (x i).val])).cov
          = (ewaExact r.val b (vals xs ++ [fun i => (x i).val])).toEmpState.cov from rfl, ewaExact_tail _ _ _ _ hbl']
        rfl
      have e2 : ((ewaFloat r b (xs ++ [x])).cov i j).val
          = R.rnd (R.rnd (R.rnd (1 - r.val) * ((ewaFloat r b xs).cov i j).val)
              + R.rnd (r.val * R.rnd (R.rnd ((x i).val - ((ewaFloat r b xs).mean i).val)
                  * R.rnd ((x j).val - ((ewaFloat r b xs).mean j).val)))) := by
        rw [show (ewaFloat r b (xs ++ [x])).cov = (ewaFloat r b (xs ++ [x])).toEmpState.cov from rfl, ewaFloat_tail _ _ _ _ hbl]
        rfl
      rw [e1, e2]
      -- deviations
      have hE : 9 * (R.u * (M + 2 * R.tiny)) / r.val ≤ 27 * (R.u * M) / r.val := by
        refine div_le_div_of_nonneg_right ?_ h0.le
        have := mul_le_mul_of_nonneg_left hl1 hu0
        linarith
      have hE2 : 27 * (R.u * M) / r.val ≤ M := by
        rw [div_le_iff₀ h0]
        have := mul_le_mul_of_nonneg_right hru hM
        nlinarith
      have hdev : ∀ k, |R.rnd ((x k).val - ((ewaFloat r b xs).mean k).val) - ((x k).val - (ewaExact r.val b (vals xs)).mean k)|
            ≤ 30 * (R.u * M) / r.val ∧ |R.rnd ((x k).val - ((ewaFloat r b xs).mean k).val)| ≤ 27 / 8 * M ∧
            |(x k).val - (ewaExact r.val b (vals xs)).mean k| ≤ 2 * M := by
        intro k
        obtain ⟨m1, m2⟩ := hmean k
        set T := (ewaExact r.val b (vals xs)).mean k
        set mm := (ewaFloat r b xs).mean k
        have hδ : |(x k).val - T| ≤ 2 * M := by
          rw [sub_eq_add_neg]; refine (abs_add_le _ _).trans ?_; rw [abs_neg]; linarith [hx k]
        have m2' : |mm.val - T| ≤ 27 * (R.u * M) / r.val := m2.trans hE
        have hxm : |(x k).val - mm.val| ≤ 3 * M := by
          rw [show (x k).val - mm.val = ((x k).val - T) + -(mm.val - T) by ring]
          refine (abs_add_le _ _).trans ?_; rw [abs_neg]; linarith
        have hs := R.sub_err_le (x k).rep mm.rep hxm
        have huM : R.u * M ≤ R.u * M / r.val := by
          rw [le_div_iff₀ h0]; have : 0 ≤ R.u * M := mul_nonneg hu0 hM; nlinarith
        refine ⟨?_, ?_, hδ⟩
        · rw [show R.rnd ((x k).val - mm.val) - ((x k).val - T)
            = (R.rnd ((x k).val - mm.val) - ((x k).val - mm.val)) + -(mm.val - T) by ring]
          refine (abs_add_le _ _).trans ?_; rw [abs_neg]
          have e3 : 30 * (R.u * M) / r.val = 3 * (R.u * M / r.val) + 27 * (R.u * M) / r.val := by ring
          rw [e3]; linarith
        · rw [show R.rnd ((x k).val - mm.val) = ((x k).val - mm.val) + (R.rnd ((x k).val - mm.val) - ((x k).val - mm.val)) by ring]
          refine (abs_add_le _ _).trans ?_
          have := mul_le_mul_of_nonneg_right hu (by positivity : (0:ℝ) ≤ 3 * M)
          linarith
      obtain ⟨a1, a2, a3⟩ := hdev i
      obtain ⟨c1, c2, c3⟩ := hdev j
      have hp := Rounding.prod_err a1 c1 a2 c3
      have hdd : |R.rnd ((x i).val - ((ewaFloat r b xs).mean i).val) * R.rnd ((x j).val - ((ewaFloat r b xs).mean j).val)|
          ≤ 12 * (M * M) := by
        rw [abs_mul]
        refine (mul_le_mul a2 c2 (abs_nonneg _) (by positivity)).trans ?_
        nlinarith
      have hP := R.err_le hdd
      set δ := R.rnd ((x i).val - ((ewaFloat r b xs).mean i).val) * R.rnd ((x j).val - ((ewaFloat r b xs).mean j).val)
      set P := R.rnd δ
      set D := ((x i).val - (ewaExact r.val b (vals xs)).mean i) * ((x j).val - (ewaExact r.val b (vals xs)).mean j) with hD
      have hB : R.u * R.tiny ≤ R.u * (M * M) := mul_le_mul_of_nonneg_left hl2 hu0
      set B := M * M with hBd
      have hub0 : 0 ≤ R.u * B := mul_nonneg hu0 hB0
      have hub : R.u * B ≤ R.u * B / r.val := by rw [le_div_iff₀ h0]; nlinarith
      have hPD : |P - D| ≤ 180 * (R.u * B / r.val) := by
        rw [show P - D = (P - δ) + (δ - D) by ring]
        refine ((abs_add_le _ _).trans (add_le_add hP hp)).trans ?_
        have e3 : 27 / 8 * M * (30 * (R.u * M) / r.val) + 2 * M * (30 * (R.u * M) / r.val) = (1290 / 8) * (R.u * B / r.val) := by
          rw [hBd]; ring
        rw [e3]; linarith
      have hPb : |P| ≤ 14 * B := by
        rw [show P = δ + (P - δ) by ring]
        refine ((abs_add_le _ _).trans (add_le_add hdd hP)).trans ?_
        have := mul_le_mul_of_nonneg_right hu (by positivity : 0 ≤ 12 * B + R.tiny)
        linarith
      have hDb : |D| ≤ 4 * B := by
        rw [hD, abs_mul]
        refine (mul_le_mul a3 c3 (abs_nonneg _) (by positivity)).trans ?_
        rw [hBd]; linarith
      constructor
      · refine (abs_add_le _ _).trans ?_
        rw [abs_mul, abs_mul, abs_of_pos h0, abs_of_nonneg (by linarith : 0 ≤ 1 - r.val)]
        have t1 := mul_le_mul_of_nonneg_left i1 (by linarith : 0 ≤ 1 - r.val)
        have t2 := mul_le_mul_of_nonneg_left hDb h0.le
        linarith
      · refine (R.blend_err r.rep h0.le h1 i2 i1 hPD hPb).trans ?_
        set e := 375 * (R.u * B) / r.val with he
        have he0 : 0 ≤ e := by positivity
        have hre : r.val * e = 375 * (R.u * B) := by rw [he]; field_simp
        have k0 : r.val * (180 * (R.u * B / r.val)) = 180 * (R.u * B) := by field_simp
        rw [k0]
        have k1 : (1 - r.val) * (1 + 4 * R.u) * e ≤ (1 - 19 / 20 * r.val) * e := by
          refine mul_le_mul_of_nonneg_right ?_ he0
          have : 0 ≤ R.u * r.val := mul_nonneg hu0 h0.le
          nlinarith
        have k2 : 4 * R.u * ((1 - r.val) * (4 * B) + r.val * (14 * B) + R.tiny) ≤ 60 * (R.u * B) := by
          have t : R.u * B * r.val ≤ R.u * B * 1 := mul_le_mul_of_nonneg_left h1 hub0
          linarith only [t, hB]
        have k3 : (1 - 19 / 20 * r.val) * e = e - 19 / 20 * (375 * (R.u * B)) := by rw [← hre]; ring
        linarith

/-- C76: with `r ≥ 80 u`, every entry of `EwaCovariance.covariance_` computed in floats differs from the exact
recency-weighted covariance by at most `400 u M² / r`, however long the stream. -/
theorem C76_ewa_covariance_error (p : RParam (Fl R)) (h0 : 0 < p.r.val) (h1 : p.r.val ≤ 1) (hru : 80 * R.u ≤ p.r.val)
    (calls : List (Call ι (Fl R))) (c : Matrix ι ι (Fl R)) (M : ℝ)
    (h : ((new (ewaFlCls R ι) p).run calls).covariance = .ok c) (hb : Bounded M (used p.diff calls))
    (hl1 : R.tiny ≤ M) (hl2 : R.tiny ≤ M * M) (i j : ι) :
    |(c i j).val - recencyCov p.r.val (ewaBurnNFl p.r) (vals (used p.diff calls)) i j|
      ≤ 400 * (R.u * (M * M)) / p.r.val := by
  obtain ⟨hne, rfl⟩ := run_covariance_inv (ewaFl_lawful R ι) p calls c h
  change used p.diff calls ≠ [] at hne
  have hM : 0 ≤ M := R.tiny_nonneg.trans hl1
  have hu0 := R.u_nonneg
  obtain ⟨g1, g2, g3⟩ := ewaBurnNFl_le h0 h1
  have sym : recencyCov p.r.val (ewaBurnNFl p.r) (vals (used p.diff calls)) j i
      = recencyCov p.r.val (ewaBurnNFl p.r) (vals (used p.diff calls)) i j := by
    simp only [recencyCov, Matrix.of_apply]
    rw [covOf_comm _ j i, covOf_comm _ j i]
    split
    · rfl
    · congr 1
      refine Finset.sum_congr rfl fun t _ => by ring
  obtain ⟨k3, k1⟩ := ewa_cov_err hl1 hl2 h0 h1 hru g3 g2 _ hb i j
  obtain ⟨-, k2⟩ := ewa_cov_err hl1 hl2 h0 h1 hru g3 g2 _ hb j i
  rw [recencyCov_eq _ _ (by omega) _ (vals_ne hne)] at k1 k2 k3
  rw [sym] at k2
  refine (sym_err hM hl2 (a := (ewaFloat p.r (ewaBurnNFl p.r) (used p.diff calls)).cov) k1 k2 k3).trans ?_
  have hB0 : 0 ≤ M * M := mul_nonneg hM hM
  set B := M * M
  have hub0 : 0 ≤ R.u * B := mul_nonneg hu0 hB0
  set r := p.r.val
  have hub : R.u * B ≤ R.u * B / r := by rw [le_div_iff₀ h0]; nlinarith
  have t1 : R.u * (375 * (R.u * B) / r) ≤ 375 / 80 * (R.u * B) := by
    rw [mul_div_assoc', div_le_iff₀ h0]
    have := mul_le_mul_of_nonneg_right hru hub0
    nlinarith
  have e1 : 375 * (R.u * B) / r = 375 * (R.u * B / r) := by ring
  have e2 : 400 * (R.u * B) / r = 400 * (R.u * B / r) := by ring
  rw [e2]
  rw [e1] at t1 ⊢
  linarith

end Precise
