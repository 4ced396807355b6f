import Verif.Lemmas.RoundedArith
import Verif.Lemmas.State
import Verif.Lemmas.Lawful
import Verif.Spec.Stats

/-!
# C75: what survives rounding

`Fl R` are the numbers of a floating-point format (`Model/Rounding`). The objects below run the same update code
as everywhere else, with every `+ - * /` rounded. `R` is arbitrary; `Rounding.double` is IEEE double precision.
-/

set_option linter.all false

namespace Precise

open Spec Obj

variable {ι : Type} [Fintype ι] {R : Rounding}

theorem ewaFl_lawful (R : Rounding) (ι : Type) [Fintype ι] : Lawful (ewaFlCls R ι) where
  n_init _ := rfl
  n_update _ s x := by show (ewaUpdate s x).nSamples = s.nSamples + 1; unfold ewaUpdate; split <;> rfl
  load_dump s _ := EwaState.load_dump s
  diff_withDiff _ _ := rfl
  init_withDiff _ _ := rfl
  update_withDiff _ _ := rfl
  toCov_withDiff _ _ := rfl
  toMean_withDiff _ _ := rfl

theorem diagonalFl_lawful (R : Rounding) (ι : Type) [Fintype ι] [DecidableEq ι] : Lawful (diagonalFlCls R ι) where
  n_init _ := rfl
  n_update _ s x := by show (diagUpdate s x).nSamples = s.nSamples + 1; unfold diagUpdate; simp only []; split <;> rfl
  load_dump s _ := by
    show DiagState.ofDict (Dict.fromlist (Dict.tolist s.asDict)) = s
    cases s; dictsimp
  diff_withDiff _ _ := rfl
  init_withDiff _ _ := rfl
  update_withDiff _ _ := rfl
  toCov_withDiff _ _ := rfl
  toMean_withDiff _ _ := rfl

/-! ### Invariant of the Welford step -/

/-- Coordinate `i` of a state: untouched before the first observation, afterwards the mean lies in `[lo, hi]`. -/
structure WelfordInv (lo hi : ℝ) (i : ι) (n : ℕ) (m : ι → Fl R) : Prop where
  zero : n = 0 → (m i).val = 0
  range : 1 ≤ n → lo ≤ (m i).val ∧ (m i).val ≤ hi

omit [Fintype ι] in
theorem rnd_div_one (x : Fl R) : R.rnd (x.val / R.rnd ((0 + 1 : ℕ) : ℝ)) = x.val := by
  rw [show ((0 + 1 : ℕ) : ℝ) = 1 by norm_num, R.rnd_one, div_one, x.rep]

/-- The first mean is the observation itself. -/
theorem first_mean {m x : Fl R} (h : m.val = 0) :
    R.rnd (m.val + R.rnd (R.rnd (x.val - m.val) / R.rnd ((0 + 1 : ℕ) : ℝ))) = x.val := by
  rw [h, sub_zero, x.rep, rnd_div_one, zero_add, x.rep]

theorem mean_step {lo hi : ℝ} {i : ι} {n : ℕ} {m : ι → Fl R} (h : WelfordInv lo hi i n m) {x : ι → Fl R}
    (hx : lo ≤ (x i).val ∧ (x i).val ≤ hi) :
    lo ≤ (m i + (x i - m i) / ((n + 1 : ℕ) : Fl R)).val ∧ (m i + (x i - m i) / ((n + 1 : ℕ) : Fl R)).val ≤ hi := by
  show lo ≤ R.rnd ((m i).val + R.rnd (R.rnd ((x i).val - (m i).val) / R.rnd ((n + 1 : ℕ) : ℝ))) ∧
    R.rnd ((m i).val + R.rnd (R.rnd ((x i).val - (m i).val) / R.rnd ((n + 1 : ℕ) : ℝ))) ≤ hi
  rcases Nat.eq_zero_or_pos n with rfl | hn
  · rw [first_mean (h.zero rfl)]; exact hx
  · obtain ⟨a, b⟩ := R.welford_between (m i).rep (x i).rep (R.two_le_nat (by omega : 2 ≤ n + 1))
    obtain ⟨c, d⟩ := h.range hn
    exact ⟨(le_min c hx.1).trans a, b.trans (max_le d hx.2)⟩

theorem emp_inv_step {lo hi : ℝ} {i : ι} {s : EmpState ι (Fl R)} (h : WelfordInv lo hi i s.nSamples s.mean) {x : ι → Fl R}
    (hx : lo ≤ (x i).val ∧ (x i).val ≤ hi) :
    WelfordInv lo hi i (empUpdate s x).nSamples (empUpdate s x).mean :=
  ⟨fun e => absurd e (Nat.succ_ne_zero _), fun _ => mean_step h hx⟩

theorem var_step {i : ι} {s : EmpState ι (Fl R)} (h0 : s.nSamples = 0 → (s.mean i).val = 0) (hc : 0 ≤ (s.cov i i).val)
    (x : ι → Fl R) : 0 ≤ ((empUpdate s x).cov i i).val := by
  show 0 ≤ R.rnd (R.rnd (R.rnd ((s.cov i i).val * R.rnd ((s.nSamples + 1 - 1 : ℕ) : ℝ)) / R.rnd ((s.nSamples + 1 : ℕ) : ℝ))
      + R.rnd (R.rnd ((x i).val - (s.mean i).val) * R.rnd (R.rnd ((x i).val
          - R.rnd ((s.mean i).val + R.rnd (R.rnd ((x i).val - (s.mean i).val) / R.rnd ((s.nSamples + 1 : ℕ) : ℝ))))
            / R.rnd ((s.nSamples + 1 : ℕ) : ℝ))))
  have hn : 0 ≤ R.rnd ((s.nSamples + 1 - 1 : ℕ) : ℝ) := R.rnd_nonneg (Nat.cast_nonneg _)
  have hn1 : 0 ≤ R.rnd ((s.nSamples + 1 : ℕ) : ℝ) := R.rnd_nonneg (Nat.cast_nonneg _)
  refine R.rnd_nonneg (add_nonneg (R.rnd_nonneg (div_nonneg (R.rnd_nonneg (mul_nonneg hc hn)) hn1)) (R.rnd_nonneg ?_))
  rcases Nat.eq_zero_or_pos s.nSamples with e | e
  · rw [e, first_mean (h0 e), sub_self, R.rnd_zero, zero_div, R.rnd_zero, mul_zero]
  · exact R.welford_prod_nonneg (s.mean i).rep (x i).rep (R.two_le_nat (by omega))

theorem emp_fold_inv (xs : List (ι → Fl R)) (i : ι) (lo hi : ℝ) (hb : ∀ x ∈ xs, lo ≤ (x i).val ∧ (x i).val ≤ hi) :
    let s := xs.foldl empUpdate (empInit : EmpState ι (Fl R))
    WelfordInv lo hi i s.nSamples s.mean ∧ 0 ≤ (s.cov i i).val ∧ s.nSamples = xs.length := by
  induction xs using List.reverseRecOn with
  | nil => exact ⟨⟨fun _ => rfl, fun h => absurd h (by simp [empInit])⟩, le_rfl, rfl⟩
  | append_singleton xs x ih =>
    obtain ⟨h1, h2, h3⟩ := ih fun y hy => hb y (List.mem_append_left _ hy)
    simp only [List.foldl_append, List.foldl_cons, List.foldl_nil]
    exact ⟨emp_inv_step h1 (hb x (by simp)), var_step h1.zero h2 x, by
      show _ + 1 = _; rw [h3]; simp⟩

/-- A trivial range that always holds. -/
theorem exists_range (xs : List (ι → Fl R)) (i : ι) : ∃ lo hi : ℝ, ∀ x ∈ xs, lo ≤ (x i).val ∧ (x i).val ≤ hi := by
  induction xs with
  | nil => exact ⟨0, 0, by simp⟩
  | cons y ys ih =>
    obtain ⟨lo, hi, h⟩ := ih
    refine ⟨min lo (y i).val, max hi (y i).val, ?_⟩
    intro x hx
    rcases List.mem_cons.1 hx with rfl | hx
    · exact ⟨min_le_right _ _, le_max_right _ _⟩
    · exact ⟨(min_le_left _ _).trans (h x hx).1, (h x hx).2.trans (le_max_left _ _)⟩

/-- `covariance_` in floats is exactly symmetric, whatever the state. -/
theorem toSymmetric_comm (a : Matrix ι ι (Fl R)) (i j : ι) : toSymmetric a i j = toSymmetric a j i := by
  apply Fl.ext
  show R.rnd (R.rnd ((a i j).val + (a j i).val) / 2) = R.rnd (R.rnd ((a j i).val + (a i j).val) / 2)
  rw [add_comm]

theorem toSymmetric_diag_nonneg {a : Matrix ι ι (Fl R)} {i : ι} (h : 0 ≤ (a i i).val) : 0 ≤ (toSymmetric a i i).val := by
  show 0 ≤ R.rnd (R.rnd ((a i i).val + (a i i).val) / 2)
  exact R.rnd_nonneg (div_nonneg (R.rnd_nonneg (by linarith)) (by norm_num))

/-- C75: in floating point, after any history, every coordinate of `EmpiricalCovariance.location_` lies between the
smallest and the largest value that coordinate took. -/
theorem C75_location_in_range (d : Bool) (calls : List (Call ι (Fl R))) (m : ι → Fl R)
    (h : ((new (empiricalCls ι (Fl R)) d).run calls).location = .ok m) (i : ι) (lo hi : Fl R)
    (hb : ∀ x ∈ used d calls, lo ≤ x i ∧ x i ≤ hi) : lo ≤ m i ∧ m i ≤ hi := by
  obtain ⟨hne, rfl⟩ := run_location_inv (empirical_lawful ι (Fl R)) d calls m h
  obtain ⟨h1, -, h3⟩ := emp_fold_inv (used d calls) i lo.val hi.val hb
  exact h1.range (by rw [h3]; exact List.length_pos_iff.2 hne)

/-- C75: in floating point, after any history, the variances reported by `EmpiricalCovariance` are nonnegative and the
reported matrix is exactly symmetric. -/
theorem C75_empirical_variance (d : Bool) (calls : List (Call ι (Fl R))) (c : Matrix ι ι (Fl R))
    (h : ((new (empiricalCls ι (Fl R)) d).run calls).covariance = .ok c) :
    (∀ i, 0 ≤ c i i) ∧ ∀ i j, c i j = c j i := by
  obtain ⟨hne, rfl⟩ := run_covariance_inv (empirical_lawful ι (Fl R)) d calls c h
  refine ⟨fun i => ?_, fun i j => toSymmetric_comm _ i j⟩
  obtain ⟨lo, hi, hr⟩ := exists_range (used d calls) i
  exact toSymmetric_diag_nonneg (emp_fold_inv (used d calls) i lo hi hr).2.1

theorem emp_constant (v : ι → Fl R) (xs : List (ι → Fl R)) (hx : ∀ x ∈ xs, x = v) :
      let s := xs.foldl empUpdate (empInit : EmpState ι (Fl R))
      s.nSamples = xs.length ∧ (xs = [] → s.mean = fun _ => 0) ∧ (xs ≠ [] → s.mean = v) ∧
        (∀ i j, (s.cov i j).val = 0) := by
  induction xs using List.reverseRecOn with
  | nil => exact ⟨rfl, fun _ => rfl, fun h => absurd rfl h, fun _ _ => rfl⟩
  | append_singleton xs x ih =>
    obtain ⟨h1, h2, h3, h4⟩ := ih fun y hy => hx y (List.mem_append_left _ hy)
    have hxv : x = v := hx x (by simp)
    subst hxv
    simp only [List.foldl_append, List.foldl_cons, List.foldl_nil]
    generalize xs.foldl empUpdate (empInit : EmpState ι (Fl R)) = s at *
    have hm : (empUpdate s x).mean = x := by
      funext i; apply Fl.ext
      show R.rnd ((s.mean i).val + R.rnd (R.rnd ((x i).val - (s.mean i).val) / R.rnd ((s.nSamples + 1 : ℕ) : ℝ))) = _
      by_cases e : xs = []
      · subst e; simp only [List.length_nil] at h1
        rw [h1, first_mean (by rw [h2 rfl]; rfl)]
      · rw [h3 e, sub_self, R.rnd_zero, zero_div, R.rnd_zero, add_zero, (x i).rep]
    refine ⟨by show _ + 1 = _; rw [h1]; simp, fun h => absurd h (by simp), fun _ => hm, ?_⟩
    intro i j
    have hmj : ((empUpdate s x).mean j).val = (x j).val := by rw [hm]
    have e : ((empUpdate s x).cov i j).val = R.rnd (R.rnd (R.rnd ((s.cov i j).val * R.rnd ((s.nSamples + 1 - 1 : ℕ) : ℝ))
        / R.rnd ((s.nSamples + 1 : ℕ) : ℝ)) + R.rnd (R.rnd ((x i).val - (s.mean i).val)
          * R.rnd (R.rnd ((x j).val - ((empUpdate s x).mean j).val) / R.rnd ((s.nSamples + 1 : ℕ) : ℝ)))) := rfl
    rw [e, hmj, h4, sub_self, zero_mul, R.rnd_zero, zero_div, R.rnd_zero, mul_zero, R.rnd_zero, zero_add, R.rnd_zero]

/-- C75: on a constant stream `EmpiricalCovariance` reports, in floating point, exactly that constant and exactly the
zero matrix. -/
theorem C75_constant (d : Bool) (calls : List (Call ι (Fl R))) (v : ι → Fl R) (hv : ∀ x ∈ used d calls, x = v)
    (hne : used d calls ≠ []) :
    ((new (empiricalCls ι (Fl R)) d).run calls).location = .ok v ∧
    ((new (empiricalCls ι (Fl R)) d).run calls).covariance = .ok (Matrix.of fun _ _ => 0) := by
  obtain ⟨-, -, h3, h4⟩ := emp_constant v _ hv
  constructor
  · rw [run_location (empirical_lawful ι (Fl R)) d calls hne]
    exact congrArg Except.ok (h3 hne)
  · rw [run_covariance (empirical_lawful ι (Fl R)) d calls hne]
    refine congrArg Except.ok ?_
    ext i j
    show R.rnd (R.rnd ((((used d calls).foldl empUpdate empInit).cov i j).val + (((used d calls).foldl empUpdate empInit).cov j i).val) / 2) = 0
    rw [h4, h4, zero_add, R.rnd_zero, zero_div, R.rnd_zero]

/-! ### EWA -/

theorem one_sub_nonneg {r : Fl R} (h1 : r ≤ 1) : 0 ≤ (1 - r).val := R.rnd_nonneg (by
  have : r.val ≤ 1 := h1
  show 0 ≤ (1 : Fl R).val - r.val
  rw [Fl.val_one]; linarith)

/-- The blend keeps a variance nonnegative. -/
theorem blend_nonneg {r v q : Fl R} (h0 : 0 ≤ r) (h1 : r ≤ 1) (hv : 0 ≤ v.val) (hq : 0 ≤ q.val) :
    0 ≤ ((1 - r) * v + r * q).val :=
  R.rnd_nonneg (add_nonneg (R.rnd_nonneg (mul_nonneg (one_sub_nonneg h1) hv)) (R.rnd_nonneg (mul_nonneg h0 hq)))

theorem ewa_fold_inv {r : Fl R} (h0 : 0 ≤ r) (h1 : r ≤ 1) (b : ℕ) (xs : List (ι → Fl R)) (i : ι) :
    let s := xs.foldl ewaUpdate ({ toEmpState := empInit, r := r, nBurn := b } : EwaState ι (Fl R))
    s.r = r ∧ s.nBurn = b ∧ s.nSamples = xs.length ∧ (s.nSamples = 0 → (s.mean i).val = 0) ∧ 0 ≤ (s.cov i i).val := by
  induction xs using List.reverseRecOn with
  | nil => exact ⟨rfl, rfl, rfl, fun _ => rfl, le_rfl⟩
  | append_singleton xs x ih =>
    simp only [List.foldl_append, List.foldl_cons, List.foldl_nil] at ih ⊢
    obtain ⟨a, b', c, d, e⟩ := ih
    generalize xs.foldl ewaUpdate ({ toEmpState := empInit, r := r, nBurn := b } : EwaState ι (Fl R)) = s at *
    by_cases h : s.nSamples < s.nBurn
    · have e1 : ewaUpdate s x = ewaBurnStep s x := by unfold ewaUpdate; rw [if_pos h]
      rw [e1]
      exact ⟨a, b', by show _ + 1 = _; rw [c]; simp, fun h => absurd h (Nat.succ_ne_zero _), var_step d e x⟩
    · have e1 : ewaUpdate s x = { s with toEmpState := ewaBlend s.r s.toEmpState x } := by
        unfold ewaUpdate; rw [if_neg h]
      rw [e1]
      refine ⟨a, b', by show _ + 1 = _; rw [c]; simp, fun h => absurd h (Nat.succ_ne_zero _), ?_⟩
      show 0 ≤ ((1 - s.r) * s.cov i i + s.r * ((x i - s.mean i) * (x i - s.mean i))).val
      rw [a]
      exact blend_nonneg h0 h1 e (R.rnd_nonneg (mul_self_nonneg _))

/-- C75: in floating point, after any history, the variances reported by `EwaCovariance` with `0 ≤ r ≤ 1` are nonnegative
and the reported matrix is exactly symmetric. -/
theorem C75_ewa_variance (p : RParam (Fl R)) (h0 : 0 ≤ p.r) (h1 : p.r ≤ 1) (calls : List (Call ι (Fl R)))
    (c : Matrix ι ι (Fl R)) (h : ((new (ewaFlCls R ι) p).run calls).covariance = .ok c) :
    (∀ i, 0 ≤ c i i) ∧ ∀ i j, c i j = c j i := by
  obtain ⟨hne, rfl⟩ := run_covariance_inv (ewaFl_lawful R ι) p calls c h
  exact ⟨fun i => toSymmetric_diag_nonneg (ewa_fold_inv h0 h1 _ (used p.diff calls) i).2.2.2.2,
    fun i j => toSymmetric_comm _ i j⟩

/-! ### Diagonal -/

theorem diag_burn_nonneg {v q : Fl R} (hv : 0 ≤ v.val) (hq : 0 ≤ q.val) (n : ℕ) :
    0 ≤ (v + (q - v) / ((n + 1 : ℕ) : Fl R)).val := by
  show 0 ≤ R.rnd (v.val + R.rnd (R.rnd (q.val - v.val) / R.rnd ((n + 1 : ℕ) : ℝ)))
  have hc := R.one_le_nat (by omega : 1 ≤ n + 1)
  have hnv : R.rnd (-v.val) = -v.val := by rw [R.neg, v.rep]
  have h1 : -v.val ≤ R.rnd (q.val - v.val) := R.le_rnd hnv (by linarith)
  have h2 : -v.val ≤ R.rnd (q.val - v.val) / R.rnd ((n + 1 : ℕ) : ℝ) := by
    rw [le_div_iff₀ (by linarith)]; nlinarith
  have := R.le_rnd hnv h2
  exact R.rnd_nonneg (by linarith)

/-- C75: in floating point, after any history, the variances reported by `DiagonalCovariance` with `0 ≤ r ≤ 1` are
nonnegative and every other entry is exactly zero. -/
theorem C75_diagonal_variance [DecidableEq ι] (p : RParam (Fl R)) (h0 : 0 ≤ p.r) (h1 : p.r ≤ 1)
    (calls : List (Call ι (Fl R))) (c : Matrix ι ι (Fl R))
    (h : ((new (diagonalFlCls R ι) p).run calls).covariance = .ok c) :
    (∀ i, 0 ≤ c i i) ∧ ∀ i j, i ≠ j → c i j = 0 := by
  obtain ⟨hne, rfl⟩ := run_covariance_inv (diagonalFl_lawful R ι) p calls c h
  have key : ∀ (xs : List (ι → Fl R)) (b : ℕ),
      let s := xs.foldl diagUpdate ({ nSamples := 0, mean := fun _ => 0, var := fun _ => 0, r := p.r, nBurn := b } : DiagState ι (Fl R))
      s.r = p.r ∧ ∀ i, 0 ≤ (s.var i).val := by
    intro xs b
    induction xs using List.reverseRecOn with
    | nil => exact ⟨rfl, fun _ => le_rfl⟩
    | append_singleton xs x ih =>
      simp only [List.foldl_append, List.foldl_cons, List.foldl_nil] at ih ⊢
      generalize xs.foldl diagUpdate _ = s at ih ⊢
      unfold diagUpdate
      simp only []
      split
      · exact ⟨ih.1, fun i => diag_burn_nonneg (q := (x i - s.mean i) * (x i - s.mean i)) (ih.2 i)
          (R.rnd_nonneg (mul_self_nonneg _)) _⟩
      · refine ⟨ih.1, fun i => ?_⟩
        rw [ih.1]
        exact blend_nonneg h0 h1 (ih.2 i) (R.rnd_nonneg (mul_self_nonneg _))
  refine ⟨fun i => toSymmetric_diag_nonneg ?_, fun i j hij => ?_⟩
  · show 0 ≤ Fl.val (Matrix.diagonal _ i i : Fl R)
    rw [Matrix.diagonal_apply_eq]
    exact (key (used p.diff calls) _).2 i
  · apply Fl.ext
    show R.rnd (R.rnd (Fl.val (Matrix.diagonal _ i j : Fl R) + Fl.val (Matrix.diagonal _ j i : Fl R)) / 2) = 0
    rw [Matrix.diagonal_apply_ne _ hij, Matrix.diagonal_apply_ne _ hij.symm, Fl.val_zero, add_zero, R.rnd_zero, zero_div, R.rnd_zero]

end Precise
