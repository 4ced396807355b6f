import Verif.Model.NanShrink
import Verif.Props.Nan

/-!
# C104: one NaN against the shrinkage estimators and DCC
-/

set_option linter.all false

namespace Precise

open Spec Obj Nan

namespace Nan

theorem mask_div' (b c : Prop) (v w : ℝ) (hw : w ≠ 0) : mask b v / mask c w = mask (b ∨ c) (v / w) := by
  by_cases hc : c
  · rw [mask_true hc, mask_true (Or.inr hc)]
    show @ite _ (nan = num 0) (Classical.propDecidable _) _ _ = _
    rw [if_neg (by intro h; cases h)]
    cases mask b v <;> rfl
  · rw [mask_false hc, mask_div _ _ _ hw]
    exact mask_congr (by tauto) _

theorem map_mask (f : ℝ → ℝ) (b : Prop) (v : ℝ) : (mask b v).map f = mask b (f v) := by
  by_cases hb : b
  · rw [mask_true hb, mask_true hb]; rfl
  · rw [mask_false hb, mask_false hb]; rfl

theorem mask_eq_nan {b : Prop} {v : ℝ} : mask b v = nan ↔ b := by
  by_cases hb : b
  · exact ⟨fun _ => hb, fun _ => mask_true hb v⟩
  · exact ⟨fun h => (by rw [mask_false hb] at h; cases h), fun h => absurd h hb⟩

theorem sum_mask {ι : Type} [Fintype ι] (b : ι → Prop) (v : ι → ℝ) :
    Nan.sum (fun i => mask (b i) (v i)) = mask (∃ i, b i) (∑ i, v i) := by
  unfold Nan.sum
  by_cases h : ∃ i, b i
  · rw [if_pos (by obtain ⟨i, hi⟩ := h; exact ⟨i, mask_true hi _⟩), mask_true h]
  · rw [if_neg (by rintro ⟨i, hi⟩; exact h ⟨i, mask_eq_nan.1 hi⟩), mask_false h]
    congr 1
    refine Finset.sum_congr rfl fun i _ => ?_
    show (mask (b i) (v i)).val = v i
    rw [mask_false (fun hb => h ⟨i, hb⟩)]
    rfl

theorem le_mask (b : Prop) (v c : ℝ) : le (mask b v) (num c) ↔ ¬ b ∧ v ≤ c := by
  by_cases hb : b
  · rw [mask_true hb]; simp [le, hb]
  · rw [mask_false hb]; simp [le, hb]

theorem ite_mask (b : Prop) [Decidable b] (v : ℝ) : (if b then (nan : Nan ℝ) else num v) = mask b v := by
  by_cases h : b
  · rw [if_pos h, mask_true h]
  · rw [if_neg h, mask_false h]

theorem eye_eq {ι : Type} [DecidableEq ι] (i j : ι) : eye i j = mask False (if i = j then 1 else 0) := by
  unfold eye
  split <;> exact num_eq _

theorem mul_eye_nan {ι : Type} [DecidableEq ι] (i j : ι) : (nan : Nan ℝ) * eye i j = nan := by
  unfold eye; split <;> rfl

theorem nan_add (a : Nan ℝ) : nan + a = nan := by cases a <;> rfl
theorem add_nan (a : Nan ℝ) : a + nan = nan := by cases a <;> rfl
theorem nan_mul (a : Nan ℝ) : nan * a = nan := by cases a <;> rfl
theorem mul_nan (a : Nan ℝ) : a * nan = nan := by cases a <;> rfl
theorem sub_nan (a : Nan ℝ) : a - nan = nan := by cases a <;> rfl
theorem nan_div (a : Nan ℝ) : nan / a = nan := by
  show @ite _ (a = num 0) (Classical.propDecidable _) _ _ = _
  split
  · rfl
  · cases a <;> rfl
theorem nan_sub (a : Nan ℝ) : nan - a = nan := by cases a <;> rfl

theorem num_add (a b : ℝ) : (num a + num b : Nan ℝ) = num (a + b) := rfl
theorem num_mul (a b : ℝ) : (num a * num b : Nan ℝ) = num (a * b) := rfl
theorem num_sub (a b : ℝ) : (num a - num b : Nan ℝ) = num (a - b) := rfl
theorem num_div (a b : ℝ) (hb : b ≠ 0) : (num a / num b : Nan ℝ) = num (a / b) := by
  rw [num_eq a, mask_div _ _ _ hb, ← num_eq]

theorem sum_num {ι : Type} [Fintype ι] (v : ι → ℝ) : Nan.sum (fun i => num (v i)) = num (∑ i, v i) := by
  have := sum_mask (fun _ : ι => False) v
  simp only [← num_eq] at this
  rw [this, mask_false (by simp)]

theorem sum_nan {ι : Type} [Fintype ι] (f : ι → Nan ℝ) (i : ι) (h : f i = nan) : Nan.sum f = nan := by
  unfold Nan.sum; rw [if_pos ⟨i, h⟩]

theorem eye_num {ι : Type} [DecidableEq ι] (i j : ι) : eye i j = num (if i = j then 1 else 0) := by
  unfold eye; split <;> rfl

theorem pyMin_num (a b : ℝ) : pyMin (num a) (num b) = num (min a b) := by
  unfold pyMin lt
  by_cases h : b < a
  · rw [if_pos h, min_eq_right h.le]
  · rw [if_neg h, min_eq_left (not_lt.1 h)]

theorem pyMax_num (a b : ℝ) : pyMax (num a) (num b) = num (max a b) := by
  unfold pyMax lt
  by_cases h : a < b
  · rw [if_pos h, max_eq_right h.le]
  · rw [if_neg h, max_eq_left (not_lt.1 h)]

end Nan

variable {ι : Type} [Fintype ι] [DecidableEq ι]

/-! ### Exact covariances on NaN-free states -/

theorem lwNanCov_num [Nonempty ι] (s : LWState ι (Nan ℝ)) (t : LWState ι ℝ) (hS : ∀ i j, s.cov i j = num (t.cov i j))
    (hp : s.piBar = num t.piBar) (hr : s.r = num t.r) (i j : ι) : lwNanCov s i j = num (lwCov t i j) := by
  have hc : (Fintype.card ι : ℝ) ≠ 0 := by exact_mod_cast Fintype.card_ne_zero
  unfold lwNanCov lwCov
  simp only [hS, hp, hr, eye_num, sum_num, natCast_eq, num_div _ _ hc, num_mul, num_sub]
  have e1 : ∀ i j, ((t.cov.trace / (Fintype.card ι : ℝ)) • (1 : Matrix ι ι ℝ)) i j
      = t.cov.trace / (Fintype.card ι : ℝ) * (if i = j then 1 else 0) := by
    intro i j
    rw [Matrix.smul_apply, Matrix.one_apply, smul_eq_mul]
  have e2 : (∑ i, t.cov i i) = t.cov.trace := rfl
  simp only [e1, e2, ← sq]
  set mu := t.cov.trace / (Fintype.card ι : ℝ)
  set d2 := (∑ i, ∑ j, (t.cov i j - mu * (if i = j then 1 else 0)) ^ 2) / (Fintype.card ι : ℝ)
  by_cases h : d2 ≤ 0 ∨ t.piBar ≤ 0
  · rw [if_pos (by simp only [hS, hp, hr, eye_num, sum_num, natCast_eq, num_div _ _ hc, num_mul, num_sub, e1, e2, ← sq]; exact h), if_pos h, hS]
  · rw [if_neg (by simp only [hS, hp, hr, eye_num, sum_num, natCast_eq, num_div _ _ hc, num_mul, num_sub, e1, e2, ← sq]; exact h), if_neg h]
    have hd : d2 ≠ 0 := fun e => h (Or.inl e.le)
    simp only [pyMin_num, num_div _ _ hd, Nan.map, one_eq, num_sub, num_mul, num_add, Matrix.of_apply]
    simp [Matrix.add_apply, Matrix.smul_apply, Matrix.one_apply]

theorem oasNanCov_num [Nonempty ι] (s : EwaState ι (Nan ℝ)) (t : EwaState ι ℝ) (hS : ∀ i j, s.cov i j = num (t.cov i j))
    (hr : s.r = num t.r) (h0 : t.r ≠ 0) (i j : ι) : oasNanCov s i j = num (oasCov t i j) := by
  have hc : (Fintype.card ι : ℝ) ≠ 0 := by exact_mod_cast Fintype.card_ne_zero
  have e2 : (∑ i, t.cov i i) = t.cov.trace := rfl
  have e3 : (∑ i, ∑ j, t.cov i j * t.cov j i) = (t.cov * t.cov).trace := by
    simp [Matrix.trace, Matrix.mul_apply]
  unfold oasNanCov oasCov
  simp only [hS, hr, eye_num, sum_num, natCast_eq, num_div _ _ hc, num_mul, num_sub, two_eq, one_eq, num_div _ _ h0, pyMax_num, num_add,
    e2, e3, Nat.cast_ofNat]
  set nm := (1 - 2 / (Fintype.card ι : ℝ)) * (t.cov * t.cov).trace + t.cov.trace * t.cov.trace
  set den := (max (1 / t.r) 2 + 1 - 2 / (Fintype.card ι : ℝ)) * ((t.cov * t.cov).trace - t.cov.trace * t.cov.trace / (Fintype.card ι : ℝ))
  by_cases h : den ≤ 0
  · rw [if_pos (by simp only [hS, hr, eye_num, sum_num, natCast_eq, num_div _ _ hc, num_mul, num_sub, two_eq, one_eq, num_div _ _ h0, pyMax_num, num_add, e2, e3, Nat.cast_ofNat]; exact h), if_pos h]
    simp [num_sub, num_mul, num_add, Matrix.add_apply, Matrix.smul_apply, Matrix.one_apply]
  · rw [if_neg (by simp only [hS, hr, eye_num, sum_num, natCast_eq, num_div _ _ hc, num_mul, num_sub, two_eq, one_eq, num_div _ _ h0, pyMax_num, num_add, e2, e3, Nat.cast_ofNat]; exact h), if_neg h]
    have hd : den ≠ 0 := fun e => h e.le
    simp only [num_div _ _ hd, pyMax_num, pyMin_num, num_sub, num_mul, num_add, Matrix.of_apply]
    simp [Matrix.add_apply, Matrix.smul_apply, Matrix.one_apply]

theorem sqrt_floor_pos (v : ℝ) : 0 < Real.sqrt (max v EPS) :=
  Real.sqrt_pos.2 (lt_of_lt_of_le (by norm_num [EPS]) (le_max_right _ _))

theorem shrunkNanCov_num [Nonempty ι] (pr : ShrunkParam) (s : EwaState ι (Nan ℝ)) (t : EwaState ι ℝ)
    (hS : ∀ i j, s.cov i j = num (t.cov i j)) (i j : ι) : shrunkNanCov pr s i j = num (shrunkCov pr t i j) := by
  have hc : (Fintype.card ι : ℝ) ≠ 0 := by exact_mod_cast Fintype.card_ne_zero
  have e2 : (∑ i, t.cov i i) = t.cov.trace := rfl
  unfold shrunkNanCov shrunkCov
  by_cases h : pr.target = "identity"
  · simp only [if_pos h, hS, sum_num, natCast_eq, num_div _ _ hc, eye_num, num_mul, one_eq, num_sub, num_add, Matrix.of_apply, e2]
    simp [Matrix.add_apply, Matrix.smul_apply, Matrix.one_apply]
  · simp only [if_neg h, hS, Nan.map]
    have hr : shrunkNanRbar s.cov (fun i => num (Real.sqrt (max (t.cov i i) EPS)))
        = num (shrunkRbar t.cov fun i => Real.sqrt (max (t.cov i i) EPS)) := by
      unfold shrunkNanRbar shrunkRbar
      by_cases hz : Fintype.card ι * (Fintype.card ι - 1) = 0
      · rw [if_pos hz, if_pos hz]
      · rw [if_neg hz, if_neg hz]
        have e : ∀ i j, (if i = j then num 0 else s.cov i j / (num (Real.sqrt (max (t.cov i i) EPS)) * num (Real.sqrt (max (t.cov j j) EPS))))
            = num (if i = j then 0 else t.cov i j / (Real.sqrt (max (t.cov i i) EPS) * Real.sqrt (max (t.cov j j) EPS))) := by
          intro i j
          split
          · rfl
          · rw [hS, num_mul, num_div _ _ (mul_pos (sqrt_floor_pos _) (sqrt_floor_pos _)).ne']
        simp only [e, sum_num]
        rw [num_div]
        have : 1 < Fintype.card ι := by
          rcases Nat.lt_or_ge 1 (Fintype.card ι) with h' | h'
          · exact h'
          · exfalso; apply hz; have : Fintype.card ι - 1 = 0 := by omega
            rw [this, Nat.mul_zero]
        have h1 : (1 : ℝ) < Fintype.card ι := by exact_mod_cast this
        exact mul_ne_zero hc (by linarith)
    simp only [hr, Matrix.of_apply, one_eq, num_sub]
    by_cases hij : i = j
    · simp [hij, num_mul, num_add, Matrix.add_apply, Matrix.smul_apply]
    · simp [hij, num_mul, num_add, Matrix.add_apply, Matrix.smul_apply]

/-! ### Poisoned states -/

theorem lwNanCov_poison (s : LWState ι (Nan ℝ)) (k : ι) (hk : s.cov k k = nan) (hp : s.piBar = nan) (i j : ι) : lwNanCov s i j = nan := by
  have hd : ∀ mu : Nan ℝ, (Nan.sum fun i => Nan.sum fun j => (s.cov i j - mu * eye i j) * (s.cov i j - mu * eye i j)) / (Fintype.card ι : Nan ℝ) = nan :=
    fun mu => by rw [sum_nan _ k (sum_nan _ k (by rw [hk, nan_sub, nan_mul])), nan_div]
  unfold lwNanCov
  simp only []
  rw [if_neg (by rw [hd, hp]; rintro (h | h) <;> exact h), hd, hp]
  simp [pyMin, lt, Nan.map, sub_nan, nan_mul, nan_add, nan_div]

theorem oasNanCov_poison (s : EwaState ι (Nan ℝ)) (k : ι) (hk : s.cov k k = nan) (i j : ι) : oasNanCov s i j = nan := by
  have ht : (Nan.sum fun i => s.cov i i) = nan := sum_nan _ k hk
  have h2 : (Nan.sum fun i => Nan.sum fun j => s.cov i j * s.cov j i) = nan := sum_nan _ k (sum_nan _ k (by rw [hk, nan_mul]))
  unfold oasNanCov
  simp only [ht, h2, nan_div, nan_mul, mul_nan, nan_sub, nan_add, le]
  simp [pyMax, pyMin, lt, sub_nan, nan_mul, nan_add]

theorem shrunkNanCov_identity (pr : ShrunkParam) (h : pr.target = "identity") (s : EwaState ι (Nan ℝ)) (k : ι) (hk : s.cov k k = nan)
    (i j : ι) : shrunkNanCov pr s i j = nan := by
  have ht : (Nan.sum fun i => s.cov i i) = nan := sum_nan _ k hk
  unfold shrunkNanCov
  simp only [if_pos h, ht, nan_div, nan_mul, Matrix.of_apply, mul_nan, add_nan]

theorem shrunkNanCov_offdiag (pr : ShrunkParam) (h : pr.target ≠ "identity") (s : EwaState ι (Nan ℝ)) (k : ι)
    (hk : ∀ l, s.cov k l = nan) (i j : ι) (hij : i ≠ j) : shrunkNanCov pr s i j = nan := by
  have hr : ∀ d, shrunkNanRbar s.cov d = nan := by
    intro d
    unfold shrunkNanRbar
    have : 1 < Fintype.card ι := Fintype.one_lt_card_iff.2 ⟨i, j, hij⟩
    rw [if_neg (by
      intro hz
      rcases Nat.mul_eq_zero.1 hz with h' | h' <;> omega)]
    obtain ⟨l, hl⟩ : ∃ l, k ≠ l := by
      by_cases hki : k = i
      · exact ⟨j, hki ▸ hij⟩
      · exact ⟨i, hki⟩
    rw [sum_nan _ k (sum_nan _ l (by rw [if_neg hl, hk, nan_div])), nan_div]
  unfold shrunkNanCov
  simp only [if_neg h, hr, Matrix.of_apply, if_neg hij, nan_mul, mul_nan, add_nan]

theorem shrunkNanCov_diag (pr : ShrunkParam) (h : pr.target ≠ "identity") (s : EwaState ι (Nan ℝ)) (i : ι) :
    shrunkNanCov pr s i i = (1 - num pr.delta) * s.cov i i + num pr.delta * s.cov i i := by
  unfold shrunkNanCov
  simp only [if_neg h, Matrix.of_apply, if_true]

/-! ### The running state of LedoitWolfCovariance -/

theorem masked_lwFold [Nonempty ι] (r : ℝ) (b : ℕ) (xs : List (ι → Nan ℝ)) (ys : List (ι → ℝ)) (h : FillsIn xs ys) :
    let s := xs.foldl lwNanUpdate { toEwaState := { toEmpState := empInit, r := .num r, nBurn := b }, piBar := 0 }
    let t := ys.foldl lwUpdate { toEwaState := { toEmpState := empInit, r := r, nBurn := b }, piBar := 0 }
    s.r = .num r ∧ t.r = r ∧ s.nBurn = b ∧ t.nBurn = b ∧ s.nSamples = xs.length ∧ MaskedEmp (BadColumn xs) s.toEmpState t.toEmpState ∧
      s.piBar = mask ((∃ i, BadColumn xs i) ∧ b < xs.length) t.piBar ∧ (xs.length ≤ b → t.piBar = 0) := by
  induction xs using List.reverseRecOn generalizing ys with
  | nil =>
    have := masked_empFold [] ys h
    cases h
    refine ⟨rfl, rfl, rfl, rfl, rfl, this, ?_, fun _ => rfl⟩
    rw [mask_false (by simp)]; rfl
  | append_singleton xs x ih =>
    obtain ⟨zs, y, rfl, h3, h4⟩ := FillsIn.snoc_inv h
    obtain ⟨e1, e2, e3, e4, e5, e6, e7, e8⟩ := ih zs h3
    simp only [List.foldl_append, List.foldl_cons, List.foldl_nil]
    generalize xs.foldl lwNanUpdate ({ toEwaState := { toEmpState := empInit, r := .num r, nBurn := b }, piBar := 0 } : LWState ι (Nan ℝ)) = s at *
    generalize zs.foldl lwUpdate ({ toEwaState := { toEmpState := empInit, r := r, nBurn := b }, piBar := 0 } : LWState ι ℝ) = t at *
    have hs := e6.1
    unfold lwNanUpdate lwUpdate
    rw [e3, e4, e5, ← hs, e5]
    by_cases hb : xs.length < b
    · rw [if_pos hb, if_pos hb]
      refine ⟨e1, e2, e3, e4, ?_, (masked_empUpdate e6 h4).congr (badColumn_snoc xs x), ?_, fun _ => e8 hb.le⟩
      · show s.nSamples + 1 = _
        rw [e5]; simp
      · show s.piBar = mask _ t.piBar
        rw [e7]
        refine mask_congr ?_ _
        constructor
        · rintro ⟨_, h⟩; omega
        · rintro ⟨_, h⟩; simp at h; omega
    · rw [if_neg hb, if_neg hb]
      have hm : MaskedEmp (BadColumn (xs ++ [x])) (ewaBlend s.r s.toEmpState x) (ewaBlend t.r t.toEmpState y) := by
        rw [e1, e2]
        exact (masked_ewaBlend r e6 h4).congr (badColumn_snoc xs x)
      refine ⟨e1, e2, e3, e4, ?_, hm, ?_, fun h => absurd h (by simp; omega)⟩
      · show s.nSamples + 1 = _
        rw [e5]; simp
      · have hx := masked_row h4
        have hbad : (∃ i, BadColumn xs i ∨ x i = nan) ↔ ∃ i, BadColumn (xs ++ [x]) i := by simp only [badColumn_snoc]
        show (1 - s.r) * s.piBar + s.r * ((Nan.sum fun i => Nan.sum fun j =>
          ((x i - s.mean i) * (x j - s.mean j) - s.cov i j) * ((x i - s.mean i) * (x j - s.mean j) - s.cov i j)) / (Fintype.card ι : Nan ℝ))
          = mask _ ((1 - t.r) * t.piBar + t.r * ((∑ i, ∑ j, ((y i - t.mean i) * (y j - t.mean j) - t.cov i j) ^ 2) / (Fintype.card ι : ℝ)))
        have ht : ∀ i j, ((x i - s.mean i) * (x j - s.mean j) - s.cov i j) * ((x i - s.mean i) * (x j - s.mean j) - s.cov i j)
            = mask (BadColumn (xs ++ [x]) i ∨ BadColumn (xs ++ [x]) j) (((y i - t.mean i) * (y j - t.mean j) - t.cov i j) ^ 2) := by
          intro i j
          rw [e6.2.1, e6.2.1, e6.2.2]
          conv_lhs => rw [hx i, hx j]
          rw [mask_sub, mask_sub, mask_mul, mask_sub, mask_mul, sq]
          exact mask_congr (by rw [← badColumn_snoc, ← badColumn_snoc]; tauto) _
        simp only [ht, sum_mask]
        have hc : (Fintype.card ι : ℝ) ≠ 0 := by exact_mod_cast Fintype.card_ne_zero
        rw [natCast_eq, mask_div _ _ _ hc, e1, e2, one_eq, num_sub, num_eq, num_eq r, e7, mask_mul, mask_mul, mask_add]
        refine mask_congr ?_ _
        constructor
        · rintro ((h | ⟨⟨i, hi⟩, _⟩) | (h | ⟨i, j, hi | hi⟩))
          · exact h.elim
          · exact ⟨hbad.1 ⟨i, Or.inl hi⟩, by simp; omega⟩
          · exact h.elim
          · exact ⟨⟨i, hi⟩, by simp; omega⟩
          · exact ⟨⟨j, hi⟩, by simp; omega⟩
        · rintro ⟨⟨i, hi⟩, _⟩
          exact Or.inr (Or.inr ⟨i, i, Or.inl hi⟩)

theorem lwNanCov_burn (s : LWState ι (Nan ℝ)) (hp : s.piBar = num 0) : lwNanCov s = s.cov := by
  unfold lwNanCov
  simp only []
  rw [if_pos (by rw [hp]; exact Or.inr (le_refl (0 : ℝ)))]

theorem lwCov_burn (t : LWState ι ℝ) (hp : t.piBar = 0) : lwCov t = t.cov := by
  unfold lwCov
  simp only []
  rw [if_pos (Or.inr hp.le)]

theorem toSymmetric_nan (a : Matrix ι ι (Nan ℝ)) (h : ∀ i j, a i j = nan) (i j : ι) : toSymmetric a i j = nan := by
  show (a i j + a j i) / 2 = nan
  rw [h, nan_add, nan_div]

theorem toSymmetric_num (a : Matrix ι ι (Nan ℝ)) (c : Matrix ι ι ℝ) (h : ∀ i j, a i j = num (c i j)) (i j : ι) :
    toSymmetric a i j = num (toSymmetric c i j) := by
  have := masked_toSymmetric (bad := fun _ : ι => False) (a := a) (c := c) (fun i j => by rw [h, mask_false (by simp)]) i j
  rwa [mask_false (by simp)] at this

theorem lwNan_lawful (ι : Type) [Fintype ι] [DecidableEq ι] : Lawful (lwNanCls ι) where
  n_init _ := rfl
  n_update _ s x := by show (lwNanUpdate s x).nSamples = s.nSamples + 1; unfold lwNanUpdate; split <;> rfl
  load_dump s _ := by
    obtain ⟨⟨⟨a, b, c⟩, d, e⟩, f⟩ := s
    change LWState.ofDict (Dict.fromlist (Dict.tolist (LWState.asDict _))) = _
    dictsimp
  diff_withDiff _ _ := rfl
  init_withDiff _ _ := rfl
  update_withDiff _ _ := rfl
  toCov_withDiff _ _ := rfl
  toMean_withDiff _ _ := rfl

theorem oasNan_lawful (ι : Type) [Fintype ι] [DecidableEq ι] : Lawful (oasNanCls ι) where
  n_init _ := rfl
  n_update _ s x := by show (ewaUpdate s x).nSamples = s.nSamples + 1; unfold ewaUpdate; split <;> rfl
  load_dump s _ := EwaState.load_dump s
  diff_withDiff _ _ := rfl
  init_withDiff _ _ := rfl
  update_withDiff _ _ := rfl
  toCov_withDiff _ _ := rfl
  toMean_withDiff _ _ := rfl

theorem shrunkNan_lawful (ι : Type) [Fintype ι] [DecidableEq ι] : Lawful (shrunkNanCls ι) where
  n_init _ := rfl
  n_update _ s x := by show (ewaUpdate s x).nSamples = s.nSamples + 1; unfold ewaUpdate; split <;> rfl
  load_dump s _ := EwaState.load_dump s
  diff_withDiff _ _ := rfl
  init_withDiff _ _ := rfl
  update_withDiff _ _ := rfl
  toCov_withDiff _ _ := rfl
  toMean_withDiff _ _ := rfl

theorem dccNan_lawful (ι : Type) [Fintype ι] [DecidableEq ι] : Lawful (dccNanCls ι) where
  n_init _ := rfl
  n_update _ s x := rfl
  load_dump s _ := rfl
  diff_withDiff _ _ := rfl
  init_withDiff _ _ := rfl
  update_withDiff _ _ := rfl
  toCov_withDiff _ _ := rfl
  toMean_withDiff _ _ := rfl

theorem used_rows (ys : List (ι → ℝ)) : used false [.partialFit (.batch ys)] = ys := by
  simp [used, effective, rowsSinceFit, rowsOf]

open Classical in
/-- C104 (LedoitWolfCovariance): `location_` loses the columns in which some observation was NaN, nothing else. So does `covariance_` as long as the
estimator is burning in; with the first observation after the burn-in *every* entry turns NaN, however clean that observation is, and stays
NaN until the next `fit`. Without NaN the estimate is the ordinary one. -/
theorem C104_ledoit_wolf [Nonempty ι] (p : RParam ℝ) (calls : List (Call ι (Nan ℝ))) (ys : List (ι → ℝ)) (hne : used p.diff calls ≠ [])
    (hy : FillsIn (used p.diff calls) ys) :
    ∃ m c m' c', ((new (lwNanCls ι) p).run calls).location = .ok m ∧ ((new (lwNanCls ι) p).run calls).covariance = .ok c ∧
      ((new (ledoitWolfCls ι ℝ) ⟨p.r, false⟩).run [.partialFit (.batch ys)]).location = .ok m' ∧
      ((new (ledoitWolfCls ι ℝ) ⟨p.r, false⟩).run [.partialFit (.batch ys)]).covariance = .ok c' ∧
      (∀ i, m i = if BadColumn (used p.diff calls) i then .nan else .num (m' i)) ∧
      ((∀ k, ¬ BadColumn (used p.diff calls) k) → ∀ i j, c i j = .num (c' i j)) ∧
      ((used p.diff calls).length ≤ ewaBurnN p.r → ∀ i j, c i j =
        if BadColumn (used p.diff calls) i ∨ BadColumn (used p.diff calls) j then .nan else .num (c' i j)) ∧
      ((∃ k, BadColumn (used p.diff calls) k) → ewaBurnN p.r < (used p.diff calls).length → ∀ i j, c i j = .nan) := by
  have hyne := FillsIn.ne_nil hy hne
  have hl := run_location (lwNan_lawful ι) p calls hne
  have hc := run_covariance (lwNan_lawful ι) p calls hne
  have hl' := run_location (ledoitWolf_lawful ι ℝ) (⟨p.r, false⟩ : RParam ℝ) [.partialFit (.batch ys)] (by
    rw [show (ledoitWolfCls ι ℝ).diff (⟨p.r, false⟩ : RParam ℝ) = false from rfl, used_rows]; exact hyne)
  have hc' := run_covariance (ledoitWolf_lawful ι ℝ) (⟨p.r, false⟩ : RParam ℝ) [.partialFit (.batch ys)] (by
    rw [show (ledoitWolfCls ι ℝ).diff (⟨p.r, false⟩ : RParam ℝ) = false from rfl, used_rows]; exact hyne)
  rw [show (ledoitWolfCls ι ℝ).diff (⟨p.r, false⟩ : RParam ℝ) = false from rfl, used_rows] at hl' hc'
  obtain ⟨e1, e2, e3, e4, e5, e6, e7, e8⟩ := masked_lwFold p.r (ewaBurnN p.r) _ _ hy
  refine ⟨_, _, _, _, hl, hc, hl', hc', fun i => e6.2.1 i, ?_, ?_, ?_⟩
  · intro hk i j
    refine toSymmetric_num _ _ (fun i j => lwNanCov_num _ _ (fun i j => ?_) ?_ ?_ i j) i j
    · refine (e6.2.2 i j).trans (mask_false ?_ _)
      rintro (h | h) <;> exact hk _ h
    · refine e7.trans (mask_false ?_ _)
      rintro ⟨⟨k, h⟩, _⟩; exact hk _ h
    · exact e1.trans (congrArg num e2.symm)
  · intro hb i j
    have h0 := e8 hb
    rw [mask_false (by rintro ⟨_, h⟩; omega), h0] at e7
    rw [ite_mask]
    refine (masked_toSymmetric (K := ℝ) (bad := BadColumn (used p.diff calls)) (fun i j => ?_) i j)
    show lwNanCov _ i j = mask _ (lwCov _ i j)
    exact (congrFun (congrFun (lwNanCov_burn _ e7) i) j).trans ((e6.2.2 i j).trans
      (congrArg (mask _) (congrFun (congrFun (lwCov_burn _ h0) i) j).symm))
  · rintro ⟨k, hk⟩ hb i j
    refine toSymmetric_nan _ (fun i j => lwNanCov_poison _ k ?_ ?_ i j) i j
    · exact (e6.2.2 k k).trans (mask_true (Or.inl hk) _)
    · exact e7.trans (mask_true ⟨⟨k, hk⟩, hb⟩ _)

open Classical in
/-- C104 (OASCovariance): one NaN anywhere since the last `fit` and every entry of `covariance_` is NaN, burn-in or not; `location_` loses only the
column. Without NaN the estimate is the ordinary one. -/
theorem C104_oas [Nonempty ι] (p : RParam ℝ) (hr : p.r ≠ 0) (calls : List (Call ι (Nan ℝ))) (ys : List (ι → ℝ))
    (hne : used p.diff calls ≠ []) (hy : FillsIn (used p.diff calls) ys) :
    ∃ m c m' c', ((new (oasNanCls ι) p).run calls).location = .ok m ∧ ((new (oasNanCls ι) p).run calls).covariance = .ok c ∧
      ((new (oasCls ι ℝ) ⟨p.r, false⟩).run [.partialFit (.batch ys)]).location = .ok m' ∧
      ((new (oasCls ι ℝ) ⟨p.r, false⟩).run [.partialFit (.batch ys)]).covariance = .ok c' ∧
      (∀ i, m i = if BadColumn (used p.diff calls) i then .nan else .num (m' i)) ∧
      (∀ i j, c i j = if ∃ k, BadColumn (used p.diff calls) k then .nan else .num (c' i j)) := by
  have hyne := FillsIn.ne_nil hy hne
  have hl := run_location (oasNan_lawful ι) p calls hne
  have hc := run_covariance (oasNan_lawful ι) p calls hne
  have hl' := run_location (oas_lawful ι ℝ) (⟨p.r, false⟩ : RParam ℝ) [.partialFit (.batch ys)] (by
    rw [show (oasCls ι ℝ).diff (⟨p.r, false⟩ : RParam ℝ) = false from rfl, used_rows]; exact hyne)
  have hc' := run_covariance (oas_lawful ι ℝ) (⟨p.r, false⟩ : RParam ℝ) [.partialFit (.batch ys)] (by
    rw [show (oasCls ι ℝ).diff (⟨p.r, false⟩ : RParam ℝ) = false from rfl, used_rows]; exact hyne)
  rw [show (oasCls ι ℝ).diff (⟨p.r, false⟩ : RParam ℝ) = false from rfl, used_rows] at hl' hc'
  obtain ⟨e1, e2, e3, e4, e5⟩ := masked_ewaFold p.r (ewaBurnN p.r) _ _ hy
  refine ⟨_, _, _, _, hl, hc, hl', hc', fun i => e5.2.1 i, fun i j => ?_⟩
  by_cases hk : ∃ k, BadColumn (used p.diff calls) k
  · rw [if_pos hk]
    obtain ⟨k, hk⟩ := hk
    exact toSymmetric_nan _ (fun i j => oasNanCov_poison _ k ((e5.2.2 k k).trans (mask_true (Or.inl hk) _)) i j) i j
  · rw [if_neg hk]
    refine toSymmetric_num _ _ (fun i j => oasNanCov_num _ _ (fun i j => ?_) (e1.trans (congrArg num e2.symm)) (fun h => hr (e2.symm.trans h)) i j) i j
    refine (e5.2.2 i j).trans (mask_false ?_ _)
    rintro (h | h) <;> exact hk ⟨_, h⟩

theorem shrunk_off_nan (p : ShrunkParam) (ht : p.target ≠ "identity") (s : EwaState ι (Nan ℝ)) (k : ι) (hk : ∀ l, s.cov k l = nan) (i j : ι)
    (hij : i ≠ j) : toSymmetric (shrunkNanCov p s) i j = nan := by
  show (shrunkNanCov p s i j + shrunkNanCov p s j i) / 2 = nan
  rw [shrunkNanCov_offdiag p ht _ k hk i j hij, nan_add, nan_div]

theorem shrunk_diag_mask (p : ShrunkParam) (ht : p.target ≠ "identity") (s : EwaState ι (Nan ℝ)) (t : EwaState ι ℝ) (i : ι) (b : Prop)
    (h : s.cov i i = mask (b ∨ b) (t.cov i i)) :
    toSymmetric (shrunkNanCov p s) i i = mask b (toSymmetric (shrunkCov { p with diff := false } t) i i) := by
  have hd : shrunkCov { p with diff := false } t i i = t.cov i i := by
    unfold shrunkCov
    simp only [if_neg ht, Matrix.add_apply, Matrix.smul_apply, Matrix.of_apply, if_true, smul_eq_mul]
    ring
  show (shrunkNanCov p s i i + shrunkNanCov p s i i) / 2 = mask _ ((shrunkCov _ t i i + shrunkCov _ t i i) / 2)
  rw [shrunkNanCov_diag p ht, hd, h, one_eq, num_sub, num_eq, num_eq p.delta, mask_mul, mask_mul, mask_add, mask_add, two_eq,
    mask_div _ _ _ (by norm_num)]
  rw [mask_congr (c := b) (by tauto)]
  congr 1
  push_cast
  ring

open Classical in
/-- C104 (ShrunkCovariance): the identity target spreads one NaN over the whole of `covariance_`, even with `delta = 0`; the constant-correlation
target (any other string) over every off-diagonal entry, while the variances of the clean columns survive. -/
theorem C104_shrunk [Nonempty ι] (p : ShrunkParam) (calls : List (Call ι (Nan ℝ))) (ys : List (ι → ℝ))
    (hne : used p.diff calls ≠ []) (hy : FillsIn (used p.diff calls) ys) :
    ∃ m c m' c', ((new (shrunkNanCls ι) p).run calls).location = .ok m ∧ ((new (shrunkNanCls ι) p).run calls).covariance = .ok c ∧
      ((new (shrunkCls ι) { p with diff := false }).run [.partialFit (.batch ys)]).location = .ok m' ∧
      ((new (shrunkCls ι) { p with diff := false }).run [.partialFit (.batch ys)]).covariance = .ok c' ∧
      (∀ i, m i = if BadColumn (used p.diff calls) i then .nan else .num (m' i)) ∧
      (p.target = "identity" → ∀ i j, c i j = if ∃ k, BadColumn (used p.diff calls) k then .nan else .num (c' i j)) ∧
      (p.target ≠ "identity" → (∀ i, c i i = if BadColumn (used p.diff calls) i then .nan else .num (c' i i)) ∧
        ∀ i j, i ≠ j → c i j = if ∃ k, BadColumn (used p.diff calls) k then .nan else .num (c' i j)) := by
  have hyne := FillsIn.ne_nil hy hne
  have hl := run_location (shrunkNan_lawful ι) p calls hne
  have hc := run_covariance (shrunkNan_lawful ι) p calls hne
  have hl' := run_location (shrunk_lawful ι) ({ p with diff := false } : ShrunkParam) [.partialFit (.batch ys)] (by
    rw [show (shrunkCls ι).diff ({ p with diff := false } : ShrunkParam) = false from rfl, used_rows]; exact hyne)
  have hc' := run_covariance (shrunk_lawful ι) ({ p with diff := false } : ShrunkParam) [.partialFit (.batch ys)] (by
    rw [show (shrunkCls ι).diff ({ p with diff := false } : ShrunkParam) = false from rfl, used_rows]; exact hyne)
  rw [show (shrunkCls ι).diff ({ p with diff := false } : ShrunkParam) = false from rfl, used_rows] at hl' hc'
  obtain ⟨e1, e2, e3, e4, e5⟩ := masked_ewaFold p.r (ewaBurnN p.r) _ _ hy
  have hclean : (¬ ∃ k, BadColumn (used p.diff calls) k) → ∀ i j,
      toSymmetric ((shrunkNanCls ι).toCov p ((used p.diff calls).foldl ((shrunkNanCls ι).updateState p) ((shrunkNanCls ι).initState p))) i j
        = num (toSymmetric (shrunkCov { p with diff := false } (ys.foldl ewaUpdate { toEmpState := empInit, r := p.r, nBurn := ewaBurnN p.r })) i j) := by
    intro hk i j
    refine toSymmetric_num _ _ (fun i j => ?_) i j
    have := shrunkNanCov_num p _ _ (fun i j => (e5.2.2 i j).trans (mask_false (by rintro (h | h) <;> exact hk ⟨_, h⟩) _)) i j
    exact this
  refine ⟨_, _, _, _, hl, hc, hl', hc', fun i => e5.2.1 i, fun ht i j => ?_, fun ht => ⟨fun i => ?_, fun i j hij => ?_⟩⟩
  · by_cases hk : ∃ k, BadColumn (used p.diff calls) k
    · rw [if_pos hk]
      obtain ⟨k, hk⟩ := hk
      exact toSymmetric_nan _ (fun i j => shrunkNanCov_identity p ht _ k ((e5.2.2 k k).trans (mask_true (Or.inl hk) _)) i j) i j
    · rw [if_neg hk]
      exact hclean hk i j
  · exact shrunk_diag_mask p ht _ _ i _ (e5.2.2 i i)
  · by_cases hk : ∃ k, BadColumn (used p.diff calls) k
    · rw [if_pos hk]
      obtain ⟨k, hk⟩ := hk
      exact shrunk_off_nan p ht _ k (fun l => (e5.2.2 k l).trans (mask_true (Or.inl hk) _)) i j hij
    · rw [if_neg hk]
      exact hclean hk i j

/-! ### DCC -/

theorem masked_dccFold (p : DCCParam) (xs : List (ι → Nan ℝ)) (ys : List (ι → ℝ)) (h : FillsIn xs ys) :
    let s := xs.foldl dccNanUpdate (dccNanInit p)
    let t := ys.foldl dccUpdate (dccInit p)
    s.r = t.r ∧ s.volR = t.volR ∧ s.nBurn = t.nBurn ∧ s.nSamples = t.nSamples ∧
    (∀ i, s.mean i = mask (BadColumn xs i) (t.mean i)) ∧ (∀ i, s.h i = mask (BadColumn xs i) (t.h i)) ∧
    (∀ i j, s.Q i j = mask (BadColumn xs i ∨ BadColumn xs j) (t.Q i j)) := by
  induction xs using List.reverseRecOn generalizing ys with
  | nil =>
    cases h
    have nb : ∀ i, ¬ BadColumn ([] : List (ι → Nan ℝ)) i := by rintro i ⟨z, hz, _⟩; cases hz
    refine ⟨rfl, rfl, rfl, rfl, fun i => by rw [mask_false (nb i)]; rfl, fun i => by rw [mask_false (nb i)]; rfl, fun i j => ?_⟩
    rw [mask_false (by rintro (h | h) <;> exact nb _ h)]
    exact eye_num i j
  | append_singleton xs x ih =>
    obtain ⟨zs, y, rfl, h3, h4⟩ := FillsIn.snoc_inv h
    obtain ⟨e1, e2, e3, e4, e5, e6, e7⟩ := ih zs h3
    simp only [List.foldl_append, List.foldl_cons, List.foldl_nil]
    generalize xs.foldl dccNanUpdate (dccNanInit p) = s at *
    generalize zs.foldl dccUpdate (dccInit p) = t at *
    have hx := masked_row h4
    have hn : ((t.nSamples + 1 : ℕ) : ℝ) ≠ 0 := Nat.cast_ne_zero.2 (Nat.succ_ne_zero _)
    have sn := badColumn_snoc xs x
    have hdev : ∀ i, x i - s.mean i = mask (BadColumn (xs ++ [x]) i) (y i - t.mean i) := by
      intro i
      rw [e5]
      conv_lhs => rw [hx i]
      rw [mask_sub]
      exact mask_congr (by rw [← sn]; tauto) _
    have hh : ∀ i, (dccNanUpdate s x).h i = mask (BadColumn (xs ++ [x]) i) ((dccUpdate t y).h i) := by
      intro i
      unfold dccNanUpdate dccUpdate
      simp only [e2, e3, e4]
      by_cases hb : t.nSamples + 1 ≤ t.nBurn
      · simp only [if_pos hb]
        rw [hdev, e6, natCast_eq, mask_mul, mask_sub, mask_div _ _ _ hn, mask_add]
        exact mask_congr (by rw [← sn]; tauto) _
      · simp only [if_neg hb]
        rw [hdev, e6, num_eq, num_eq t.volR, mask_mul, mask_mul, mask_mul, mask_add]
        exact mask_congr (by rw [← sn]; tauto) _
    refine ⟨e1, e2, e3, ?_, fun i => ?_, hh, fun i j => ?_⟩
    · show s.nSamples + 1 = t.nSamples + 1
      rw [e4]
    · unfold dccNanUpdate dccUpdate
      simp only [e2, e3, e4]
      by_cases hb : t.nSamples + 1 ≤ t.nBurn
      · simp only [if_pos hb]
        rw [hdev, e5, natCast_eq, mask_div _ _ _ hn, mask_add]
        exact mask_congr (by rw [← sn]; tauto) _
      · simp only [if_neg hb]
        rw [e5, num_eq, num_eq t.volR]
        conv_lhs => rw [hx i]
        rw [mask_mul, mask_mul, mask_add]
        exact mask_congr (by rw [← sn]; tauto) _
    · have heps : ∀ i, (x i - s.mean i) / ((dccNanUpdate s x).h i).map (fun v => Real.sqrt (max v EPS))
          = mask (BadColumn (xs ++ [x]) i) ((y i - t.mean i) / Real.sqrt (max ((dccUpdate t y).h i) EPS)) := by
        intro i
        rw [hdev, hh, map_mask, mask_div' _ _ _ _ (sqrt_floor_pos _).ne']
        exact mask_congr (by tauto) _
      show (if s.nSamples + 1 ≤ s.nBurn then
          Matrix.of fun i j => s.Q i j + ((x i - s.mean i) / ((dccNanUpdate s x).h i).map (fun v => Real.sqrt (max v EPS))
            * ((x j - s.mean j) / ((dccNanUpdate s x).h j).map (fun v => Real.sqrt (max v EPS))) - s.Q i j) / ((s.nSamples + 1 : ℕ) : Nan ℝ)
        else Matrix.of fun i j => num (1 - s.r) * s.Q i j + num s.r * ((x i - s.mean i) / ((dccNanUpdate s x).h i).map (fun v => Real.sqrt (max v EPS))
            * ((x j - s.mean j) / ((dccNanUpdate s x).h j).map (fun v => Real.sqrt (max v EPS)))) : Matrix ι ι (Nan ℝ)) i j
        = mask _ ((if t.nSamples + 1 ≤ t.nBurn then
          t.Q + (1 / ((t.nSamples + 1 : ℕ) : ℝ)) • (outer (fun i => (y i - t.mean i) / Real.sqrt (max ((dccUpdate t y).h i) EPS))
            (fun i => (y i - t.mean i) / Real.sqrt (max ((dccUpdate t y).h i) EPS)) - t.Q)
        else (1 - t.r) • t.Q + t.r • outer (fun i => (y i - t.mean i) / Real.sqrt (max ((dccUpdate t y).h i) EPS))
            (fun i => (y i - t.mean i) / Real.sqrt (max ((dccUpdate t y).h i) EPS)) : Matrix ι ι ℝ) i j)
      simp only [heps]
      rw [e3, e4, e1]
      by_cases hb : t.nSamples + 1 ≤ t.nBurn
      · rw [if_pos hb, if_pos hb, Matrix.of_apply, e7, natCast_eq, mask_mul, mask_sub, mask_div _ _ _ hn, mask_add]
        rw [mask_congr (c := BadColumn (xs ++ [x]) i ∨ BadColumn (xs ++ [x]) j) (by rw [← sn, ← sn]; tauto)]
        congr 1
        simp only [Matrix.add_apply, Matrix.smul_apply, Matrix.sub_apply, outer, Matrix.of_apply, smul_eq_mul]
        ring
      · rw [if_neg hb, if_neg hb, Matrix.of_apply, e7, num_eq, num_eq t.r, mask_mul, mask_mul, mask_mul, mask_add]
        rw [mask_congr (c := BadColumn (xs ++ [x]) i ∨ BadColumn (xs ++ [x]) j) (by rw [← sn, ← sn]; tauto)]
        congr 1

open Classical in
/-- C104 (DCCCovariance): a NaN stays in its column, in `location_` and in `covariance_`; every other entry is that of the estimator fed the
observations with the NaNs replaced by any numbers. -/
theorem C104_dcc (p : DCCParam) (calls : List (Call ι (Nan ℝ))) (ys : List (ι → ℝ)) (hne : used p.diff calls ≠ [])
    (hy : FillsIn (used p.diff calls) ys) :
    ∃ m c m' c', ((new (dccNanCls ι) p).run calls).location = .ok m ∧ ((new (dccNanCls ι) p).run calls).covariance = .ok c ∧
      ((new (dccCls ι) { p with diff := false }).run [.partialFit (.batch ys)]).location = .ok m' ∧
      ((new (dccCls ι) { p with diff := false }).run [.partialFit (.batch ys)]).covariance = .ok c' ∧
      (∀ i, m i = if BadColumn (used p.diff calls) i then .nan else .num (m' i)) ∧
      (∀ i j, c i j = if BadColumn (used p.diff calls) i ∨ BadColumn (used p.diff calls) j then .nan else .num (c' i j)) := by
  have hyne := FillsIn.ne_nil hy hne
  have hl := run_location (dccNan_lawful ι) p calls hne
  have hc := run_covariance (dccNan_lawful ι) p calls hne
  have hl' := run_location (dcc_lawful ι) ({ p with diff := false } : DCCParam) [.partialFit (.batch ys)] (by
    rw [show (dccCls ι).diff ({ p with diff := false } : DCCParam) = false from rfl, used_rows]; exact hyne)
  have hc' := run_covariance (dcc_lawful ι) ({ p with diff := false } : DCCParam) [.partialFit (.batch ys)] (by
    rw [show (dccCls ι).diff ({ p with diff := false } : DCCParam) = false from rfl, used_rows]; exact hyne)
  rw [show (dccCls ι).diff ({ p with diff := false } : DCCParam) = false from rfl, used_rows] at hl' hc'
  obtain ⟨e1, e2, e3, e4, e5, e6, e7⟩ := masked_dccFold p _ _ hy
  refine ⟨_, _, _, _, hl, hc, hl', hc', fun i => e5 i, fun i j => ?_⟩
  rw [ite_mask]
  refine masked_toSymmetric (K := ℝ) (bad := BadColumn (used p.diff calls)) (fun i j => ?_) i j
  have hq : ∀ i, num 1 / ((((used p.diff calls).foldl dccNanUpdate (dccNanInit p)).Q i i).map fun v => Real.sqrt (max v EPS))
      = mask (BadColumn (used p.diff calls) i) (1 / Real.sqrt (max ((ys.foldl dccUpdate (dccInit p)).Q i i) EPS)) := by
    intro i
    rw [e7, map_mask, num_eq, mask_div' _ _ _ _ (sqrt_floor_pos _).ne']
    exact mask_congr (by tauto) _
  show ((used p.diff calls).foldl dccNanUpdate (dccNanInit p)).Q i j
      * (num 1 / ((((used p.diff calls).foldl dccNanUpdate (dccNanInit p)).Q i i).map fun v => Real.sqrt (max v EPS))
        * (num 1 / ((((used p.diff calls).foldl dccNanUpdate (dccNanInit p)).Q j j).map fun v => Real.sqrt (max v EPS))))
      * (((((used p.diff calls).foldl dccNanUpdate (dccNanInit p)).h i).map fun v => Real.sqrt (max v EPS))
        * ((((used p.diff calls).foldl dccNanUpdate (dccNanInit p)).h j).map fun v => Real.sqrt (max v EPS)))
    = mask _ ((ys.foldl dccUpdate (dccInit p)).Q i j * (1 / Real.sqrt (max ((ys.foldl dccUpdate (dccInit p)).Q i i) EPS)
        * (1 / Real.sqrt (max ((ys.foldl dccUpdate (dccInit p)).Q j j) EPS)))
        * (Real.sqrt (max ((ys.foldl dccUpdate (dccInit p)).h i) EPS) * Real.sqrt (max ((ys.foldl dccUpdate (dccInit p)).h j) EPS)))
  rw [hq, hq, e7, e6, e6, map_mask, map_mask, mask_mul, mask_mul, mask_mul, mask_mul]
  exact mask_congr (by tauto) _

/-! ### Non-vacuity -/

/-- 31 rows of two variables, the first with a NaN in column 0. -/
noncomputable def poisoned : List (Fin 2 → Nan ℝ) := ![.nan, .num 1] :: List.replicate 30 ![.num 1, .num 2]

example : FillsIn (used false [.partialFit (.batch poisoned)]) (![0, 1] :: List.replicate 30 ![1, 2]) ∧
    BadColumn (used false [.partialFit (.batch poisoned)]) 0 ∧ ¬ BadColumn (used false [.partialFit (.batch poisoned)]) 1 ∧
    ewaBurnN (1 / 20 : ℝ) < (used false [.partialFit (.batch poisoned)]).length := by
  have hu : used false [.partialFit (.batch poisoned)] = poisoned := by simp [used, effective, rowsSinceFit, rowsOf]
  rw [hu]
  have hrow : ∀ (i : Fin 2) (v : ℝ), (![.num 1, .num 2] : Fin 2 → Nan ℝ) i = .num v → (![1, 2] : Fin 2 → ℝ) i = v := by
    intro i v h
    fin_cases i <;> · simp at h; simpa using h
  refine ⟨?_, ?_, ?_, ?_⟩
  · unfold poisoned FillsIn
    refine .cons ?_ ?_
    · intro i v h
      fin_cases i
      · simp at h
      · simp at h; simpa using h
    · have : ∀ n, List.Forall₂ (fun (x : Fin 2 → Nan ℝ) (y : Fin 2 → ℝ) => ∀ i v, x i = .num v → y i = v)
          (List.replicate n ![.num 1, .num 2]) (List.replicate n ![1, 2]) := by
        intro n
        induction n with
        | zero => exact .nil
        | succ n ih => exact .cons hrow ih
      exact this 30
  · exact ⟨_, List.mem_cons_self, by simp⟩
  · rintro ⟨x, hx, h⟩
    simp only [poisoned, List.mem_cons, List.mem_replicate] at hx
    rcases hx with rfl | ⟨_, rfl⟩ <;> simp at h
  · have h1 : ewaBurnN (1 / 20 : ℝ) = 20 := by unfold ewaBurnN; norm_num; rfl
    rw [h1]
    simp [poisoned]

end Precise
