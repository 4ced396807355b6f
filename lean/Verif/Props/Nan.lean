import Verif.Model.Nan
import Verif.Spec.Nan
import Verif.Lemmas.Lawful
import Verif.Lemmas.Emp
import Verif.Spec.Stats
import Mathlib.Tactic.FieldSimp
import Mathlib.Tactic.NormNum

/-!
# C82: NaN stays in its column

For the estimators whose state has one entry per pair of columns (empirical, EWA, diagonal).
-/

set_option linter.all false

namespace Precise

open Spec Obj

namespace Nan

variable {K : Type}

open Classical in
/-- A number, or NaN when the flag is up. -/
noncomputable def mask (b : Prop) (v : K) : Nan K := if b then nan else num v

theorem mask_true {b : Prop} (h : b) (v : K) : mask b v = nan := by unfold mask; rw [if_pos h]
theorem mask_false {b : Prop} (h : ¬ b) (v : K) : mask b v = num v := by unfold mask; rw [if_neg h]
theorem num_eq (v : K) : num v = mask False v := by unfold mask; rw [if_neg (by simp)]
theorem mask_congr {b c : Prop} (h : b ↔ c) (v : K) : mask b v = mask c v := by
  have : b = c := propext h
  rw [this]

theorem mask_add [Add K] (b c : Prop) (v w : K) : mask b v + mask c w = mask (b ∨ c) (v + w) := by
  by_cases hb : b <;> by_cases hc : c <;> simp [mask, hb, hc] <;> rfl
theorem mask_sub [Sub K] (b c : Prop) (v w : K) : mask b v - mask c w = mask (b ∨ c) (v - w) := by
  by_cases hb : b <;> by_cases hc : c <;> simp [mask, hb, hc] <;> rfl
theorem mask_mul [Mul K] (b c : Prop) (v w : K) : mask b v * mask c w = mask (b ∨ c) (v * w) := by
  by_cases hb : b <;> by_cases hc : c <;> simp [mask, hb, hc] <;> rfl
theorem mask_div [Zero K] [Div K] (b : Prop) (v w : K) (hw : w ≠ 0) : mask b v / num w = mask b (v / w) := by
  have h : ∀ a : Nan K, a / num w = lift₂ (· / ·) a (num w) := by
    intro a
    show @ite _ (num w = num 0) (Classical.propDecidable _) _ _ = _
    rw [if_neg (by intro h; exact hw (by injection h))]
  rw [h]
  by_cases hb : b <;> simp [mask, hb, lift₂]

theorem natCast_eq [NatCast K] (n : ℕ) : (n : Nan K) = num (n : K) := rfl
theorem one_eq [One K] : (1 : Nan K) = num 1 := rfl
theorem zero_eq [Zero K] : (0 : Nan K) = num 0 := rfl
theorem two_eq [NatCast K] : (2 : Nan K) = num ((2 : ℕ) : K) := rfl

end Nan

open Nan

variable {ι K : Type}

/-- The state on a stream with NaN is the state on the filled-in stream, masked on the bad columns. -/
def MaskedEmp (bad : ι → Prop) (s : EmpState ι (Nan K)) (t : EmpState ι K) : Prop :=
  s.nSamples = t.nSamples ∧ (∀ i, s.mean i = mask (bad i) (t.mean i)) ∧
  ∀ i j, s.cov i j = mask (bad i ∨ bad j) (t.cov i j)

theorem masked_row {x : ι → Nan K} {y : ι → K} (h : ∀ i v, x i = .num v → y i = v) (i : ι) :
    x i = mask (x i = .nan) (y i) := by
  cases hx : x i with
  | nan => rw [mask_true (by rw [hx] at *)]
  | num v => rw [mask_false (by simp), h i v hx]

theorem masked_empUpdate [Field K] [CharZero K] {bad : ι → Prop} {s : EmpState ι (Nan K)} {t : EmpState ι K}
    (h : MaskedEmp bad s t) {x : ι → Nan K} {y : ι → K} (hxy : ∀ i v, x i = .num v → y i = v) :
    MaskedEmp (fun i => bad i ∨ x i = .nan) (empUpdate s x) (empUpdate t y) := by
  obtain ⟨h1, h2, h3⟩ := h
  have hx := masked_row hxy
  have hn : ((t.nSamples + 1 : ℕ) : K) ≠ 0 := Nat.cast_ne_zero.2 (Nat.succ_ne_zero _)
  refine ⟨by simp [empUpdate, h1], fun i => ?_, fun i j => ?_⟩
  · show s.mean i + (x i - s.mean i) / ((s.nSamples + 1 : ℕ) : Nan K) = _
    rw [h1, h2, natCast_eq]
    conv_lhs => rw [hx i]
    rw [mask_sub, mask_div _ _ _ hn, mask_add]
    exact mask_congr (by tauto) _
  · show s.cov i j * ((s.nSamples + 1 - 1 : ℕ) : Nan K) / ((s.nSamples + 1 : ℕ) : Nan K)
      + (x i - s.mean i) * ((x j - (s.mean j + (x j - s.mean j) / ((s.nSamples + 1 : ℕ) : Nan K)))
        / ((s.nSamples + 1 : ℕ) : Nan K)) = _
    rw [h1, h2, h2, h3, natCast_eq, natCast_eq]
    conv_lhs => rw [hx i, hx j]
    rw [mask_sub, mask_sub, mask_div _ _ _ hn, mask_add, mask_sub, mask_div _ _ _ hn, mask_mul,
      num_eq ((t.nSamples + 1 - 1 : ℕ) : K), mask_mul, mask_div _ _ _ hn, mask_add]
    exact mask_congr (by tauto) _

theorem masked_ewaBlend [Field K] (r : K) {bad : ι → Prop} {s : EmpState ι (Nan K)} {t : EmpState ι K}
    (h : MaskedEmp bad s t) {x : ι → Nan K} {y : ι → K} (hxy : ∀ i v, x i = .num v → y i = v) :
    MaskedEmp (fun i => bad i ∨ x i = .nan) (ewaBlend (.num r) s x) (ewaBlend r t y) := by
  obtain ⟨h1, h2, h3⟩ := h
  have hx := masked_row hxy
  have hr : (1 : Nan K) - .num r = mask False (1 - r) := by rw [one_eq, num_eq, num_eq r, mask_sub]; exact mask_congr (by tauto) _
  refine ⟨by simp [ewaBlend, h1], fun i => ?_, fun i j => ?_⟩
  · show (1 - .num r) * s.mean i + .num r * x i = _
    rw [hr, h2, num_eq r]
    conv_lhs => rw [hx i]
    rw [mask_mul, mask_mul, mask_add]
    exact mask_congr (by tauto) _
  · show (1 - .num r) * s.cov i j + .num r * ((x i - s.mean i) * (x j - s.mean j)) = _
    rw [hr, h2, h2, h3, num_eq r]
    conv_lhs => rw [hx i, hx j]
    rw [mask_sub, mask_sub, mask_mul, mask_mul, mask_mul, mask_add]
    exact mask_congr (by tauto) _

theorem badColumn_snoc (xs : List (ι → Nan K)) (x : ι → Nan K) (i : ι) :
    (BadColumn xs i ∨ x i = .nan) ↔ BadColumn (xs ++ [x]) i := by
  simp only [BadColumn, List.mem_append, List.mem_singleton]
  constructor
  · rintro (⟨z, hz, h⟩ | h)
    · exact ⟨z, Or.inl hz, h⟩
    · exact ⟨x, Or.inr rfl, h⟩
  · rintro ⟨z, hz | rfl, h⟩
    · exact Or.inl ⟨z, hz, h⟩
    · exact Or.inr h

theorem MaskedEmp.congr {b c : ι → Prop} (hbc : ∀ i, b i ↔ c i) {s : EmpState ι (Nan K)} {t : EmpState ι K}
    (h : MaskedEmp b s t) : MaskedEmp c s t := by
  have : b = c := funext fun i => propext (hbc i)
  rwa [← this]

theorem FillsIn.snoc_inv {xs : List (ι → Nan K)} {x : ι → Nan K} {ys : List (ι → K)} (h : FillsIn (xs ++ [x]) ys) :
    ∃ zs y, ys = zs ++ [y] ∧ FillsIn xs zs ∧ ∀ i v, x i = .num v → y i = v := by
  unfold FillsIn at h
  induction xs generalizing ys with
  | nil =>
    cases h with
    | cons h1 h2 => cases h2; exact ⟨[], _, rfl, .nil, h1⟩
  | cons a xs ih =>
    cases h with
    | cons h1 h2 =>
      obtain ⟨zs, y, rfl, h3, h4⟩ := ih h2
      exact ⟨_ :: zs, y, rfl, .cons h1 h3, h4⟩

theorem masked_empFold [Field K] [CharZero K] (xs : List (ι → Nan K)) (ys : List (ι → K)) (h : FillsIn xs ys) :
    MaskedEmp (BadColumn xs) (xs.foldl empUpdate empInit) (ys.foldl empUpdate empInit) := by
  induction xs using List.reverseRecOn generalizing ys with
  | nil =>
    cases h
    have nb : ∀ i, ¬ BadColumn ([] : List (ι → Nan K)) i := by rintro i ⟨z, hz, _⟩; cases hz
    refine ⟨rfl, fun i => ?_, fun i j => ?_⟩
    · rw [mask_false (nb i)]; rfl
    · rw [mask_false (by rintro (h | h) <;> exact nb _ h)]; rfl
  | append_singleton xs x ih =>
    obtain ⟨zs, y, rfl, h3, h4⟩ := FillsIn.snoc_inv h
    rw [List.foldl_append, List.foldl_append]
    exact (masked_empUpdate (ih zs h3) h4).congr (badColumn_snoc xs x)

theorem masked_ewaFold [Field K] [CharZero K] (r : K) (b : ℕ) (xs : List (ι → Nan K)) (ys : List (ι → K)) (h : FillsIn xs ys) :
    let s := xs.foldl ewaUpdate { toEmpState := empInit, r := .num r, nBurn := b }
    let t := ys.foldl ewaUpdate { toEmpState := empInit, r := r, nBurn := b }
    s.r = .num r ∧ t.r = r ∧ s.nBurn = b ∧ t.nBurn = b ∧ MaskedEmp (BadColumn xs) s.toEmpState t.toEmpState := by
  induction xs using List.reverseRecOn generalizing ys with
  | nil =>
    have := masked_empFold [] ys h
    cases h
    exact ⟨rfl, rfl, rfl, rfl, this⟩
  | append_singleton xs x ih =>
    obtain ⟨zs, y, rfl, h3, h4⟩ := FillsIn.snoc_inv h
    obtain ⟨e1, e2, e3, e4, e5⟩ := ih zs h3
    simp only [List.foldl_append, List.foldl_cons, List.foldl_nil]
    generalize xs.foldl ewaUpdate ({ toEmpState := empInit, r := .num r, nBurn := b } : EwaState ι (Nan K)) = s at *
    generalize zs.foldl ewaUpdate ({ toEmpState := empInit, r := r, nBurn := b } : EwaState ι K) = t at *
    unfold ewaUpdate
    rw [e3, e4, e5.1]
    by_cases hb : t.nSamples < b
    · rw [if_pos hb, if_pos hb]
      exact ⟨e1, e2, e3, e4, (masked_empUpdate e5 h4).congr (badColumn_snoc xs x)⟩
    · rw [if_neg hb, if_neg hb]
      refine ⟨e1, e2, rfl, rfl, ?_⟩
      show MaskedEmp _ (ewaBlend s.r s.toEmpState x) (ewaBlend t.r t.toEmpState y)
      rw [e1, e2]
      exact (masked_ewaBlend r e5 h4).congr (badColumn_snoc xs x)

theorem masked_toSymmetric [Field K] [CharZero K] {bad : ι → Prop} {a : Matrix ι ι (Nan K)} {c : Matrix ι ι K}
    (h : ∀ i j, a i j = mask (bad i ∨ bad j) (c i j)) (i j : ι) :
    toSymmetric a i j = mask (bad i ∨ bad j) (toSymmetric c i j) := by
  show (a i j + a j i) / 2 = mask _ ((c i j + c j i) / 2)
  rw [h, h, mask_add, two_eq, mask_div _ _ _ (by norm_num)]
  push_cast
  exact mask_congr (by tauto) _

theorem ewaNan_lawful (ι K : Type) [Fintype ι] [Field K] [LinearOrder K] [FloorRing K] : Lawful (ewaNanCls ι K) where
  n_init _ := rfl
  n_update _ s x := by show (ewaUpdate s x).nSamples = s.nSamples + 1; unfold ewaUpdate; split <;> rfl
  load_dump s _ := EwaState.load_dump s
  diff_withDiff _ _ := rfl
  init_withDiff _ _ := rfl
  update_withDiff _ _ := rfl
  toCov_withDiff _ _ := rfl
  toMean_withDiff _ _ := rfl

theorem diagonalNan_lawful (ι K : Type) [Fintype ι] [DecidableEq ι] [Field K] [LinearOrder K] [FloorRing K] :
    Lawful (diagonalNanCls ι K) where
  n_init _ := rfl
  n_update _ s x := by show (diagUpdate s x).nSamples = s.nSamples + 1; unfold diagUpdate; simp only []; split <;> rfl
  load_dump s _ := by cases s; change DiagState.ofDict (Dict.fromlist (Dict.tolist (DiagState.asDict _))) = _; dictsimp
  diff_withDiff _ _ := rfl
  init_withDiff _ _ := rfl
  update_withDiff _ _ := rfl
  toCov_withDiff _ _ := rfl
  toMean_withDiff _ _ := rfl

theorem FillsIn.ne_nil {xs : List (ι → Nan K)} {ys : List (ι → K)} (h : FillsIn xs ys) (hx : xs ≠ []) : ys ≠ [] := by
  rintro rfl
  cases h
  exact hx rfl

/-- C82 (EmpiricalCovariance): after any history, `location_` is NaN exactly in the columns where some observation used
since the last `fit` is NaN and `covariance_` exactly in the rows and columns of those; every other entry is the batch
mean / population covariance of the observations with the NaNs replaced by any numbers. -/
theorem C82_empirical [Fintype ι] [Field K] [CharZero K] (diff : Bool) (calls : List (Call ι (Nan K)))
    (ys : List (ι → K)) (hne : used diff calls ≠ []) (hy : FillsIn (used diff calls) ys) :
    ∃ m c, ((new (empiricalCls ι (Nan K)) diff).run calls).location = .ok m ∧
      ((new (empiricalCls ι (Nan K)) diff).run calls).covariance = .ok c ∧
      (∀ i, BadColumn (used diff calls) i → m i = .nan) ∧
      (∀ i, ¬ BadColumn (used diff calls) i → m i = .num (meanOf ys i)) ∧
      (∀ i j, BadColumn (used diff calls) i ∨ BadColumn (used diff calls) j → c i j = .nan) ∧
      (∀ i j, ¬ BadColumn (used diff calls) i → ¬ BadColumn (used diff calls) j → c i j = .num (covOf ys i j)) := by
  have hl := run_location (empirical_lawful ι (Nan K)) diff calls hne
  have hc := run_covariance (empirical_lawful ι (Nan K)) diff calls hne
  have M := masked_empFold _ _ hy
  have hyne := FillsIn.ne_nil hy hne
  have S := masked_toSymmetric M.2.2
  refine ⟨_, _, hl, hc, fun i hi => ?_, fun i hi => ?_, fun i j hij => ?_, fun i j hi hj => ?_⟩
  · exact (M.2.1 i).trans (mask_true hi _)
  · refine ((M.2.1 i).trans (mask_false hi _)).trans ?_
    rw [show (ys.foldl empUpdate empInit).mean = meanOf ys from empFold_mean hyne]
  · exact (S i j).trans (mask_true hij _)
  · refine ((S i j).trans (mask_false (by tauto) _)).trans ?_
    rw [show (ys.foldl empUpdate empInit).cov = covOf ys from empFold_cov hyne]
    congr 1
    show (covOf ys i j + covOf ys j i) / 2 = _
    have : covOf ys j i = covOf ys i j := by
      unfold covOf
      simp only [Matrix.of_apply]
      congr 2
      exact List.map_congr_left fun x _ => mul_comm _ _
    rw [this]
    field_simp
    ring

/-- C82 (EwaCovariance): the same, the other entries being those of the estimator fed the filled-in observations. -/
theorem C82_ewa [Fintype ι] [Field K] [LinearOrder K] [IsStrictOrderedRing K] [FloorRing K] (p : RParam K)
    (calls : List (Call ι (Nan K))) (ys : List (ι → K)) (hne : used p.diff calls ≠ []) (hy : FillsIn (used p.diff calls) ys) :
    ∃ m c m' c', ((new (ewaNanCls ι K) p).run calls).location = .ok m ∧
      ((new (ewaNanCls ι K) p).run calls).covariance = .ok c ∧
      ((new (ewaCls ι K) ⟨p.r, false⟩).run [.partialFit (.batch ys)]).location = .ok m' ∧
      ((new (ewaCls ι K) ⟨p.r, false⟩).run [.partialFit (.batch ys)]).covariance = .ok c' ∧
      (∀ i, BadColumn (used p.diff calls) i → m i = .nan) ∧
      (∀ i, ¬ BadColumn (used p.diff calls) i → m i = .num (m' i)) ∧
      (∀ i j, BadColumn (used p.diff calls) i ∨ BadColumn (used p.diff calls) j → c i j = .nan) ∧
      (∀ i j, ¬ BadColumn (used p.diff calls) i → ¬ BadColumn (used p.diff calls) j → c i j = .num (c' i j)) := by
  have hyne := FillsIn.ne_nil hy hne
  have hu : used (ewaCls ι K |>.diff (⟨p.r, false⟩ : RParam K)) [.partialFit (.batch ys)] = ys := by
    simp [used, effective, rowsSinceFit, rowsOf, ewaCls]
  have hl := run_location (ewaNan_lawful ι K) p calls hne
  have hc := run_covariance (ewaNan_lawful ι K) p calls hne
  have hl' := run_location (ewa_lawful ι K) (⟨p.r, false⟩ : RParam K) [.partialFit (.batch ys)] (by rw [hu]; exact hyne)
  have hc' := run_covariance (ewa_lawful ι K) (⟨p.r, false⟩ : RParam K) [.partialFit (.batch ys)] (by rw [hu]; exact hyne)
  rw [hu] at hl' hc'
  have M := (masked_ewaFold p.r (ewaBurnN p.r) _ _ hy).2.2.2.2
  have S := masked_toSymmetric M.2.2
  exact ⟨_, _, _, _, hl, hc, hl', hc', fun i hi => (M.2.1 i).trans (mask_true hi _),
    fun i hi => (M.2.1 i).trans (mask_false hi _), fun i j hij => (S i j).trans (mask_true hij _),
    fun i j hi hj => (S i j).trans (mask_false (by tauto) _)⟩

/-- The diagonal state, masked. -/
theorem masked_diagFold [Field K] [CharZero K] (r : K) (b : ℕ) (xs : List (ι → Nan K)) (ys : List (ι → K)) (h : FillsIn xs ys) :
    let s := xs.foldl diagUpdate ({ nSamples := 0, mean := fun _ => 0, var := fun _ => 0, r := .num r, nBurn := b } : DiagState ι (Nan K))
    let t := ys.foldl diagUpdate ({ nSamples := 0, mean := fun _ => 0, var := fun _ => 0, r := r, nBurn := b } : DiagState ι K)
    s.r = .num r ∧ t.r = r ∧ s.nBurn = b ∧ t.nBurn = b ∧ s.nSamples = t.nSamples ∧
    (∀ i, s.mean i = mask (BadColumn xs i) (t.mean i)) ∧ (∀ i, s.var i = mask (BadColumn xs i) (t.var i)) := by
  induction xs using List.reverseRecOn generalizing ys with
  | nil =>
    cases h
    have nb : ∀ i, ¬ BadColumn ([] : List (ι → Nan K)) i := by rintro i ⟨z, hz, _⟩; cases hz
    exact ⟨rfl, rfl, rfl, rfl, rfl, fun i => by rw [mask_false (nb i)]; rfl, fun i => by rw [mask_false (nb i)]; rfl⟩
  | append_singleton xs x ih =>
    obtain ⟨zs, y, rfl, h3, h4⟩ := FillsIn.snoc_inv h
    obtain ⟨e1, e2, e3, e4, e5, e6, e7⟩ := ih zs h3
    simp only [List.foldl_append, List.foldl_cons, List.foldl_nil]
    generalize xs.foldl diagUpdate ({ nSamples := 0, mean := fun _ => 0, var := fun _ => 0, r := .num r, nBurn := b } : DiagState ι (Nan K)) = s at *
    generalize zs.foldl diagUpdate ({ nSamples := 0, mean := fun _ => 0, var := fun _ => 0, r := r, nBurn := b } : DiagState ι K) = t at *
    have hx := masked_row h4
    have hn : ((t.nSamples + 1 : ℕ) : K) ≠ 0 := Nat.cast_ne_zero.2 (Nat.succ_ne_zero _)
    have hr : (1 : Nan K) - .num r = mask False (1 - r) := by
      rw [one_eq, num_eq, num_eq r, mask_sub]; exact mask_congr (by tauto) _
    have sn := badColumn_snoc xs x
    unfold diagUpdate
    simp only []
    rw [e3, e4, e5]
    by_cases hb : t.nSamples + 1 ≤ b
    · rw [if_pos hb, if_pos hb]
      refine ⟨e1, e2, rfl, rfl, rfl, fun i => ?_, fun i => ?_⟩
      · show s.mean i + (x i - s.mean i) / ((t.nSamples + 1 : ℕ) : Nan K) = _
        rw [e6, natCast_eq]
        conv_lhs => rw [hx i]
        rw [mask_sub, mask_div _ _ _ hn, mask_add]
        exact mask_congr (by rw [← sn]; tauto) _
      · show s.var i + ((x i - s.mean i) * (x i - s.mean i) - s.var i) / ((t.nSamples + 1 : ℕ) : Nan K) = _
        rw [e6, e7, natCast_eq]
        conv_lhs => rw [hx i]
        rw [mask_sub, mask_mul, mask_sub, mask_div _ _ _ hn, mask_add]
        exact mask_congr (by rw [← sn]; tauto) _
    · rw [if_neg hb, if_neg hb]
      refine ⟨e1, e2, rfl, rfl, rfl, fun i => ?_, fun i => ?_⟩
      · show (1 - s.r) * s.mean i + s.r * x i = mask _ ((1 - t.r) * t.mean i + t.r * y i)
        rw [e1, e2, hr, e6, num_eq r]
        conv_lhs => rw [hx i]
        rw [mask_mul, mask_mul, mask_add]
        exact mask_congr (by rw [← sn]; tauto) _
      · show (1 - s.r) * s.var i + s.r * ((x i - s.mean i) * (x i - s.mean i))
          = mask _ ((1 - t.r) * t.var i + t.r * ((y i - t.mean i) * (y i - t.mean i)))
        rw [e1, e2, hr, e6, e7, num_eq r]
        conv_lhs => rw [hx i]
        rw [mask_sub, mask_mul, mask_mul, mask_mul, mask_add]
        exact mask_congr (by rw [← sn]; tauto) _

/-- C82 (DiagonalCovariance): a bad column spoils its own mean and variance only; the off-diagonal entries stay 0, even
in the bad rows and columns. -/
theorem C82_diagonal [Fintype ι] [DecidableEq ι] [Field K] [LinearOrder K] [IsStrictOrderedRing K] [FloorRing K] (p : RParam K)
    (calls : List (Call ι (Nan K))) (ys : List (ι → K)) (hne : used p.diff calls ≠ []) (hy : FillsIn (used p.diff calls) ys) :
    ∃ m c m' c', ((new (diagonalNanCls ι K) p).run calls).location = .ok m ∧
      ((new (diagonalNanCls ι K) p).run calls).covariance = .ok c ∧
      ((new (diagonalCls ι K) ⟨p.r, false⟩).run [.partialFit (.batch ys)]).location = .ok m' ∧
      ((new (diagonalCls ι K) ⟨p.r, false⟩).run [.partialFit (.batch ys)]).covariance = .ok c' ∧
      (∀ i, BadColumn (used p.diff calls) i → m i = .nan ∧ c i i = .nan) ∧
      (∀ i, ¬ BadColumn (used p.diff calls) i → m i = .num (m' i) ∧ c i i = .num (c' i i)) ∧
      (∀ i j, i ≠ j → c i j = .num 0) := by
  have hyne := FillsIn.ne_nil hy hne
  have hu : used (diagonalCls ι K |>.diff (⟨p.r, false⟩ : RParam K)) [.partialFit (.batch ys)] = ys := by
    simp [used, effective, rowsSinceFit, rowsOf, diagonalCls]
  have hl := run_location (diagonalNan_lawful ι K) p calls hne
  have hc := run_covariance (diagonalNan_lawful ι K) p calls hne
  have hl' := run_location (diagonal_lawful ι K) (⟨p.r, false⟩ : RParam K) [.partialFit (.batch ys)] (by rw [hu]; exact hyne)
  have hc' := run_covariance (diagonal_lawful ι K) (⟨p.r, false⟩ : RParam K) [.partialFit (.batch ys)] (by rw [hu]; exact hyne)
  rw [hu] at hl' hc'
  obtain ⟨_, _, _, _, _, Mm, Mv⟩ := masked_diagFold p.r (ewaBurnN p.r) _ _ hy
  have D : ∀ i, toSymmetric (Matrix.diagonal ((used p.diff calls).foldl diagUpdate
      ({ nSamples := 0, mean := fun _ => 0, var := fun _ => 0, r := .num p.r, nBurn := ewaBurnN p.r } : DiagState ι (Nan K))).var) i i
      = mask (BadColumn (used p.diff calls) i) (toSymmetric (Matrix.diagonal (ys.foldl diagUpdate
        ({ nSamples := 0, mean := fun _ => 0, var := fun _ => 0, r := p.r, nBurn := ewaBurnN p.r } : DiagState ι K)).var) i i) := by
    intro i
    simp only [toSymmetric, Matrix.of_apply, Matrix.diagonal_apply_eq]
    rw [Mv, mask_add, two_eq, mask_div _ _ _ (by norm_num)]
    push_cast
    exact mask_congr (by tauto) _
  refine ⟨_, _, _, _, hl, hc, hl', hc', fun i hi => ⟨(Mm i).trans (mask_true hi _), (D i).trans (mask_true hi _)⟩,
    fun i hi => ⟨(Mm i).trans (mask_false hi _), (D i).trans (mask_false hi _)⟩, fun i j hij => ?_⟩
  have Z : ∀ v : ι → Nan K, toSymmetric (Matrix.diagonal v) i j = (Matrix.diagonal v i j + Matrix.diagonal v j i) / 2 := fun _ => rfl
  refine (Z _).trans ?_
  rw [Matrix.diagonal_apply_ne _ hij, Matrix.diagonal_apply_ne _ hij.symm, zero_eq, num_eq, mask_add, two_eq,
    mask_div _ _ _ (by norm_num), mask_false (by tauto)]
  simp [num_eq]

/-- C82: `fit` on a batch without NaN clears every NaN of the past (EmpiricalCovariance). -/
theorem C82_fit_recovers [Fintype ι] [Field K] [CharZero K] (calls : List (Call ι (Nan K))) (ys : List (ι → K)) (hy : ys ≠ []) :
    let o := ((new (empiricalCls ι (Nan K)) false).run (calls ++ [.fit (.batch (ys.map fun y i => .num (y i)))]))
    o.location = .ok (fun i => .num (meanOf ys i)) ∧ o.covariance = .ok (Matrix.of fun i j => .num (covOf ys i j)) := by
  have hr : ∀ (cs : List (Call ι (Nan K))) (acc : List (ι → Nan K)) (xs : List (ι → Nan K)),
      rowsSinceFit (cs ++ [.fit (.batch xs)]) acc = xs := by
    intro cs
    induction cs with
    | nil => intro acc xs; rfl
    | cons c cs ih =>
      intro acc xs
      cases c with
      | partialFit X => exact ih _ _
      | fit X => cases X <;> exact ih _ _
  have hu : used false (calls ++ [.fit (.batch (ys.map fun y i => (.num (y i) : Nan K)))]) = ys.map fun y i => .num (y i) := by
    unfold used effective
    rw [hr]
    simp
  have hf : FillsIn (ys.map fun y i => (.num (y i) : Nan K)) ys := by
    unfold FillsIn
    rw [List.forall₂_map_left_iff]
    exact List.forall₂_same.2 fun y _ i v h => by injection h
  have nb : ∀ i, ¬ BadColumn (ys.map fun y i => (.num (y i) : Nan K)) i := by
    rintro i ⟨z, hz, h⟩
    obtain ⟨y, _, rfl⟩ := List.mem_map.1 hz
    cases h
  obtain ⟨m, c, h1, h2, _, h4, _, h6⟩ := C82_empirical false (calls ++ [.fit (.batch (ys.map fun y i => (.num (y i) : Nan K)))]) ys
    (by rw [hu]; simpa using hy) (by rw [hu]; exact hf)
  rw [hu] at h4 h6
  refine ⟨h1.trans ?_, h2.trans ?_⟩
  · congr 1; funext i; exact h4 i (nb i)
  · congr 1; ext i j; exact h6 i j (nb i) (nb j)

/-! Non-vacuity: a NaN in the second of two columns, with `diff` on: two of the three differences are NaN there. -/

def nanDemo : List (Fin 2 → Nan ℚ) := [![.num 1, .num 5], ![.num 2, .nan], ![.num 4, .num 7], ![.num 5, .num 3]]

example : used true [.partialFit (.batch nanDemo)] = [![.num 1, .nan], ![.num 2, .nan], ![.num 1, .num (-4)]] := by
  have e : ∀ a b c d : Nan ℚ, (![a, b] - ![c, d] : Fin 2 → Nan ℚ) = ![a - c, b - d] := by
    intro a b c d; funext i; fin_cases i <;> rfl
  have h : ∀ a b : ℚ, (Nan.num a - Nan.num b : Nan ℚ) = Nan.num (a - b) := fun _ _ => rfl
  have h1 : ∀ a : Nan ℚ, a - Nan.nan = Nan.nan := by intro a; cases a <;> rfl
  have h2 : ∀ a : Nan ℚ, Nan.nan - a = Nan.nan := by intro a; cases a <;> rfl
  simp [used, effective, rowsSinceFit, rowsOf, nanDemo, diffs, e, h, h1, h2]
  norm_num

example : ∃ c, ((new (empiricalCls (Fin 2) (Nan ℚ)) false).run [.partialFit (.batch nanDemo)]).covariance = .ok c ∧
    c 0 0 = .num (5 / 2) ∧ c 0 1 = .nan ∧ c 1 0 = .nan ∧ c 1 1 = .nan := by
  have hu : used false [.partialFit (.batch nanDemo)] = nanDemo := by simp [used, effective, rowsSinceFit, rowsOf]
  have b1 : BadColumn nanDemo 1 := ⟨![.num 2, .nan], by simp [nanDemo], rfl⟩
  have b0 : ¬ BadColumn nanDemo 0 := by
    rintro ⟨z, hz, h⟩
    simp [nanDemo] at hz
    rcases hz with rfl | rfl | rfl | rfl <;> cases h
  have hf : FillsIn nanDemo [![1, 5], ![2, 0], ![4, 7], ![5, 3]] := by
    unfold FillsIn nanDemo
    refine .cons ?_ (.cons ?_ (.cons ?_ (.cons ?_ .nil))) <;> intro i v h <;> fin_cases i <;> cases h <;> rfl
  obtain ⟨m, c, h1, h2, h3, h4, h5, h6⟩ := C82_empirical false [.partialFit (.batch nanDemo)] _
    (by rw [hu]; simp [nanDemo]) (by rw [hu]; exact hf)
  rw [hu] at h5 h6
  refine ⟨c, h2, ?_, h5 0 1 (Or.inr b1), h5 1 0 (Or.inl b1), h5 1 1 (Or.inl b1)⟩
  rw [h6 0 0 b0 b0]
  congr 1
  simp [covOf, meanOf]
  norm_num

end Precise
