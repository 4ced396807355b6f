import Verif.Props.Nan
import Verif.Spec.Inf

/-!
# C122: an infinite observation

For the estimators whose state has one entry per pair of columns (empirical, EWA, diagonal).
-/

set_option linter.all false

namespace Precise

open Spec Obj

variable {ι K : Type}

namespace Ext

/-- Forgetting which non-finite value it is. -/
def collapse : Ext K → Nan K
  | num x => .num x
  | _ => .nan

section
variable [Field K] [LinearOrder K]

theorem collapse_add (a b : Ext K) : collapse (a + b) = collapse a + collapse b := by
  cases a <;> cases b <;> rfl
theorem collapse_sub (a b : Ext K) : collapse (a - b) = collapse a - collapse b := by
  cases a <;> cases b <;> first | rfl | (show Nan.num _ = Nan.num _; congr 1; exact (sub_eq_add_neg _ _).symm)
theorem collapse_scale (x : K) : collapse (scale x) = .nan := by unfold scale; split_ifs <;> rfl
theorem collapse_neg_scale (x : K) : collapse (neg (scale x)) = .nan := by unfold scale; split_ifs <;> rfl
theorem collapse_mul (a b : Ext K) : collapse (a * b) = collapse a * collapse b := by
  cases a <;> cases b <;> first | rfl | exact collapse_scale _ | exact collapse_neg_scale _
theorem collapse_div (a : Ext K) {v : K} (hv : v ≠ 0) : collapse (a / num v) = collapse a / Nan.num v := by
  have h : ∀ a : Nan K, a / Nan.num v = Nan.lift₂ (· / ·) a (Nan.num v) := by
    intro a
    show @ite _ (Nan.num v = Nan.num 0) (Classical.propDecidable _) _ _ = _
    rw [if_neg (by intro h; exact hv (by injection h))]
  rw [h]
  cases a with
  | num x => show collapse (if v = 0 then _ else _) = _; rw [if_neg hv]; rfl
  | pinf => show collapse (if v < 0 then _ else _) = _; split_ifs <;> rfl
  | ninf => show collapse (if v < 0 then _ else _) = _; split_ifs <;> rfl
  | nan => rfl
theorem natCast_eq (n : ℕ) : (n : Ext K) = num (n : K) := rfl
theorem two_eq : (2 : Ext K) = num ((2 : ℕ) : K) := rfl
theorem collapse_nat (n : ℕ) : collapse (n : Ext K) = (n : Nan K) := rfl
theorem collapse_one : collapse (1 : Ext K) = 1 := rfl
end

end Ext

open Ext

theorem collapse_nan_iff {a : Ext K} : collapse a = .nan ↔ ¬ IsNum a := by
  cases a with
  | num x => simp [collapse, IsNum]
  | _ => simp [collapse, IsNum]

theorem collapse_num_iff {a : Ext K} {v : K} : collapse a = .num v ↔ a = .num v := by
  cases a <;> simp [collapse]

/-! ## The state with infinities, seen through `collapse` -/

def collapseEmp (s : EmpState ι (Ext K)) : EmpState ι (Nan K) :=
  { nSamples := s.nSamples, mean := fun i => collapse (s.mean i), cov := Matrix.of fun i j => collapse (s.cov i j) }

def collapseRow (x : ι → Ext K) : ι → Nan K := fun i => collapse (x i)

section
variable [Field K] [LinearOrder K] [IsStrictOrderedRing K]

theorem collapse_empUpdate (s : EmpState ι (Ext K)) (x : ι → Ext K) : collapseEmp (empUpdate s x) = empUpdate (collapseEmp s) (collapseRow x) := by
  have hn : ((s.nSamples + 1 : ℕ) : K) ≠ 0 := Nat.cast_ne_zero.2 (Nat.succ_ne_zero _)
  have hmean : ∀ i, collapse ((empUpdate s x).mean i) = (empUpdate (collapseEmp s) (collapseRow x)).mean i := by
    intro i
    show collapse (s.mean i + (x i - s.mean i) / ((s.nSamples + 1 : ℕ) : Ext K)) = collapse (s.mean i) + (collapse (x i) - collapse (s.mean i)) / ((s.nSamples + 1 : ℕ) : Nan K)
    rw [collapse_add, Ext.natCast_eq, collapse_div _ hn, collapse_sub]; rfl
  have hcov : ∀ i j, collapse ((empUpdate s x).cov i j) = (empUpdate (collapseEmp s) (collapseRow x)).cov i j := by
    intro i j
    show collapse (s.cov i j * ((s.nSamples + 1 - 1 : ℕ) : Ext K) / ((s.nSamples + 1 : ℕ) : Ext K)
        + (x i - s.mean i) * ((x j - (empUpdate s x).mean j) / ((s.nSamples + 1 : ℕ) : Ext K)))
      = collapse (s.cov i j) * ((s.nSamples + 1 - 1 : ℕ) : Nan K) / ((s.nSamples + 1 : ℕ) : Nan K)
        + (collapse (x i) - collapse (s.mean i)) * ((collapse (x j) - (empUpdate (collapseEmp s) (collapseRow x)).mean j) / ((s.nSamples + 1 : ℕ) : Nan K))
    rw [← hmean, collapse_add, Ext.natCast_eq (s.nSamples + 1), collapse_div _ hn, collapse_mul, collapse_mul, collapse_div _ hn, collapse_sub, collapse_sub]
    rfl
  have h1 : (collapseEmp (empUpdate s x)).mean = (empUpdate (collapseEmp s) (collapseRow x)).mean := funext hmean
  have h2 : (collapseEmp (empUpdate s x)).cov = (empUpdate (collapseEmp s) (collapseRow x)).cov := by ext i j; exact hcov i j
  have h0 : (collapseEmp (empUpdate s x)).nSamples = (empUpdate (collapseEmp s) (collapseRow x)).nSamples := rfl
  revert h0 h1 h2
  generalize collapseEmp (empUpdate s x) = a
  generalize empUpdate (collapseEmp s) (collapseRow x) = b
  cases a; cases b
  rintro rfl rfl rfl
  rfl

theorem collapse_ewaBlend (r : K) (s : EmpState ι (Ext K)) (x : ι → Ext K) :
    collapseEmp (ewaBlend (.num r) s x) = ewaBlend (.num r) (collapseEmp s) (collapseRow x) := by
  have hmean : ∀ i, collapse ((ewaBlend (.num r) s x).mean i) = (ewaBlend (.num r) (collapseEmp s) (collapseRow x)).mean i := by
    intro i
    show collapse ((1 - .num r) * s.mean i + .num r * x i) = (1 - .num r) * collapse (s.mean i) + .num r * collapse (x i)
    rw [collapse_add, collapse_mul, collapse_mul, collapse_sub]; rfl
  have hcov : ∀ i j, collapse ((ewaBlend (.num r) s x).cov i j) = (ewaBlend (.num r) (collapseEmp s) (collapseRow x)).cov i j := by
    intro i j
    show collapse ((1 - .num r) * s.cov i j + .num r * ((x i - s.mean i) * (x j - s.mean j)))
      = (1 - .num r) * collapse (s.cov i j) + .num r * ((collapse (x i) - collapse (s.mean i)) * (collapse (x j) - collapse (s.mean j)))
    rw [collapse_add, collapse_mul, collapse_mul, collapse_mul, collapse_sub, collapse_sub, collapse_sub]; rfl
  have h1 : (collapseEmp (ewaBlend (.num r) s x)).mean = (ewaBlend (.num r) (collapseEmp s) (collapseRow x)).mean := funext hmean
  have h2 : (collapseEmp (ewaBlend (.num r) s x)).cov = (ewaBlend (.num r) (collapseEmp s) (collapseRow x)).cov := by ext i j; exact hcov i j
  have h0 : (collapseEmp (ewaBlend (.num r) s x)).nSamples = (ewaBlend (.num r) (collapseEmp s) (collapseRow x)).nSamples := rfl
  revert h0 h1 h2
  generalize collapseEmp (ewaBlend (.num r) s x) = a
  generalize ewaBlend (.num r) (collapseEmp s) (collapseRow x) = b
  cases a; cases b
  rintro rfl rfl rfl
  rfl

theorem collapse_empFold (xs : List (ι → Ext K)) :
    collapseEmp (xs.foldl empUpdate empInit) = (xs.map collapseRow).foldl empUpdate empInit := by
  induction xs using List.reverseRecOn with
  | nil => rfl
  | append_singleton xs x ih =>
    simp only [List.map_append, List.map_cons, List.map_nil, List.foldl_append, List.foldl_cons, List.foldl_nil]
    rw [collapse_empUpdate, ih]

theorem collapse_ewaFold (r : K) (b : ℕ) (xs : List (ι → Ext K)) :
    let s := xs.foldl ewaUpdate ({ toEmpState := empInit, r := .num r, nBurn := b } : EwaState ι (Ext K))
    let t := (xs.map collapseRow).foldl ewaUpdate ({ toEmpState := empInit, r := .num r, nBurn := b } : EwaState ι (Nan K))
    s.r = .num r ∧ t.r = .num r ∧ s.nBurn = b ∧ t.nBurn = b ∧ collapseEmp s.toEmpState = t.toEmpState := by
  induction xs using List.reverseRecOn with
  | nil => exact ⟨rfl, rfl, rfl, rfl, rfl⟩
  | append_singleton xs x ih =>
    simp only [List.map_append, List.map_cons, List.map_nil, List.foldl_append, List.foldl_cons, List.foldl_nil]
    simp only [] at ih
    generalize xs.foldl ewaUpdate ({ toEmpState := empInit, r := .num r, nBurn := b } : EwaState ι (Ext K)) = s at *
    generalize (xs.map collapseRow).foldl ewaUpdate ({ toEmpState := empInit, r := .num r, nBurn := b } : EwaState ι (Nan K)) = t at *
    obtain ⟨e1, e2, e3, e4, e5⟩ := ih
    have en : t.nSamples = s.nSamples := by rw [← e5]; rfl
    unfold ewaUpdate
    rw [e3, e4, en]
    by_cases hb : s.nSamples < b
    · rw [if_pos hb, if_pos hb]
      refine ⟨e1, e2, e3, e4, ?_⟩
      show collapseEmp (empUpdate s.toEmpState x) = empUpdate t.toEmpState (collapseRow x)
      rw [collapse_empUpdate, e5]
    · rw [if_neg hb, if_neg hb]
      refine ⟨e1, e2, rfl, rfl, ?_⟩
      show collapseEmp (ewaBlend s.r s.toEmpState x) = ewaBlend t.r t.toEmpState (collapseRow x)
      rw [e1, e2, collapse_ewaBlend, e5]

theorem collapse_toSymmetric (a : Matrix ι ι (Ext K)) (i j : ι) :
    collapse (toSymmetric a i j) = toSymmetric (Matrix.of fun i j => collapse (a i j)) i j := by
  show collapse ((a i j + a j i) / 2) = (collapse (a i j) + collapse (a j i)) / 2
  rw [Ext.two_eq, collapse_div _ (by norm_num), collapse_add]; rfl

end

theorem badColumn_collapse (xs : List (ι → Ext K)) (i : ι) : BadColumn (xs.map collapseRow) i ↔ Infected xs i := by
  unfold BadColumn Infected
  constructor
  · rintro ⟨x, hx, h⟩
    obtain ⟨z, hz, rfl⟩ := List.mem_map.1 hx
    exact ⟨z, hz, collapse_nan_iff.1 h⟩
  · rintro ⟨z, hz, h⟩
    exact ⟨_, List.mem_map.2 ⟨z, hz, rfl⟩, collapse_nan_iff.2 h⟩

theorem fillsIn_collapse {xs : List (ι → Ext K)} {ys : List (ι → K)} (h : FillsExt xs ys) : FillsIn (xs.map collapseRow) ys := by
  unfold FillsIn
  unfold FillsExt at h
  rw [List.forall₂_map_left_iff]
  refine List.Forall₂.imp ?_ h
  intro x y hxy i v hv
  exact hxy i v (collapse_num_iff.1 hv)

theorem FillsExt.ne_nil {xs : List (ι → Ext K)} {ys : List (ι → K)} (h : FillsExt xs ys) (hx : xs ≠ []) : ys ≠ [] := by
  rintro rfl
  cases h
  exact hx rfl

theorem ewaExt_lawful (ι K : Type) [Fintype ι] [Field K] [LinearOrder K] [FloorRing K] : Lawful (ewaExtCls ι K) where
  n_init _ := rfl
  n_update _ s x := by show (ewaUpdate s x).nSamples = s.nSamples + 1; unfold ewaUpdate; split <;> rfl
  load_dump s _ := EwaState.load_dump s
  diff_withDiff _ _ := rfl
  init_withDiff _ _ := rfl
  update_withDiff _ _ := rfl
  toCov_withDiff _ _ := rfl
  toMean_withDiff _ _ := rfl

theorem diagonalExt_lawful (ι K : Type) [Fintype ι] [DecidableEq ι] [Field K] [LinearOrder K] [FloorRing K] :
    Lawful (diagonalExtCls ι K) where
  n_init _ := rfl
  n_update _ s x := by show (diagUpdate s x).nSamples = s.nSamples + 1; unfold diagUpdate; simp only []; split <;> rfl
  load_dump s _ := by cases s; change DiagState.ofDict (Dict.fromlist (Dict.tolist (DiagState.asDict _))) = _; dictsimp
  diff_withDiff _ _ := rfl
  init_withDiff _ _ := rfl
  update_withDiff _ _ := rfl
  toCov_withDiff _ _ := rfl
  toMean_withDiff _ _ := rfl

/-! ## EmpiricalCovariance: an infinity becomes NaN at once in the covariance, one step later in the mean -/

section
variable [Field K] [LinearOrder K] [IsStrictOrderedRing K]

theorem Ext.sub_nan (a : Ext K) : a - nan = nan := by cases a <;> rfl
theorem Ext.nan_sub (a : Ext K) : nan - a = nan := by cases a <;> rfl
theorem Ext.mul_nan (a : Ext K) : a * nan = nan := by cases a <;> rfl
theorem Ext.nan_div (v : K) : (nan : Ext K) / num v = nan := rfl
theorem Ext.add_nan (a : Ext K) : a + nan = nan := by cases a <;> rfl
theorem Ext.nan_add (a : Ext K) : nan + a = nan := by cases a <;> rfl
theorem Ext.pinf_div {v : K} (h : 0 < v) : (pinf : Ext K) / num v = pinf := by
  show (if v < 0 then _ else _) = _; rw [if_neg (not_lt.2 h.le)]
theorem Ext.ninf_div {v : K} (h : 0 < v) : (ninf : Ext K) / num v = ninf := by
  show (if v < 0 then _ else _) = _; rw [if_neg (not_lt.2 h.le)]

/-- The running mean after a non-finite mean is NaN. -/
theorem mean_after {m x : Ext K} (hm : ¬ IsNum m) {n : K} (hn : 0 < n) : m + (x - m) / num n = nan := by
  cases m with
  | num v => exact absurd ⟨v, rfl⟩ hm
  | nan => rw [Ext.nan_add]
  | pinf =>
    cases x with
    | num v => show pinf + ninf / num n = nan; rw [Ext.ninf_div hn]; rfl
    | pinf => rfl
    | ninf => show pinf + ninf / num n = nan; rw [Ext.ninf_div hn]; rfl
    | nan => rfl
  | ninf =>
    cases x with
    | num v => show ninf + pinf / num n = nan; rw [Ext.pinf_div hn]; rfl
    | pinf => show ninf + pinf / num n = nan; rw [Ext.pinf_div hn]; rfl
    | ninf => rfl
    | nan => rfl

/-- The running mean after a finite mean and a non-finite observation is that observation. -/
theorem mean_at {m : K} {x : Ext K} (hx : ¬ IsNum x) {n : K} (hn : 0 < n) : num m + (x - num m) / num n = x := by
  cases x with
  | num v => exact absurd ⟨v, rfl⟩ hx
  | nan => rfl
  | pinf => show num m + pinf / num n = pinf; rw [Ext.pinf_div hn]; rfl
  | ninf => show num m + ninf / num n = ninf; rw [Ext.ninf_div hn]; rfl

theorem self_sub {x : Ext K} (hx : ¬ IsNum x) : x - x = nan := by
  cases x with
  | num v => exact absurd ⟨v, rfl⟩ hx
  | _ => rfl

theorem infected_snoc (xs : List (ι → Ext K)) (x : ι → Ext K) (i : ι) : Infected (xs ++ [x]) i ↔ Infected xs i ∨ ¬ IsNum (x i) := by
  simp only [Infected, List.mem_append, List.mem_singleton]
  constructor
  · rintro ⟨z, hz | rfl, h⟩
    · exact Or.inl ⟨z, hz, h⟩
    · exact Or.inr h
  · rintro (⟨z, hz, h⟩ | h)
    · exact ⟨z, Or.inl hz, h⟩
    · exact ⟨x, Or.inr rfl, h⟩

theorem exists_fills (xs : List (ι → Ext K)) : ∃ ys, FillsExt xs ys := by
  refine ⟨xs.map fun x i => match x i with | .num v => v | _ => 0, ?_⟩
  unfold FillsExt
  rw [List.forall₂_map_right_iff]
  exact List.forall₂_same.2 fun x _ i v h => by simp only [h]

theorem empFold_collapse_mean (xs : List (ι → Ext K)) (i : ι) :
    (Infected xs i ↔ ¬ IsNum ((xs.foldl empUpdate (empInit : EmpState ι (Ext K))).mean i)) := by
  obtain ⟨ys, hy⟩ := exists_fills xs
  have M := masked_empFold _ _ (fillsIn_collapse hy)
  rw [← collapse_empFold] at M
  have := M.2.1 i
  rw [← collapse_nan_iff]
  constructor
  · intro h
    exact this.trans (Nan.mask_true ((badColumn_collapse xs i).2 h) _)
  · intro h
    by_contra hn
    have e : collapse ((xs.foldl empUpdate (empInit : EmpState ι (Ext K))).mean i) = _ :=
      this.trans (Nan.mask_false (fun hb => hn ((badColumn_collapse xs i).1 hb)) _)
    rw [h] at e
    cases e

theorem empFold_inf (xs : List (ι → Ext K)) (x : ι → Ext K) (i : ι) :
    (Infected xs i → ((xs ++ [x]).foldl empUpdate (empInit : EmpState ι (Ext K))).mean i = nan) ∧
    (¬ Infected xs i → ¬ IsNum (x i) → ((xs ++ [x]).foldl empUpdate (empInit : EmpState ι (Ext K))).mean i = x i) ∧
    (Infected (xs ++ [x]) i → ∀ k, ((xs ++ [x]).foldl empUpdate (empInit : EmpState ι (Ext K))).cov k i = nan) := by
  rw [List.foldl_append, List.foldl_cons, List.foldl_nil]
  have h := empFold_collapse_mean xs i
  generalize xs.foldl empUpdate (empInit : EmpState ι (Ext K)) = s at *
  have hn : (0 : K) < ((s.nSamples + 1 : ℕ) : K) := by exact_mod_cast Nat.succ_pos _
  have hmean : (empUpdate s x).mean i = s.mean i + (x i - s.mean i) / num ((s.nSamples + 1 : ℕ) : K) := rfl
  have a : Infected xs i → (empUpdate s x).mean i = nan := fun hi => by rw [hmean]; exact mean_after (h.1 hi) hn
  have b : ¬ Infected xs i → ¬ IsNum (x i) → (empUpdate s x).mean i = x i := by
    intro hi hx
    obtain ⟨m, hm⟩ : IsNum (s.mean i) := by by_contra hc; exact hi (h.2 hc)
    rw [hmean, hm]; exact mean_at hx hn
  refine ⟨a, b, fun hi k => ?_⟩
  have hz : x i - (empUpdate s x).mean i = nan := by
    by_cases h1 : Infected xs i
    · rw [a h1, Ext.sub_nan]
    · rcases (infected_snoc xs x i).1 hi with h2 | h2
      · exact absurd h2 h1
      · rw [b h1 h2, self_sub h2]
  show s.cov k i * ((s.nSamples + 1 - 1 : ℕ) : Ext K) / ((s.nSamples + 1 : ℕ) : Ext K)
    + (x k - s.mean k) * ((x i - (empUpdate s x).mean i) / ((s.nSamples + 1 : ℕ) : Ext K)) = nan
  rw [hz, Ext.natCast_eq (s.nSamples + 1), Ext.nan_div, Ext.mul_nan, Ext.add_nan]

theorem toSymmetric_ext (a : Matrix ι ι (Ext K)) (i j : ι) : toSymmetric a i j = (a i j + a j i) / 2 := rfl

/-- C122 (EmpiricalCovariance): after any history that used the observations `xs`, then `x`. Columns without infinities and
NaN have exactly the mean and covariances they would have if the bad values of the other columns were any numbers. For a column with
a bad value every covariance is NaN, infinity or not; its mean is NaN, except that an infinity in the very last
observation shows as that infinity. -/
theorem C122_empirical [Fintype ι] (diff : Bool) (calls : List (Call ι (Ext K))) (xs : List (ι → Ext K)) (x : ι → Ext K)
    (hu : used diff calls = xs ++ [x]) (ys : List (ι → K)) (hy : FillsExt (xs ++ [x]) ys) :
    ∃ m c, ((new (empiricalCls ι (Ext K)) diff).run calls).location = .ok m ∧
      ((new (empiricalCls ι (Ext K)) diff).run calls).covariance = .ok c ∧
      (∀ i, ¬ Infected (xs ++ [x]) i → m i = .num (meanOf ys i)) ∧
      (∀ i j, ¬ Infected (xs ++ [x]) i → ¬ Infected (xs ++ [x]) j → c i j = .num (covOf ys i j)) ∧
      (∀ i, Infected xs i → m i = .nan) ∧ (∀ i, ¬ Infected xs i → ¬ IsNum (x i) → m i = x i) ∧
      (∀ i j, Infected (xs ++ [x]) i ∨ Infected (xs ++ [x]) j → c i j = .nan) := by
  have hne : used diff calls ≠ [] := by rw [hu]; simp
  have hl := run_location (empirical_lawful ι (Ext K)) diff calls hne
  have hc := run_covariance (empirical_lawful ι (Ext K)) diff calls hne
  change _ = Except.ok ((used diff calls).foldl empUpdate empInit).mean at hl
  change _ = Except.ok (toSymmetric ((used diff calls).foldl empUpdate empInit).cov) at hc
  rw [hu] at hl hc
  have M := masked_empFold _ _ (fillsIn_collapse hy)
  have hyne := FillsExt.ne_nil hy (by simp)
  have S := masked_toSymmetric M.2.2
  rw [← collapse_empFold] at M S
  have nb : ∀ {i}, ¬ Infected (xs ++ [x]) i → ¬ BadColumn ((xs ++ [x]).map collapseRow) i := fun h hb => h ((badColumn_collapse _ _).1 hb)
  refine ⟨_, _, hl, hc, fun i hi => ?_, fun i j hi hj => ?_, fun i => (empFold_inf xs x i).1, fun i => (empFold_inf xs x i).2.1, fun i j hij => ?_⟩
  · refine collapse_num_iff.1 (((M.2.1 i).trans (Nan.mask_false (nb hi) _)).trans ?_)
    rw [show (ys.foldl empUpdate empInit).mean = meanOf ys from empFold_mean hyne]
  · refine collapse_num_iff.1 ((collapse_toSymmetric _ i j).trans (((S i j).trans (Nan.mask_false (by have := nb hi; have := nb hj; tauto) _)).trans ?_))
    rw [show (ys.foldl empUpdate empInit).cov = covOf ys from empFold_cov hyne]
    congr 1
    show (covOf ys i j + covOf ys j i) / 2 = _
    have : covOf ys j i = covOf ys i j := by
      unfold covOf
      simp only [Matrix.of_apply]
      congr 2
      exact List.map_congr_left fun x _ => mul_comm _ _
    rw [this]
    field_simp
    ring
  · rw [toSymmetric_ext]
    rcases hij with h | h
    · rw [(empFold_inf xs x i).2.2 h j, Ext.add_nan]; rfl
    · rw [(empFold_inf xs x j).2.2 h i, Ext.nan_add]; rfl

/-! ## EwaCovariance -/

theorem ewaFold_collapse (r : K) (b : ℕ) (xs : List (ι → Ext K)) (i : ι) :
    (Infected xs i ↔ ¬ IsNum ((xs.foldl ewaUpdate ({ toEmpState := empInit, r := .num r, nBurn := b } : EwaState ι (Ext K))).mean i)) ∧
    (¬ Infected xs i → IsNum ((xs.foldl ewaUpdate ({ toEmpState := empInit, r := .num r, nBurn := b } : EwaState ι (Ext K))).cov i i)) := by
  obtain ⟨ys, hy⟩ := exists_fills xs
  have M := (masked_ewaFold r b _ _ (fillsIn_collapse hy)).2.2.2.2
  rw [← (collapse_ewaFold r b xs).2.2.2.2] at M
  have h1 := M.2.1 i
  have h2 := M.2.2 i i
  refine ⟨⟨fun h => ?_, fun h => ?_⟩, fun h => ?_⟩
  · exact collapse_nan_iff.1 (h1.trans (Nan.mask_true ((badColumn_collapse xs i).2 h) _))
  · by_contra hn
    have e := h1.trans (Nan.mask_false (fun hb => hn ((badColumn_collapse xs i).1 hb)) _)
    exact h ⟨_, collapse_num_iff.1 e⟩
  · have e := h2.trans (Nan.mask_false (by intro hb; rcases hb with hb | hb <;> exact h ((badColumn_collapse xs i).1 hb)) _)
    exact ⟨_, collapse_num_iff.1 e⟩

/-- C122 (EwaCovariance): after any history. Columns without infinities and NaN have exactly the mean and covariances of an
estimator fed any numbers in place of the bad values; a column with a bad value has, from then on, no number as its mean or
as any of its covariances. -/
theorem C122_ewa [Fintype ι] [FloorRing K] (p : RParam K)
    (calls : List (Call ι (Ext K))) (ys : List (ι → K)) (hne : used p.diff calls ≠ []) (hy : FillsExt (used p.diff calls) ys) :
    ∃ m c m' c', ((new (ewaExtCls ι K) p).run calls).location = .ok m ∧
      ((new (ewaExtCls ι K) p).run calls).covariance = .ok c ∧
      ((new (ewaCls ι K) ⟨p.r, false⟩).run [.partialFit (.batch ys)]).location = .ok m' ∧
      ((new (ewaCls ι K) ⟨p.r, false⟩).run [.partialFit (.batch ys)]).covariance = .ok c' ∧
      (∀ i, Infected (used p.diff calls) i → ¬ IsNum (m i)) ∧
      (∀ i, ¬ Infected (used p.diff calls) i → m i = .num (m' i)) ∧
      (∀ i j, Infected (used p.diff calls) i ∨ Infected (used p.diff calls) j → ¬ IsNum (c i j)) ∧
      (∀ i j, ¬ Infected (used p.diff calls) i → ¬ Infected (used p.diff calls) j → c i j = .num (c' i j)) := by
  have hyne := FillsExt.ne_nil hy hne
  have hu : used (ewaCls ι K |>.diff (⟨p.r, false⟩ : RParam K)) [.partialFit (.batch ys)] = ys := by
    simp [used, effective, rowsSinceFit, rowsOf, ewaCls]
  have hl := run_location (ewaExt_lawful ι K) p calls hne
  have hc := run_covariance (ewaExt_lawful ι K) p calls hne
  have hl' := run_location (ewa_lawful ι K) (⟨p.r, false⟩ : RParam K) [.partialFit (.batch ys)] (by rw [hu]; exact hyne)
  have hc' := run_covariance (ewa_lawful ι K) (⟨p.r, false⟩ : RParam K) [.partialFit (.batch ys)] (by rw [hu]; exact hyne)
  rw [hu] at hl' hc'
  have M := (masked_ewaFold p.r (ewaBurnN p.r) _ _ (fillsIn_collapse hy)).2.2.2.2
  have S := masked_toSymmetric M.2.2
  rw [← (collapse_ewaFold p.r (ewaBurnN p.r) (used p.diff calls)).2.2.2.2] at M S
  refine ⟨_, _, _, _, hl, hc, hl', hc', fun i hi => ?_, fun i hi => ?_, fun i j hij => ?_, fun i j hi hj => ?_⟩
  · exact collapse_nan_iff.1 ((M.2.1 i).trans (Nan.mask_true ((badColumn_collapse _ _).2 hi) _))
  · exact collapse_num_iff.1 ((M.2.1 i).trans (Nan.mask_false (fun hb => hi ((badColumn_collapse _ _).1 hb)) _))
  · refine collapse_nan_iff.1 ((collapse_toSymmetric _ i j).trans ((S i j).trans (Nan.mask_true ?_ _)))
    rw [badColumn_collapse, badColumn_collapse]; exact hij
  · refine collapse_num_iff.1 ((collapse_toSymmetric _ i j).trans ((S i j).trans (Nan.mask_false ?_ _)))
    rw [badColumn_collapse, badColumn_collapse]; tauto

theorem Ext.num_mul_pinf {v : K} (h : 0 < v) : (num v : Ext K) * pinf = pinf := by
  show (if 0 < v then _ else _) = _; rw [if_pos h]
theorem Ext.num_mul_ninf {v : K} (h : 0 < v) : (num v : Ext K) * ninf = ninf := by
  show neg (if 0 < v then _ else _) = _; rw [if_pos h]; rfl
theorem Ext.zero_mul_inf {x : Ext K} (h : ¬ IsNum x) : (num (0 : K)) * x = nan := by
  cases x with
  | num v => exact absurd ⟨v, rfl⟩ h
  | pinf => show (if (0:K) < 0 then _ else if (0:K) < 0 then _ else _) = _; rw [if_neg (lt_irrefl _), if_neg (lt_irrefl _)]
  | ninf => show neg (if (0:K) < 0 then _ else if (0:K) < 0 then _ else _) = _; rw [if_neg (lt_irrefl _), if_neg (lt_irrefl _)]; rfl
  | nan => rfl
theorem Ext.one_sub (r : K) : (1 : Ext K) - num r = num (1 - r) := by
  show num (1 + -r) = _; rw [← sub_eq_add_neg]

theorem ewaBlend_mean (r : K) (s : EmpState ι (Ext K)) (x : ι → Ext K) (i : ι) :
    (ewaBlend (.num r) s x).mean i = num (1 - r) * s.mean i + num r * x i := by rw [← Ext.one_sub]; rfl
theorem ewaBlend_var (r : K) (s : EmpState ι (Ext K)) (x : ι → Ext K) (i : ι) :
    (ewaBlend (.num r) s x).cov i i = num (1 - r) * s.cov i i + num r * ((x i - s.mean i) * (x i - s.mean i)) := by
  rw [← Ext.one_sub]; rfl

theorem sq_of_inf {x : Ext K} (h : x = pinf ∨ x = ninf) (v : K) : (x - num v) * (x - num v) = pinf ∧ (num v - x) * (num v - x) = pinf := by
  rcases h with rfl | rfl <;> exact ⟨rfl, rfl⟩

theorem num_mul_inf {x : Ext K} (h : x = pinf ∨ x = ninf) {v : K} (hv : 0 < v) : num v * x = x := by
  rcases h with rfl | rfl
  · exact Ext.num_mul_pinf hv
  · exact Ext.num_mul_ninf hv
theorem inf_add_num {x : Ext K} (h : x = pinf ∨ x = ninf) (v : K) : x + num v = x ∧ num v + x = x := by
  rcases h with rfl | rfl <;> exact ⟨rfl, rfl⟩
theorem inf_not_num {x : Ext K} (h : x = pinf ∨ x = ninf) : ¬ IsNum x := by
  rcases h with rfl | rfl <;> (rintro ⟨v, hv⟩; cases hv)

/-- An infinity after the burn-in stays for ever, whatever the weight of the observation that brought it. -/
theorem ewaFold_forever {r : K} (hr0 : 0 < r) (hr1 : r < 1) {b : ℕ} (xs : List (ι → Ext K)) (x : ι → Ext K) (zs : List (ι → Ext K))
    (i : ι) (hb : b ≤ xs.length) (hx : ¬ Infected xs i) (hi : x i = pinf ∨ x i = ninf) (hz : ¬ Infected zs i) :
    let s := (xs ++ [x] ++ zs).foldl ewaUpdate ({ toEmpState := empInit, r := .num r, nBurn := b } : EwaState ι (Ext K))
    s.nSamples = xs.length + 1 + zs.length ∧ s.mean i = x i ∧ s.cov i i = pinf := by
  have hr : 0 < 1 - r := sub_pos.2 hr1
  induction zs using List.reverseRecOn with
  | nil =>
    have P := ewaFold_collapse r b xs i
    have C := collapse_ewaFold r b xs
    have N : (xs.foldl ewaUpdate ({ toEmpState := empInit, r := .num r, nBurn := b } : EwaState ι (Ext K))).nSamples = xs.length := by
      clear P C hx hb
      induction xs using List.reverseRecOn with
      | nil => rfl
      | append_singleton xs x ih =>
        rw [List.foldl_append, List.foldl_cons, List.foldl_nil, List.length_append, ← ih]
        unfold ewaUpdate; split <;> rfl
    simp only [List.append_nil, List.foldl_append, List.foldl_cons, List.foldl_nil, List.length_nil, Nat.add_zero]
    simp only [] at C
    generalize xs.foldl ewaUpdate ({ toEmpState := empInit, r := .num r, nBurn := b } : EwaState ι (Ext K)) = s at *
    obtain ⟨m, hm⟩ : IsNum (s.mean i) := by by_contra hc; exact hx (P.1.2 hc)
    obtain ⟨c, hc⟩ := P.2 hx
    unfold ewaUpdate
    rw [C.2.2.1, if_neg (by omega)]
    refine ⟨by show s.nSamples + 1 = _; rw [N], ?_, ?_⟩
    · show (ewaBlend s.r s.toEmpState x).mean i = x i
      rw [C.1, ewaBlend_mean, hm, num_mul_inf hi hr0]; exact (inf_add_num hi _).2
    · show (ewaBlend s.r s.toEmpState x).cov i i = pinf
      rw [C.1, ewaBlend_var, hm, hc, (sq_of_inf hi m).1, Ext.num_mul_pinf hr0]; rfl
  | append_singleton zs z ih =>
    have hz' : ¬ Infected zs i := fun h => hz ((infected_snoc zs z i).2 (Or.inl h))
    have hzi : IsNum (z i) := by by_contra h; exact hz ((infected_snoc zs z i).2 (Or.inr h))
    obtain ⟨v, hv⟩ := hzi
    have C := collapse_ewaFold r b (xs ++ [x] ++ zs)
    have I := ih hz'
    rw [← List.append_assoc, List.foldl_append, List.foldl_cons, List.foldl_nil]
    simp only [] at C I ⊢
    generalize (xs ++ [x] ++ zs).foldl ewaUpdate ({ toEmpState := empInit, r := .num r, nBurn := b } : EwaState ι (Ext K)) = s at *
    obtain ⟨i1, i2, i3⟩ := I
    unfold ewaUpdate
    rw [C.2.2.1, if_neg (by omega)]
    refine ⟨by show s.nSamples + 1 = _; rw [i1, List.length_append]; rfl, ?_, ?_⟩
    · show (ewaBlend s.r s.toEmpState z).mean i = x i
      rw [C.1, ewaBlend_mean, i2, hv, num_mul_inf hi hr]; exact (inf_add_num hi _).1
    · show (ewaBlend s.r s.toEmpState z).cov i i = pinf
      rw [C.1, ewaBlend_var, i2, i3, hv, (sq_of_inf hi v).2, Ext.num_mul_pinf hr0, Ext.num_mul_pinf hr]; rfl

/-- C122 (violation): with `0 < r < 1`, one infinite observation after the burn-in makes the location of that column infinite and
its variance `+inf` *for ever*: no number of later finite observations lets the estimator forget it, although its weight is
below any positive number by then. -/
theorem C122_ewa_forever [Fintype ι] [FloorRing K] (p : RParam K) (h0 : 0 < p.r) (h1 : p.r < 1)
    (calls : List (Call ι (Ext K))) (xs : List (ι → Ext K)) (x : ι → Ext K) (zs : List (ι → Ext K))
    (hu : used p.diff calls = xs ++ [x] ++ zs) (hb : ewaBurnN p.r ≤ xs.length) (i : ι)
    (hx : ¬ Infected xs i) (hi : x i = .pinf ∨ x i = .ninf) (hz : ¬ Infected zs i) :
    ∃ m c, ((new (ewaExtCls ι K) p).run calls).location = .ok m ∧ ((new (ewaExtCls ι K) p).run calls).covariance = .ok c ∧
      m i = x i ∧ c i i = .pinf := by
  have hne : used p.diff calls ≠ [] := by rw [hu]; simp
  have hl := run_location (ewaExt_lawful ι K) p calls hne
  have hc := run_covariance (ewaExt_lawful ι K) p calls hne
  have F := ewaFold_forever h0 h1 xs x zs i hb hx hi hz
  refine ⟨_, _, hl, hc, ?_, ?_⟩
  · change ((used p.diff calls).foldl ewaUpdate ({ toEmpState := empInit, r := .num p.r, nBurn := ewaBurnN p.r } : EwaState ι (Ext K))).mean i = x i
    rw [hu]; exact F.2.1
  · change toSymmetric ((used p.diff calls).foldl ewaUpdate ({ toEmpState := empInit, r := .num p.r, nBurn := ewaBurnN p.r } : EwaState ι (Ext K))).cov i i = pinf
    rw [hu, toSymmetric_ext, F.2.2, Ext.two_eq]
    exact Ext.pinf_div (by norm_num)

/-- With `r = 1` (only the last observation counts) an infinity becomes NaN at the next observation, for ever. -/
theorem ewaFold_one {b : ℕ} (xs : List (ι → Ext K)) (x : ι → Ext K) (zs : List (ι → Ext K)) (z : ι → Ext K)
    (i : ι) (hb : b ≤ xs.length + 1) (hi : Infected (xs ++ [x]) i) :
    let s := (xs ++ [x] ++ zs ++ [z]).foldl ewaUpdate ({ toEmpState := empInit, r := .num 1, nBurn := b } : EwaState ι (Ext K))
    s.mean i = nan := by
  have P := ewaFold_collapse (1 : K) b (xs ++ [x] ++ zs) i
  have C := collapse_ewaFold (1 : K) b (xs ++ [x] ++ zs)
  have hinf : Infected (xs ++ [x] ++ zs) i := by
    obtain ⟨w, hw, h⟩ := hi
    exact ⟨w, List.mem_append_left _ hw, h⟩
  have N : ∀ l : List (ι → Ext K), (l.foldl ewaUpdate ({ toEmpState := empInit, r := .num 1, nBurn := b } : EwaState ι (Ext K))).nSamples = l.length := by
    intro l
    induction l using List.reverseRecOn with
    | nil => rfl
    | append_singleton xs x ih =>
      rw [List.foldl_append, List.foldl_cons, List.foldl_nil, List.length_append, ← ih]
      unfold ewaUpdate; split <;> rfl
  have N' := N (xs ++ [x] ++ zs)
  rw [List.foldl_append, List.foldl_cons, List.foldl_nil]
  simp only [] at C ⊢
  generalize (xs ++ [x] ++ zs).foldl ewaUpdate ({ toEmpState := empInit, r := .num 1, nBurn := b } : EwaState ι (Ext K)) = s at *
  unfold ewaUpdate
  rw [C.2.2.1, if_neg (by rw [N']; simp only [List.length_append, List.length_singleton]; omega)]
  show (ewaBlend s.r s.toEmpState z).mean i = nan
  rw [C.1, ewaBlend_mean, sub_self, Ext.zero_mul_inf (P.1.1 hinf), Ext.nan_add]

/-- C122 (violation): with `r = 1` the location after the burn-in is the last observation alone, unless some earlier one was infinite or
NaN: then it is NaN for ever. -/
theorem C122_ewa_rate_one [Fintype ι] [FloorRing K] (diff : Bool)
    (calls : List (Call ι (Ext K))) (xs : List (ι → Ext K)) (x : ι → Ext K) (zs : List (ι → Ext K)) (z : ι → Ext K)
    (hu : used diff calls = xs ++ [x] ++ zs ++ [z]) (hb : ewaBurnN (1 : K) ≤ xs.length + 1) (i : ι) (hi : Infected (xs ++ [x]) i) :
    ∃ m, ((new (ewaExtCls ι K) ⟨1, diff⟩).run calls).location = .ok m ∧ m i = .nan := by
  have hne : used diff calls ≠ [] := by rw [hu]; simp
  refine ⟨_, run_location (ewaExt_lawful ι K) (⟨1, diff⟩ : RParam K) calls hne, ?_⟩
  change ((used diff calls).foldl ewaUpdate ({ toEmpState := empInit, r := .num 1, nBurn := ewaBurnN (1 : K) } : EwaState ι (Ext K))).mean i = nan
  rw [hu]; exact ewaFold_one xs x zs z i hb hi

/-! ## DiagonalCovariance -/

theorem collapse_diagFold (r : K) (b : ℕ) (xs : List (ι → Ext K)) :
    let s := xs.foldl diagUpdate ({ nSamples := 0, mean := fun _ => 0, var := fun _ => 0, r := .num r, nBurn := b } : DiagState ι (Ext K))
    let t := (xs.map collapseRow).foldl diagUpdate ({ nSamples := 0, mean := fun _ => 0, var := fun _ => 0, r := .num r, nBurn := b } : DiagState ι (Nan K))
    s.r = .num r ∧ t.r = .num r ∧ s.nBurn = b ∧ t.nBurn = b ∧ s.nSamples = t.nSamples ∧
      (∀ i, collapse (s.mean i) = t.mean i) ∧ (∀ i, collapse (s.var i) = t.var i) := by
  induction xs using List.reverseRecOn with
  | nil => exact ⟨rfl, rfl, rfl, rfl, rfl, fun _ => rfl, fun _ => rfl⟩
  | append_singleton xs x ih =>
    simp only [List.map_append, List.map_cons, List.map_nil, List.foldl_append, List.foldl_cons, List.foldl_nil]
    simp only [] at ih
    generalize xs.foldl diagUpdate ({ nSamples := 0, mean := fun _ => 0, var := fun _ => 0, r := .num r, nBurn := b } : DiagState ι (Ext K)) = s at *
    generalize (xs.map collapseRow).foldl diagUpdate ({ nSamples := 0, mean := fun _ => 0, var := fun _ => 0, r := .num r, nBurn := b } : DiagState ι (Nan K)) = t at *
    obtain ⟨e1, e2, e3, e4, e5, e6, e7⟩ := ih
    have hn : ((s.nSamples + 1 : ℕ) : K) ≠ 0 := Nat.cast_ne_zero.2 (Nat.succ_ne_zero _)
    unfold diagUpdate
    simp only []
    rw [e3, e4, ← e5]
    by_cases hb : s.nSamples + 1 ≤ b
    · rw [if_pos hb, if_pos hb]
      refine ⟨e1, e2, rfl, rfl, rfl, fun i => ?_, fun i => ?_⟩
      · show collapse (s.mean i + (x i - s.mean i) / ((s.nSamples + 1 : ℕ) : Ext K)) = t.mean i + (collapse (x i) - t.mean i) / ((s.nSamples + 1 : ℕ) : Nan K)
        rw [collapse_add, Ext.natCast_eq, collapse_div _ hn, collapse_sub, e6]; rfl
      · show collapse (s.var i + ((x i - s.mean i) * (x i - s.mean i) - s.var i) / ((s.nSamples + 1 : ℕ) : Ext K))
          = t.var i + ((collapse (x i) - t.mean i) * (collapse (x i) - t.mean i) - t.var i) / ((s.nSamples + 1 : ℕ) : Nan K)
        rw [collapse_add, Ext.natCast_eq, collapse_div _ hn, collapse_sub, collapse_mul, collapse_sub, e6, e7]; rfl
    · rw [if_neg hb, if_neg hb]
      refine ⟨e1, e2, rfl, rfl, rfl, fun i => ?_, fun i => ?_⟩
      · show collapse ((1 - s.r) * s.mean i + s.r * x i) = (1 - t.r) * t.mean i + t.r * collapse (x i)
        rw [e1, e2, collapse_add, collapse_mul, collapse_mul, collapse_sub, e6]; rfl
      · show collapse ((1 - s.r) * s.var i + s.r * ((x i - s.mean i) * (x i - s.mean i)))
          = (1 - t.r) * t.var i + t.r * ((collapse (x i) - t.mean i) * (collapse (x i) - t.mean i))
        rw [e1, e2, collapse_add, collapse_mul, collapse_mul, collapse_mul, collapse_sub, collapse_sub, e6, e7]; rfl

/-- C122 (DiagonalCovariance): an infinity spoils the mean and the variance of its own column only; the off-diagonal entries stay 0. -/
theorem C122_diagonal [Fintype ι] [DecidableEq ι] [FloorRing K] (p : RParam K)
    (calls : List (Call ι (Ext K))) (ys : List (ι → K)) (hne : used p.diff calls ≠ []) (hy : FillsExt (used p.diff calls) ys) :
    ∃ m c m' c', ((new (diagonalExtCls ι K) p).run calls).location = .ok m ∧
      ((new (diagonalExtCls ι K) p).run calls).covariance = .ok c ∧
      ((new (diagonalCls ι K) ⟨p.r, false⟩).run [.partialFit (.batch ys)]).location = .ok m' ∧
      ((new (diagonalCls ι K) ⟨p.r, false⟩).run [.partialFit (.batch ys)]).covariance = .ok c' ∧
      (∀ i, Infected (used p.diff calls) i → ¬ IsNum (m i) ∧ ¬ IsNum (c i i)) ∧
      (∀ i, ¬ Infected (used p.diff calls) i → m i = .num (m' i) ∧ c i i = .num (c' i i)) ∧
      (∀ i j, i ≠ j → c i j = .num 0) := by
  have hyne := FillsExt.ne_nil hy hne
  have hu : used (diagonalCls ι K |>.diff (⟨p.r, false⟩ : RParam K)) [.partialFit (.batch ys)] = ys := by
    simp [used, effective, rowsSinceFit, rowsOf, diagonalCls]
  have hl := run_location (diagonalExt_lawful ι K) p calls hne
  have hc := run_covariance (diagonalExt_lawful ι K) p calls hne
  have hl' := run_location (diagonal_lawful ι K) (⟨p.r, false⟩ : RParam K) [.partialFit (.batch ys)] (by rw [hu]; exact hyne)
  have hc' := run_covariance (diagonal_lawful ι K) (⟨p.r, false⟩ : RParam K) [.partialFit (.batch ys)] (by rw [hu]; exact hyne)
  rw [hu] at hl' hc'
  obtain ⟨_, _, _, _, _, Mm, Mv⟩ := masked_diagFold p.r (ewaBurnN p.r) _ _ (fillsIn_collapse hy)
  obtain ⟨_, _, _, _, _, Cm, Cv⟩ := collapse_diagFold p.r (ewaBurnN p.r) (used p.diff calls)
  simp only [← Cm, ← Cv, badColumn_collapse] at Mm Mv
  have D : ∀ i, collapse (toSymmetric (Matrix.diagonal ((used p.diff calls).foldl diagUpdate
      ({ nSamples := 0, mean := fun _ => 0, var := fun _ => 0, r := .num p.r, nBurn := ewaBurnN p.r } : DiagState ι (Ext K))).var) i i)
      = Nan.mask (Infected (used p.diff calls) i) (toSymmetric (Matrix.diagonal (ys.foldl diagUpdate
        ({ nSamples := 0, mean := fun _ => 0, var := fun _ => 0, r := p.r, nBurn := ewaBurnN p.r } : DiagState ι K)).var) i i) := by
    intro i
    rw [collapse_toSymmetric]
    simp only [toSymmetric, Matrix.of_apply, Matrix.diagonal_apply_eq]
    rw [Mv, Nan.mask_add, Nan.two_eq, Nan.mask_div _ _ _ (by norm_num)]
    push_cast
    exact Nan.mask_congr (by tauto) _
  refine ⟨_, _, _, _, hl, hc, hl', hc', fun i hi => ⟨?_, ?_⟩, fun i hi => ⟨?_, ?_⟩, fun i j hij => ?_⟩
  · exact collapse_nan_iff.1 ((Mm i).trans (Nan.mask_true hi _))
  · exact collapse_nan_iff.1 ((D i).trans (Nan.mask_true hi _))
  · exact collapse_num_iff.1 ((Mm i).trans (Nan.mask_false hi _))
  · exact collapse_num_iff.1 ((D i).trans (Nan.mask_false hi _))
  · have Z : ∀ v : ι → Ext K, toSymmetric (Matrix.diagonal v) i j = .num 0 := by
      intro v
      rw [toSymmetric_ext, Matrix.diagonal_apply_ne _ hij, Matrix.diagonal_apply_ne _ hij.symm]
      show (if ((2 : ℕ) : K) = 0 then scale (0 + 0 : K) else num ((0 + 0) / ((2 : ℕ) : K))) = num 0
      rw [if_neg (by norm_num), add_zero, zero_div]
    exact Z _

/-- C122: `fit` on a batch of numbers clears every infinity of the past (EmpiricalCovariance). -/
theorem C122_fit_recovers [Fintype ι] (calls : List (Call ι (Ext K))) (ys : List (ι → K)) (hy : ys ≠ []) :
    let o := ((new (empiricalCls ι (Ext K)) false).run (calls ++ [.fit (.batch (ys.map fun y i => .num (y i)))]))
    o.location = .ok (fun i => .num (meanOf ys i)) ∧ o.covariance = .ok (Matrix.of fun i j => .num (covOf ys i j)) := by
  have hr : ∀ (cs : List (Call ι (Ext K))) (acc : List (ι → Ext K)) (xs : List (ι → Ext K)),
      rowsSinceFit (cs ++ [.fit (.batch xs)]) acc = xs := by
    intro cs
    induction cs with
    | nil => intro acc xs; rfl
    | cons c cs ih =>
      intro acc xs
      cases c with
      | partialFit X => exact ih _ _
      | fit X => cases X <;> exact ih _ _
  have hu : used false (calls ++ [.fit (.batch (ys.map fun y i => (.num (y i) : Ext K)))]) = ys.map fun y i => .num (y i) := by
    unfold used effective
    rw [hr]
    simp
  have hf : FillsExt (ys.map fun y i => (.num (y i) : Ext K)) ys := by
    unfold FillsExt
    rw [List.forall₂_map_left_iff]
    exact List.forall₂_same.2 fun y _ i v h => by injection h
  have nb : ∀ i, ¬ Infected (ys.map fun y i => (.num (y i) : Ext K)) i := by
    rintro i ⟨z, hz, h⟩
    obtain ⟨y, _, rfl⟩ := List.mem_map.1 hz
    exact h ⟨_, rfl⟩
  obtain ⟨xs, x, hxs⟩ : ∃ xs x, ys.map (fun y i => (.num (y i) : Ext K)) = xs ++ [x] :=
    ⟨_, _, (List.dropLast_append_getLast (l := ys.map fun y i => (.num (y i) : Ext K)) (by simpa using hy)).symm⟩
  obtain ⟨m, c, h1, h2, h4, h6, _⟩ := C122_empirical false (calls ++ [.fit (.batch (ys.map fun y i => (.num (y i) : Ext K)))]) xs x
    (by rw [hu]; exact hxs) ys (by rw [← hxs]; exact hf)
  rw [← hxs] at h4 h6
  refine ⟨h1.trans ?_, h2.trans ?_⟩
  · congr 1; funext i; exact h4 i (nb i)
  · congr 1; ext i j; exact h6 i j (nb i) (nb j)

end

/-! Non-vacuity: an infinity in the second of two columns. -/

def infDemo : List (Fin 2 → Ext ℚ) := [![.num 1, .num 5], ![.num 2, .pinf], ![.num 6, .num 7]]

theorem infDemo_1 : Infected infDemo 1 := ⟨![.num 2, .pinf], by simp [infDemo], by rintro ⟨v, hv⟩; cases hv⟩
theorem infDemo_0 : ¬ Infected infDemo 0 := by
  rintro ⟨z, hz, h⟩
  simp [infDemo] at hz
  rcases hz with rfl | rfl | rfl <;> exact h ⟨_, rfl⟩

/-- `location_` is `[3, nan]` and `covariance_` is `[[14/3, nan], [nan, nan]]`. -/
example : ∃ m c, ((new (empiricalCls (Fin 2) (Ext ℚ)) false).run [.partialFit (.batch infDemo)]).location = .ok m ∧
    ((new (empiricalCls (Fin 2) (Ext ℚ)) false).run [.partialFit (.batch infDemo)]).covariance = .ok c ∧
    m 0 = .num 3 ∧ m 1 = .nan ∧ c 0 0 = .num (14 / 3) ∧ c 0 1 = .nan ∧ c 1 1 = .nan := by
  have hu : used false [.partialFit (.batch infDemo)] = [![.num 1, .num 5], ![.num 2, .pinf]] ++ [![.num 6, .num 7]] := by
    simp [used, effective, rowsSinceFit, rowsOf, infDemo]
  have hf : FillsExt infDemo [![1, 5], ![2, 0], ![6, 7]] := by
    unfold FillsExt infDemo
    refine .cons ?_ (.cons ?_ (.cons ?_ .nil)) <;> intro i v h <;> fin_cases i <;> cases h <;> rfl
  obtain ⟨m, c, h1, h2, h3, h4, h5, h6, h7⟩ := C122_empirical false [.partialFit (.batch infDemo)] _ _ hu _ hf
  refine ⟨m, c, h1, h2, ?_, h5 1 ⟨![.num 2, .pinf], by simp, by rintro ⟨v, hv⟩; cases hv⟩, ?_, h7 0 1 (Or.inr infDemo_1), h7 1 1 (Or.inr infDemo_1)⟩
  · rw [h3 0 infDemo_0]; congr 1; norm_num [meanOf]
  · rw [h4 0 0 infDemo_0 infDemo_0]; congr 1; norm_num [covOf, meanOf]

/-- The hypotheses of `C122_ewa_forever`: `r = 1/2` has a burn-in of 5 observations. -/
example : ewaBurnN (1 / 2 : ℚ) = 5 := by norm_num [ewaBurnN]; rfl

example (n : ℕ) : ∃ m c, ((new (ewaExtCls (Fin 1) ℚ) ⟨1 / 2, false⟩).run [.partialFit (.batch (List.replicate 5 ![.num 1] ++ [![.ninf]] ++ List.replicate n ![.num 2]))]).location = .ok m ∧
    ((new (ewaExtCls (Fin 1) ℚ) ⟨1 / 2, false⟩).run [.partialFit (.batch (List.replicate 5 ![.num 1] ++ [![.ninf]] ++ List.replicate n ![.num 2]))]).covariance = .ok c ∧
    m 0 = .ninf ∧ c 0 0 = .pinf := by
  refine C122_ewa_forever ⟨1 / 2, false⟩ (by norm_num) (by norm_num) _ (List.replicate 5 ![.num 1]) ![.ninf] (List.replicate n ![.num 2]) ?_ ?_ 0 ?_ (Or.inr rfl) ?_
  · rfl
  · norm_num [ewaBurnN]
  · rintro ⟨z, hz, h⟩
    obtain ⟨_, rfl⟩ := List.mem_replicate.1 hz
    exact h ⟨_, rfl⟩
  · rintro ⟨z, hz, h⟩
    obtain ⟨_, rfl⟩ := List.mem_replicate.1 hz
    exact h ⟨_, rfl⟩

/-- The hypotheses of `C122_ewa_rate_one`: an infinity at the fifth observation, two numbers after it. -/
example : ∃ m, ((new (ewaExtCls (Fin 1) ℚ) ⟨1, false⟩).run
    [.partialFit (.batch (List.replicate 4 ![.num 1] ++ [![.pinf]] ++ [![.num 2]] ++ [![.num 3]]))]).location = .ok m ∧ m 0 = .nan :=
  C122_ewa_rate_one false _ (List.replicate 4 ![.num 1]) ![.pinf] [![.num 2]] ![.num 3] rfl (by norm_num [ewaBurnN]) 0
    ⟨![.pinf], by simp, by rintro ⟨v, hv⟩; cases hv⟩

end Precise
