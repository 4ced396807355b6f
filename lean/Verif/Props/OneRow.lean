import Verif.Props.Delivery

/-!
# C135: one row replaced or taken out
-/

set_option linter.all false

open Matrix

namespace Precise

open Spec Obj

variable {ι K : Type} [Fintype ι] [Field K] [LinearOrder K] [IsStrictOrderedRing K] [FloorRing K]

omit [FloorRing K] in
/-- EmpiricalCovariance with one row more, wherever it came. -/
theorem emp_one_more (d : Bool) (a b : List (ι → K)) (hne : a ++ b ≠ []) (x : ι → K) (rest calls : List (Call ι K)) (hr : used d rest = a ++ b)
    (hu : used d calls = a ++ [x] ++ b) : ∃ m0 c0 m c,
      ((new (empiricalCls ι K) d).run rest).location = .ok m0 ∧ ((new (empiricalCls ι K) d).run rest).covariance = .ok c0 ∧
      ((new (empiricalCls ι K) d).run calls).location = .ok m ∧ ((new (empiricalCls ι K) d).run calls).covariance = .ok c ∧
      (∀ i, m i - m0 i = (x i - m0 i) / ((a ++ b).length + 1)) ∧
      ∀ i j, c i j = (a ++ b).length / ((a ++ b).length + 1) * c0 i j + (a ++ b).length / ((a ++ b).length + 1) ^ 2 * ((x i - m0 i) * (x j - m0 j)) := by
  have hB := C15_batch (ι := ι) (K := K) d rest (by rw [hr]; exact hne)
  have hC := C15_batch (ι := ι) (K := K) d calls (by rw [hu]; simp)
  have hp : (a ++ [x] ++ b).Perm (a ++ b ++ [x]) := by
    rw [List.append_assoc, List.append_assoc]
    exact List.Perm.append_left a List.perm_append_comm
  have h' : a ++ b ++ [x] ≠ [] := by simp
  have hm : meanOf (a ++ [x] ++ b) = meanOf (a ++ b ++ [x]) := by
    ext i; simp only [meanOf, hp.length_eq, (hp.map fun x => x i).sum_eq]
  have hc : covOf (a ++ [x] ++ b) = covOf (a ++ b ++ [x]) := by
    ext i j
    simp only [covOf, of_apply, hp.length_eq, hm]
    rw [(hp.map fun y => (y i - meanOf (a ++ b ++ [x]) i) * (y j - meanOf (a ++ b ++ [x]) j)).sum_eq]
  refine ⟨_, _, _, _, hB.1, hB.2.1, hC.1, hC.2.1, fun i => ?_, fun i j => ?_⟩
  · rw [hr, hu, hm, ← empFold_mean h', empFold_snoc, empUpdate_mean, empFold_n, empFold_mean hne]
    ring
  · rw [hr, hu, hc, ← empFold_cov h', empFold_snoc, empUpdate_cov, empFold_n, empFold_mean hne, empFold_cov hne]
    simp [outer]

omit [FloorRing K] in
/-- C135: EmpiricalCovariance: `rest` has used `n` rows, `calls` the same and `x`, `calls'` the same and `x'` in its place, at any position: the locations differ by
`(x - x') / (n + 1)`, the covariances by this much. -/
theorem C135_empirical_replace (d : Bool) (a b : List (ι → K)) (hne : a ++ b ≠ []) (x x' : ι → K) (rest calls calls' : List (Call ι K)) (hr : used d rest = a ++ b)
    (hu : used d calls = a ++ [x] ++ b) (hu' : used d calls' = a ++ [x'] ++ b) : ∃ m0 m c m' c',
      ((new (empiricalCls ι K) d).run rest).location = .ok m0 ∧
      ((new (empiricalCls ι K) d).run calls).location = .ok m ∧ ((new (empiricalCls ι K) d).run calls).covariance = .ok c ∧
      ((new (empiricalCls ι K) d).run calls').location = .ok m' ∧ ((new (empiricalCls ι K) d).run calls').covariance = .ok c' ∧
      (∀ i, m i - m' i = (x i - x' i) / ((a ++ b).length + 1)) ∧
      ∀ i j, c i j - c' i j = (a ++ b).length / ((a ++ b).length + 1) ^ 2 *
        ((x i - m0 i) * (x j - m0 j) - (x' i - m0 i) * (x' j - m0 j)) := by
  obtain ⟨m0, c0, m, c, h1, h2, h3, h4, h5, h6⟩ := emp_one_more d a b hne x rest calls hr hu
  obtain ⟨m0', c0', m', c', h1', h2', h3', h4', h5', h6'⟩ := emp_one_more d a b hne x' rest calls' hr hu'
  obtain rfl := Except.ok.inj (h1.symm.trans h1')
  obtain rfl := Except.ok.inj (h2.symm.trans h2')
  refine ⟨m0, m, c, m', c', h1, h3, h4, h3', h4', fun i => ?_, fun i j => ?_⟩
  · have e : m i - m' i = (m i - m0 i) - (m' i - m0 i) := by ring
    rw [e, h5, h5']; ring
  · rw [h6, h6']; ring

omit [FloorRing K] in
/-- C135: so no single row out of `n + 1`, all within `[lo, hi]`, moves `location_` by more than `(hi-lo)/(n+1)`, a variance by more than `n/(n+1)^2 (hi-lo)^2`, or a
covariance by more than twice that. -/
theorem C135_empirical_sensitivity (d : Bool) (a b : List (ι → K)) (hne : a ++ b ≠ []) (x x' : ι → K) (calls calls' : List (Call ι K))
    (hu : used d calls = a ++ [x] ++ b) (hu' : used d calls' = a ++ [x'] ++ b) (rest : List (Call ι K)) (hr : used d rest = a ++ b) (lo hi : K)
    (hB : ∀ z ∈ x :: x' :: (a ++ b), ∀ i, lo ≤ z i ∧ z i ≤ hi) : ∃ m c m' c',
      ((new (empiricalCls ι K) d).run calls).location = .ok m ∧ ((new (empiricalCls ι K) d).run calls).covariance = .ok c ∧
      ((new (empiricalCls ι K) d).run calls').location = .ok m' ∧ ((new (empiricalCls ι K) d).run calls').covariance = .ok c' ∧
      (∀ i, |m i - m' i| ≤ (hi - lo) / ((a ++ b).length + 1)) ∧
      (∀ i, |c i i - c' i i| ≤ (a ++ b).length / ((a ++ b).length + 1) ^ 2 * (hi - lo) ^ 2) ∧
      ∀ i j, |c i j - c' i j| ≤ (a ++ b).length / ((a ++ b).length + 1) ^ 2 * (2 * (hi - lo) ^ 2) := by
  obtain ⟨m0, m, c, m', c', h1, h2, h3, h4, h5, h6, h7⟩ := C135_empirical_replace d a b hne x x' rest calls calls' hr hu hu'
  have hN : (0 : K) < (a ++ b).length + 1 := by positivity
  have hk : (0 : K) ≤ (a ++ b).length / ((a ++ b).length + 1) ^ 2 := by positivity
  have hx := hB x (by simp)
  have hx' := hB x' (by simp)
  have hm : ∀ i, lo ≤ m0 i ∧ m0 i ≤ hi := fun i => by
    have e := Except.ok.inj (h1.symm.trans (C15_batch (ι := ι) (K := K) d rest (by rw [hr]; exact hne)).1)
    rw [hr] at e
    have hp : (0 : K) < (a ++ b).length := by exact_mod_cast List.length_pos_iff.2 hne
    have hs : ∀ ys : List (ι → K), (∀ z ∈ ys, ∀ i, lo ≤ z i ∧ z i ≤ hi) → ys.length * lo ≤ (ys.map fun z => z i).sum ∧ (ys.map fun z => z i).sum ≤ ys.length * hi := by
      intro ys
      induction ys with
      | nil => intro _; simp
      | cons y ys ih =>
        intro h
        have i1 := ih fun z hz => h z (by simp [hz])
        have i2 := h y (by simp) i
        simp only [List.map_cons, List.sum_cons, List.length_cons]
        push_cast
        constructor <;> linarith [i1.1, i1.2, i2.1, i2.2]
    have := hs (a ++ b) fun z hz => hB z (by simp only [List.mem_cons]; exact Or.inr (Or.inr hz))
    rw [e]
    show lo ≤ _ / _ ∧ _ / _ ≤ hi
    rw [le_div_iff₀ hp, div_le_iff₀ hp]
    constructor <;> linarith [this.1, this.2]
  have hR : ∀ i, (0 : K) ≤ hi - lo := fun i => by linarith [(hm i).1, (hm i).2]
  refine ⟨m, c, m', c', h2, h3, h4, h5, fun i => ?_, fun i => ?_, fun i j => ?_⟩
  · rw [h6, abs_div, abs_of_pos hN]
    refine div_le_div_of_nonneg_right ?_ hN.le
    rw [abs_le]; constructor <;> linarith [(hx i).1, (hx i).2, (hx' i).1, (hx' i).2]
  · rw [h7, abs_mul, abs_of_nonneg hk]
    refine mul_le_mul_of_nonneg_left ?_ hk
    have q : ∀ y : K, lo ≤ y → y ≤ hi → 0 ≤ (y - m0 i) * (y - m0 i) ∧ (y - m0 i) * (y - m0 i) ≤ (hi - lo) ^ 2 := fun y h1 h2 => by
      refine ⟨mul_self_nonneg _, ?_⟩
      rw [← pow_two, sq_le_sq, abs_of_nonneg (hR i), abs_le]
      constructor <;> linarith [(hm i).1, (hm i).2]
    have q1 := q (x i) (hx i).1 (hx i).2
    have q2 := q (x' i) (hx' i).1 (hx' i).2
    rw [abs_le]; constructor <;> linarith [q1.1, q1.2, q2.1, q2.2]
  · rw [h7, abs_mul, abs_of_nonneg hk]
    refine mul_le_mul_of_nonneg_left ?_ hk
    have s : ∀ (y : K) i, lo ≤ y → y ≤ hi → |y - m0 i| ≤ hi - lo := fun y i h1 h2 => by
      rw [abs_le]; constructor <;> linarith [(hm i).1, (hm i).2]
    have q : ∀ y : ι → K, (∀ i, lo ≤ y i ∧ y i ≤ hi) → |(y i - m0 i) * (y j - m0 j)| ≤ (hi - lo) ^ 2 := fun y h => by
      rw [abs_mul, pow_two]
      exact mul_le_mul (s _ i (h i).1 (h i).2) (s _ j (h j).1 (h j).2) (abs_nonneg _) (hR i)
    have := abs_sub ((x i - m0 i) * (x j - m0 j)) ((x' i - m0 i) * (x' j - m0 j))
    linarith [q x hx, q x' hx']

omit [FloorRing K] in
/-- C135: leave-one-out without a second pass: the attributes EmpiricalCovariance would have had without one of its `n + 1` rows are a formula in the ones it has, `n`
and that row. -/
theorem C135_leave_one_out (d : Bool) (a b : List (ι → K)) (hne : a ++ b ≠ []) (x : ι → K) (rest calls : List (Call ι K)) (hr : used d rest = a ++ b)
    (hu : used d calls = a ++ [x] ++ b) : ∃ m c,
      ((new (empiricalCls ι K) d).run calls).location = .ok m ∧ ((new (empiricalCls ι K) d).run calls).covariance = .ok c ∧
      ((new (empiricalCls ι K) d).run rest).location = .ok (fun i => (((a ++ b).length + 1) * m i - x i) / (a ++ b).length) ∧
      ((new (empiricalCls ι K) d).run rest).covariance = .ok (Matrix.of fun i j => ((a ++ b).length + 1) / (a ++ b).length * c i j
        - ((a ++ b).length + 1) / (a ++ b).length ^ 2 * ((x i - m i) * (x j - m j))) := by
  obtain ⟨m0, c0, m, c, h1, h2, h3, h4, h5, h6⟩ := emp_one_more d a b hne x rest calls hr hu
  have hn : ((a ++ b).length : K) ≠ 0 := by exact_mod_cast (List.length_pos_iff.2 hne).ne'
  have hn1 : ((a ++ b).length : K) + 1 ≠ 0 := by positivity
  have hx : ∀ i, x i - m i = (a ++ b).length / ((a ++ b).length + 1) * (x i - m0 i) := fun i => by
    have := h5 i
    have e : x i - m i = (x i - m0 i) - (m i - m0 i) := by ring
    rw [e, this]; field_simp; ring
  refine ⟨m, c, h3, h4, h1.trans (congrArg Except.ok (funext fun i => ?_)), h2.trans (congrArg Except.ok (Matrix.ext fun i j => ?_))⟩
  · have := h5 i
    have e : m i = m0 i + (x i - m0 i) / ((a ++ b).length + 1) := by linear_combination this
    rw [e]; field_simp; ring
  · rw [of_apply, h6, hx i, hx j]; field_simp; ring

/-- C135: EwaCovariance: one row replaced by another (after the burn-in), `ys` later observations on: `location_` differs by exactly `(1-r)^n r (x - x')`. -/
theorem C135_ewa_replace (p : RParam K) {xs : List (ι → K)} (h : ewaBurnN p.r ≤ xs.length) (x x' : ι → K) (ys : List (ι → K)) (calls calls' : List (Call ι K))
    (hu : used p.diff calls = xs ++ [x] ++ ys) (hu' : used p.diff calls' = xs ++ [x'] ++ ys) : ∃ m m', ((new (ewaCls ι K) p).run calls).location = .ok m ∧
      ((new (ewaCls ι K) p).run calls').location = .ok m' ∧ ∀ i, m i - m' i = (1 - p.r) ^ ys.length * (p.r * (x i - x' i)) := by
  refine ⟨_, _, (ewa_attrs p calls (by rw [hu]; simp)).1, (ewa_attrs p calls' (by rw [hu']; simp)).1, fun i => ?_⟩
  rw [hu, hu', ewaFold_common (by rw [List.length_append]; omega) (by rw [List.length_append]; omega), (ewaFold_step h x).1, (ewaFold_step h x').1]
  ring

/-- C135: and `covariance_`, for columns `i`, `j` within `[lo, hi]`: by at most `2 (1-r)^n r (1 + n r / (1-r)) (hi-lo)^2` (`n` rows later), written without division. -/
theorem C135_ewa_sensitivity (p : RParam K) (h0 : 0 ≤ p.r) (h1 : p.r ≤ 1) {xs : List (ι → K)} (h : ewaBurnN p.r ≤ xs.length) (hne : xs ≠ []) (x x' : ι → K)
    (ys : List (ι → K)) (before calls calls' mid mid' : List (Call ι K)) (hb : used p.diff before = xs) (hmid : used p.diff mid = xs ++ [x])
    (hmid' : used p.diff mid' = xs ++ [x']) (hu : used p.diff calls = xs ++ [x] ++ ys) (hu' : used p.diff calls' = xs ++ [x'] ++ ys) (lo hi : K) (i j : ι)
    (hB : ∀ z ∈ x :: x' :: (xs ++ ys), (lo ≤ z i ∧ z i ≤ hi) ∧ lo ≤ z j ∧ z j ≤ hi) : ∃ c c',
      ((new (ewaCls ι K) p).run calls).covariance = .ok c ∧ ((new (ewaCls ι K) p).run calls').covariance = .ok c' ∧
      (1 - p.r) * |c i j - c' i j| ≤ (1 - p.r) ^ ys.length * (2 * p.r * ((1 - p.r) + ys.length * p.r) * (hi - lo) ^ 2) := by
  have hx := hB x (by simp)
  have hx' := hB x' (by simp)
  have hxs : ∀ z ∈ xs, (lo ≤ z i ∧ z i ≤ hi) ∧ lo ≤ z j ∧ z j ≤ hi := fun z hz => hB z (by simp [hz])
  have hys : ∀ z ∈ ys, (lo ≤ z i ∧ z i ≤ hi) ∧ lo ≤ z j ∧ z j ≤ hi := fun z hz => hB z (by simp [hz])
  have hR : 0 ≤ hi - lo := by linarith [hx.1.1, hx.1.2]
  have step := fun y => ewaFold_step (r := p.r) h (y : ι → K)
  obtain ⟨c0, c0', c, c', e1, e2, e3, e4, hf⟩ := C132_covariance_fades p h0 h1 (xs := xs ++ [x]) (xs' := xs ++ [x']) (ys := ys) (by rw [List.length_append]; omega)
    (by rw [List.length_append]; omega) (by simp) (by simp) lo hi i j
    (by intro z hz; simp only [List.mem_append, List.mem_singleton] at hz; rcases hz with (hz | rfl) | hz; exacts [hxs z hz, hx, hys z hz])
    (by intro z hz; simp only [List.mem_append, List.mem_singleton] at hz; rcases hz with (hz | rfl) | hz; exacts [hxs z hz, hx', hys z hz])
    (p.r * (hi - lo)) mid mid' calls calls' hmid hmid' _ _ (ewa_attrs p mid (by rw [hmid]; simp)).1 (ewa_attrs p mid' (by rw [hmid']; simp)).1
    (by
      rw [hmid, hmid']
      have g : ∀ k, lo ≤ x k → x k ≤ hi → lo ≤ x' k → x' k ≤ hi →
          |(ewaFold p.r (xs ++ [x])).mean k - (ewaFold p.r (xs ++ [x'])).mean k| ≤ p.r * (hi - lo) := fun k a1 a2 a3 a4 => by
        rw [(step x).1, (step x').1]
        have e : (1 - p.r) * (ewaFold p.r xs).mean k + p.r * x k - ((1 - p.r) * (ewaFold p.r xs).mean k + p.r * x' k) = p.r * (x k - x' k) := by ring
        rw [e, abs_mul, abs_of_nonneg h0]
        refine mul_le_mul_of_nonneg_left ?_ h0
        rw [abs_le]; constructor <;> linarith
      exact ⟨g i hx.1.1 hx.1.2 hx'.1.1 hx'.1.2, g j hx.2.1 hx.2.2 hx'.2.1 hx'.2.2⟩) hu hu'
  refine ⟨c, c', e3, e4, hf.trans ?_⟩
  have ec : c0 = (ewaFold p.r (xs ++ [x])).cov := by rw [← hmid]; exact Except.ok.inj (e1.symm.trans (ewa_attrs p mid (by rw [hmid]; simp)).2)
  have ec' : c0' = (ewaFold p.r (xs ++ [x'])).cov := by rw [← hmid']; exact Except.ok.inj (e2.symm.trans (ewa_attrs p mid' (by rw [hmid']; simp)).2)
  have hmean : ∀ k, (∀ z ∈ xs, lo ≤ z k ∧ z k ≤ hi) → lo ≤ (ewaFold p.r xs).mean k ∧ (ewaFold p.r xs).mean k ≤ hi := fun k hk => by
    have := C22_ewa_range p h0 h1 before _ (ewa_attrs p before (by rw [hb]; exact hne)).1 k lo hi (by rw [hb]; exact hk)
    rwa [hb] at this
  have mi := hmean i fun z hz => (hxs z hz).1
  have mj := hmean j fun z hz => (hxs z hz).2
  have hp : |c0 i j - c0' i j| ≤ p.r * (2 * (hi - lo) ^ 2) := by
    rw [ec, ec', (step x).2, (step x').2]
    set mI := (ewaFold p.r xs).mean i
    set mJ := (ewaFold p.r xs).mean j
    have e : (1 - p.r) * (ewaFold p.r xs).cov i j + p.r * ((x i - mI) * (x j - mJ)) - ((1 - p.r) * (ewaFold p.r xs).cov i j + p.r * ((x' i - mI) * (x' j - mJ)))
        = p.r * ((x i - mI) * (x j - mJ) - (x' i - mI) * (x' j - mJ)) := by ring
    rw [e, abs_mul, abs_of_nonneg h0]
    refine mul_le_mul_of_nonneg_left ?_ h0
    have q : ∀ y : ι → K, ((lo ≤ y i ∧ y i ≤ hi) ∧ lo ≤ y j ∧ y j ≤ hi) → |(y i - mI) * (y j - mJ)| ≤ (hi - lo) ^ 2 := fun y hy => by
      rw [abs_mul, pow_two]
      refine mul_le_mul ?_ ?_ (abs_nonneg _) hR
      · rw [abs_le]; constructor <;> linarith [mi.1, mi.2, hy.1.1, hy.1.2]
      · rw [abs_le]; constructor <;> linarith [mj.1, mj.2, hy.2.1, hy.2.2]
    have := abs_sub ((x i - mI) * (x j - mJ)) ((x' i - mI) * (x' j - mJ))
    linarith [q x hx, q x' hx']
  have hr1 : 0 ≤ 1 - p.r := by linarith
  refine mul_le_mul_of_nonneg_left ?_ (pow_nonneg hr1 _)
  have := mul_le_mul_of_nonneg_left hp hr1
  nlinarith [this]

/-- Non-vacuity: a row replaced in the middle. -/
example : ∃ (rest calls calls' : List (Call (Fin 2) ℚ)), used false rest = [![0, 1], ![2, 3]] ∧ used false calls = [![0, 1]] ++ [![5, 5]] ++ [![2, 3]] ∧
    used false calls' = [![0, 1]] ++ [![1, 0]] ++ [![2, 3]] :=
  ⟨[.partialFit (.batch [![0, 1], ![2, 3]])], [.partialFit (.batch [![0, 1], ![5, 5], ![2, 3]])], [.partialFit (.batch [![0, 1], ![1, 0], ![2, 3]])], rfl, rfl, rfl⟩

end Precise
