import Verif.Props.Train
import Verif.Lemmas.Rounding

/-!
# C93: freezing the trained tree
-/

set_option linter.all false

namespace Precise.Oos

open Precise.Spec

variable (L : Lapack)

/-! ### Integers and rounding -/

theorem pyInt_nat (n : ℕ) : pyInt (n : ℝ) = n := by
  unfold pyInt
  rw [if_pos (by positivity)]
  exact Int.floor_natCast n

theorem pyInt_fraction (k n : ℕ) (hn : 0 < n) (hk : k ≤ n) : pyInt ((k : ℝ) / (n : ℝ)) = if k = n then 1 else 0 := by
  have hn' : (0 : ℝ) < n := by exact_mod_cast hn
  unfold pyInt
  rw [if_pos (by positivity)]
  split
  · rename_i h
    rw [h, div_self hn'.ne']
    exact Int.floor_one
  · rename_i h
    rw [Int.floor_eq_zero_iff]
    refine ⟨by positivity, ?_⟩
    rw [div_lt_one hn']
    exact_mod_cast lt_of_le_of_ne hk h

theorem round6_err (x : ℝ) : |round6 x - x| ≤ 5 / 10 ^ 7 := by
  have h := halfEven_err (x * 10 ^ 6)
  unfold round6
  have e : (halfEven (x * 10 ^ 6) : ℝ) / 10 ^ 6 - x = ((halfEven (x * 10 ^ 6) : ℝ) - x * 10 ^ 6) / 10 ^ 6 := by
    field_simp
  rw [e, abs_div, abs_of_pos (by positivity : (0 : ℝ) < 10 ^ 6), div_le_iff₀ (by positivity)]
  refine h.trans ?_
  norm_num

theorem round6_small (x : ℝ) (h0 : 0 ≤ x) (h : x ≤ 5 / 10 ^ 7) : round6 x = 0 := by
  unfold round6
  have : halfEven (x * 10 ^ 6) = 0 := by
    have hx : x * 10 ^ 6 ≤ 1 / 2 := by
      have := mul_le_mul_of_nonneg_right h (by positivity : (0 : ℝ) ≤ 10 ^ 6)
      refine this.trans ?_
      norm_num
    have hx0 : 0 ≤ x * 10 ^ 6 := by positivity
    have hfl : ⌊x * 10 ^ 6⌋ = 0 := Int.floor_eq_zero_iff.2 ⟨hx0, by linarith⟩
    have hfr : Int.fract (x * 10 ^ 6) = x * 10 ^ 6 := by unfold Int.fract; rw [hfl]; simp
    unfold halfEven
    rw [hfr, hfl]
    split
    · rfl
    · rw [if_neg (by linarith)]; rfl
  rw [this]; simp

theorem round6_pos (x : ℝ) (h : 5 / 10 ^ 7 < x) : 0 < round6 x := by
  unfold round6
  have hx : 1 / 2 < x * 10 ^ 6 := by
    have := mul_lt_mul_of_pos_right h (by positivity : (0 : ℝ) < 10 ^ 6)
    refine lt_of_eq_of_lt ?_ this
    norm_num
  have : 0 < halfEven (x * 10 ^ 6) := by
    have h1 : halfEven (1 : ℝ) = 1 := by exact_mod_cast halfEven_int 1
    by_cases h2 : 1 ≤ x * 10 ^ 6
    · have := halfEven_mono h2; omega
    · have hfl : ⌊x * 10 ^ 6⌋ = 0 := Int.floor_eq_zero_iff.2 ⟨by linarith, by linarith⟩
      have hfr : Int.fract (x * 10 ^ 6) = x * 10 ^ 6 := by unfold Int.fract; rw [hfl]; simp
      unfold halfEven
      rw [hfr, hfl, if_neg (by linarith), if_pos hx]; norm_num
  have : (0 : ℝ) < (halfEven (x * 10 ^ 6) : ℝ) := by exact_mod_cast this
  positivity

/-! ### Weights and rankings -/

theorem lookup_zip_map (cs : List String) (h : String → ℤ) (name : String) :
    ((cs.zip (cs.map h)).lookup name).getD 0 = if name ∈ cs then h name else 0 := by
  induction cs with
  | nil => rfl
  | cons a t ih =>
    rw [List.map_cons, List.zip_cons_cons, List.lookup_cons]
    by_cases hn : name = a
    · subst hn; simp
    · rw [beq_eq_false_iff_ne.2 hn]
      simp only [List.mem_cons, hn, false_or]
      exact ih

theorem rankBy_zero (sc : String → ℚ) : rankBy (fun _ => 0) sc = stableSort (fun a b => decide (sc b < sc a)) estimatorNames := by
  unfold rankBy
  congr 1
  funext a b
  simp

theorem rankBy_head (w : String → ℤ) (sc : String → ℚ) (c : String) (hc : c ∈ estimatorNames) (h : ∀ d ∈ estimatorNames, d ≠ c → w d < w c) :
    ∃ rest, rankBy w sc = c :: rest := by
  have hp := rankBy_perm w sc
  have hpw := rankBy_pairwise w sc
  cases hr : rankBy w sc with
  | nil => rw [hr] at hp; exact absurd (hp.mem_iff.2 hc) (by simp)
  | cons a rest =>
    rw [hr] at hp hpw
    by_cases hac : a = c
    · exact ⟨rest, by rw [hac]⟩
    · have hcr : c ∈ rest := by
        rcases List.mem_cons.1 (hp.mem_iff.2 hc) with h1 | h1
        · exact absurd h1.symm hac
        · exact h1
      have h1 := (List.pairwise_cons.1 hpw).1 c hcr
      have h2 := h a (hp.mem_iff.1 (by simp)) hac
      rcases h1 with h1 | ⟨h1, -⟩ <;> omega

/-! ### The exported tree -/

theorem export_walk {norm : Bool} {t : Tree} {data : List (List ℝ × String)} (hF : Fits norm t data) (ms : List (ℝ × ℝ)) (hms : ms.length = 7)
    (f : Features) : ∃ l : ℕ, l < t.feature.length ∧ (exportTree t ms).leaf f = some (l : ℤ) ∧ t.feature[l]? = some (-2) ∧ t.inLeaf data l ≠ [] ∧
      (exportTree t ms).value[l]? =
        some (t.classes.map fun c => pyInt (((t.labels data l).count c : ℝ) / if norm then ((t.inLeaf data l).length : ℝ) else 1)) := by
  obtain ⟨l, h1, h2, h3, h4, h5⟩ := walkTree_total hF (t.threshold.map round6)
    (fun i h => by rw [List.getElem?_map]; simpa using h) ((exportTree t ms).standardized f)
    (by unfold Frozen.standardized; refine standardize_length _ ?_ f; simp [exportTree, hms])
  refine ⟨l, h1, h2, h3, h4, ?_⟩
  show (t.value.map fun node => node.map pyInt)[l]? = _
  rw [List.getElem?_map, h5, Option.map_some, List.map_map]
  rfl

theorem export_ranked {norm : Bool} {t : Tree} {data : List (List ℝ × String)} (hF : Fits norm t data) (ms : List (ℝ × ℝ)) (hms : ms.length = 7)
    (f : Features) : ∃ l : ℕ, l < t.feature.length ∧ (exportTree t ms).leaf f = some (l : ℤ) ∧ t.feature[l]? = some (-2) ∧ t.inLeaf data l ≠ [] ∧
      (exportTree t ms).ranked f = some (rankBy (fun name => pyInt (((t.labels data l).count name : ℝ) / if norm then ((t.inLeaf data l).length : ℝ) else 1)) f.score) := by
  obtain ⟨l, h1, h2, h3, h4, h5⟩ := export_walk hF ms hms f
  refine ⟨l, h1, h2, h3, h4, ?_⟩
  unfold Frozen.ranked
  rw [h2, Option.bind_some, pyGet_nat, h5, Option.map_some]
  congr 2
  funext name
  unfold Frozen.weight
  show ((t.classes.zip _).lookup name).getD 0 = _
  rw [lookup_zip_map]
  split
  · rfl
  · rename_i hn
    have : (t.labels data l).count name = 0 := List.count_eq_zero.2 fun h => hn (label_mem_classes hF h)
    rw [this, Nat.cast_zero, zero_div]
    unfold pyInt; simp

theorem labels_length (t : Tree) (data : List (List ℝ × String)) (l : ℕ) : (t.labels data l).length = (t.inLeaf data l).length := by
  unfold Tree.labels; simp

/-- C93 (finding): freezing a tree fitted with scikit-learn 1.3 or later. The leaf values are class fractions, and `int(c)` cuts every
fraction below 1 to 0. So where the leaf holds training problems with two different labels the frozen tree contributes nothing and
`suggest` falls back to the heuristic alone; only where all labels in the leaf agree is that label recommended first. -/
theorem C93_fractions_lost (t : Tree) (data : List (List ℝ × String)) (hF : Fits true t data) (ms : List (ℝ × ℝ)) (hms : ms.length = 7)
    (f : Features) : ∃ l : ℕ, (exportTree t ms).leaf f = some (l : ℤ) ∧ t.labels data l ≠ [] ∧
      ((∃ a ∈ t.labels data l, ∃ b ∈ t.labels data l, a ≠ b) → (exportTree t ms).ranked f = some f.rankedHeuristic) ∧
      (∀ c ∈ estimatorNames, (∀ d ∈ t.labels data l, d = c) → ∃ rest, (exportTree t ms).ranked f = some (c :: rest)) := by
  obtain ⟨l, h1, h2, -, h4, h5⟩ := export_ranked hF ms hms f
  have hpos : 0 < (t.inLeaf data l).length := List.length_pos_iff.2 h4
  have hw : ∀ name, pyInt (((t.labels data l).count name : ℝ) / if true then ((t.inLeaf data l).length : ℝ) else 1)
      = if (t.labels data l).count name = (t.inLeaf data l).length then 1 else 0 := by
    intro name
    rw [if_pos rfl]
    refine pyInt_fraction _ _ hpos ?_
    rw [← labels_length]; exact List.count_le_length
  have hw' := funext hw
  rw [hw'] at h5
  refine ⟨l, h2, ?_, ?_, ?_⟩
  · rw [← List.length_pos_iff, labels_length]; exact hpos
  · rintro ⟨a, ha, b, hb, hab⟩
    have hz : ∀ name, (t.labels data l).count name ≠ (t.inLeaf data l).length := by
      intro name hn
      rw [← labels_length, List.count_eq_length] at hn
      exact hab ((hn a ha).symm.trans (hn b hb))
    have : (fun name => if (t.labels data l).count name = (t.inLeaf data l).length then (1 : ℤ) else 0) = fun _ => 0 := by
      funext name; rw [if_neg (hz name)]
    rw [h5, this, rankBy_zero]
    rfl
  · intro c hc hall
    have hne : t.labels data l ≠ [] := by rw [← List.length_pos_iff, labels_length]; exact hpos
    obtain ⟨rest, hr⟩ := rankBy_head (fun name => if (t.labels data l).count name = (t.inLeaf data l).length then (1 : ℤ) else 0) f.score c hc (by
      intro d _ hdc
      have h1 : (t.labels data l).count c = (t.inLeaf data l).length := by
        rw [← labels_length, List.count_eq_length]; exact fun b hb => (hall b hb).symm
      have h2 : (t.labels data l).count d ≠ (t.inLeaf data l).length := by
        intro h
        rw [← labels_length, List.count_eq_length] at h
        obtain ⟨b, hb⟩ := List.exists_mem_of_ne_nil _ hne
        exact hdc ((h b hb).trans (hall b hb))
      simp only [if_pos h1, if_neg h2]
      norm_num)
    exact ⟨rest, by rw [h5, hr]⟩

/-- C93: freezing a tree with class counts (scikit-learn before 1.3) is exact: `suggest` orders the estimators by the number of training
problems in the leaf they were best on, and the first is the classifier's prediction wherever that is the only most frequent label. -/
theorem C93_counts_exact (t : Tree) (data : List (List ℝ × String)) (hF : Fits false t data) (ms : List (ℝ × ℝ)) (hms : ms.length = 7)
    (hreg : ∀ r ∈ data, r.2 ∈ estimatorNames) (f : Features) :
    ∃ (l : ℕ) (ranked : List String), (exportTree t ms).leaf f = some (l : ℤ) ∧ (exportTree t ms).ranked f = some ranked ∧ ranked.Perm estimatorNames ∧
      (ranked.Pairwise fun a b => (t.labels data l).count b ≤ (t.labels data l).count a) ∧
      ∀ xs, xs.length = 7 → t.leaf xs = some (l : ℤ) → ∀ c, (∀ d, d ≠ c → (t.labels data l).count d < (t.labels data l).count c) →
        t.predict xs = some c ∧ ranked.head? = some c := by
  obtain ⟨l, h1, h2, -, h4, h5⟩ := export_ranked hF ms hms f
  have hw : ∀ name, pyInt (((t.labels data l).count name : ℝ) / if false then ((t.inLeaf data l).length : ℝ) else 1)
      = ((t.labels data l).count name : ℤ) := by
    intro name
    rw [if_neg (by simp), div_one, pyInt_nat]
  have hw' : (fun name => pyInt (((t.labels data l).count name : ℝ) / if (false : Bool) = true then ((t.inLeaf data l).length : ℝ) else 1))
      = fun name => ((t.labels data l).count name : ℤ) := funext hw
  rw [hw'] at h5
  refine ⟨l, _, h2, h5, rankBy_perm _ _, ?_, ?_⟩
  · refine (rankBy_pairwise _ _).imp fun {a b} h => ?_
    rcases h with h | ⟨h, -⟩
    · exact_mod_cast h.le
    · exact_mod_cast h.ge
  · intro xs hxs hleaf c hc
    obtain ⟨l', c', e1, e2, e3, e4⟩ := C92_predict t data hF xs hxs
    have hll : l' = l := by rw [hleaf] at e1; exact_mod_cast (Option.some.inj e1).symm
    subst hll
    have hcc : c' = c := by
      by_contra hne
      have := hc c' hne
      have := e4 c
      omega
    subst hcc
    refine ⟨e2, ?_⟩
    have hin : c' ∈ estimatorNames := by
      obtain ⟨r, hr, hre⟩ := List.mem_map.1 e3
      rw [← hre]; exact hreg r (List.mem_filter.1 hr).1
    obtain ⟨rest, hr⟩ := rankBy_head (fun name => ((t.labels data l').count name : ℤ)) f.score c' hin (fun d _ hd => by exact_mod_cast hc d hd)
    rw [hr]; rfl

/-! ### Rounding -/

theorem standardize_get (ms : List (ℝ × ℝ)) (xs : List ℝ) (j : ℕ) :
    (standardize ms xs)[j]? = match xs[j]?, ms[j]? with | some x, some m => some ((x - m.1) / m.2) | _, _ => none := by
  unfold standardize
  rw [List.getElem?_zipWith]
  cases xs[j]? <;> cases ms[j]? <;> rfl

theorem round_branch (x m s th : ℝ) (hs : 0 < s) (hs' : 0 < round6 s)
    (hgap : 5 / 10 ^ 7 * (1 + (1 + |(x - m) / s|) / round6 s) < |(x - m) / s - th|) :
    (x - round6 m) / round6 s ≤ round6 th ↔ (x - m) / s ≤ th := by
  set z := (x - m) / s with hz
  have hx : x = m + z * s := by rw [hz]; field_simp; ring
  have em := round6_err m
  have es := round6_err s
  have et := round6_err th
  have hdiff : |(x - round6 m) / round6 s - z| ≤ 5 / 10 ^ 7 * ((1 + |z|) / round6 s) := by
    have e : (x - round6 m) / round6 s - z = ((m - round6 m) + z * (s - round6 s)) / round6 s := by
      rw [hx]; field_simp; ring
    rw [e, abs_div, abs_of_pos hs', mul_div_assoc', div_le_div_iff_of_pos_right hs']
    calc |(m - round6 m) + z * (s - round6 s)| ≤ |m - round6 m| + |z * (s - round6 s)| := abs_add_le _ _
      _ = |round6 m - m| + |z| * |round6 s - s| := by rw [abs_mul, abs_sub_comm m, abs_sub_comm s]
      _ ≤ 5 / 10 ^ 7 + |z| * (5 / 10 ^ 7) := by gcongr
      _ = 5 / 10 ^ 7 * (1 + |z|) := by ring
  have htot : 5 / 10 ^ 7 * ((1 + |z|) / round6 s) + 5 / 10 ^ 7 < |z - th| := by
    have : 5 / 10 ^ 7 * (1 + (1 + |z|) / round6 s) = 5 / 10 ^ 7 * ((1 + |z|) / round6 s) + 5 / 10 ^ 7 := by ring
    linarith
  rw [abs_le] at hdiff et
  rcases le_or_gt z th with h | h
  · rw [abs_of_nonpos (show z - th ≤ 0 by linarith)] at htot
    exact ⟨fun _ => h, fun _ => by linarith [hdiff.2, et.1]⟩
  · rw [abs_of_pos (show 0 < z - th by linarith)] at htot
    exact ⟨fun h2 => by linarith [hdiff.1, et.2], fun h2 => by linarith⟩

/-- C93: rounding to six decimals. The frozen tree takes the same path as the fitted one wherever every standardized feature keeps
away from the thresholds it is compared with by more than the rounding can move it. -/
theorem C93_rounding {norm : Bool} (t : Tree) (data : List (List ℝ × String)) (hF : Fits norm t data) (ms : List (ℝ × ℝ)) (hms : ms.length = 7)
    (hstd : ∀ m ∈ ms, 0 < m.2 ∧ 0 < round6 m.2) (f : Features)
    (hgap : ∀ (i j : ℕ) (th x : ℝ) (m : ℝ × ℝ), t.feature[i]? = some (j : ℤ) → t.threshold[i]? = some th → (featureList f)[j]? = some x →
      ms[j]? = some m → 5 / 10 ^ 7 * (1 + (1 + |(x - m.1) / m.2|) / round6 m.2) < |(x - m.1) / m.2 - th|) :
    (exportTree t ms).leaf f = t.leaf (standardize ms (featureList f)) := by
  have gen : ∀ (fuel i : ℕ), i < t.feature.length →
      walkTree t.feature (t.threshold.map round6) t.left t.right ((exportTree t ms).standardized f) fuel i
        = walkTree t.feature t.threshold t.left t.right (standardize ms (featureList f)) fuel i := by
    intro fuel
    induction fuel with
    | zero =>
      intro i hi
      unfold walkTree
      rcases hF.node i hi with ⟨h1, -⟩ | ⟨j, l, r, th, h1, -⟩
      · rw [pyGet_nat, h1]
        try rfl
      · rw [pyGet_nat, h1]
        try rfl
    | succ fuel ih =>
      intro i hi
      rcases hF.node i hi with ⟨h1, -⟩ | ⟨j, l, r, th, h1, h2, h3, h4, h5, h6, h7, h8, h9⟩
      · rw [walkTree_leaf h1, walkTree_leaf h1]
      · obtain ⟨x, hx⟩ : ∃ x, (featureList f)[j]? = some x := ⟨(featureList f)[j]'(by show j < 7; exact h2), List.getElem?_eq_getElem _⟩
        obtain ⟨m, hm⟩ : ∃ m, ms[j]? = some m := ⟨ms[j]'(by omega), List.getElem?_eq_getElem _⟩
        have e1 : (standardize ms (featureList f))[j]? = some ((x - m.1) / m.2) := by rw [standardize_get, hx, hm]
        have e2 : ((exportTree t ms).standardized f)[j]? = some ((x - round6 m.1) / round6 m.2) := by
          unfold Frozen.standardized
          rw [standardize_get, hx]
          have : ((exportTree t ms).mean.zip (exportTree t ms).std)[j]? = some (round6 m.1, round6 m.2) := by
            show ((ms.map fun m => round6 m.1).zip (ms.map fun m => round6 m.2))[j]? = _
            rw [List.getElem?_zip_eq_some]
            simp [hm]
          rw [this]
        have e3 : (t.threshold.map round6)[i]? = some (round6 th) := by rw [List.getElem?_map, h3]; rfl
        rw [walkTree_step h1 e1 h3 h4 h5, walkTree_step h1 e2 e3 h4 h5]
        obtain ⟨s1, s2⟩ := hstd m (List.mem_of_getElem? hm)
        have hb := round_branch x m.1 m.2 th s1 s2 (hgap i j th x m h1 h3 hx hm)
        simp only [hb]
        classical
        split
        · exact ih l h7
        · exact ih r h9
  exact gen _ 0 hF.root

/-- C93: the guard `+ 1e-9` keeps the training away from a division by zero, for any training table; but rounding the exported
deviation to six decimals removes it: a feature that is constant over the training problems (or has a deviation below
`4.99e-7`) is exported with `STD = 0`, and inference divides by zero. -/
theorem C93_guard_lost (rows : List (List ℝ)) :
    (∀ m ∈ scaling rows, 0 < m.2) ∧
    ∀ (j : ℕ) (hj : j < 7) (t : Tree), (exportTree t (scaling rows)).std[j]? = some 0 ↔ colStd (column rows j) + 1 / 10 ^ 9 ≤ 5 / 10 ^ 7 := by
  have hnn : ∀ v, 0 ≤ colStd v := fun v => Real.sqrt_nonneg _
  constructor
  · intro m hm
    obtain ⟨j, -, rfl⟩ := List.mem_map.1 hm
    have := hnn (column rows j)
    show 0 < colStd (column rows j) + 1 / 10 ^ 9
    positivity
  · intro j hj t
    have hval : (exportTree t (scaling rows)).std[j]? = some (round6 (colStd (column rows j) + 1 / 10 ^ 9)) := by
      show ((scaling rows).map fun m => round6 m.2)[j]? = _
      unfold scaling
      rw [List.map_map, List.getElem?_map, List.getElem?_range hj]
      rfl
    rw [hval]
    constructor
    · intro h
      by_contra hlt
      have := round6_pos _ (not_le.1 hlt)
      rw [Option.some.inj h] at this
      exact lt_irrefl _ this
    · intro h
      rw [round6_small _ (by have := hnn (column rows j); positivity) h]

theorem colStd_const (c : ℝ) (n : ℕ) : colStd (List.replicate n c) = 0 := by
  unfold colStd colMean
  rcases Nat.eq_zero_or_pos n with rfl | h
  · simp
  · have hn : (n : ℝ) ≠ 0 := by exact_mod_cast h.ne'
    simp [List.sum_replicate, hn]

/-! ### The shipped table -/

theorem walk_eq_walkTree (xs : List ℝ) (fuel : ℕ) (node : ℤ) :
    walkTree shipped.feature shipped.threshold shipped.left shipped.right xs fuel node = walk xs fuel node := by
  classical
  induction fuel generalizing node with
  | zero => unfold walkTree walk; rfl
  | succ fuel ih =>
    unfold walkTree walk
    show ((pyGet RecTree.featureT node).bind fun f => _) = _
    congr 1
    funext f
    by_cases hf : f = -2
    · rw [if_pos hf, if_pos hf]
    · rw [if_neg hf, if_neg hf]
      simp only []
      congr 1
      funext x
      have : pyGet shipped.threshold node = (pyGet RecTree.thresholdT node).map fun q : ℚ => (q : ℝ) := by
        show pyGet (RecTree.thresholdT.map fun q : ℚ => (q : ℝ)) node = _
        unfold pyGet
        rw [List.length_map]
        split_ifs <;> simp [List.getElem?_map]
      rw [this]
      cases pyGet RecTree.thresholdT node with
      | none => rfl
      | some t =>
        simp only [Option.map_some, Option.bind_some]
        have hfun : walkTree shipped.feature shipped.threshold shipped.left shipped.right xs fuel = walk xs fuel := funext ih
        rw [hfun]
        by_cases hx : x ≤ (t : ℝ)
        · rw [if_pos hx, if_pos hx]; rfl
        · rw [if_neg hx, if_neg hx]; rfl

/-- C93: the ranking by any frozen model, on the shipped tables, is the ranking of C52–C54. -/
theorem C93_shipped (f : Features) : shipped.ranked f = f.ranked := by
  have hst : shipped.standardized f = f.standardized := by
    unfold Frozen.standardized Features.standardized standardize featureList
    show List.zipWith _ _ ((RecTree.meanT.map _).zip (RecTree.stdT.map _)) = _
    simp [RecTree.meanT, RecTree.stdT]
  unfold Frozen.ranked Frozen.leaf Features.ranked Features.counts Features.leaf
  rw [walk_eq_walkTree, hst]
  show (walk f.standardized 47 0).bind _ = _
  cases walk f.standardized 47 0 with
  | none => rfl
  | some l =>
    simp only [Option.bind_some]
    rfl

/-- C93: what the shipped table says about its training. It cannot have been exported from a tree with class counts (every leaf holds
a training problem, yet all but one of the exported rows are zero). If it was exported from a tree with class fractions, every leaf
but the last held training problems with two different labels, whose majority the export has lost; in the last one all labels were
LedoitWolfCovariance. -/
theorem C93_shipped_diagnosis (t : Tree) (ms : List (ℝ × ℝ)) (hex : exportTree t ms = shipped) (data : List (List ℝ × String)) :
    ¬ Fits false t data ∧
    (Fits true t data → ∀ l : ℕ, t.feature[l]? = some (-2) →
      (l ≠ 46 → ∃ a ∈ t.labels data l, ∃ b ∈ t.labels data l, a ≠ b) ∧
      (l = 46 → ∀ d ∈ t.labels data l, d = "LedoitWolfCovariance")) := by
  have hfeat : t.feature = RecTree.featureT := congrArg Frozen.feature hex
  have hval : (t.value.map fun node => node.map pyInt) = RecTree.valueT := congrArg Frozen.value hex
  have hcls : t.classes = RecTree.classesT := congrArg Frozen.classes hex
  have row : ∀ {norm : Bool}, Fits norm t data → ∀ l : ℕ, t.feature[l]? = some (-2) → t.labels data l ≠ [] ∧
      RecTree.valueT[l]? = some (RecTree.classesT.map fun c => pyInt (((t.labels data l).count c : ℝ) / if norm then ((t.inLeaf data l).length : ℝ) else 1)) := by
    intro norm hF l hl
    have hlt : l < t.feature.length := by
      by_contra h
      rw [List.getElem?_eq_none (not_lt.1 h)] at hl; cases hl
    rcases hF.node l hlt with ⟨-, h2, h3⟩ | ⟨f, _, _, _, h1, -⟩
    · refine ⟨by rw [← List.length_pos_iff, labels_length]; exact List.length_pos_iff.2 h2, ?_⟩
      rw [← hval, ← hcls, List.getElem?_map, h3, Option.map_some, List.map_map]
      rfl
    · rw [hl] at h1
      have := Option.some.inj h1
      omega
  constructor
  · intro hF
    have hl4 : t.feature[4]? = some (-2) := by rw [hfeat]; rfl
    obtain ⟨h1, h2⟩ := row hF 4 hl4
    obtain ⟨c, hc⟩ := List.exists_mem_of_ne_nil _ h1
    have hmem : c ∈ RecTree.classesT := hcls ▸ label_mem_classes hF hc
    have hpos : 0 < (t.labels data 4).count c := List.count_pos_iff.2 hc
    have hz : ((t.labels data 4).count c : ℤ) ∈ RecTree.classesT.map fun c => pyInt (((t.labels data 4).count c : ℝ) / if (false : Bool) = true then ((t.inLeaf data 4).length : ℝ) else 1) := by
      refine List.mem_map.2 ⟨c, hmem, ?_⟩
      rw [if_neg (by simp), div_one, pyInt_nat]
    have h0 : RecTree.valueT[4]? = some [0, 0, 0, 0, 0, 0, 0, 0, 0] := rfl
    rw [h0] at h2
    rw [← Option.some.inj h2] at hz
    simp only [List.mem_cons, List.not_mem_nil, or_false, or_self] at hz
    omega
  · intro hF l hl
    obtain ⟨h1, h2⟩ := row hF l hl
    have hlen : 0 < (t.inLeaf data l).length := by rw [← labels_length]; exact List.length_pos_iff.2 h1
    have hw : ∀ name, pyInt (((t.labels data l).count name : ℝ) / if (true : Bool) = true then ((t.inLeaf data l).length : ℝ) else 1)
        = if (t.labels data l).count name = (t.labels data l).length then 1 else 0 := by
      intro name
      rw [if_pos rfl, pyInt_fraction _ _ hlen (by rw [← labels_length]; exact List.count_le_length), labels_length]
    have hw' := funext hw
    rw [hw'] at h2
    have hlt : l < 47 := by
      by_contra h
      rw [hfeat, List.getElem?_eq_none (by show 47 ≤ l; omega)] at hl; cases hl
    constructor
    · intro h46
      by_contra hcon
      push Not at hcon
      obtain ⟨c, hc⟩ := List.exists_mem_of_ne_nil _ h1
      have hmem : c ∈ RecTree.classesT := hcls ▸ label_mem_classes hF hc
      have hcnt : (t.labels data l).count c = (t.labels data l).length := by
        rw [List.count_eq_length]; exact fun b hb => hcon c hc b hb
      have hone : (1 : ℤ) ∈ RecTree.classesT.map fun name => if (t.labels data l).count name = (t.labels data l).length then (1 : ℤ) else 0 :=
        List.mem_map.2 ⟨c, hmem, by rw [if_pos hcnt]⟩
      have htab : ∀ i : Fin 47, i.1 ≠ 46 → ∀ r, RecTree.valueT[i.1]? = some r → RecTree.featureT[i.1]? = some (-2) → (1 : ℤ) ∉ r := by
        have hb : ∀ i : Fin 47, (i.1 != 46) = true → (RecTree.valueT[i.1]?.all fun r => !(r.contains 1)) = true := by decide +kernel
        intro i hi r hr _ h1r
        have := hb i (by simpa using hi)
        rw [hr] at this
        simp only [Option.all_some, Bool.not_eq_true', List.contains_eq_mem, decide_eq_false_iff_not] at this
        exact this h1r
      exact htab ⟨l, hlt⟩ h46 _ h2 (by rw [hfeat] at hl; exact hl) hone
    · rintro rfl d hd
      have h0 : RecTree.valueT[46]? = some [0, 0, 0, 0, 1, 0, 0, 0, 0] := rfl
      rw [h0] at h2
      have h3 := Option.some.inj h2
      simp only [RecTree.classesT, List.map_cons, List.map_nil, List.cons.injEq] at h3
      have h4 := h3.2.2.2.2.1
      have h5 : (t.labels data 46).count "LedoitWolfCovariance" = (t.labels data 46).length := by
        by_contra hne
        rw [if_neg hne] at h4; cases h4
      rw [List.count_eq_length] at h5
      exact (h5 d hd).symm

/-! ### Non-vacuity and a witness of the loss -/

/-- Three training problems, two of them won by TylerCovariance. -/
noncomputable def threeProblems : List (List ℝ × String) :=
  [([1, 0, 0, 0, 0, 0, 0], "TylerCovariance"), ([2, 0, 0, 0, 0, 0, 0], "TylerCovariance"), ([3, 0, 0, 0, 0, 0, 0], "OASCovariance")]

/-- C93 (finding): the fitted tree predicts TylerCovariance for every window; frozen, it never puts TylerCovariance first. -/
theorem C93_loss_witness (ms : List (ℝ × ℝ)) (hms : ms.length = 7) :
    Fits true (stump threeProblems) threeProblems ∧
    (∀ xs : List ℝ, xs.length = 7 → (stump threeProblems).predict xs = some "TylerCovariance") ∧
    ∀ f : Features, ∃ ranked, (exportTree (stump threeProblems) ms).ranked f = some ranked ∧ ranked.head? ≠ some "TylerCovariance" := by
  have hF := stump_fits threeProblems (by simp [threeProblems])
  have hleaf : ∀ xs, (stump threeProblems).leaf xs = some ((0 : ℕ) : ℤ) := fun xs => walkTree_leaf (i := 0) rfl _
  have hlab : (stump threeProblems).labels threeProblems 0 = ["TylerCovariance", "TylerCovariance", "OASCovariance"] := by
    unfold Tree.labels Tree.inLeaf
    rw [List.filter_eq_self.2 (fun r _ => by rw [decide_eq_true_iff]; exact hleaf r.1)]
    rfl
  refine ⟨hF, fun xs hxs => ?_, fun f => ?_⟩
  · obtain ⟨l, c, h1, h2, h3, h4⟩ := C92_predict _ _ hF xs hxs
    have hl : l = 0 := by rw [hleaf] at h1; exact_mod_cast (Option.some.inj h1).symm
    subst hl
    rw [hlab] at h3 h4
    have h5 := h4 "TylerCovariance"
    rw [h2]
    simp only [List.mem_cons, List.not_mem_nil, or_false] at h3
    rcases h3 with rfl | rfl | rfl
    · rfl
    · rfl
    · revert h5; decide
  · obtain ⟨l, h1, -, h3, -⟩ := C93_fractions_lost _ _ hF ms hms f
    have hl : l = 0 := by
      have : (exportTree (stump threeProblems) ms).leaf f = some ((0 : ℕ) : ℤ) := walkTree_leaf (i := 0) rfl _
      rw [this] at h1; exact_mod_cast (Option.some.inj h1).symm
    subst hl
    rw [hlab] at h3
    refine ⟨_, h3 ⟨"TylerCovariance", by simp, "OASCovariance", by simp, by decide⟩, ?_⟩
    classical
    rw [rankedHeuristic_eq f]
    split_ifs <;> decide

/-- A constant training feature: with any number of training problems its exported deviation is 0. -/
example (n : ℕ) (t : Tree) : (exportTree t (scaling (List.replicate n [1, 2, 3, 4, 5, 6, 7]))).std[3]? = some 0 := by
  rw [(C93_guard_lost _).2 3 (by norm_num)]
  have : column (List.replicate n [1, 2, 3, 4, 5, 6, 7]) 3 = List.replicate n (4 : ℝ) := by
    unfold column; rw [List.map_replicate]; rfl
  rw [this, colStd_const]; norm_num

/-- The gap condition of C93_rounding is met, e.g. by a stump (no thresholds), and at a threshold 0.5 by a feature 1 with mean 0 and
deviation 1. -/
example : (5 : ℝ) / 10 ^ 7 * (1 + (1 + |((1 : ℝ) - 0) / 1|) / round6 1) < |((1 : ℝ) - 0) / 1 - 1 / 2| := by
  have : round6 1 = 1 := by
    unfold round6
    have h : halfEven ((1 : ℝ) * 10 ^ 6) = 10 ^ 6 := by
      have := halfEven_int (10 ^ 6)
      rw [one_mul]
      exact_mod_cast this
    rw [h]; norm_num
  rw [this]
  norm_num

/-! The hypotheses of C93_shipped_diagnosis can be met: a tree with class fractions, fitted to a training table, whose export is the
shipped table. -/

/-- a standardized row for each leaf of the shipped tree (zeros at the inner nodes) -/
def leafPoint : List (List ℚ) :=
  [[0, 0, 0, 0, 0, 0, 0],
   [0, 0, 0, 0, 0, 0, 0],
   [0, 0, 0, 0, 0, 0, 0],
   [0, 0, 0, 0, 0, 0, 0],
   [-24211/40000, -60313/125000, -62497/250000, 0, 77657/125000, 0, 0],
   [0, 0, 0, 0, 0, 0, 0],
   [-24211/40000, 64687/125000, -62497/250000, 0, 77657/125000, -163481/1000000, 0],
   [-24211/40000, 64687/125000, -62497/250000, 0, 77657/125000, 836519/1000000, 0],
   [0, 0, 0, 0, 0, 0, 0],
   [0, 0, 0, 0, 0, 0, 0],
   [15789/40000, 0, -62497/250000, 0, 77657/125000, -170073/500000, 0],
   [15789/40000, 0, -62497/250000, 0, 77657/125000, 181827/1000000, 0],
   [15789/40000, 0, -62497/250000, 0, 77657/125000, 1181827/1000000, 0],
   [0, 0, 0, 0, 0, 0, 0],
   [0, 0, 0, 0, 0, 0, 0],
   [0, 0, 0, 0, 0, 0, 0],
   [0, -636807/1000000, -109967/125000, 0, 202657/125000, 225237/500000, 0],
   [0, -636807/1000000, -62497/250000, 0, 202657/125000, 225237/500000, 0],
   [0, 0, 0, 0, 0, 0, 0],
   [0, 363193/1000000, -62497/250000, 0, 294049/250000, 225237/500000, 0],
   [0, 363193/1000000, -62497/250000, 0, 544049/250000, 225237/500000, 0],
   [0, 0, 0, 0, 0, 0, 0],
   [0, 0, 0, 0, 0, 0, 0],
   [0, 0, -62497/250000, 7481/250000, 202657/125000, 156507/125000, 0],
   [0, 0, -62497/250000, 7481/250000, 202657/125000, 281507/125000, 0],
   [0, 0, -62497/250000, 257481/250000, 202657/125000, 725237/500000, 0],
   [0, 0, 0, 0, 0, 0, 0],
   [0, 0, 0, 0, 0, 0, 0],
   [0, 0, 0, 0, 0, 0, 0],
   [0, 0, 0, 0, 0, 0, 0],
   [0, -302127/1000000, 181231/500000, -224741/500000, 0, 401851/500000, 0],
   [0, -302127/1000000, 681231/500000, -224741/500000, 0, 401851/500000, 0],
   [0, 0, 0, 0, 0, 0, 0],
   [0, -302127/1000000, 187503/250000, -4469/500000, 0, 401851/500000, 0],
   [0, -302127/1000000, 187503/250000, 495531/500000, 0, 401851/500000, 0],
   [0, 0, 0, 0, 0, 0, 0],
   [0, 0, 0, 0, 0, 0, 0],
   [-38617/62500, 697873/1000000, 1244011/1000000, 0, 0, 401851/500000, 0],
   [23883/62500, 697873/1000000, 1244011/1000000, 0, 0, 401851/500000, 0],
   [0, 0, 0, 0, 0, 0, 0],
   [0, 697873/1000000, 2244011/1000000, 0, -302191/250000, 401851/500000, 0],
   [0, 697873/1000000, 2244011/1000000, 0, -52191/250000, 401851/500000, 0],
   [0, 0, 0, 0, 0, 0, 0],
   [0, 0, 0, 0, 0, 0, 0],
   [0, 0, 312959/500000, 0, -261223/250000, 901851/500000, 0],
   [0, 0, 312959/500000, 0, -11223/250000, 901851/500000, 0],
   [0, 0, 812959/500000, 0, 0, 901851/500000, 0]]

/-- the walk in rational numbers -/
def walkQ (xs : List ℚ) : ℕ → ℤ → Option ℤ
  | fuel, node =>
    (pyGet RecTree.featureT node).bind fun f =>
      if f = -2 then some node
      else match fuel with
        | 0 => none
        | fuel + 1 => (pyGet xs f).bind fun x => (pyGet RecTree.thresholdT node).bind fun t =>
          (if x ≤ t then pyGet RecTree.leftT node else pyGet RecTree.rightT node).bind (walkQ xs fuel)

theorem pyGet_map {α β : Type} (g : α → β) (l : List α) (i : ℤ) : pyGet (l.map g) i = (pyGet l i).map g := by
  unfold pyGet
  rw [List.length_map]
  split_ifs <;> simp [List.getElem?_map]

theorem walkQ_eq (xs : List ℚ) (fuel : ℕ) (node : ℤ) :
    walkTree RecTree.featureT (RecTree.thresholdT.map fun q : ℚ => (q : ℝ)) RecTree.leftT RecTree.rightT (xs.map fun q : ℚ => (q : ℝ)) fuel node
      = walkQ xs fuel node := by
  classical
  induction fuel generalizing node with
  | zero => unfold walkTree walkQ; rfl
  | succ fuel ih =>
    unfold walkTree walkQ
    congr 1
    funext f
    by_cases hf : f = -2
    · rw [if_pos hf, if_pos hf]
    · rw [if_neg hf, if_neg hf]
      simp only []
      rw [pyGet_map, pyGet_map]
      cases pyGet xs f with
      | none => rfl
      | some x =>
        cases pyGet RecTree.thresholdT node with
        | none => rfl
        | some t =>
          simp only [Option.map_some, Option.bind_some]
          rw [show walkTree RecTree.featureT (RecTree.thresholdT.map fun q : ℚ => (q : ℝ)) RecTree.leftT RecTree.rightT (xs.map fun q : ℚ => (q : ℝ)) fuel
            = walkQ xs fuel from funext ih]
          by_cases hx : x ≤ t
          · rw [if_pos hx, if_pos (by exact_mod_cast hx)]
          · rw [if_neg hx, if_neg (by exact_mod_cast hx)]

set_option maxRecDepth 100000 in
theorem leafPoint_ok : ∀ i : Fin 47, RecTree.featureT[i.1]? = some (-2) → walkQ (leafPoint.getD i.1 []) 47 0 = some (i.1 : ℤ) := by decide +kernel

/-- the training problems: at every leaf one of each class, at the last leaf only LedoitWolfCovariance -/
def tableKeys : List (ℕ × String) :=
  ((List.range 46).filter fun i => RecTree.featureT[i]? = some (-2)).flatMap (fun i => RecTree.classesT.map fun c => (i, c)) ++ [(46, "LedoitWolfCovariance")]

noncomputable def tableRows : List (List ℝ × String) := tableKeys.map fun k => ((leafPoint.getD k.1 []).map fun q : ℚ => (q : ℝ), k.2)

noncomputable def shippedTree : Tree :=
  { classes := RecTree.classesT
    feature := RecTree.featureT
    threshold := RecTree.thresholdT.map fun q : ℚ => (q : ℝ)
    left := RecTree.leftT
    right := RecTree.rightT
    value := (List.range 47).map fun i : ℕ => if i = 46 then [0, 0, 0, 0, 1, 0, 0, 0, 0] else [1 / 9, 1 / 9, 1 / 9, 1 / 9, 1 / 9, 1 / 9, 1 / 9, 1 / 9, 1 / 9] }

theorem tableKeys_leaf : ∀ k ∈ tableKeys, k.1 < 47 ∧ RecTree.featureT[k.1]? = some (-2) := by decide +kernel

theorem shippedTree_leaf (i : ℕ) (hi : i < 47) (hl : RecTree.featureT[i]? = some (-2)) :
    shippedTree.leaf ((leafPoint.getD i []).map fun q : ℚ => (q : ℝ)) = some (i : ℤ) := by
  have h := leafPoint_ok ⟨i, hi⟩ hl
  have e := walkQ_eq (leafPoint.getD i []) 47 0
  exact e.trans h

theorem shippedTree_inLeaf (l : ℕ) : shippedTree.labels tableRows l = (tableKeys.filter fun k => k.1 = l).map Prod.snd := by
  classical
  unfold Tree.labels Tree.inLeaf tableRows
  rw [List.filter_map, List.map_map]
  congr 1
  refine List.filter_congr fun k hk => ?_
  obtain ⟨h1, h2⟩ := tableKeys_leaf k hk
  simp only [Function.comp, shippedTree_leaf k.1 h1 h2]
  simp

set_option maxRecDepth 100000 in
theorem keys_count : ∀ i : Fin 47, RecTree.featureT[i.1]? = some (-2) →
    ((tableKeys.filter fun k => k.1 = i.1).map Prod.snd) = if i.1 = 46 then ["LedoitWolfCovariance"] else RecTree.classesT := by decide +kernel

theorem inner_ok : ∀ i : Fin 47, RecTree.featureT[i.1]? ≠ some (-2) →
    ((RecTree.featureT[i.1]?.any fun f => decide (0 ≤ f ∧ f < 7)) && RecTree.thresholdT[i.1]?.isSome &&
     (RecTree.leftT[i.1]?.any fun l => decide ((i.1 : ℤ) < l ∧ l < 47)) &&
     (RecTree.rightT[i.1]?.any fun l => decide ((i.1 : ℤ) < l ∧ l < 47))) = true := by decide +kernel

theorem shippedTree_fits : Fits true shippedTree tableRows := by
  refine ⟨by show RecTree.classesT.Nodup; decide, fun c => ?_, by show 0 < 47; norm_num, fun i hi => ?_⟩
  · have e : tableRows.map Prod.snd = tableKeys.map Prod.snd := by unfold tableRows; rw [List.map_map]; rfl
    rw [e]
    constructor
    · intro h
      have : ∀ c ∈ RecTree.classesT, c ∈ tableKeys.map Prod.snd := by decide +kernel
      exact this c h
    · intro h
      have : ∀ c ∈ tableKeys.map Prod.snd, c ∈ RecTree.classesT := by decide +kernel
      exact this c h
  · have hi47 : i < 47 := hi
    by_cases hl : RecTree.featureT[i]? = some (-2)
    · left
      have hlab := shippedTree_inLeaf i
      rw [keys_count ⟨i, hi47⟩ hl] at hlab
      have hlen : (shippedTree.inLeaf tableRows i).length = (shippedTree.labels tableRows i).length := (labels_length _ _ _).symm
      have hv : shippedTree.value[i]? = some (if i = 46 then [0, 0, 0, 0, 1, 0, 0, 0, 0] else [1 / 9, 1 / 9, 1 / 9, 1 / 9, 1 / 9, 1 / 9, 1 / 9, 1 / 9, 1 / 9]) := by
        simp only [shippedTree]
        rw [List.getElem?_map, List.getElem?_range hi47]; rfl
      refine ⟨hl, ?_, ?_⟩
      · rw [← List.length_pos_iff, hlen, hlab]
        simp only []
        split <;> decide
      · rw [hv]
        show _ = some (RecTree.classesT.map fun c => ((shippedTree.labels tableRows i).count c : ℝ) / if (true : Bool) = true then ((shippedTree.inLeaf tableRows i).length : ℝ) else 1)
        rw [hlen, hlab]
        simp only []
        by_cases h46 : i = 46
        · simp [h46, RecTree.classesT, List.count_cons]
        · simp [h46, RecTree.classesT, List.count_cons]
    · right
      have h := inner_ok ⟨i, hi47⟩ hl
      simp only [Bool.and_eq_true] at h
      obtain ⟨⟨⟨h1, h2⟩, h3⟩, h4⟩ := h
      rw [Option.any_eq_true] at h1 h3 h4
      obtain ⟨f, hf, hf'⟩ := h1
      obtain ⟨l, hl', hl''⟩ := h3
      obtain ⟨r, hr, hr'⟩ := h4
      rw [decide_eq_true_iff] at hf' hl'' hr'
      obtain ⟨q, hq⟩ := Option.isSome_iff_exists.1 h2
      refine ⟨f.toNat, l.toNat, r.toNat, (q : ℝ), ?_, by omega, ?_, ?_, ?_, by omega, ?_, by omega, ?_⟩
      · show RecTree.featureT[i]? = _
        rw [Int.toNat_of_nonneg hf'.1]; exact hf
      · show (RecTree.thresholdT.map fun q : ℚ => (q : ℝ))[i]? = _
        rw [List.getElem?_map, hq]; rfl
      · show RecTree.leftT[i]? = _
        rw [Int.toNat_of_nonneg (by omega)]; exact hl'
      · show RecTree.rightT[i]? = _
        rw [Int.toNat_of_nonneg (by omega)]; exact hr
      · show l.toNat < 47; omega
      · show r.toNat < 47; omega

theorem round6_decimal (k : ℤ) : round6 ((k : ℝ) / 10 ^ 6) = (k : ℝ) / 10 ^ 6 := by
  unfold round6
  have : (k : ℝ) / 10 ^ 6 * 10 ^ 6 = (k : ℝ) := by field_simp
  rw [this, halfEven_int]

theorem round6_rat (q : ℚ) (h : (q * 10 ^ 6).den = 1) : round6 (q : ℝ) = (q : ℝ) := by
  have e : (q : ℝ) = (((q * 10 ^ 6).num : ℤ) : ℝ) / 10 ^ 6 := by
    have h2 : q * 10 ^ 6 = ((q * 10 ^ 6).num : ℚ) := (Rat.coe_int_num_of_den_eq_one h).symm
    have h3 : ((q * 10 ^ 6 : ℚ) : ℝ) = (((q * 10 ^ 6).num : ℚ) : ℝ) := by rw [← h2]
    push_cast at h3
    rw [eq_div_iff (by positivity), h3]
  rw [e, round6_decimal]

theorem tables_decimal : (∀ q ∈ RecTree.thresholdT, (q * 10 ^ 6).den = 1) ∧ (∀ q ∈ RecTree.meanT, (q * 10 ^ 6).den = 1) ∧
    (∀ q ∈ RecTree.stdT, (q * 10 ^ 6).den = 1) := by refine ⟨?_, ?_, ?_⟩ <;> decide +kernel

set_option maxRecDepth 100000 in
/-- The hypotheses of C93_shipped_diagnosis are met. -/
theorem shippedTree_export : exportTree shippedTree ((RecTree.meanT.map fun q : ℚ => (q : ℝ)).zip (RecTree.stdT.map fun q : ℚ => (q : ℝ))) = shipped := by
  have hr : ∀ l : List ℚ, (∀ q ∈ l, (q * 10 ^ 6).den = 1) → (l.map fun q : ℚ => (q : ℝ)).map round6 = l.map fun q : ℚ => (q : ℝ) := by
    intro l h
    rw [List.map_map]
    exact List.map_congr_left fun q hq => round6_rat q (h q hq)
  obtain ⟨t1, t2, t3⟩ := tables_decimal
  have i0 : pyInt 0 = 0 := by exact_mod_cast pyInt_nat 0
  have i1 : pyInt 1 = 1 := by exact_mod_cast pyInt_nat 1
  have i9 : pyInt (1 / 9) = 0 := by
    have := pyInt_fraction 1 9 (by norm_num) (by norm_num)
    norm_num at this
    norm_num
    exact this
  have hz : ∀ l : List ℕ, (l.map fun i => if i = 46 then ([0, 0, 0, 0, 1, 0, 0, 0, 0] : List ℝ) else [1 / 9, 1 / 9, 1 / 9, 1 / 9, 1 / 9, 1 / 9, 1 / 9, 1 / 9, 1 / 9]).map (fun node => node.map pyInt)
      = l.map fun i => if i = 46 then [0, 0, 0, 0, 1, 0, 0, 0, 0] else [0, 0, 0, 0, 0, 0, 0, 0, 0] := by
    intro l
    rw [List.map_map]
    refine List.map_congr_left fun i _ => ?_
    simp only [Function.comp]
    split <;> simp only [List.map_cons, List.map_nil, i0, i1, i9]
  unfold exportTree shipped
  congr 1
  · show List.map (round6 ∘ Prod.fst) _ = _
    rw [← List.map_map, List.map_fst_zip (by simp [RecTree.meanT, RecTree.stdT]), hr _ t2]
  · show List.map (round6 ∘ Prod.snd) _ = _
    rw [← List.map_map, List.map_snd_zip (by simp [RecTree.meanT, RecTree.stdT]), hr _ t3]
  · exact hr _ t1
  · simp only [shippedTree]
    rw [hz]
    decide +kernel

/-- So the diagnosis applies, and e.g. leaf 4 holds two different labels there. -/
example : ∃ a ∈ shippedTree.labels tableRows 4, ∃ b ∈ shippedTree.labels tableRows 4, a ≠ b :=
  ((C93_shipped_diagnosis _ _ shippedTree_export tableRows).2 shippedTree_fits 4 rfl).1 (by norm_num)

end Precise.Oos
