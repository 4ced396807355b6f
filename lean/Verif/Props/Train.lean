import Verif.Model.Train
import Verif.Props.OosShipped

/-!
# C92: training the recommender, and the study of the trained recommender
-/

set_option linter.all false

namespace Precise.Oos

open Precise.Spec

variable {G : Type} (L : Lapack)

/-- The numbers the training draws from. -/
def sizesDrawn : List ℕ := [15, 25, 40, 60]
def ratiosDrawn : List ℚ := [1 / 2, 4 / 5, 3 / 2, 3]

/-- Contracts on the sources of randomness: what is drawn is in the list drawn from, and a sample has the size asked for. -/
structure Draws.Fair (D : Draws G) : Prop where
  pick_mem : ∀ l g, l ≠ [] → (D.pick l g).1 ∈ l
  size_mem : ∀ g, (D.size g).1 ∈ sizesDrawn
  ratio_mem : ∀ g, (D.ratio g).1 ∈ ratiosDrawn
  rows_length : ∀ e p n m g, (D.rows e p n m g).1.1.length = n ∧ (D.rows e p n m g).1.2.length = m

/-- C92: the sizes of the training problems. Between 10 and `3 p` rows, so `p/n` lies between 1/3 and 25/12. -/
theorem C92_sizes (p : ℕ) (hp : p ∈ sizesDrawn) (r : ℚ) (hr : r ∈ ratiosDrawn) :
    10 ≤ trainSize p r ∧ trainSize p r ≤ 3 * p ∧ 12 * p ≤ 25 * trainSize p r ∧ ((10 : ℚ) ≤ p * r → trainSize p r ≤ p * r ∧ p * r < trainSize p r + 1) := by
  have key : ∀ x : ℚ, 0 ≤ x → (⌊x⌋₊ : ℚ) ≤ x ∧ x < ⌊x⌋₊ + 1 := fun x hx => ⟨Nat.floor_le hx, Nat.lt_floor_add_one x⟩
  have h0 : (0 : ℚ) ≤ p * r := by
    have : (0 : ℚ) ≤ r := by
      simp only [ratiosDrawn, List.mem_cons, List.not_mem_nil, or_false] at hr
      rcases hr with rfl | rfl | rfl | rfl <;> norm_num
    positivity
  obtain ⟨k1, k2⟩ := key _ h0
  have hr3 : r ≤ 3 ∧ 1 / 2 ≤ r := by
    simp only [ratiosDrawn, List.mem_cons, List.not_mem_nil, or_false] at hr
    rcases hr with rfl | rfl | rfl | rfl <;> norm_num
  have hp15 : 15 ≤ p ∧ (p : ℚ) ≤ 60 := by
    simp only [sizesDrawn, List.mem_cons, List.not_mem_nil, or_false] at hp
    rcases hp with rfl | rfl | rfl | rfl <;> norm_num
  have hpos : (0 : ℚ) ≤ p := by positivity
  unfold trainSize
  have hfl : ⌊(p : ℚ) * r⌋₊ ≤ 3 * p := by
    have : ((⌊(p : ℚ) * r⌋₊ : ℕ) : ℚ) ≤ ((3 * p : ℕ) : ℚ) := by push_cast; nlinarith [hr3.1]
    exact_mod_cast this
  refine ⟨le_max_right _ _, by omega, ?_, fun h10 => ?_⟩
  · simp only [sizesDrawn, List.mem_cons, List.not_mem_nil, or_false] at hp
    simp only [ratiosDrawn, List.mem_cons, List.not_mem_nil, or_false] at hr
    have h2 : (p : ℚ) < 2 * ⌊(p : ℚ) * r⌋₊ + 2 := by nlinarith [hr3.2]
    have h3 : p < 2 * ⌊(p : ℚ) * r⌋₊ + 2 := by exact_mod_cast h2
    rcases hp with rfl | rfl | rfl | rfl <;> omega
  · have : 10 ≤ ⌊(p : ℚ) * r⌋₊ := Nat.le_floor h10
    rw [max_eq_left this]
    exact ⟨k1, k2⟩

/-- The label is the estimator of rank 1: the first best score. -/
theorem bestName_rank (s : Scores) (hn : (s.map Prod.fst).Nodup) (hne : s ≠ []) :
    bestName s ∈ s.map Prod.fst ∧ rankIn s (bestName s) = 1 := by
  classical
  cases hm : s.argmax Prod.snd with
  | none => exact absurd (List.argmax_eq_none.1 hm) hne
  | some m =>
    have hmem : m ∈ s := List.argmax_mem hm
    have hname : bestName s = m.1 := by unfold bestName; rw [hm]; rfl
    have hin : m.1 ∈ s.map Prod.fst := List.mem_map.2 ⟨m, hmem, rfl⟩
    rw [hname]
    refine ⟨hin, ?_⟩
    have hl := lookup_of_mem_nodup s hn m hmem
    have beats : ∀ k ∈ s.map Prod.fst, k ≠ m.1 → rankIn s m.1 < rankIn s k := by
      intro k hk hkm
      obtain ⟨e, he, rfl⟩ := List.mem_map.1 hk
      have hle := lookup_of_mem_nodup s hn e he
      rw [C85_ranks_order s hn m.1 e.1 hin hk, hl, hle]
      simp only [Option.getD_some]
      have h1 : e.2 ≤ m.2 := List.le_of_mem_argmax he hm
      rcases h1.lt_or_eq with h | h
      · exact Or.inl h
      · refine Or.inr ⟨h.symm, ?_⟩
        have h2 := List.index_of_argmax hm he h.ge
        rw [@idxOf_key _ instBEqOfDecidableEq inferInstance s hn m hmem, @idxOf_key _ instBEqOfDecidableEq inferInstance s hn e he] at h2
        refine lt_of_le_of_ne h2 fun h3 => hkm ?_
        exact ((List.idxOf_inj hin).1 h3).symm
    obtain ⟨r1, r2, r3⟩ := C85_ranks s hn
    have hlen : 0 < s.length := List.length_pos_iff.2 hne
    have h1 : 1 ∈ (ranks s).map Prod.snd := by rw [r2]; exact List.mem_map.2 ⟨0, List.mem_range.2 hlen, rfl⟩
    obtain ⟨e, he, he1⟩ := List.mem_map.1 h1
    have hek : e.1 ∈ s.map Prod.fst := r3.mem_iff.1 (List.mem_map.2 ⟨e, he, rfl⟩)
    have hb : 1 ≤ rankIn s m.1 := (rankIn_bounds s hn m.1 hin).1
    have hr : rankIn s e.1 = 1 := by
      have h3 := r1 e.1 hek
      rw [lookup_of_mem_nodup (ranks s) ((r3.nodup_iff).2 hn) e he] at h3
      rw [← he1]; exact (Option.some.inj h3).symm
    by_cases hk : e.1 = m.1
    · rw [← hk]; exact hr
    · have := beats e.1 hek hk; omega

variable {p : ℕ}

theorem trialScores_names (assess : Matrix (Fin p) (Fin p) ℝ → List (Fin p → ℝ) → Except PyErr (WithBot ℝ)) (train test : List (Fin p → ℝ)) :
    (trialScores L assess train test).map Prod.fst = estimatorNames := by
  unfold trialScores
  rw [List.map_map]
  exact C86_names L

/-- What a training problem is: drawn from one of the given ensembles; labelled with the estimator that has rank 1 (the best score
on fresh rows of the same covariance, the first in the registry if several) when all are fitted to the window the features are
taken from. -/
structure Spec.Problem (D : Draws G) (assess : Judge) (ens : List String) (x : Features × String) : Prop where
  drawn : ∃ e ∈ ens, ∃ p ∈ sizesDrawn, ∃ r ∈ ratiosDrawn, ∃ g, ∃ train test : List (Fin p → ℝ),
    train = (D.rows e p (trainSize p r) 400 g).1.1 ∧ test = (D.rows e p (trainSize p r) 400 g).1.2 ∧
    x.1 = covarianceFeatures L train ∧
    rankIn (trialScores L (assess p) train test) x.2 = 1
  registered : x.2 ∈ estimatorNames

theorem problem_spec (D : Draws G) (hD : D.Fair) (assess : Judge) (ens : List String) (hens : ens ≠ []) (g : G) :
    Spec.Problem L D assess ens (problem L D assess ens g).1 := by
  have h1 := hD.pick_mem ens g hens
  have h2 := hD.size_mem (D.pick ens g).2
  have h3 := hD.ratio_mem (D.size (D.pick ens g).2).2
  have hn := trialScores_names L (assess (D.size (D.pick ens g).2).1) (D.rows (D.pick ens g).1 (D.size (D.pick ens g).2).1
    (trainSize (D.size (D.pick ens g).2).1 (D.ratio (D.size (D.pick ens g).2).2).1) 400 (D.ratio (D.size (D.pick ens g).2).2).2).1.1
    (D.rows (D.pick ens g).1 (D.size (D.pick ens g).2).1
    (trainSize (D.size (D.pick ens g).2).1 (D.ratio (D.size (D.pick ens g).2).2).1) 400 (D.ratio (D.size (D.pick ens g).2).2).2).1.2
  obtain ⟨b1, b2⟩ := bestName_rank _
    (by rw [hn]; exact names_nodup) (fun h => by rw [h] at hn; exact absurd hn (by decide))
  exact ⟨⟨_, h1, _, h2, _, h3, (D.ratio (D.size (D.pick ens g).2).2).2, _, _, rfl, rfl, rfl, b2⟩, by rw [hn] at b1; exact b1⟩

/-- C92: the training table. `n_problems` problems, each drawn from one of the given ensembles and labelled with the estimator of rank 1. -/
theorem C92_training_data (D : Draws G) (hD : D.Fair) (assess : Judge) (ens : List String) (hens : ens ≠ []) (n : ℕ) (g : G) :
    (trainingData L D assess ens n g).1.length = n ∧ ∀ x ∈ (trainingData L D assess ens n g).1, Spec.Problem L D assess ens x := by
  induction n generalizing g with
  | zero => exact ⟨rfl, fun x hx => by cases hx⟩
  | succ n ih =>
    obtain ⟨i1, i2⟩ := ih (problem L D assess ens g).2
    refine ⟨?_, fun x hx => ?_⟩
    · show (_ :: (trainingData L D assess ens n (problem L D assess ens g).2).1).length = _
      rw [List.length_cons, i1]
    · rcases List.mem_cons.1 (show x ∈ (problem L D assess ens g).1 :: (trainingData L D assess ens n (problem L D assess ens g).2).1 from hx) with rfl | hx
      · exact problem_spec L D hD assess ens hens g
      · exact i2 x hx

/-- C92 (finding): the tree never sees a window with many more rows than variables. Every training problem has `p/n` between 1/3 and
25/12, so the regime `p/n ≤ 1/4`, the only one where the shipped recommender's top pick is not constant, has no training problem. -/
theorem C92_regime (D : Draws G) (hD : D.Fair) (assess : Judge) (ens : List String) (x : Features × String) (hx : Spec.Problem L D assess ens x) :
    1 / 3 ≤ x.1.pOverN ∧ x.1.pOverN ≤ 25 / 12 ∧ 10 ≤ x.1.n ∧ x.1.hard := by
  obtain ⟨e, -, p, hp, r, hr, g, train, test, htr, -, hf, -⟩ := hx.drawn
  have hl : train.length = trainSize p r := by rw [htr]; exact (hD.rows_length _ _ _ _ _).1
  obtain ⟨s1, s2, s3, -⟩ := C92_sizes p hp r hr
  have hpn : x.1.pOverN = (p : ℝ) / (trainSize p r : ℝ) := by rw [hf, ← hl]; rfl
  have hn : x.1.n = trainSize p r := by rw [hf, ← hl]; rfl
  have hpos : (0 : ℝ) < trainSize p r := by exact_mod_cast (by omega : 0 < trainSize p r)
  have a : (trainSize p r : ℝ) ≤ 3 * p := by exact_mod_cast s2
  have b : (12 : ℝ) * p ≤ 25 * trainSize p r := by exact_mod_cast s3
  have c : 1 / 3 ≤ x.1.pOverN := by rw [hpn, le_div_iff₀ hpos]; linarith
  refine ⟨c, by rw [hpn, div_le_iff₀ hpos]; linarith, by rw [hn]; exact s1, Or.inl (Or.inl ?_)⟩
  linarith

theorem mapM_scores {α : Type} (l : List (String × α)) (F : α → Except PyErr (WithBot ℝ)) (s : Scores)
    (h : (l.mapM fun e => do let v ← F e.2; pure (e.1, v)) = (.ok s : Except PyErr Scores)) :
    s = l.map fun e => (e.1, match F e.2 with | .error _ => ⊥ | .ok v => v) := by
  induction l generalizing s with
  | nil => simpa [pure, Except.pure] using h.symm
  | cons a t ih =>
    rw [List.mapM_cons] at h
    cases hF : F a.2 with
    | error e => rw [hF] at h; cases h
    | ok v =>
      rw [hF] at h
      cases ht : (t.mapM fun e => do let v ← F e.2; pure (e.1, v) : Except PyErr Scores) with
      | error e =>
        have : (do let b ← (pure (a.1, v) : Except PyErr (String × WithBot ℝ)); let bs ← t.mapM (fun e => do let v ← F e.2; pure (e.1, v)); pure (b :: bs) : Except PyErr Scores) = .ok s := h
        rw [ht] at this; cases this
      | ok s' =>
        have : (do let b ← (pure (a.1, v) : Except PyErr (String × WithBot ℝ)); let bs ← t.mapM (fun e => do let v ← F e.2; pure (e.1, v)); pure (b :: bs) : Except PyErr Scores) = .ok s := h
        rw [ht] at this
        injection this with this
        rw [← this, ih s' ht, List.map_cons, hF]

/-- C92: `_train_recommender` mirrors the shipped pipeline: whenever `generate` finishes, the training table it returns is the one
`_train_recommender` builds from the same generator and the same ensembles. -/
theorem C92_mirrors (D : Draws G) (assess : Judge) (ens : List String) (n : ℕ) (g : G) (data : List (Features × String))
    (h : generate L D assess ens n g = .ok data) : (trainingData L D assess ens n g).1 = data := by
  induction n generalizing g data with
  | zero => injection h
  | succ n ih =>
    have h0 : ∃ (p : ℕ) (T : (List (Fin p → ℝ) × List (Fin p → ℝ)) × G),
        problem L D assess ens g = ((covarianceFeatures L T.1.1, bestName (trialScores L (assess p) T.1.1 T.1.2)), T.2) ∧
        generate L D assess ens (n + 1) g = (match strictScores L (assess p) T.1.1 T.1.2 with
          | .error err => .error err
          | .ok scores =>
            match generate L D assess ens n T.2 with
            | .error err => .error err
            | .ok rest => .ok ((covarianceFeatures L T.1.1, bestName scores) :: rest)) := ⟨_, _, rfl, rfl⟩
    obtain ⟨p, ⟨⟨train, test⟩, g4⟩, hp, hg⟩ := h0
    rw [hg] at h
    show (problem L D assess ens g).1 :: (trainingData L D assess ens n (problem L D assess ens g).2).1 = data
    rw [hp]
    simp only [] at h ⊢
    clear hg hp
    cases hs : strictScores L (assess p) train test with
    | error err => rw [hs] at h; cases h
    | ok s =>
      rw [hs] at h
      simp only [] at h
      cases hg : generate L D assess ens n g4 with
      | error err => rw [hg] at h; cases h
      | ok rest =>
        rw [hg] at h
        injection h with h
        rw [← h, ih g4 rest hg]
        congr 2
        have hs' : s = trialScores L (assess p) train test := by
          have := mapM_scores (outOfBox L p) (fun f => do let cov ← f [.fit (.batch train)]; assess p cov test) s (by
            rw [← hs]; unfold strictScores
            congr 1; funext e
            cases e.2 [.fit (.batch train)] with
            | error _ => rfl
            | ok cov => rfl)
          rw [this]
          unfold trialScores
          refine List.map_congr_left fun e _ => ?_
          congr 1
          cases hc : e.2 [.fit (.batch train)] with
          | error _ => rfl
          | ok cov =>
            show (match assess p cov test with | .error _ => ⊥ | .ok v => v) = _
            cases hv : assess p cov test <;> simp only [hv]
        rw [hs']

/-! ### The tree walk -/

theorem walkTree_leaf {feature : List ℤ} {threshold : List ℝ} {left right : List ℤ} {xs : List ℝ} {i : ℕ} (h : feature[i]? = some (-2)) (fuel : ℕ) :
    walkTree feature threshold left right xs fuel i = some (i : ℤ) := by
  unfold walkTree
  rw [pyGet_nat, h]
  rfl

theorem walkTree_step {feature : List ℤ} {threshold : List ℝ} {left right : List ℤ} {xs : List ℝ} {i f l r : ℕ} {x th : ℝ}
    (hf : feature[i]? = some (f : ℤ)) (hx : xs[f]? = some x) (ht : threshold[i]? = some th) (hl : left[i]? = some (l : ℤ)) (hr : right[i]? = some (r : ℤ))
    (fuel : ℕ) : walkTree feature threshold left right xs (fuel + 1) i =
      open Classical in if x ≤ th then walkTree feature threshold left right xs fuel l else walkTree feature threshold left right xs fuel r := by
  classical
  conv_lhs => unfold walkTree
  rw [pyGet_nat, hf]
  simp only [Option.bind_some]
  rw [if_neg (by omega), pyGet_nat, hx, pyGet_nat, ht, pyGet_nat, hl, pyGet_nat, hr]
  simp only [Option.bind_some]
  split <;> rfl

/-- Any walk through the arrays of a fitted tree, with these or other thresholds, ends in a leaf that holds a training row. -/
theorem walkTree_total {norm : Bool} {t : Tree} {data : List (List ℝ × String)} (hF : Fits norm t data) (threshold : List ℝ)
    (hth : ∀ i : ℕ, t.threshold[i]? ≠ none → threshold[i]? ≠ none) (xs : List ℝ) (hxs : xs.length = 7) :
    ∃ l : ℕ, l < t.feature.length ∧ walkTree t.feature threshold t.left t.right xs t.feature.length 0 = some (l : ℤ) ∧ t.feature[l]? = some (-2) ∧
      t.inLeaf data l ≠ [] ∧
      t.value[l]? = some (t.classes.map fun c => (((t.inLeaf data l).map Prod.snd).count c : ℝ) / if norm then ((t.inLeaf data l).length : ℝ) else 1) := by
  have gen : ∀ (fuel i : ℕ), i < t.feature.length → t.feature.length ≤ i + fuel + 1 →
      ∃ l : ℕ, l < t.feature.length ∧ walkTree t.feature threshold t.left t.right xs fuel i = some (l : ℤ) ∧ t.feature[l]? = some (-2) ∧
        t.inLeaf data l ≠ [] ∧
        t.value[l]? = some (t.classes.map fun c => (((t.inLeaf data l).map Prod.snd).count c : ℝ) / if norm then ((t.inLeaf data l).length : ℝ) else 1) := by
    intro fuel
    induction fuel with
    | zero =>
      intro i hi hb
      rcases hF.node i hi with ⟨h1, h2, h3⟩ | ⟨f, l, r, th, -, -, -, -, -, h1, h2, -, -⟩
      · exact ⟨i, hi, walkTree_leaf h1 0, h1, h2, h3⟩
      · omega
    | succ fuel ih =>
      intro i hi hb
      rcases hF.node i hi with ⟨h1, h2, h3⟩ | ⟨f, l, r, th, h1, h2, h3, h4, h5, h6, h7, h8, h9⟩
      · exact ⟨i, hi, walkTree_leaf h1 _, h1, h2, h3⟩
      · obtain ⟨x, hx⟩ : ∃ x, xs[f]? = some x := ⟨xs[f]'(by omega), List.getElem?_eq_getElem _⟩
        obtain ⟨th', ht'⟩ := Option.ne_none_iff_exists'.1 (hth i (by rw [h3]; simp))
        rw [walkTree_step h1 hx ht' h4 h5]
        classical
        split
        · exact ih l h7 (by omega)
        · exact ih r h9 (by omega)
  exact gen _ 0 hF.root (by omega)

theorem zip_map_argmax (cs : List String) (F : String → ℝ) :
    ((cs.zip (cs.map F)).argmax Prod.snd).map Prod.fst = cs.argmax F := by
  have h : cs.zip (cs.map F) = cs.map fun c => (c, F c) := by
    induction cs with
    | nil => rfl
    | cons a t ih => simp [ih]
  rw [h]
  have gen : ∀ l : List String, ((l.map fun c => (c, F c)).argmax Prod.snd) = (l.argmax F).map fun c => (c, F c) := by
    intro l
    induction l with
    | nil => rfl
    | cons a t ih =>
      rw [List.map_cons, List.argmax_cons, List.argmax_cons, ih]
      cases hm : t.argmax F with
      | none => rfl
      | some m =>
        simp only [Option.map_some]
        split <;> rfl
  rw [gen cs, Option.map_map]
  cases cs.argmax F <;> rfl

/-- the labels in the leaf of a row -/
noncomputable def Tree.labels (t : Tree) (data : List (List ℝ × String)) (l : ℕ) : List String := (t.inLeaf data l).map Prod.snd

theorem label_mem_classes {norm : Bool} {t : Tree} {data : List (List ℝ × String)} (hF : Fits norm t data) {l : ℕ} {c : String}
    (hc : c ∈ t.labels data l) : c ∈ t.classes := by
  obtain ⟨r, hr, rfl⟩ := List.mem_map.1 hc
  exact (hF.classes_mem _).2 (List.mem_map.2 ⟨r, (List.mem_filter.1 hr).1, rfl⟩)

/-- C92: what the fitted tree predicts: a label of the training table, and a most frequent one in the leaf the row falls into. -/
theorem C92_predict {norm : Bool} (t : Tree) (data : List (List ℝ × String)) (hF : Fits norm t data) (xs : List ℝ) (hxs : xs.length = 7) :
    ∃ (l : ℕ) (c : String), t.leaf xs = some (l : ℤ) ∧ t.predict xs = some c ∧ c ∈ t.labels data l ∧
      ∀ d, (t.labels data l).count d ≤ (t.labels data l).count c := by
  obtain ⟨l, h1, h2, h3, h4, h5⟩ := walkTree_total hF t.threshold (fun _ h => h) xs hxs
  have hleaf : t.leaf xs = some (l : ℤ) := h2
  obtain ⟨c0, hc0⟩ := List.exists_mem_of_ne_nil _ (show t.labels data l ≠ [] by unfold Tree.labels; simpa using h4)
  have hpred : t.predict xs = t.classes.argmax fun c => ((t.labels data l).count c : ℝ) / if norm then ((t.inLeaf data l).length : ℝ) else 1 := by
    unfold Tree.predict
    rw [hleaf, Option.bind_some, pyGet_nat, h5, Option.bind_some]
    exact zip_map_argmax _ _
  have hden : (0 : ℝ) < if norm then ((t.inLeaf data l).length : ℝ) else 1 := by
    split
    · exact_mod_cast List.length_pos_iff.2 h4
    · exact one_pos
  cases hm : t.classes.argmax fun c => ((t.labels data l).count c : ℝ) / if norm then ((t.inLeaf data l).length : ℝ) else 1 with
  | none =>
    have := List.argmax_eq_none.1 hm
    have h := label_mem_classes hF hc0
    rw [this] at h; cases h
  | some c =>
    have hmax : ∀ d ∈ t.classes, (t.labels data l).count d ≤ (t.labels data l).count c := by
      intro d hd
      have := List.le_of_mem_argmax hd hm
      rw [div_le_div_iff_of_pos_right hden] at this
      exact_mod_cast this
    have hcc : 0 < (t.labels data l).count c := lt_of_lt_of_le (List.count_pos_iff.2 hc0) (hmax c0 (label_mem_classes hF hc0))
    refine ⟨l, c, hleaf, by rw [hpred, hm], List.count_pos_iff.1 hcc, fun d => ?_⟩
    by_cases hd : d ∈ t.labels data l
    · exact hmax d (label_mem_classes hF hd)
    · rw [List.count_eq_zero.2 hd]; exact Nat.zero_le _

theorem standardize_length (ms : List (ℝ × ℝ)) (hms : ms.length = 7) (f : Features) : (standardize ms (featureList f)).length = 7 := by
  unfold standardize
  rw [List.length_zipWith, hms]; rfl

theorem scaling_length (rows : List (List ℝ)) : (scaling rows).length = 7 := by unfold scaling; simp

/-- The learner's contract: fitted to a non-empty table it returns a tree as `Fits` says. -/
def LearnsTrees (learn : List (List ℝ × String) → Tree) : Prop := ∀ data, data ≠ [] → ∃ norm, Fits norm (learn data) data

theorem predictor_mem (learn : List (List ℝ × String) → Tree) (hl : LearnsTrees learn) (data : List (Features × String)) (hne : data ≠ [])
    (window : List (Fin p → ℝ)) : predictor L learn data window ∈ data.map Prod.snd := by
  obtain ⟨norm, hF⟩ := hl (trainingTable data) (by unfold trainingTable; simpa using hne)
  obtain ⟨l, c, -, h2, h3, -⟩ := C92_predict _ _ hF (standardize (scaling (data.map fun d => featureList d.1)) (featureList (covarianceFeatures L window)))
    (standardize_length _ (scaling_length _) _)
  unfold predictor
  rw [h2]
  have := (hF.classes_mem c).1 (label_mem_classes hF h3)
  unfold trainingTable at this
  rw [List.map_map] at this
  exact this

/-- C92: the trained recommender always answers, with the label of a training problem, so with a registered estimator that was best
on some problem of the training families. -/
theorem C92_predictor (D : Draws G) (hD : D.Fair) (assess : Judge) (ens : List String) (hens : ens ≠ []) (n : ℕ) (hn : 0 < n) (g : G)
    (learn : List (List ℝ × String) → Tree) (hl : LearnsTrees learn) (window : List (Fin p → ℝ)) :
    let pick := predictor L learn (trainingData L D assess ens n g).1 window
    pick ∈ estimatorNames ∧ ∃ x ∈ (trainingData L D assess ens n g).1, x.2 = pick ∧ Spec.Problem L D assess ens x := by
  obtain ⟨c1, c2⟩ := C92_training_data L D hD assess ens hens n g
  have hne : (trainingData L D assess ens n g).1 ≠ [] := by rw [← List.length_pos_iff, c1]; exact hn
  obtain ⟨x, hx, hxe⟩ := List.mem_map.1 (predictor_mem L learn hl _ hne window)
  exact ⟨by rw [← hxe]; exact (c2 x hx).registered, x, hx, hxe, c2 x hx⟩

/-! ### The study -/

theorem bestFixed_recommender (pick : List String → G → String × G) (draw : String → G → (List (Fin p → ℝ) × List (Fin p → ℝ)) × G)
    (assess : Matrix (Fin p) (Fin p) ℝ → List (Fin p → ℝ) → Except PyErr (WithBot ℝ)) (r r' : Option (List (Fin p → ℝ) → String))
    (ens : List String) (trials : ℕ) (g : G) :
    bestFixed pick (trialOf L draw assess r) ens trials g = bestFixed pick (trialOf L draw assess r') ens trials g := by
  have : ∀ n g, drawTrials pick (trialOf L draw assess r) ens n g = drawTrials pick (trialOf L draw assess r') ens n g := by
    intro n
    induction n with
    | zero => intro g; rfl
    | succ n ih =>
      intro g
      show (_ :: (drawTrials pick (trialOf L draw assess r) ens n _).1, (drawTrials pick (trialOf L draw assess r) ens n _).2) = _
      rw [ih]; rfl
  unfold bestFixed
  rw [this]

/-- What a line of the trained study says: a recommender fitted to problems of the other families only, judged on the held-out family
as in C85. -/
def Spec.TrainedLine (D : Draws G) (assess : Judge) (learn : List (List ℝ × String) → Tree) (p nTrain nTest : ℕ)
    (ens : List String) (trials nProblems : ℕ) (held : String) (r : Result) : Prop :=
  ∃ data : List (Features × String), data.length = nProblems ∧ (∀ x ∈ data, Spec.Problem L D assess (ens.filter fun e => e ≠ held) x) ∧
    Spec.Line estimatorNames ens (trialOf L (fun e => D.rows e p nTrain nTest) (assess p) (some fun window => predictor L learn data window)) trials held r

theorem holdOutTrained_spec (D : Draws G) (hD : D.Fair) (assess : Judge) (learn : List (List ℝ × String) → Tree) (hl : LearnsTrees learn)
    (p nTrain nTest : ℕ) (ens : List String) (trials nProblems : ℕ) (ht : 0 < trials) (hp : 0 < nProblems) (held : String)
    (hother : ∃ e ∈ ens, e ≠ held) (g : G) :
    ∃ r g', holdOutTrained L D assess learn p nTrain nTest ens trials nProblems held g = (.ok r, g') ∧
      Spec.TrainedLine L D assess learn p nTrain nTest ens trials nProblems held r := by
  have hrest : (ens.filter fun e => e ≠ held) ≠ [] := by
    obtain ⟨e, he, hne⟩ := hother
    exact List.ne_nil_of_mem (List.mem_filter.2 ⟨he, by simpa using hne⟩)
  obtain ⟨c1, c2⟩ := C92_training_data L D hD assess _ hrest nProblems g
  generalize hdg : trainingData L D assess (ens.filter fun e => e ≠ held) nProblems g = dg at c1 c2
  obtain ⟨data, g1⟩ := dg
  simp only [] at c1 c2
  have hne : data ≠ [] := by rw [← List.length_pos_iff, c1]; exact hp
  have hS : Sound estimatorNames D.pick (trialOf L (fun e => D.rows e p nTrain nTest) (assess p) (some fun window => predictor L learn data window)) :=
    C87_sound L D.pick hD.pick_mem _ _ _ (fun f hf rows => by
      injection hf with hf
      subst hf
      obtain ⟨x, hx, hxe⟩ := List.mem_map.1 (predictor_mem L learn hl data hne rows)
      show predictor L learn data rows ∈ _
      rw [← hxe]; exact (c2 x hx).registered)
  obtain ⟨r, g', h1, h2⟩ := holdOut_spec estimatorNames (by decide) (by decide) hS ens trials ht held hother g1
  refine ⟨r, g', ?_, data, c1, c2, h2⟩
  rw [← h1]
  unfold holdOutTrained holdOut
  rw [if_neg (by rintro (h | h); exacts [by omega, hrest h]), hdg]
  simp only []
  rw [bestFixed_recommender L D.pick (fun e => D.rows e p nTrain nTest) (assess p) none (some fun window => predictor L learn data window)]
  rfl

/-- C92: the study of the trained recommender completes for any seed, with one line per family, each as `TrainedLine` says: the
recommender and the best fixed estimator are chosen on the other families only, both are evaluated on the same held-out trials. -/
theorem C92_study (D : Draws G) (hD : D.Fair) (assess : Judge) (learn : List (List ℝ × String) → Tree) (hl : LearnsTrees learn)
    (p nTrain nTest : ℕ) (ens : List String) (he : ens.Nodup) (h2 : 2 ≤ ens.length) (trials nProblems : ℕ) (ht : 0 < trials)
    (hp : 0 < nProblems) (g : G) :
    ∃ rs, leaveOutTrained L D assess learn p nTrain nTest ens trials nProblems ens g = .ok rs ∧ rs.map Prod.fst = ens ∧
      ∀ hr ∈ rs, Spec.TrainedLine L D assess learn p nTrain nTest ens trials nProblems hr.1 hr.2 := by
  have other : ∀ held, ∃ e ∈ ens, e ≠ held := by
    intro held
    by_contra hcon
    push Not at hcon
    have : ens.length ≤ 1 := by
      match ens, he, hcon with
      | [], _, _ => simp
      | [a], _, _ => simp
      | a :: b :: t, he, hcon =>
        have h1 := hcon a (by simp)
        have h2 := hcon b (by simp)
        rw [List.nodup_cons] at he
        exact absurd (by rw [h1, h2]; simp) he.1
    omega
  have gen : ∀ (l : List String) (g : G), ∃ rs, leaveOutTrained L D assess learn p nTrain nTest ens trials nProblems l g = .ok rs ∧
      rs.map Prod.fst = l ∧ ∀ hr ∈ rs, Spec.TrainedLine L D assess learn p nTrain nTest ens trials nProblems hr.1 hr.2 := by
    intro l
    induction l with
    | nil => intro g; exact ⟨[], rfl, rfl, by simp⟩
    | cons held l ih =>
      intro g
      obtain ⟨r, g', h1, h2⟩ := holdOutTrained_spec L D hD assess learn hl p nTrain nTest ens trials nProblems ht hp held (other held) g
      obtain ⟨rs, i1, i2, i3⟩ := ih g'
      refine ⟨(held, r) :: rs, ?_, by simp [i2], fun hr hm => ?_⟩
      · unfold leaveOutTrained
        rw [h1]
        simp only []
        rw [i1]
      · rcases List.mem_cons.1 hm with rfl | hm
        · exact h2
        · exact i3 hr hm
  exact gen ens g

/-- C92: leak-free. From the same state of the generator, two worlds that differ only in the rows of the held-out family fit the same
recommender and select the same fixed estimator, and leave the generator in the same state. -/
theorem C92_no_leak (D D' : Draws G) (hD : D.Fair) (hpick : D'.pick = D.pick) (hsize : D'.size = D.size) (hratio : D'.ratio = D.ratio)
    (held : String) (hrows : ∀ e, e ≠ held → D'.rows e = D.rows e) (assess : Judge) (ens : List String) (hother : ∃ e ∈ ens, e ≠ held)
    (nProblems : ℕ) (g : G) (p nTrain nTest trials : ℕ) (g1 : G) :
    trainingData L D' assess (ens.filter fun e => e ≠ held) nProblems g = trainingData L D assess (ens.filter fun e => e ≠ held) nProblems g ∧
    bestFixed D'.pick (trialOf L (fun e => D'.rows e p nTrain nTest) (assess p) none) (ens.filter fun e => e ≠ held) trials g1
      = bestFixed D.pick (trialOf L (fun e => D.rows e p nTrain nTest) (assess p) none) (ens.filter fun e => e ≠ held) trials g1 := by
  have hrest : (ens.filter fun e => e ≠ held) ≠ [] := by
    obtain ⟨e, he, hne⟩ := hother
    exact List.ne_nil_of_mem (List.mem_filter.2 ⟨he, by simpa using hne⟩)
  constructor
  · have hone : ∀ g, problem L D' assess (ens.filter fun e => e ≠ held) g = problem L D assess (ens.filter fun e => e ≠ held) g := by
      intro g
      have hm := hD.pick_mem _ g hrest
      have hne : (D.pick (ens.filter fun e => e ≠ held) g).1 ≠ held := by simpa using (List.mem_filter.1 hm).2
      unfold problem
      rw [hpick, hsize, hratio]
      exact congrArg (fun R : (p n m : ℕ) → G → (List (Fin p → ℝ) × List (Fin p → ℝ)) × G =>
        let p := (D.size (D.pick (ens.filter fun e => e ≠ held) g).2).1
        let r := D.ratio (D.size (D.pick (ens.filter fun e => e ≠ held) g).2).2
        let T := R p (trainSize p r.1) 400 r.2
        ((covarianceFeatures L T.1.1, bestName (trialScores L (assess p) T.1.1 T.1.2)), T.2)) (hrows _ hne)
    induction nProblems generalizing g with
    | zero => rfl
    | succ n ih =>
      simp only [trainingData, hone, ih]
  · rw [hpick]
    exact C85_no_leak D.pick hD.pick_mem _ _ ens held (fun e he => by
      funext g
      exact congrArg (fun R : (p n m : ℕ) → G → (List (Fin p → ℝ) × List (Fin p → ℝ)) × G =>
        trialOf L (fun _ => R p nTrain nTest) (assess p) none e g) (hrows e he)) trials g1

/-! ### Non-vacuity -/

/-- the tree that is one leaf -/
noncomputable def stump (data : List (List ℝ × String)) : Tree :=
  { classes := (data.map Prod.snd).dedup, feature := [-2], threshold := [-2], left := [-1], right := [-1],
    value := [(data.map Prod.snd).dedup.map fun c => ((data.map Prod.snd).count c : ℝ) / (data.length : ℝ)] }

theorem stump_fits (data : List (List ℝ × String)) (hne : data ≠ []) : Fits true (stump data) data := by
  have hleaf : ∀ xs, (stump data).leaf xs = some ((0 : ℕ) : ℤ) := fun xs => walkTree_leaf (i := 0) rfl _
  have hall : (stump data).inLeaf data 0 = data := by
    unfold Tree.inLeaf
    rw [List.filter_eq_self]
    intro r _
    rw [decide_eq_true_iff]
    exact hleaf r.1
  refine ⟨List.nodup_dedup _, fun c => List.mem_dedup, Nat.one_pos, fun i hi => ?_⟩
  have h0 : i = 0 := Nat.lt_one_iff.1 hi
  subst h0
  refine Or.inl ⟨rfl, by rw [hall]; exact hne, ?_⟩
  rw [hall]
  rfl

/-- The contract of the learner can be met. -/
example : LearnsTrees stump := fun data hne => ⟨true, stump_fits data hne⟩

/-- And so can the contract of the draws. -/
example : ∃ D : Draws ℕ, D.Fair :=
  ⟨{ pick := fun l g => (l.headD "", g + 1), size := fun g => (if g % 2 = 0 then 15 else 40, g + 1), ratio := fun g => (if g % 3 = 0 then 1 / 2 else 3, g + 1),
     rows := fun e p n m g => (((List.range n).map fun i j => (i + j.1 + g : ℝ), (List.range m).map fun i j => (i * j.1 : ℝ)), g + 1) },
   ⟨fun l g h => by cases l with | nil => exact absurd rfl h | cons a t => simp,
    fun g => by simp only [sizesDrawn]; split <;> decide, fun g => by simp only [ratiosDrawn]; split <;> simp,
    fun e p n m g => by simp⟩⟩

/-- The bounds of C92_sizes are attained: 25 variables with 12 rows, 40 variables with 120 rows. -/
example : trainSize 25 (1 / 2) = 12 ∧ trainSize 40 3 = 120 ∧ trainSize 15 (1 / 2) = 10 := by decide +kernel

end Precise.Oos
