import Mathlib.Tactic.IntervalCases
import Verif.Model.Recommend
import Verif.Spec.Matrix
import Mathlib.Tactic.Linarith
import Mathlib.Tactic.NormNum

/-!
# C52–C54: the recommender
-/

set_option linter.all false

open Matrix

namespace Precise

open Spec RecTree

/-! ### The table -/

/-- height of each node above its leaves -/
def heightT : List ℕ := [5, 4, 3, 2, 0, 1, 0, 0, 2, 1, 0, 0, 0, 3, 2, 1, 0, 0, 1, 0, 0, 2, 1, 0, 0, 0, 4, 3, 2, 1, 0, 0, 1, 0, 0, 2, 1, 0, 0, 1, 0, 0, 2, 1, 0, 0, 0]

/-- node `i` of the table is a leaf with nine counts, or an inner node with a valid feature, threshold and children lower
down -/
def nodeOk (i : ℕ) : Prop :=
  (featureT[i]? = some (-2) ∧ ∃ c, valueT[i]? = some c ∧ c.length = 9) ∨
  (∃ f l r, featureT[i]? = some f ∧ leftT[i]? = some l ∧ rightT[i]? = some r ∧ 0 ≤ f ∧ f < 7 ∧ 0 ≤ l ∧ 0 ≤ r ∧ l < 47 ∧ r < 47 ∧
    heightT[l.toNat]?.getD 0 < heightT[i]?.getD 0 ∧ heightT[r.toNat]?.getD 0 < heightT[i]?.getD 0)

def nodeOkB (i : ℕ) : Bool :=
  (featureT[i]? == some (-2) && (valueT[i]?.map List.length) == some 9) ||
  ((featureT[i]?.any fun f => decide (0 ≤ f ∧ f < 7)) &&
   (leftT[i]?.any fun l => decide (0 ≤ l ∧ l < 47 ∧ heightT[l.toNat]?.getD 0 < heightT[i]?.getD 0)) &&
   (rightT[i]?.any fun r => decide (0 ≤ r ∧ r < 47 ∧ heightT[r.toNat]?.getD 0 < heightT[i]?.getD 0)))

theorem nodeOk_of_B {i : ℕ} (h : nodeOkB i = true) : nodeOk i := by
  unfold nodeOkB at h
  rw [Bool.or_eq_true] at h
  rcases h with h | h
  · rw [Bool.and_eq_true, beq_iff_eq, beq_iff_eq] at h
    left
    refine ⟨h.1, ?_⟩
    rcases hv : valueT[i]? with _ | c
    · rw [hv] at h; cases h.2
    · rw [hv] at h; exact ⟨c, rfl, by simpa using h.2⟩
  · right
    rw [Bool.and_eq_true, Bool.and_eq_true] at h
    obtain ⟨⟨h1, h2⟩, h3⟩ := h
    rcases hf : featureT[i]? with _ | f
    · rw [hf] at h1; cases h1
    rcases hl : leftT[i]? with _ | l
    · rw [hl] at h2; cases h2
    rcases hr : rightT[i]? with _ | r
    · rw [hr] at h3; cases h3
    rw [hf] at h1; rw [hl] at h2; rw [hr] at h3
    simp only [Option.any_some, decide_eq_true_iff] at h1 h2 h3
    exact ⟨f, l, r, rfl, rfl, rfl, h1.1, h1.2, h2.1, h3.1, h2.2.1, h3.2.1, h2.2.2, h3.2.2⟩

theorem all_nodesOk : ∀ i : ℕ, i < 47 → nodeOk i := by
  have h : ∀ i : Fin 47, nodeOkB i.1 = true := by decide
  intro i hi
  exact nodeOk_of_B (h ⟨i, hi⟩)

theorem pyGet_nat {α : Type} (l : List α) (i : ℕ) : pyGet l (i : ℤ) = l[i]? := by
  unfold pyGet
  rw [if_pos (by omega)]; rfl

theorem pyTake_nat {α : Type} (l : List α) (k : ℕ) : pyTake l (k : ℤ) = l.take k := by
  unfold pyTake
  rw [if_pos (by omega)]; rfl

theorem threshold_some {i : ℕ} (h : i < 47) : ∃ t, thresholdT[i]? = some t := by
  have : i < thresholdT.length := h
  exact ⟨_, List.getElem?_eq_getElem this⟩

open Classical in
theorem walk_leaf {xs : List ℝ} {i : ℕ} (h : featureT[i]? = some (-2)) (fuel : ℕ) : walk xs fuel i = some (i : ℤ) := by
  unfold walk
  rw [pyGet_nat, h]
  rfl

open Classical in
theorem walk_step {xs : List ℝ} {i : ℕ} {f l r : ℤ} {x : ℝ} {t : ℚ} (hf : featureT[i]? = some f) (hf2 : f ≠ -2) (hx : pyGet xs f = some x)
    (ht : thresholdT[i]? = some t) (hl : leftT[i]? = some l) (hr : rightT[i]? = some r) (fuel : ℕ) :
    walk xs (fuel + 1) i = walk xs fuel (if x ≤ (t : ℝ) then l else r) := by
  conv_lhs => unfold walk
  rw [pyGet_nat, hf, Option.bind_some, if_neg hf2]
  simp only [hx, pyGet_nat, ht, hl, hr, Option.bind_some]
  split <;> rfl

/-- The walk stays in every set of nodes closed under children. -/
theorem walk_total (xs : List ℝ) (hxs : xs.length = 7) (S : ℕ → Bool)
    (hS : ∀ i < 47, S i = true → featureT[i]? ≠ some (-2) → ∀ l r, leftT[i]? = some l → rightT[i]? = some r → S l.toNat = true ∧ S r.toNat = true) :
    ∀ (fuel i : ℕ), i < 47 → S i = true → heightT[i]?.getD 0 ≤ fuel →
      ∃ leaf : ℕ, leaf < 47 ∧ S leaf = true ∧ featureT[leaf]? = some (-2) ∧ ∀ fuel', fuel ≤ fuel' → walk xs fuel' i = some (leaf : ℤ) := by
  intro fuel
  induction fuel with
  | zero =>
    intro i hi hs hh
    rcases all_nodesOk i hi with ⟨h, -⟩ | ⟨f, l, r, -, -, -, -, -, -, -, -, -, h, -⟩
    · exact ⟨i, hi, hs, h, fun fuel' _ => walk_leaf h fuel'⟩
    · omega
  | succ fuel ih =>
    intro i hi hs hh
    rcases all_nodesOk i hi with ⟨h, -⟩ | ⟨f, l, r, hf, hl, hr, f0, f7, l0, r0, l47, r47, hhl, hhr⟩
    · exact ⟨i, hi, hs, h, fun fuel' _ => walk_leaf h fuel'⟩
    · have hf2 : f ≠ -2 := by omega
      obtain ⟨t, ht⟩ := threshold_some hi
      obtain ⟨x, hx⟩ : ∃ x, pyGet xs f = some x := by
        unfold pyGet
        rw [if_pos f0]
        have : f.toNat < xs.length := by omega
        exact ⟨_, List.getElem?_eq_getElem this⟩
      obtain ⟨sl, sr⟩ := hS i hi hs (by rw [hf]; simpa using hf2) l r hl hr
      have next : ∃ c : ℕ, c < 47 ∧ S c = true ∧ heightT[c]?.getD 0 ≤ fuel ∧ (if x ≤ (t : ℝ) then l else r) = (c : ℤ) := by
        split
        · exact ⟨l.toNat, by omega, sl, by omega, by omega⟩
        · exact ⟨r.toNat, by omega, sr, by omega, by omega⟩
      obtain ⟨c, hc, hsc, hhc, e⟩ := next
      obtain ⟨leaf, h1, h2, h3, h4⟩ := ih c hc hsc hhc
      refine ⟨leaf, h1, h2, h3, fun fuel' hle => ?_⟩
      obtain ⟨m, rfl⟩ : ∃ m, fuel' = m + 1 := ⟨fuel' - 1, by omega⟩
      rw [walk_step hf hf2 hx ht hl hr, e]
      exact h4 m (by omega)

theorem standardized_length (f : Features) : f.standardized.length = 7 := rfl

/-! ## C52 -/

/-- C52: whatever the features, the tree walk stops at a leaf after at most five steps (any larger budget gives the same
leaf), without IndexError, and the leaf has a count for every class. -/
theorem C52_tree_total (f : Features) : ∃ leaf : ℕ, featureT[leaf]? = some (-2) ∧ (∀ fuel, 5 ≤ fuel → walk f.standardized fuel 0 = some (leaf : ℤ)) ∧
    f.leaf = some (leaf : ℤ) ∧ ∃ counts, f.counts = some counts ∧ counts.length = classesT.length := by
  obtain ⟨leaf, h1, -, h3, h4⟩ := walk_total f.standardized (standardized_length f) (fun _ => true) (fun _ _ _ _ _ _ _ _ => ⟨rfl, rfl⟩) 5 0 (by omega) rfl (by decide)
  have hleaf : f.leaf = some (leaf : ℤ) := h4 47 (by omega)
  refine ⟨leaf, h3, h4, hleaf, ?_⟩
  unfold Features.counts
  rw [hleaf, Option.bind_some, pyGet_nat]
  rcases all_nodesOk leaf h1 with ⟨-, c, hc, hl⟩ | ⟨g, l, r, hg, -, -, g0, -⟩
  · exact ⟨c, hc, hl⟩
  · rw [h3] at hg; simp only [Option.some.injEq] at hg; omega

/-! ### Stable sorting -/

theorem insertStable_perm {α : Type} (lt : α → α → Bool) (a : α) (l : List α) : (insertStable lt a l).Perm (a :: l) := by
  induction l with
  | nil => exact List.Perm.refl _
  | cons b l ih =>
    unfold insertStable
    split
    · exact (List.Perm.cons b ih).trans (List.Perm.swap a b l)
    · exact List.Perm.refl _

theorem stableSort_perm {α : Type} (lt : α → α → Bool) (l : List α) : (stableSort lt l).Perm l := by
  induction l with
  | nil => exact List.Perm.refl _
  | cons a l ih => exact (insertStable_perm lt a _).trans (List.Perm.cons a ih)

theorem stableSort_pairwise {α β : Type} [LinearOrder β] (f : α → β) (lt : α → α → Bool) (hlt : ∀ a b, lt a b = true ↔ f a < f b)
    (T : α → α → Prop) (l : List α) (hT : l.Pairwise T) : (stableSort lt l).Pairwise fun a b => f a < f b ∨ (f a = f b ∧ T a b) := by
  induction l with
  | nil => exact List.Pairwise.nil
  | cons a l ih =>
    rw [List.pairwise_cons] at hT
    have hs := ih hT.2
    have hmem : ∀ b ∈ stableSort lt l, T a b := fun b hb => hT.1 b ((stableSort_perm lt l).mem_iff.1 hb)
    show (insertStable lt a (stableSort lt l)).Pairwise _
    generalize stableSort lt l = s at hs hmem
    induction s with
    | nil => exact List.pairwise_singleton _ _
    | cons b s ihs =>
      rw [List.pairwise_cons] at hs
      unfold insertStable
      by_cases hb : lt b a = true
      · rw [if_pos hb, List.pairwise_cons]
        refine ⟨fun c hc => ?_, ihs hs.2 fun c hc => hmem c (by simp [hc])⟩
        rcases List.mem_cons.1 ((insertStable_perm lt a s).mem_iff.1 hc) with rfl | hc
        · exact Or.inl ((hlt _ _).1 hb)
        · exact hs.1 c hc
      · rw [if_neg hb, List.pairwise_cons]
        have hab : f a ≤ f b := not_lt.1 fun h => hb ((hlt _ _).2 h)
        refine ⟨fun c hc => ?_, List.pairwise_cons.2 hs⟩
        have hac : f a ≤ f c := by
          rcases List.mem_cons.1 hc with rfl | hc
          · exact hab
          · rcases hs.1 c hc with h | h
            · exact hab.trans h.le
            · exact hab.trans h.1.le
        rcases hac.lt_or_eq with h | h
        · exact Or.inl h
        · exact Or.inr ⟨h, hmem c hc⟩

/-! ## C53 -/

theorem names_nodup : estimatorNames.Nodup := by decide

theorem names_order : estimatorNames.Pairwise fun a b => [a, b].Sublist estimatorNames :=
  List.pairwise_iff_forall_sublist.2 fun h => h

theorem rankBy_perm (w : String → ℤ) (sc : String → ℚ) : (rankBy w sc).Perm estimatorNames := by
  unfold rankBy; exact stableSort_perm _ _

theorem rank_pairwise_aux (w : String → ℤ) (sc : String → ℚ) (names : List String) (T : String → String → Prop) (hT : names.Pairwise T) :
    (stableSort (fun a b => decide (w b < w a ∨ (w a = w b ∧ sc b < sc a))) names).Pairwise fun a b =>
      w b < w a ∨ (w a = w b ∧ (sc b < sc a ∨ (sc a = sc b ∧ T a b))) := by
  have := stableSort_pairwise (fun a => toLex (OrderDual.toDual (w a), OrderDual.toDual (sc a)))
    (fun a b => decide (w b < w a ∨ (w a = w b ∧ sc b < sc a)))
    (fun a b => by rw [decide_eq_true_iff, Prod.Lex.toLex_lt_toLex]; simp only [OrderDual.toDual_lt_toDual, OrderDual.toDual_inj])
    T names hT
  refine this.imp fun {a b} h => ?_
  rw [Prod.Lex.toLex_lt_toLex] at h
  simp only [OrderDual.toDual_lt_toDual, OrderDual.toDual_inj, EmbeddingLike.apply_eq_iff_eq, Prod.mk.injEq] at h
  tauto

theorem rankBy_pairwise (w : String → ℤ) (sc : String → ℚ) : (rankBy w sc).Pairwise fun a b =>
      w b < w a ∨ (w a = w b ∧ (sc b < sc a ∨ (sc a = sc b ∧ [a, b].Sublist estimatorNames))) := by
  unfold rankBy; exact rank_pairwise_aux w sc _ _ names_order

/-- C53: what `suggest` returns. For every data window `ranked` exists and is a permutation of the 17 registered names;
of two names the earlier has the larger tree count, or an equal one and the larger heuristic score, or both equal and
stands first in the registry; and `suggest(X, top)` is its prefix of length `top` (all of it if shorter). -/
theorem C53_ranking {p : ℕ} (L : Lapack) (rows : List (Fin p → ℝ)) :
    ∃ (counts : List ℤ) (ranked : List String), (covarianceFeatures L rows).counts = some counts ∧ ranked.Perm estimatorNames ∧ ranked.Nodup ∧
      (ranked.Pairwise fun a b => weightIn counts b < weightIn counts a ∨ (weightIn counts a = weightIn counts b ∧
        ((covarianceFeatures L rows).score b < (covarianceFeatures L rows).score a ∨
          ((covarianceFeatures L rows).score a = (covarianceFeatures L rows).score b ∧ [a, b].Sublist estimatorNames)))) ∧
      ∀ top : ℕ, suggest L rows top = some (ranked.take top) := by
  generalize hF : covarianceFeatures L rows = F
  obtain ⟨-, -, -, -, c, hc, -⟩ := C52_tree_total F
  refine ⟨c, rankBy (weightIn c) F.score, hc, rankBy_perm _ _, (rankBy_perm _ _).nodup_iff.2 names_nodup, rankBy_pairwise _ _, ?_⟩
  intro top
  unfold suggest Features.ranked
  rw [hF, hc]
  simp only [Option.map_some]
  rw [pyTake_nat]

/-- C53: a negative `top` is Python's `[:top]`: it drops the last `-top` recommendations. -/
theorem C53_negative_top {p : ℕ} (L : Lapack) (rows : List (Fin p → ℝ)) (k : ℕ) (hk : 1 ≤ k) :
    ∃ full, suggest L rows 17 = some full ∧ full.length = 17 ∧ suggest L rows (-(k : ℤ)) = some (full.take (17 - k)) := by
  obtain ⟨c, r, hc, hp, -, -, hs⟩ := C53_ranking L rows
  have hl : r.length = 17 := hp.length_eq
  refine ⟨r, by show suggest L rows ((17 : ℕ) : ℤ) = _; rw [hs 17, ← hl, List.take_length], hl, ?_⟩
  have h17 := hs 17
  unfold suggest at h17 ⊢
  cases hr : (covarianceFeatures L rows).ranked with
  | none => rw [hr] at h17; cases h17
  | some q =>
    rw [hr] at h17
    simp only [Option.map_some, Option.some.injEq] at h17 ⊢
    have hq := hs q.length
    unfold suggest at hq
    rw [hr] at hq
    simp only [Option.map_some, Option.some.injEq, pyTake_nat, List.take_length] at hq
    have hq2 : q = r := by
      have h18 := hs 17
      unfold suggest at h18
      rw [hr] at h18
      simp only [Option.map_some, Option.some.injEq, pyTake_nat] at h18
      rw [show r.take 17 = r by rw [← hl, List.take_length]] at h18
      have hlq : 17 ≤ q.length := by
        by_contra hlt
        have := congrArg List.length h18
        rw [List.length_take, hl] at this; omega
      have : q.length ≤ 17 := by
        have := congrArg List.length hq
        rw [List.length_take, hl] at this; omega
      have e : q.take 17 = q := List.take_of_length_le this
      rw [← h18, e]
    subst hq2
    unfold pyTake
    rw [if_neg (by omega), hl, neg_neg, Int.toNat_natCast]

/-- C53: `suggest(X, a)` is a prefix of `suggest(X, b)` for `a ≤ b`, has `min(a, 17)` elements, and every one is
registered. -/
theorem C53_prefix {p : ℕ} (L : Lapack) (rows : List (Fin p → ℝ)) (a b : ℕ) (hab : a ≤ b) :
    ∃ la lb, suggest L rows a = some la ∧ suggest L rows b = some lb ∧ la <+: lb ∧ la.length = min a 17 ∧ la.Nodup ∧ ∀ n ∈ la, n ∈ estimatorNames := by
  obtain ⟨c, r, -, hp, hn, -, hs⟩ := C53_ranking L rows
  refine ⟨_, _, hs a, hs b, List.take_prefix_take_left hab, ?_, hn.sublist (List.take_sublist _ _), fun n h => hp.mem_iff.1 (List.mem_of_mem_take h)⟩
  rw [List.length_take, hp.length_eq]; rfl

/-! ## C54 -/

/-- the sphericity and kurtosis beyond which the tree votes for LedoitWolfCovariance -/
noncomputable def voteSphericity : ℝ := 192256 / 1000000 + 625918 / 1000000 * (141076 / 1000000)
noncomputable def voteKurtosis : ℝ := 180726 / 1000000 + 803702 / 1000000 * (1276679 / 1000000)

/-- The tree votes for LedoitWolfCovariance. -/
def Features.votes (f : Features) : Prop := voteSphericity < f.sphericity ∧ voteKurtosis < f.avgExcessKurtosis

theorem get2 (f : Features) : pyGet f.standardized 2 = some ((f.sphericity - ((3004/15625 : ℚ) : ℝ)) / ((35269/250000 : ℚ) : ℝ)) := rfl
theorem get5 (f : Features) : pyGet f.standardized 5 = some ((f.avgExcessKurtosis - ((90363/500000 : ℚ) : ℝ)) / ((1276679/1000000 : ℚ) : ℝ)) := rfl

theorem closed_range (a b : ℕ) (h : ∀ i : Fin 47, a ≤ i.1 → i.1 < b → featureT[i.1]? ≠ some (-2) →
      (leftT[i.1]?.all fun l => decide (a ≤ l.toNat ∧ l.toNat < b)) = true ∧ (rightT[i.1]?.all fun l => decide (a ≤ l.toNat ∧ l.toNat < b)) = true) :
    ∀ i < 47, decide (a ≤ i ∧ i < b) = true → featureT[i]? ≠ some (-2) → ∀ l r, leftT[i]? = some l → rightT[i]? = some r →
      decide (a ≤ l.toNat ∧ l.toNat < b) = true ∧ decide (a ≤ r.toNat ∧ r.toNat < b) = true := by
  intro i hi hs hf l r hl hr
  obtain ⟨h1, h2⟩ := of_decide_eq_true hs
  have := h ⟨i, hi⟩ h1 h2 hf
  rw [hl, hr] at this
  simpa using this

/-- From a node of a closed range the walk ends in that range. -/
theorem walk_range (f : Features) (a b : ℕ) (h : ∀ i : Fin 47, a ≤ i.1 → i.1 < b → featureT[i.1]? ≠ some (-2) →
      (leftT[i.1]?.all fun l => decide (a ≤ l.toNat ∧ l.toNat < b)) = true ∧ (rightT[i.1]?.all fun l => decide (a ≤ l.toNat ∧ l.toNat < b)) = true)
    (hab : a < b) (hb : b ≤ 47) (hh : heightT[a]?.getD 0 ≤ 5) (fuel : ℕ) (hfu : 5 ≤ fuel) :
    ∃ leaf : ℕ, a ≤ leaf ∧ leaf < b ∧ featureT[leaf]? = some (-2) ∧ walk f.standardized fuel (a : ℤ) = some (leaf : ℤ) := by
  obtain ⟨leaf, h1, h2, h3, h4⟩ := walk_total f.standardized (standardized_length f) (fun i => decide (a ≤ i ∧ i < b)) (closed_range a b h) 5 a
    (by omega) (decide_eq_true ⟨le_rfl, hab⟩) hh
  have h2 := of_decide_eq_true h2
  exact ⟨leaf, h2.1, h2.2, h3, h4 fuel hfu⟩

theorem leaf_iff (f : Features) : f.leaf = some 46 ↔ f.votes := by
  have c2 : ∀ t : ℝ, (f.sphericity - ((3004/15625 : ℚ) : ℝ)) / ((35269/250000 : ℚ) : ℝ) ≤ t ↔ f.sphericity ≤ 3004/15625 + t * (35269/250000) := by
    intro t
    rw [div_le_iff₀ (by norm_num)]
    push_cast
    constructor <;> intro h <;> linarith
  have c5 : ∀ t : ℝ, (f.avgExcessKurtosis - ((90363/500000 : ℚ) : ℝ)) / ((1276679/1000000 : ℚ) : ℝ) ≤ t ↔ f.avgExcessKurtosis ≤ 90363/500000 + t * (1276679/1000000) := by
    intro t
    rw [div_le_iff₀ (by norm_num)]
    push_cast
    constructor <;> intro h <;> linarith
  unfold Features.leaf Features.votes voteSphericity voteKurtosis
  have s0 := walk_step (xs := f.standardized) (i := 0) (f := 2) (l := 1) (r := 26) (t := -62497/250000) rfl (by decide) (get2 f) rfl rfl rfl 46
  rw [Nat.cast_zero] at s0
  rw [s0]
  by_cases h0 : (f.sphericity - ((3004/15625 : ℚ) : ℝ)) / ((35269/250000 : ℚ) : ℝ) ≤ ((-62497/250000 : ℚ) : ℝ)
  · rw [if_pos h0]
    obtain ⟨leaf, h1, h2, -, h4⟩ := walk_range f 1 26 (by decide) (by omega) (by omega) (by decide) 46 (by omega)
    rw [Nat.cast_one] at h4
    rw [h4]
    rw [c2] at h0
    push_cast at h0
    constructor
    · intro h; simp only [Option.some.injEq] at h; omega
    · rintro ⟨h, -⟩; exfalso; linarith
  · rw [if_neg h0]
    have s26 := walk_step (xs := f.standardized) (i := 26) (f := 5) (l := 27) (r := 42) (t := 401851/500000) rfl (by decide) (get5 f) rfl rfl rfl 45
    have e26 : ((26 : ℕ) : ℤ) = 26 := rfl
    rw [e26] at s26
    rw [s26]
    by_cases h1 : (f.avgExcessKurtosis - ((90363/500000 : ℚ) : ℝ)) / ((1276679/1000000 : ℚ) : ℝ) ≤ ((401851/500000 : ℚ) : ℝ)
    · rw [if_pos h1]
      obtain ⟨leaf, h2, h3, -, h4⟩ := walk_range f 27 42 (by decide) (by omega) (by omega) (by decide) 45 (by omega)
      have e27 : ((27 : ℕ) : ℤ) = 27 := rfl
      rw [e27] at h4
      rw [h4]
      rw [c5] at h1
      push_cast at h1
      constructor
      · intro h; simp only [Option.some.injEq] at h; omega
      · rintro ⟨-, h⟩; exfalso; linarith
    · rw [if_neg h1]
      have s42 := walk_step (xs := f.standardized) (i := 42) (f := 2) (l := 43) (r := 46) (t := 312959/500000) rfl (by decide) (get2 f) rfl rfl rfl 44
      have e42 : ((42 : ℕ) : ℤ) = 42 := rfl
      rw [e42] at s42
      rw [s42]
      rw [c5] at h1
      push_cast at h1
      push Not at h1
      by_cases h2 : (f.sphericity - ((3004/15625 : ℚ) : ℝ)) / ((35269/250000 : ℚ) : ℝ) ≤ ((312959/500000 : ℚ) : ℝ)
      · rw [if_pos h2]
        obtain ⟨leaf, h3, h5, -, h4⟩ := walk_range f 43 46 (by decide) (by omega) (by omega) (by decide) 44 (by omega)
        have e43 : ((43 : ℕ) : ℤ) = 43 := rfl
        rw [e43] at h4
        rw [h4]
        rw [c2] at h2
        push_cast at h2
        constructor
        · intro h; simp only [Option.some.injEq] at h; omega
        · rintro ⟨h, -⟩; exfalso; linarith
      · rw [if_neg h2]
        have e46 := walk_leaf (xs := f.standardized) (i := 46) rfl 44
        have e46' : ((46 : ℕ) : ℤ) = 46 := rfl
        rw [e46'] at e46
        rw [e46]
        rw [c2] at h2
        push_cast at h2
        push Not at h2
        constructor
        · intro _; exact ⟨by linarith, by linarith⟩
        · intro _; rfl

theorem counts_eq (f : Features) : (f.votes → f.counts = some [0, 0, 0, 0, 1, 0, 0, 0, 0]) ∧
    (¬ f.votes → f.counts = some [0, 0, 0, 0, 0, 0, 0, 0, 0]) := by
  constructor
  · intro h
    unfold Features.counts
    rw [(leaf_iff f).2 h]
    rfl
  · intro h
    obtain ⟨leaf, h1, -, h3, -⟩ := C52_tree_total f
    have hne : leaf ≠ 46 := by
      rintro rfl
      exact h ((leaf_iff f).1 h3)
    have hlt : leaf < 47 := by
      by_contra hge
      rw [List.getElem?_eq_none (by show 47 ≤ leaf; omega)] at h1
      cases h1
    have tab : ∀ i : Fin 47, i.1 ≠ 46 → valueT[i.1]? = some [0, 0, 0, 0, 0, 0, 0, 0, 0] := by decide
    unfold Features.counts
    rw [h3, Option.bind_some, pyGet_nat]
    exact tab ⟨leaf, hlt⟩ hne

/-! The five rankings `suggest` can return. -/

/-- hard data, light tails -/
def rankHard : List String :=
  ["LedoitWolfCovariance", "OASCovariance", "ShrunkCovariance", "SchurCovariance", "FactorCovariance",
   "EmpiricalCovariance", "DiagonalCovariance", "BlockCovariance", "EwaCovariance", "AdaptiveEwaCovariance",
   "SchurConditionalCovariance", "SchurLedoitWolfCovariance", "PartialMomentsCovariance", "HuberCovariance",
   "TylerCovariance", "GeodesicEwaCovariance", "DCCCovariance"]

/-- hard data, heavy tails -/
def rankHardHeavy : List String :=
  ["LedoitWolfCovariance", "OASCovariance", "ShrunkCovariance", "SchurCovariance", "FactorCovariance",
   "HuberCovariance", "TylerCovariance", "EmpiricalCovariance", "DiagonalCovariance", "BlockCovariance",
   "EwaCovariance", "AdaptiveEwaCovariance", "SchurConditionalCovariance", "SchurLedoitWolfCovariance",
   "PartialMomentsCovariance", "GeodesicEwaCovariance", "DCCCovariance"]

/-- easy data, light tails -/
def rankEasy : List String :=
  ["EmpiricalCovariance", "EwaCovariance", "LedoitWolfCovariance", "DiagonalCovariance", "BlockCovariance",
   "AdaptiveEwaCovariance", "OASCovariance", "ShrunkCovariance", "SchurCovariance", "SchurConditionalCovariance",
   "SchurLedoitWolfCovariance", "PartialMomentsCovariance", "HuberCovariance", "TylerCovariance",
   "GeodesicEwaCovariance", "DCCCovariance", "FactorCovariance"]

/-- easy data, heavy tails -/
def rankEasyHeavy : List String :=
  ["EmpiricalCovariance", "EwaCovariance", "HuberCovariance", "TylerCovariance", "LedoitWolfCovariance",
   "DiagonalCovariance", "BlockCovariance", "AdaptiveEwaCovariance", "OASCovariance", "ShrunkCovariance",
   "SchurCovariance", "SchurConditionalCovariance", "SchurLedoitWolfCovariance", "PartialMomentsCovariance",
   "GeodesicEwaCovariance", "DCCCovariance", "FactorCovariance"]

/-- easy data, heavy tails, tree vote -/
def rankVoted : List String :=
  ["LedoitWolfCovariance", "EmpiricalCovariance", "EwaCovariance", "HuberCovariance", "TylerCovariance",
   "DiagonalCovariance", "BlockCovariance", "AdaptiveEwaCovariance", "OASCovariance", "ShrunkCovariance",
   "SchurCovariance", "SchurConditionalCovariance", "SchurLedoitWolfCovariance", "PartialMomentsCovariance",
   "GeodesicEwaCovariance", "DCCCovariance", "FactorCovariance"]

set_option maxRecDepth 100000 in
theorem rank_table :
    rankBy (weightIn [0, 0, 0, 0, 0, 0, 0, 0, 0]) (heuristicScore true false) = rankHard ∧
    rankBy (weightIn [0, 0, 0, 0, 0, 0, 0, 0, 0]) (heuristicScore true true) = rankHardHeavy ∧
    rankBy (weightIn [0, 0, 0, 0, 0, 0, 0, 0, 0]) (heuristicScore false false) = rankEasy ∧
    rankBy (weightIn [0, 0, 0, 0, 0, 0, 0, 0, 0]) (heuristicScore false true) = rankEasyHeavy ∧
    rankBy (weightIn [0, 0, 0, 0, 1, 0, 0, 0, 0]) (heuristicScore true true) = rankHardHeavy ∧
    rankBy (weightIn [0, 0, 0, 0, 1, 0, 0, 0, 0]) (heuristicScore false true) = rankVoted := by
  refine ⟨?_, ?_, ?_, ?_, ?_, ?_⟩ <;> decide +kernel

set_option maxRecDepth 100000 in
theorem heuristic_table :
    (∀ hard heavy : Bool, stableSort (fun a b => decide (heuristicScore hard heavy b < heuristicScore hard heavy a)) estimatorNames =
      if hard then (if heavy then rankHardHeavy else rankHard) else (if heavy then rankEasyHeavy else rankEasy)) := by
  intro hard heavy
  cases hard <;> cases heavy <;> decide +kernel

open Classical in
theorem five_rankings (f : Features) : f.ranked = some (
    if f.hard then (if f.heavy then rankHardHeavy else rankHard)
    else if f.heavy then (if voteKurtosis < f.avgExcessKurtosis then rankVoted else rankEasyHeavy)
    else rankEasy) := by
  have hv : f.votes → f.heavy := by
    rintro ⟨-, h⟩
    unfold Features.heavy
    unfold voteKurtosis at h
    norm_num at h
    linarith
  have hvk : ¬ f.hard → (f.votes ↔ voteKurtosis < f.avgExcessKurtosis) := by
    intro h
    unfold Features.hard at h
    push Not at h
    unfold Features.votes
    have : voteSphericity < f.sphericity := by unfold voteSphericity; norm_num; linarith [h.1.2]
    tauto
  obtain ⟨t1, t2, t3, t4, t5, t6⟩ := rank_table
  obtain ⟨c1, c2⟩ := counts_eq f
  have hs : f.score = heuristicScore (decide f.hard) (decide f.heavy) := by funext n; unfold Features.score; congr
  unfold Features.ranked
  rw [hs]
  by_cases h : f.hard
  · rw [if_pos h]
    by_cases h2 : f.heavy
    · rw [if_pos h2, decide_eq_true h, decide_eq_true h2]
      by_cases h3 : f.votes
      · rw [c1 h3, Option.map_some, t5]
      · rw [c2 h3, Option.map_some, t2]
    · rw [if_neg h2, decide_eq_true h, decide_eq_false h2, c2 (fun h3 => h2 (hv h3)), Option.map_some, t1]
  · rw [if_neg h]
    by_cases h2 : f.heavy
    · rw [if_pos h2, decide_eq_false h, decide_eq_true h2]
      by_cases h3 : f.votes
      · rw [c1 h3, Option.map_some, t6, if_pos ((hvk h).1 h3)]
      · rw [c2 h3, Option.map_some, t4, if_neg (fun h4 => h3 ((hvk h).2 h4))]
    · rw [if_neg h2, decide_eq_false h, decide_eq_false h2, c2 (fun h3 => h2 (hv h3)), Option.map_some, t3]

open Classical in
/-- C54: the complete input-output behaviour of the recommender. Whatever the data, `ranked` is one of five fixed lists,
chosen by three tests on four features: is the data hard (`p/n > 1/4`, sphericity `< 0.6` or condition number `> 50`), is
it heavy-tailed (mean excess kurtosis `> 1`), and is the kurtosis above 1.2068… The other features never matter. -/
theorem C54_five_rankings (f : Features) :
    let hard := 1 / 4 < f.pOverN ∨ f.sphericity < 6 / 10 ∨ 50 < f.conditionNumber
    let heavy := 1 < f.avgExcessKurtosis
    f.ranked = some (
      if hard then (if heavy then rankHardHeavy else rankHard)
      else if heavy then (if voteKurtosis < f.avgExcessKurtosis then rankVoted else rankEasyHeavy)
      else rankEasy) := by
  have h := five_rankings f
  unfold Features.hard Features.heavy at h
  rw [or_assoc] at h
  intro hard heavy
  convert h

open Classical in
theorem rankedHeuristic_eq (f : Features) : f.rankedHeuristic =
    if f.hard then (if f.heavy then rankHardHeavy else rankHard) else (if f.heavy then rankEasyHeavy else rankEasy) := by
  have h := heuristic_table (decide f.hard) (decide f.heavy)
  unfold Features.rankedHeuristic Features.score
  rw [h]
  by_cases h1 : f.hard <;> by_cases h2 : f.heavy <;> simp [h1, h2]

/-- C54: the shipped tree is nearly inert. It agrees with the heuristic ruleset on every data window that is hard or has
kurtosis at most 1.2068…; on all others its only effect is to move LedoitWolfCovariance to the front, ahead of the
estimators the ruleset picks for easy data. -/
theorem C54_tree_effect (f : Features) :
    ((f.hard ∨ f.avgExcessKurtosis ≤ voteKurtosis) → f.ranked = some f.rankedHeuristic) ∧
    (¬ f.hard → voteKurtosis < f.avgExcessKurtosis →
      f.ranked = some ("LedoitWolfCovariance" :: f.rankedHeuristic.erase "LedoitWolfCovariance") ∧
      f.rankedHeuristic.take 5 = ["EmpiricalCovariance", "EwaCovariance", "HuberCovariance", "TylerCovariance", "LedoitWolfCovariance"]) := by
  rw [five_rankings, rankedHeuristic_eq]
  constructor
  · rintro (h | h)
    · rw [if_pos h, if_pos h]
    · by_cases hh : f.hard
      · rw [if_pos hh, if_pos hh]
      · rw [if_neg hh, if_neg hh, if_neg (not_lt.2 h)]
  · intro h hk
    have hheavy : f.heavy := by
      unfold Features.heavy
      unfold voteKurtosis at hk
      norm_num at hk
      linarith
    rw [if_neg h, if_neg h, if_pos hheavy, if_pos hheavy, if_pos hk]
    exact ⟨by decide +kernel, by decide +kernel⟩

/-- All five cases occur (as feature records). -/
example : ∃ a b c d e : Features, (a.hard ∧ ¬ a.heavy) ∧ (b.hard ∧ b.heavy) ∧ (¬ c.hard ∧ ¬ c.heavy) ∧
    (¬ d.hard ∧ d.heavy ∧ d.avgExcessKurtosis ≤ voteKurtosis) ∧ (¬ e.hard ∧ voteKurtosis < e.avgExcessKurtosis) := by
  refine ⟨⟨10, 5, 1/2, 5, 1, 1, 0, 0⟩, ⟨10, 5, 1/2, 5, 1, 1, 0, 2⟩, ⟨100, 5, 1/20, 5, 1, 1, 0, 0⟩, ⟨100, 5, 1/20, 5, 1, 1, 0, 11/10⟩, ⟨100, 5, 1/20, 5, 1, 1, 0, 2⟩, ?_, ?_, ?_, ?_, ?_⟩ <;>
    simp only [Features.hard, Features.heavy, voteKurtosis] <;> norm_num

/-- C52: standardization never divides by zero: the recorded standard deviations are positive, one per feature, and the tree sees
`(x - mean) / std` of the seven features in order. -/
theorem C52_standardized (f : Features) : (∀ s ∈ stdT, (0 : ℚ) < s) ∧ stdT.length = 7 ∧ meanT.length = 7 ∧
    ∀ i (h : i < f.standardized.length), f.standardized[i] =
      (([f.pOverN, f.effectiveRank, f.sphericity, f.conditionNumber, f.meanAbsOffdiagCorr, f.avgExcessKurtosis, (f.p : ℝ)].getD i 0)
        - ((meanT.getD i 0 : ℚ) : ℝ)) / ((stdT.getD i 0 : ℚ) : ℝ) := by
  refine ⟨by decide +kernel, rfl, rfl, ?_⟩
  intro i h
  have hl : f.standardized.length = 7 := rfl
  rw [hl] at h
  interval_cases i <;> rfl

/-- C53: the tree's vote for a class is the entry of the leaf's counts at that class's position; a class the tree does not know has
no vote. -/
theorem C53_votes (counts : List ℤ) (hc : counts.length = classesT.length) :
    (∀ i (h : i < classesT.length), weightIn counts classesT[i] = counts[i]'(hc ▸ h)) ∧ ∀ name ∉ classesT, weightIn counts name = 0 := by
  match counts, hc with
  | [a, b, c, d, e, f, g, h, j], _ =>
    constructor
    · intro i hi
      have hi' : i < 9 := hi
      interval_cases i <;> simp [weightIn, classesT, List.lookup]
    · intro name hn
      simp only [classesT, List.mem_cons, List.not_mem_nil, or_false, not_or] at hn
      obtain ⟨h1, h2, h3, h4, h5, h6, h7, h8, h9⟩ := hn
      simp [weightIn, classesT, List.lookup_cons, beq_eq_false_iff_ne.2 h1, beq_eq_false_iff_ne.2 h2, beq_eq_false_iff_ne.2 h3, beq_eq_false_iff_ne.2 h4,
        beq_eq_false_iff_ne.2 h5, beq_eq_false_iff_ne.2 h6, beq_eq_false_iff_ne.2 h7, beq_eq_false_iff_ne.2 h8, beq_eq_false_iff_ne.2 h9]

example : weightIn [1, 2, 3, 4, 5, 6, 7, 8, 9] "OASCovariance" = 6 ∧ weightIn [1, 2, 3, 4, 5, 6, 7, 8, 9] "EwaCovariance" = 0 := by decide

end Precise
