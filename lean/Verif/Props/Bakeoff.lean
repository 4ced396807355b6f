import Verif.Model.Bakeoff
import Verif.Props.OosShipped
import Verif.Props.AssessCall
import Verif.Props.KeyedOut
import Verif.Props.Schur

/-!
# C89: the bake-off
-/

set_option linter.all false

namespace Precise.Oos

open Precise.Spec
open Obj

/-! ## Specification -/

namespace Board

/-- The score of an estimator's results `d` on a scenario by a judge; `-inf` if the judge is not there. -/
noncomputable def scoreOf (d : List (String × Cell)) (key judge : String) : WithBot ℝ :=
  ((d.lookup key).bind fun c => c.lookup judge).getD ⊥

/-- Results in which every estimator has the scenarios `cells`. -/
structure Full (cells : List String) (results : Results) : Prop where
  names : (results.map Prod.fst).Nodup
  nonempty : results ≠ []
  distinct : cells.Nodup
  cells_eq : ∀ e ∈ results, e.2.map Prod.fst = cells

/-- The table of one scenario. -/
noncomputable def tableOf (results : Results) (judge key : String) : List (String × WithBot ℝ) :=
  results.map fun e => (e.1, scoreOf e.2 key judge)

/-- `m` is the mean of the scores that are not `-inf`, and `-inf` if there is none. -/
def MeanOfFinite (scores : List (WithBot ℝ)) (m : WithBot ℝ) : Prop :=
  ∃ vals : List ℝ, scores.filter (fun s => decide (s ≠ ⊥)) = vals.map (fun v : ℝ => (v : WithBot ℝ)) ∧
    m = if vals = [] then ⊥ else ((vals.sum / vals.length : ℝ) : WithBot ℝ)

end Board

open Board

/-! ## Loops -/

theorem mapE_ok {α β : Type} (f : α → Except PyErr β) (l : List α) (g : α → β) (h : ∀ a ∈ l, f a = .ok (g a)) : mapE f l = .ok (l.map g) := by
  induction l with
  | nil => rfl
  | cons a l ih =>
    unfold mapE
    rw [h a (by simp)]
    simp only []
    rw [ih fun a ha => h a (by simp [ha])]
    rfl

theorem mapE_inv {α β : Type} (f : α → Except PyErr β) (l : List α) (bs : List β) (h : mapE f l = .ok bs) :
    List.Forall₂ (fun a b => f a = .ok b) l bs := by
  induction l generalizing bs with
  | nil => cases h; exact .nil
  | cons a l ih =>
    unfold mapE at h
    cases ha : f a with
    | error e => rw [ha] at h; cases h
    | ok b =>
      rw [ha] at h
      simp only [] at h
      cases hl : mapE f l with
      | error e => rw [hl] at h; cases h
      | ok bs' => rw [hl] at h; cases h; exact .cons ha (ih bs' hl)

theorem mapE_error {α β : Type} (f : α → Except PyErr β) (l : List α) (e : PyErr) (h : mapE f l = .error e) : ∃ a ∈ l, f a = .error e := by
  induction l with
  | nil => cases h
  | cons a l ih =>
    unfold mapE at h
    cases ha : f a with
    | error e' => rw [ha] at h; cases h; exact ⟨a, by simp, ha⟩
    | ok b =>
      rw [ha] at h
      simp only [] at h
      cases hl : mapE f l with
      | error e' => rw [hl] at h; cases h; obtain ⟨x, hx, hx'⟩ := ih hl; exact ⟨x, by simp [hx], hx'⟩
      | ok bs' => rw [hl] at h; cases h

theorem forall₂_right' {α β : Type} {P : α → β → Prop} {l : List α} {m : List β} (h : List.Forall₂ P l m) : ∀ b ∈ m, ∃ a ∈ l, P a b := by
  induction h with
  | nil => simp
  | cons h _ ih =>
    intro b hb
    rcases List.mem_cons.1 hb with rfl | hb
    · exact ⟨_, by simp, h⟩
    · obtain ⟨a, ha, h⟩ := ih b hb; exact ⟨a, by simp [ha], h⟩

theorem lookup_mem' {β : Type} (l : List (String × β)) (k : String) (v : β) (h : l.lookup k = some v) : (k, v) ∈ l := by
  induction l with
  | nil => cases h
  | cons e l ih =>
    obtain ⟨a, b⟩ := e
    rw [List.lookup_cons] at h
    by_cases hk : k = a
    · subst hk; simp at h; subst h; simp
    · have : (k == a) = false := by simpa using hk
      rw [this] at h
      exact List.mem_cons_of_mem _ (ih h)

theorem mem_lookup {β : Type} (l : List (String × β)) (hn : (l.map Prod.fst).Nodup) (k : String) (v : β) (h : (k, v) ∈ l) : l.lookup k = some v := by
  induction l with
  | nil => cases h
  | cons a l ih =>
    obtain ⟨a, b⟩ := a
    rw [List.map_cons, List.nodup_cons] at hn
    rcases List.mem_cons.1 h with h' | h'
    · cases h'; simp [List.lookup]
    · have : k ≠ a := by
        intro hka
        exact hn.1 (List.mem_map.2 ⟨(k, v), h', hka⟩)
      simp only [List.lookup, beq_eq_false_iff_ne.2 this]
      exact ih hn.2 h'

theorem lookup_isSome {β : Type} (l : List (String × β)) (k : String) (h : k ∈ l.map Prod.fst) : ∃ v, l.lookup k = some v ∧ (k, v) ∈ l := by
  induction l with
  | nil => cases h
  | cons a l ih =>
    obtain ⟨a, b⟩ := a
    by_cases hk : k = a
    · subst hk; exact ⟨b, by simp [List.lookup], List.mem_cons_self⟩
    · obtain ⟨v, h1, h2⟩ := ih (by simpa [hk] using h)
      exact ⟨v, by simpa only [List.lookup, beq_eq_false_iff_ne.2 hk] using h1, by simp [h2]⟩

/-! ## The leaderboard -/

theorem table_full {cells : List String} {results : Results} (hF : Full cells results) (judge : String) (key : String) (hk : key ∈ cells) :
    table results judge key = .ok (tableOf results judge key) := by
  unfold table tableOf
  refine mapE_ok _ _ _ fun e he => ?_
  obtain ⟨c, hc, -⟩ := lookup_isSome e.2 key (by rw [hF.cells_eq e he]; exact hk)
  rw [hc]
  simp [scoreOf, hc]

theorem tableOf_keys (results : Results) (judge key : String) : (tableOf results judge key).map Prod.fst = results.map Prod.fst := by
  unfold tableOf; rw [List.map_map]; rfl

theorem meanScore_spec (d : List (String × Cell)) (a : String) (hn : (d.map Prod.fst).Nodup) :
    MeanOfFinite ((d.map Prod.fst).map fun key => scoreOf d key a) (meanScore d a) := by
  refine ⟨d.filterMap fun m => (m.2.lookup a).bind finite?, ?_, rfl⟩
  have h : (d.map Prod.fst).map (fun key => scoreOf d key a) = d.map fun m => (m.2.lookup a).getD ⊥ := by
    rw [List.map_map]
    refine List.map_congr_left fun m hm => ?_
    simp only [Function.comp, scoreOf, mem_lookup d hn m.1 m.2 hm, Option.bind_some]
  rw [h]
  clear h hn
  induction d with
  | nil => rfl
  | cons m d ih =>
    rw [List.map_cons, List.filter_cons, List.filterMap_cons]
    cases hl : m.2.lookup a with
    | none => simp only [Option.getD_none, ne_eq, not_true, decide_false, Bool.false_eq_true, if_false, Option.bind_none]; exact ih
    | some s =>
      cases s using WithBot.recBotCoe with
      | bot => simp only [Option.getD_some, ne_eq, not_true, decide_false, Bool.false_eq_true, if_false, Option.bind_some]; exact ih
      | coe v =>
        simp only [Option.getD_some, ne_eq, WithBot.coe_ne_bot, not_false_iff, decide_true, if_true, Option.bind_some]
        rw [ih]; rfl

/-- A stable sort by increasing key. -/
theorem stable_asc (l : List String) (hl : l.Nodup) (f : String → ℝ) :
    (l.mergeSort fun a b => decide (f a ≤ f b)).Pairwise fun a b => f a < f b ∨ (f a = f b ∧ l.idxOf a < l.idxOf b) := by
  have := stable_pairwise l hl (fun x => - f x)
  simpa [neg_le_neg_iff] using this

/-- C89: the leaderboard. For results in which every estimator has the same scenarios (at least one), there is one line per
estimator; `avg_rank` is the mean over the scenarios of its rank by the primary judge; the lines are sorted by it, ties in registry
order; each score column is the mean of that judge's finite scores; the secondary columns are the first two other judges. -/
theorem C89_leaderboard {cells : List String} {results : Results} (hF : Full cells results) (hc : cells ≠ []) (primary : String) :
    ∃ others lines, leaderboard results primary = .ok (others, lines) ∧ (lines.map BoardLine.name).Perm (results.map Prod.fst) ∧
      lines.Pairwise (fun a b => a.avgRank < b.avgRank ∨
        (a.avgRank = b.avgRank ∧ (results.map Prod.fst).idxOf a.name < (results.map Prod.fst).idxOf b.name)) ∧
      (∀ l ∈ lines, l.avgRank = meanRank (cells.map (tableOf results primary)) l.name ∧
        ∃ d, (l.name, d) ∈ results ∧ MeanOfFinite (cells.map fun key => scoreOf d key primary) l.primary ∧
          List.Forall₂ (fun o m => MeanOfFinite (cells.map fun key => scoreOf d key o) m) others l.others) ∧
      (∀ first c, results.head? = some first → first.2.head? = some c → others = ((c.2.map Prod.fst).filter fun a => a ≠ primary).take 2) := by
  cases hr : results with
  | nil => exact absurd hr hF.nonempty
  | cons first rest =>
    rw [← hr]
    have hfc : first.2.map Prod.fst = cells := hF.cells_eq first (by rw [hr]; simp)
    have hts : mapE (table results primary) (first.2.map Prod.fst) = .ok (cells.map (tableOf results primary)) := by
      rw [hfc]
      exact mapE_ok _ _ _ fun key hk => table_full hF primary key hk
    cases hf2 : first.2 with
    | nil => rw [hf2] at hfc; exact absurd hfc.symm hc
    | cons c cs =>
      set others := ((c.2.map Prod.fst).filter fun a => a ≠ primary).take 2 with hoth
      set avg : String → ℝ := fun nm => meanNat ((cells.map (tableOf results primary)).map fun t => ((ranks t).lookup nm).getD 0) with havg
      have hlb : leaderboard results primary = .ok (others, ((results.map Prod.fst).mergeSort fun a b => decide (avg a ≤ avg b)).map fun nm =>
          { name := nm, avgRank := avg nm, primary := meanScore ((results.lookup nm).getD []) primary
            others := others.map (meanScore ((results.lookup nm).getD [])) }) := by
        unfold leaderboard
        rw [hr]
        simp only []
        rw [← hr, hts]
        simp only []
        rw [hf2]
      have hav : ∀ nm ∈ results.map Prod.fst, avg nm = meanRank (cells.map (tableOf results primary)) nm := by
        intro nm hnm
        rw [havg]
        unfold meanNat meanRank
        simp only [List.length_map, List.map_map]
        congr 1
        rw [Nat.cast_list_sum, List.map_map]
        congr 1
        refine List.map_congr_left fun key hk => ?_
        simp only [Function.comp]
        rw [ranks_lookup _ (by rw [tableOf_keys]; exact hF.names) nm (by rw [tableOf_keys]; exact hnm), Option.getD_some]
      refine ⟨others, _, hlb, ?_, ?_, ?_, ?_⟩
      · rw [List.map_map]
        have : (BoardLine.name ∘ fun nm => ({ name := nm, avgRank := avg nm, primary := meanScore ((results.lookup nm).getD []) primary
                                              others := others.map (meanScore ((results.lookup nm).getD [])) } : BoardLine)) = id := rfl
        rw [this, List.map_id]
        exact List.mergeSort_perm _ _
      · rw [List.pairwise_map]
        exact stable_asc _ hF.names avg
      · intro l hl
        obtain ⟨nm, hnm, rfl⟩ := List.mem_map.1 hl
        have hm : nm ∈ results.map Prod.fst := (List.mergeSort_perm _ _).mem_iff.1 hnm
        obtain ⟨d, hd1, hd2⟩ := lookup_isSome results nm hm
        have hdc := hF.cells_eq _ hd2
        simp only [] at hdc
        have hdn : (d.map Prod.fst).Nodup := by rw [hdc]; exact hF.distinct
        refine ⟨hav nm hm, d, hd2, ?_, ?_⟩
        · simp only [hd1, Option.getD_some]
          have := meanScore_spec d primary hdn
          rw [hdc] at this; exact this
        · simp only [hd1, Option.getD_some]
          rw [List.forall₂_map_right_iff, List.forall₂_same]
          intro o _
          have := meanScore_spec d o hdn
          rw [hdc] at this; exact this
      · intro f' c' h1 h2
        rw [hr] at h1
        simp only [List.head?_cons, Option.some.injEq] at h1
        subst h1
        rw [hf2] at h2
        simp only [List.head?_cons, Option.some.injEq] at h2
        subst h2; rfl

/-- C89: an estimator that beats another on every scenario is listed above it. -/
theorem C89_dominance {cells : List String} {results : Results} (hF : Full cells results) (hc : cells ≠ []) (primary : String) (a b : String)
    (ha : a ∈ results.map Prod.fst) (hb : b ∈ results.map Prod.fst)
    (hab : ∀ key ∈ cells, ((tableOf results primary key).lookup b).getD ⊥ < ((tableOf results primary key).lookup a).getD ⊥) :
    meanRank (cells.map (tableOf results primary)) a < meanRank (cells.map (tableOf results primary)) b := by
  have hlen : (0 : ℝ) < ((cells.map (tableOf results primary)).length : ℝ) := by
    rw [List.length_map]; exact_mod_cast List.length_pos_iff.2 hc
  unfold meanRank
  refine div_lt_div_of_pos_right ?_ hlen
  refine List.sum_lt_sum_of_ne_nil (by simpa using hc) _ _ ?_
  intro t ht
  obtain ⟨key, hk, rfl⟩ := List.mem_map.1 ht
  have hn : ((tableOf results primary key).map Prod.fst).Nodup := by rw [tableOf_keys]; exact hF.names
  have := (C85_ranks_order (tableOf results primary key) hn a b (by rw [tableOf_keys]; exact ha) (by rw [tableOf_keys]; exact hb)).2 (Or.inl (hab key hk))
  exact_mod_cast this

theorem takeWhile_idxOf {α : Type} [DecidableEq α] (f : α → String) (t : List α) (x : α) (hx : x ∈ t) (e : α)
    (he : e ∈ t.takeWhile fun y => decide (f y ≠ f x)) : t.idxOf e < t.idxOf x := by
  induction t with
  | nil => cases hx
  | cons a t ih =>
    rw [List.takeWhile_cons] at he
    by_cases hq : f a = f x
    · simp [hq] at he
    · rw [if_pos (by simpa using hq)] at he
      have hag : a ≠ x := by intro h; exact hq (by rw [h])
      rw [List.idxOf_cons_ne _ hag]
      by_cases hae : a = e
      · subst hae; rw [List.idxOf_cons_self]; omega
      · rw [List.idxOf_cons_ne _ hae]
        have hmg : x ∈ t := by
          rcases List.mem_cons.1 hx with h | h
          · exact absurd h.symm hag
          · exact h
        have het : e ∈ t.takeWhile fun y => decide (f y ≠ f x) := by
          rcases List.mem_cons.1 he with h | h
          · exact absurd h.symm hae
          · exact h
        have := ih hmg het
        omega

/-- C89: the winner of each scenario has the highest primary score there, and among equals is listed first; it is the estimator of
rank 1. -/
theorem C89_winners {cells : List String} {results : Results} (hF : Full cells results) (primary : String) :
    ∃ ws, winners results primary = .ok ws ∧ ws.map Prod.fst = cells ∧
      ∀ kw ∈ ws, kw.2 ∈ results.map Prod.fst ∧ rankIn (tableOf results primary kw.1) kw.2 = 1 ∧
        ∀ k ∈ results.map Prod.fst, ((tableOf results primary kw.1).lookup k).getD ⊥ ≤ ((tableOf results primary kw.1).lookup kw.2).getD ⊥ := by
  cases hr : results with
  | nil => exact absurd hr hF.nonempty
  | cons first rest =>
    rw [← hr]
    have hfc : first.2.map Prod.fst = cells := hF.cells_eq first (by rw [hr]; simp)
    have hne : ∀ key, tableOf results primary key ≠ [] := by intro key; unfold tableOf; rw [hr]; simp
    have hex : ∀ key, ∃ e, (tableOf results primary key).argmax Prod.snd = some e := by
      intro key
      cases h : (tableOf results primary key).argmax Prod.snd with
      | none => rw [List.argmax_eq_none] at h; exact absurd h (hne key)
      | some e => exact ⟨e, rfl⟩
    choose g hg using hex
    have hok : winners results primary = .ok (cells.map fun key => (key, (g key).1)) := by
      unfold winners
      rw [hr]
      simp only []
      rw [← hr, hfc]
      refine mapE_ok _ _ _ fun key hk => ?_
      rw [table_full hF primary key hk]
      simp only []
      rw [hg key]
    refine ⟨_, hok, by rw [List.map_map]; exact List.map_id _, fun kw hkw => ?_⟩
    obtain ⟨key, hk, rfl⟩ := List.mem_map.1 hkw
    simp only []
    set t := tableOf results primary key with ht
    have hn : (t.map Prod.fst).Nodup := by rw [ht, tableOf_keys]; exact hF.names
    have hmem : g key ∈ t := List.argmax_mem (hg key)
    have hkm : (g key).1 ∈ t.map Prod.fst := List.mem_map.2 ⟨_, hmem, rfl⟩
    have hlk : (t.lookup (g key).1).getD ⊥ = (g key).2 := by rw [mem_lookup t hn _ _ hmem, Option.getD_some]
    have hmax : ∀ e ∈ t, e.2 ≤ (g key).2 := fun e he => List.le_of_mem_argmax he (hg key)
    refine ⟨by rw [← tableOf_keys results primary key]; exact hkm, ?_, fun k hk' => ?_⟩
    · unfold rankIn
      rw [hlk]
      have h1 : t.countP (fun e => decide ((g key).2 < e.2)) = 0 := by
        rw [List.countP_eq_zero]; intro e he; simpa using hmax e he
      have h2 : (t.takeWhile fun e => decide (e.1 ≠ (g key).1)).countP (fun e => decide (e.2 = (g key).2)) = 0 := by
        rw [List.countP_eq_zero]
        intro e he
        have hem := (List.takeWhile_sublist _).subset he
        simp only [decide_eq_true_eq]
        intro heq
        -- `e` is listed before the winner and has the same score, against `argmax` returning the first
        have hidx := List.index_of_argmax (hg key) hem heq.ge
        have hlt := takeWhile_idxOf Prod.fst t (g key) hmem e he
        exact absurd hidx (not_le.2 hlt)
      rw [h1, h2]
    · obtain ⟨v, hv1, hv2⟩ := lookup_isSome t k (by rw [tableOf_keys]; exact hk')
      rw [hv1, hlk, Option.getD_some]
      exact hmax _ hv2

/-! ## The run -/

variable (L : Lapack)

theorem runScenario_spec (sc : Scenario) (row : List (String × Cell)) (h : runScenario L sc = .ok row) :
    row.map Prod.fst = estimatorNames ∧ ∀ k c, (k, c) ∈ row → ∃ f cov, (k, f) ∈ outOfBox L sc.p ∧ f [.fit (.batch sc.train)] = .ok cov ∧
      c = allAssessors.map fun a => (a.1, judged L sc cov a.2) := by
  have hall : (allAssessors.filter fun a => a.2.usable true true) = allAssessors := C73_data_only.2.2.2
  have hf := mapE_inv _ _ _ h
  have hc : ∀ (e : String × (List (Call (Fin sc.p) ℝ) → Except PyErr (Matrix (Fin sc.p) (Fin sc.p) ℝ))) (b : String × Cell),
      (cell L sc e.2).map (fun c => (e.1, c)) = Except.ok b → b.1 = e.1 ∧ ∃ cov, e.2 [.fit (.batch sc.train)] = .ok cov ∧
      b.2 = allAssessors.map fun a => (a.1, judged L sc cov a.2) := by
    intro e b hb
    unfold cell at hb
    cases hcov : e.2 [Call.fit (.batch sc.train)] with
    | error er => rw [hcov] at hb; cases hb
    | ok cov =>
      rw [hcov] at hb
      simp only [Except.map, hall] at hb
      cases hb
      exact ⟨rfl, cov, rfl, rfl⟩
  constructor
  · rw [← C86_names L (p := sc.p)]
    clear h
    generalize outOfBox L sc.p = l at hf
    induction hf with
    | nil => rfl
    | cons h1 _ ih => rw [List.map_cons, List.map_cons, ih, (hc _ _ h1).1]
  · intro k c hm
    obtain ⟨e, he, hb⟩ := forall₂_right' hf _ hm
    obtain ⟨h1, cov, h2, h3⟩ := hc e _ hb
    simp only [] at h1 h3
    exact ⟨e.2, cov, by rw [h1]; exact he, h2, h3⟩

theorem dictSet_new {α : Type} (d : List (String × α)) (k : String) (v : α) (h : k ∉ d.map Prod.fst) : dictSet d k v = d ++ [(k, v)] := by
  unfold dictSet; rw [if_neg h]

/-- C89: a run over scenarios with distinct names that completes has an entry for each of the 17 estimators and each scenario, in
registry and scenario order, with a score by each of the seven judges: that judge's score of the covariance of a new estimator with
default parameters fitted to the training rows. -/
theorem C89_run (scs : List Scenario) (hn : (scs.map Scenario.name).Nodup) (results : Results) (h : runBakeoff L scs = .ok results) :
    results.map Prod.fst = estimatorNames ∧ Full (scs.map Scenario.name) results ∧
    ∀ k d, (k, d) ∈ results → ∀ sc ∈ scs, ∃ c f cov, d.lookup sc.name = some c ∧ (k, f) ∈ outOfBox L sc.p ∧
      f [.fit (.batch sc.train)] = .ok cov ∧ c.map Prod.fst = allAssessors.map Prod.fst ∧
      ∀ a ∈ allAssessors, c.lookup a.1 = some (judged L sc cov a.2) := by
  have hassn : (allAssessors.map Prod.fst).Nodup := by decide
  -- the loop
  set step := fun (acc : Except PyErr Results) (sc : Scenario) =>
      (match acc with
      | .error e => .error e
      | .ok results =>
        match runScenario L sc with
        | .error e => .error e
        | .ok row => .ok (results.map fun e => (e.1, dictSet e.2 sc.name ((row.lookup e.1).getD []))) : Except PyErr Results) with hstep
  have herr : ∀ (scs : List Scenario) e, scs.foldl step (.error e) = .error e := by
    intro scs; induction scs with
    | nil => intro e; rfl
    | cons sc scs ih => intro e; exact ih e
  have key : ∀ (scs : List Scenario) (r0 results : Results) (seen : List String), (seen ++ scs.map Scenario.name).Nodup →
      (∀ e ∈ r0, e.2.map Prod.fst = seen) → r0.map Prod.fst = estimatorNames → scs.foldl step (.ok r0) = .ok results →
      results.map Prod.fst = estimatorNames ∧ (∀ e ∈ results, e.2.map Prod.fst = seen ++ scs.map Scenario.name) ∧
      ∀ k d, (k, d) ∈ results → (∃ d0, (k, d0) ∈ r0 ∧ d0 <+: d) ∧ ∀ sc ∈ scs, ∃ f cov, (k, f) ∈ outOfBox L sc.p ∧
        f [.fit (.batch sc.train)] = .ok cov ∧ (sc.name, allAssessors.map fun a => (a.1, judged L sc cov a.2)) ∈ d := by
    intro scs
    induction scs with
    | nil =>
      intro r0 results seen _ hs hk h
      cases h
      exact ⟨hk, by simpa using hs, fun k d hd => ⟨⟨d, hd, List.prefix_rfl⟩, by simp⟩⟩
    | cons sc scs ih =>
      intro r0 results seen hnd hs hk h
      rw [List.foldl_cons] at h
      cases hrow : runScenario L sc with
      | error e =>
        rw [hstep] at h
        simp only [hrow] at h
        rw [← hstep, herr] at h
        cases h
      | ok row =>
        obtain ⟨hrk, hrc⟩ := runScenario_spec L sc row hrow
        have hnew : sc.name ∉ seen := by
          rw [List.map_cons] at hnd
          intro hc
          exact (List.nodup_append.1 hnd).2.2 _ hc _ (by simp) rfl
        set r1 : Results := r0.map fun e => (e.1, dictSet e.2 sc.name ((row.lookup e.1).getD [])) with hr1
        have h1 : step (.ok r0) sc = .ok r1 := by rw [hstep]; simp only [hrow]; rfl
        rw [h1] at h
        have hr1k : r1.map Prod.fst = estimatorNames := by rw [hr1, List.map_map, ← hk]; rfl
        have hval : ∀ e ∈ r0, dictSet e.2 sc.name ((row.lookup e.1).getD []) = e.2 ++ [(sc.name, (row.lookup e.1).getD [])] := by
          intro e he; exact dictSet_new _ _ _ (by rw [hs e he]; exact hnew)
        obtain ⟨a1, a2, a3⟩ := ih r1 results (seen ++ [sc.name]) (by rw [List.append_assoc]; simpa using hnd) (by
          intro e he
          obtain ⟨e0, he0, rfl⟩ := List.mem_map.1 he
          simp only [hval e0 he0, List.map_append, hs e0 he0, List.map_cons, List.map_nil]) hr1k h
        refine ⟨a1, by simpa [List.append_assoc] using a2, fun k d hd => ?_⟩
        obtain ⟨⟨d1, hd1, hpre⟩, hrest⟩ := a3 k d hd
        obtain ⟨e0, he0, heq⟩ := List.mem_map.1 hd1
        obtain ⟨rfl, rfl⟩ := Prod.mk.inj heq
        have hv := hval e0 he0
        refine ⟨⟨e0.2, he0, ?_⟩, ?_⟩
        · exact (List.prefix_append _ _).trans (by rw [← hv]; exact hpre)
        · intro sc' hsc'
          rcases List.mem_cons.1 hsc' with rfl | hsc'
          · have hkr : e0.1 ∈ row.map Prod.fst := by
              rw [hrk, ← hk]; exact List.mem_map.2 ⟨e0, he0, rfl⟩
            obtain ⟨c, hc1, hc2⟩ := lookup_isSome row e0.1 hkr
            obtain ⟨f, cov, b1, b2, b3⟩ := hrc _ _ hc2
            refine ⟨f, cov, b1, b2, hpre.subset ?_⟩
            rw [hv, hc1, Option.getD_some, b3]
            simp
          · exact hrest sc' hsc'
  obtain ⟨h1, h2, h3⟩ := key scs (estimatorNames.map fun n => (n, [])) results [] (by simpa using hn) (by simp) (by simp [Function.comp_def]) h
  simp only [List.nil_append] at h2
  refine ⟨h1, ⟨by rw [h1]; decide, ?_, hn, h2⟩, fun k d hd sc hsc => ?_⟩
  · intro he; rw [he] at h1; exact absurd h1 (by decide)
  · obtain ⟨f, cov, b1, b2, b3⟩ := (h3 k d hd).2 sc hsc
    refine ⟨_, f, cov, mem_lookup d (by rw [h2 _ hd]; exact hn) _ _ b3, b1, b2, by rw [List.map_map]; rfl, fun a ha => ?_⟩
    refine mem_lookup _ (by rw [List.map_map]; exact hassn) _ _ ?_
    exact List.mem_map.2 ⟨a, ha, rfl⟩

/-- C89: the `try` around a judge never fires: on a scenario with at least one variable every judge returns a number (possibly
`-inf`), and that is what the table has. -/
theorem C89_judges_return (sc : Scenario) (hp : 1 ≤ sc.p) (cov : Matrix (Fin sc.p) (Fin sc.p) ℝ) (a : AssessorKind) :
    a.score L cov (some sc.test) (some sc.truth) = .num (judged L sc cov a) := by
  have hu : a.usable true true = true := by cases a <;> rfl
  obtain ⟨s, hs⟩ := (C73_usable L hp a cov (some sc.test) (some sc.truth)).1 hu
  unfold judged
  rw [hs]

/-- C89: with training rows in every scenario, the only exception that can end a run is the LinAlgError of
SchurConditionalCovariance (when C32_error_iff says); an empty training set ends it with NotFittedError. -/
theorem C89_errors (scs : List Scenario) (e : PyErr) (h : runBakeoff L scs = .error e) :
    (e = .linAlgError ∧ ∃ sc ∈ scs, sc.train ≠ [] ∧
      scCovariance? L ((new (schurCondCls L sc.p) (⟨1 / 20, 4, false⟩ : BlockParam)).run [.fit (.batch sc.train)]) = .error .linAlgError) ∨
    (e = .notFitted ∧ ∃ sc ∈ scs, sc.train = []) := by
  have key : ∀ (scs : List Scenario) (r0 : Results) (e : PyErr), scs.foldl (fun acc sc =>
      (match acc with
      | .error e => .error e
      | .ok results =>
        match runScenario L sc with
        | .error e => .error e
        | .ok row => .ok (results.map fun e => (e.1, dictSet e.2 sc.name ((row.lookup e.1).getD []))) : Except PyErr Results)) (.ok r0) = .error e →
      ∃ sc ∈ scs, runScenario L sc = .error e := by
    have herr : ∀ (scs : List Scenario) e, scs.foldl (fun acc sc =>
      (match acc with
      | .error e => .error e
      | .ok results =>
        match runScenario L sc with
        | .error e => .error e
        | .ok row => .ok (results.map fun e => (e.1, dictSet e.2 sc.name ((row.lookup e.1).getD []))) : Except PyErr Results)) (.error e) = .error e := by
      intro scs; induction scs with
      | nil => intro e; rfl
      | cons sc scs ih => intro e; exact ih e
    intro scs
    induction scs with
    | nil => intro r0 e h; cases h
    | cons sc scs ih =>
      intro r0 e h
      rw [List.foldl_cons] at h
      cases hrow : runScenario L sc with
      | error e' =>
        simp only [hrow] at h
        rw [herr] at h
        cases h
        exact ⟨sc, by simp, hrow⟩
      | ok row =>
        simp only [hrow] at h
        obtain ⟨sc', h1, h2⟩ := ih _ e h
        exact ⟨sc', by simp [h1], h2⟩
  obtain ⟨sc, hsc, hrow⟩ := key scs _ e h
  obtain ⟨x, hx, hxe⟩ := mapE_error _ _ _ hrow
  have hxe' : x.2 [.fit (.batch sc.train)] = .error e := by
    unfold cell at hxe
    cases hc : x.2 [Call.fit (.batch sc.train)] with
    | error e' => rw [hc] at hxe; cases hxe; rfl
    | ok c => rw [hc] at hxe; cases hxe
  have hav := C86_available L [Call.fit (.batch sc.train)] x hx
  have hrows : rowsSinceFit [Call.fit (.batch sc.train)] [] = sc.train := by simp [rowsSinceFit]
  rw [hrows, hxe'] at hav
  by_cases ht : sc.train = []
  · right
    refine ⟨Except.error.inj (hav.1 ht), sc, hsc, ht⟩
  · left
    rcases hav.2 ht with ⟨c, hc⟩ | ⟨hn, hc⟩
    · cases hc
    · refine ⟨Except.error.inj hc, sc, hsc, ht, ?_⟩
      obtain ⟨n, f⟩ := x
      simp only [] at hn hxe'
      subst hn
      have hf : f = fun c => scCovariance? L ((new (schurCondCls L sc.p) (⟨1 / 20, 4, false⟩ : BlockParam)).run c) := by
        simpa [outOfBox] using hx
      rw [hf] at hxe'
      exact hxe'.trans hc

/-- C89: the run completes when every scenario has training rows after which SchurConditionalCovariance can be read; always for
scenarios of one variable. -/
theorem C89_completes (scs : List Scenario) (h : ∀ sc ∈ scs, sc.train ≠ [] ∧ (sc.p = 1 ∨
      scCovariance? L ((new (schurCondCls L sc.p) (⟨1 / 20, 4, false⟩ : BlockParam)).run [.fit (.batch sc.train)]) ≠ .error .linAlgError)) :
    ∃ results, runBakeoff L scs = .ok results := by
  cases hr : runBakeoff L scs with
  | ok r => exact ⟨r, rfl⟩
  | error e =>
    exfalso
    rcases C89_errors L scs e hr with ⟨-, sc, hsc, ht, he⟩ | ⟨-, sc, hsc, ht⟩
    · rcases (h sc hsc).2 with hp | hne
      · obtain ⟨nm, p, train, test, truth⟩ := sc
        simp only [] at hp ht he
        subst hp
        have hr : ∃ R', ((new (ewaCls (Fin 1) ℝ) ⟨1 / 20, false⟩).run [.fit (.batch train)]).correlation = .ok R' := by
          obtain ⟨c, hc⟩ : ∃ c, ((new (ewaCls (Fin 1) ℝ) (⟨1 / 20, false⟩ : RParam ℝ)).run [.fit (.batch train)]).covariance = .ok c :=
            ⟨_, (ewa_attrs (⟨1 / 20, false⟩ : RParam ℝ) _ (by simpa [used, effective, rowsSinceFit, rowsOf] using ht)).2⟩
          exact ⟨_, by unfold Obj.correlation; rw [hc]; rfl⟩
        obtain ⟨R', hR'⟩ := hr
        obtain ⟨b, hb, -⟩ := (C32_error_iff L le_rfl (⟨1 / 20, 4, false⟩ : BlockParam) _ R' hR').1.1 he
        have : (slices 1 (nbClamped 4 1)).tail = [] := by decide
        simp only [] at hb
        rw [this] at hb
        cases hb
      · exact hne he
    · exact (h sc hsc).1 ht

/-! ## Findings -/

/-- C89: an empty result table: `leaderboard` and `per_scenario_winners` raise StopIteration; with estimators but no scenario the leaderboard
raises IndexError and the winners are empty. -/
theorem C89_empty (primary : String) :
    leaderboard [] primary = .error .stopIteration ∧ winners [] primary = .error .stopIteration ∧
    ∀ (nm : String) (rest : Results), leaderboard ((nm, []) :: rest) primary = .error .indexError ∧ winners ((nm, []) :: rest) primary = .ok [] :=
  ⟨rfl, rfl, fun _ _ => ⟨rfl, rfl⟩⟩

/-- C89 (finding): a primary judge that does not exist is accepted. Every primary column is `-inf`, and the "ranking" is the order
of registration: `avg_rank` of the estimator registered at position `i` is `i+1`. -/
theorem C89_unknown_primary {cells : List String} {results : Results} (hF : Full cells results) (hc : cells ≠ []) (primary : String)
    (hp : ∀ e ∈ results, ∀ c ∈ e.2, primary ∉ c.2.map Prod.fst) :
    ∃ others lines, leaderboard results primary = .ok (others, lines) ∧ lines.map BoardLine.name = results.map Prod.fst ∧
      ∀ l ∈ lines, l.primary = ⊥ ∧ l.avgRank = ((results.map Prod.fst).idxOf l.name : ℝ) + 1 := by
  have hbot : ∀ e ∈ results, ∀ key, scoreOf e.2 key primary = ⊥ := by
    intro e he key
    unfold scoreOf
    cases hl : e.2.lookup key with
    | none => rfl
    | some c =>
      have hm := lookup_mem' e.2 key c hl
      have hpn := hp e he _ hm
      simp only [] at hpn
      simp only [Option.bind_some]
      cases hl2 : c.lookup primary with
      | none => rfl
      | some v => exact absurd (List.mem_map.2 ⟨_, lookup_mem' c primary v hl2, rfl⟩) hpn
  have htab : ∀ key, tableOf results primary key = results.map fun e => (e.1, (⊥ : WithBot ℝ)) := by
    intro key; unfold tableOf
    exact List.map_congr_left fun e he => by rw [hbot e he key]
  have hrank : ∀ (names : List String) (k : String), k ∈ names → rankIn (names.map fun n => (n, (⊥ : WithBot ℝ))) k = names.idxOf k + 1 := by
    intro names k hk
    have hl : ((names.map fun n => (n, (⊥ : WithBot ℝ))).lookup k).getD ⊥ = ⊥ := by
      obtain ⟨v, h1, h2⟩ := lookup_isSome (names.map fun n => (n, (⊥ : WithBot ℝ))) k (by rw [List.map_map]; simpa using hk)
      obtain ⟨n, -, hn⟩ := List.mem_map.1 h2
      cases hn
      rw [h1]; rfl
    unfold rankIn
    rw [hl]
    have h1 : (names.map fun n => (n, (⊥ : WithBot ℝ))).countP (fun e => decide (⊥ < e.2)) = 0 := by
      rw [List.countP_eq_zero]; intro e he
      obtain ⟨n, -, rfl⟩ := List.mem_map.1 he; simp
    have h2 : ((names.map fun n => (n, (⊥ : WithBot ℝ))).takeWhile fun e => decide (e.1 ≠ k)).countP (fun e => decide (e.2 = ⊥)) = names.idxOf k := by
      clear h1 hl
      induction names with
      | nil => cases hk
      | cons a l ih =>
        rw [List.map_cons, List.takeWhile_cons]
        by_cases hak : a = k
        · subst hak; simp
        · rw [if_pos (by simpa using hak), List.countP_cons_of_pos (by simp), ih (by
            rcases List.mem_cons.1 hk with h | h
            · exact absurd h.symm hak
            · exact h), List.idxOf_cons_ne _ hak]
    rw [h1, h2]; omega
  obtain ⟨others, lines, h1, h2, h3, h4, -⟩ := C89_leaderboard hF hc primary
  have hlen : ((cells.map (tableOf results primary)).length : ℝ) ≠ 0 := by
    rw [List.length_map]; exact_mod_cast (List.length_pos_iff.2 hc).ne'
  have hav : ∀ l ∈ lines, l.avgRank = ((results.map Prod.fst).idxOf l.name : ℝ) + 1 := by
    intro l hl
    have hm : l.name ∈ results.map Prod.fst := h2.mem_iff.1 (List.mem_map.2 ⟨l, hl, rfl⟩)
    rw [(h4 l hl).1]
    unfold meanRank
    have : ∀ t ∈ cells.map (tableOf results primary), (rankIn t l.name : ℝ) = ((results.map Prod.fst).idxOf l.name : ℝ) + 1 := by
      intro t ht
      obtain ⟨key, -, rfl⟩ := List.mem_map.1 ht
      rw [htab key]
      have := hrank (results.map Prod.fst) l.name hm
      rw [List.map_map] at this
      have e : ((fun n => (n, (⊥ : WithBot ℝ))) ∘ Prod.fst : String × List (String × Cell) → _) = fun e => (e.1, (⊥ : WithBot ℝ)) := rfl
      rw [e] at this
      rw [this]; push_cast; ring
    rw [List.map_congr_left this, List.map_const', List.sum_replicate, nsmul_eq_mul, mul_comm, mul_div_assoc, div_self hlen, mul_one]
  refine ⟨others, lines, h1, ?_, fun l hl => ⟨?_, hav l hl⟩⟩
  · -- sorted by position
    have hp1 : (lines.map BoardLine.name).Pairwise fun a b => (results.map Prod.fst).idxOf a < (results.map Prod.fst).idxOf b := by
      rw [List.pairwise_map]
      refine h3.imp_of_mem fun {a b} ha hb hab => ?_
      rw [hav a ha, hav b hb] at hab
      rcases hab with h | ⟨-, h⟩
      · have : ((results.map Prod.fst).idxOf a.name : ℝ) < ((results.map Prod.fst).idxOf b.name : ℝ) := by linarith
        exact_mod_cast this
      · exact h
    have hp2 : (results.map Prod.fst).Pairwise fun a b => (results.map Prod.fst).idxOf a < (results.map Prod.fst).idxOf b := by
      rw [List.pairwise_iff_getElem]
      intro i j hi hj hij
      rw [hF.names.idxOf_getElem i hi, hF.names.idxOf_getElem j hj]; exact hij
    exact List.Perm.eq_of_pairwise (fun a b _ _ h1 h2 => absurd h1 (not_lt.2 h2.le)) hp1 hp2 h2
  · obtain ⟨d, hd, ⟨vals, hv1, hv2⟩, -⟩ := (h4 l hl).2
    have : vals = [] := by
      have h0 : (cells.map fun key => scoreOf d key primary).filter (fun s => decide (s ≠ ⊥)) = [] := by
        rw [List.filter_eq_nil_iff]
        intro s hs
        obtain ⟨key, -, rfl⟩ := List.mem_map.1 hs
        rw [hbot _ hd key]; simp
      rw [h0] at hv1
      exact List.map_eq_nil_iff.1 hv1.symm
    rw [hv2, if_pos this]

/-- C89 (finding): the score columns leave out failures: an estimator that failed (`-inf`) on a scenario has the same mean as if
that scenario had not been run, so failing where one would have scored badly improves the column. -/
theorem C89_failures_dropped (d : List (String × Cell)) (a key : String) (c : Cell) (hc : (c.lookup a).getD ⊥ = ⊥) :
    meanScore (d ++ [(key, c)]) a = meanScore d a := by
  unfold meanScore
  have : (List.filterMap (fun m : String × Cell => (m.2.lookup a).bind finite?) [(key, c)]) = [] := by
    cases hl : c.lookup a with
    | none => simp [hl]
    | some s =>
      rw [hl, Option.getD_some] at hc
      subst hc
      simp [hl, finite?]
  simp only [List.filterMap_append, this, List.append_nil]

/-- C89 (finding): so the score column can contradict the ranking: A fails on two of three scenarios and is listed below B, with the
better mean score. -/
theorem C89_mean_contradicts_rank : ∃ results : Results, Full ["s", "t", "u"] results ∧
    ∃ others a b, leaderboard results "J" = .ok (others, [b, a]) ∧ a.name = "A" ∧ b.name = "B" ∧ b.avgRank < a.avgRank ∧ b.primary < a.primary := by
  set A : List (String × Cell) := [("s", [("J", ((2 : ℝ) : WithBot ℝ))]), ("t", [("J", ⊥)]), ("u", [("J", ⊥)])] with hA
  set B : List (String × Cell) := [("s", [("J", ((1 : ℝ) : WithBot ℝ))]), ("t", [("J", ((1 : ℝ) : WithBot ℝ))]), ("u", [("J", ((1 : ℝ) : WithBot ℝ))])] with hB
  have hF : Full ["s", "t", "u"] [("A", A), ("B", B)] := by
    refine ⟨by decide, by simp, by decide, ?_⟩
    intro e he
    rcases List.mem_cons.1 he with rfl | he
    · rfl
    · rcases List.mem_cons.1 he with rfl | he
      · rfl
      · cases he
  refine ⟨[("A", A), ("B", B)], hF, ?_⟩
  obtain ⟨others, lines, h1, h2, h3, h4, -⟩ := C89_leaderboard hF (by simp) "J"
  have t1 : tableOf [("A", A), ("B", B)] "J" "s" = [("A", ((2 : ℝ) : WithBot ℝ)), ("B", ((1 : ℝ) : WithBot ℝ))] := rfl
  have t2 : tableOf [("A", A), ("B", B)] "J" "t" = [("A", ⊥), ("B", ((1 : ℝ) : WithBot ℝ))] := rfl
  have t3 : tableOf [("A", A), ("B", B)] "J" "u" = [("A", ⊥), ("B", ((1 : ℝ) : WithBot ℝ))] := rfl
  have lt12 : ((1 : ℝ) : WithBot ℝ) < ((2 : ℝ) : WithBot ℝ) := by exact_mod_cast (by norm_num : (1 : ℝ) < 2)
  have ra : meanRank (["s", "t", "u"].map (tableOf [("A", A), ("B", B)] "J")) "A" = 5 / 3 := by
    simp only [List.map_cons, List.map_nil, t1, t2, t3, meanRank]
    simp [rankIn, List.lookup, List.takeWhile, List.countP_cons, lt12, lt12.le, not_lt.2 lt12.le]
    norm_num
  have rb : meanRank (["s", "t", "u"].map (tableOf [("A", A), ("B", B)] "J")) "B" = 4 / 3 := by
    simp only [List.map_cons, List.map_nil, t1, t2, t3, meanRank]
    simp [rankIn, List.lookup, List.takeWhile, List.countP_cons, lt12, lt12.ne, lt12.ne']
    norm_num
  have hl2 : lines.length = 2 := by have := h2.length_eq; simpa using this
  obtain ⟨x, y, rfl⟩ : ∃ x y, lines = [x, y] := by
    match lines, hl2 with
    | [x, y], _ => exact ⟨x, y, rfl⟩
  have hx := (h4 x (by simp)).1
  have hy := (h4 y (by simp)).1
  have hpw : x.avgRank < y.avgRank ∨ _ := (List.pairwise_cons.1 h3).1 y (by simp)
  have hnames : (x.name = "A" ∧ y.name = "B") ∨ (x.name = "B" ∧ y.name = "A") := by
    have hp : [x.name, y.name].Perm ["A", "B"] := h2
    have h1 : x.name ∈ ["A", "B"] := hp.mem_iff.1 (by simp)
    have h2 : y.name ∈ ["A", "B"] := hp.mem_iff.1 (by simp)
    have h3 : x.name ≠ y.name := by
      have := hp.nodup_iff.2 (by decide)
      simpa using this
    simp only [List.mem_cons, List.not_mem_nil, or_false] at h1 h2
    rcases h1 with h1 | h1 <;> rcases h2 with h2 | h2
    · exact absurd (h1.trans h2.symm) h3
    · exact Or.inl ⟨h1, h2⟩
    · exact Or.inr ⟨h1, h2⟩
    · exact absurd (h1.trans h2.symm) h3
  rcases hnames with ⟨hxa, hyb⟩ | ⟨hxb, hya⟩
  · exfalso
    rw [hxa] at hx; rw [hyb] at hy
    rw [ra] at hx; rw [rb] at hy
    rw [hx, hy] at hpw
    rcases hpw with h | ⟨h, -⟩ <;> norm_num at h
  · rw [hxb, rb] at hx
    rw [hya, ra] at hy
    refine ⟨others, y, x, h1, hya, hxb, by rw [hx, hy]; norm_num, ?_⟩
    obtain ⟨d, hd, ⟨vals, hv1, hv2⟩, -⟩ := (h4 x (by simp)).2
    obtain ⟨d', hd', ⟨vals', hv1', hv2'⟩, -⟩ := (h4 y (by simp)).2
    rw [hxb] at hd
    rw [hya] at hd'
    have ed : d = B := by
      rcases List.mem_cons.1 hd with h | h
      · exact absurd (congrArg Prod.fst h) (by simp)
      · rcases List.mem_cons.1 h with h | h
        · cases h; rfl
        · cases h
    have ed' : d' = A := by
      rcases List.mem_cons.1 hd' with h | h
      · cases h; rfl
      · rcases List.mem_cons.1 h with h | h
        · exact absurd (congrArg Prod.fst h) (by simp)
        · cases h
    subst ed ed'
    have hinj : Function.Injective (fun v : ℝ => (v : WithBot ℝ)) := fun a b h => WithBot.coe_injective h
    have hvB : vals = [1, 1, 1] := by
      refine List.map_injective_iff.2 hinj ?_
      rw [← hv1]; simp [scoreOf, List.lookup, hB]
    have hvA : vals' = [2] := by
      refine List.map_injective_iff.2 hinj ?_
      rw [← hv1']; simp [scoreOf, List.lookup, hA]
    rw [hv2, hv2', hvA, hvB]
    simp only [List.cons_ne_nil, if_false, reduceCtorEq]
    norm_num

/-! ## A concrete case: two scenarios of one variable -/

noncomputable def demoScenarios : List Scenario :=
  [⟨"calm", 1, [![1], ![2], ![0]], [![1], ![3]], 1⟩, ⟨"wild", 1, [![9], ![-9]], [![4]], !![5]⟩]

example : ∃ results, runBakeoff L demoScenarios = .ok results ∧ Full ["calm", "wild"] results ∧
    ∃ others lines, leaderboard results "SchurLikelihood" = .ok (others, lines) ∧ lines.length = 17 := by
  obtain ⟨r, hr⟩ := C89_completes L demoScenarios (by
    intro sc hsc
    simp only [demoScenarios, List.mem_cons, List.not_mem_nil, or_false] at hsc
    rcases hsc with rfl | rfl
    · exact ⟨by simp, Or.inl rfl⟩
    · exact ⟨by simp, Or.inl rfl⟩)
  obtain ⟨h1, h2, -⟩ := C89_run L demoScenarios (by decide) r hr
  obtain ⟨o, l, h3, h4, -⟩ := C89_leaderboard h2 (by simp [demoScenarios]) "SchurLikelihood"
  refine ⟨r, hr, h2, o, l, h3, ?_⟩
  have := h4.length_eq
  rw [List.length_map, h1] at this
  rw [this]; rfl

end Precise.Oos
