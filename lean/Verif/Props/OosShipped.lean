import Verif.Props.Oos
import Verif.Props.Recommend
import Verif.Props.Defaults

/-!
# C87: the out-of-sample study of the shipped library, and what its recommender can pick
-/

set_option linter.all false

namespace Precise.Oos

open Precise.Spec

variable {G : Type} {p : ℕ} (L : Lapack)

theorem topPick_eq (rows : List (Fin p → ℝ)) :
    let f := covarianceFeatures L rows
    topPick L rows = open Classical in
      if (1 / 4 < f.pOverN ∨ f.sphericity < 6 / 10 ∨ 50 < f.conditionNumber) ∨ voteKurtosis < f.avgExcessKurtosis then "LedoitWolfCovariance"
      else "EmpiricalCovariance" := by
  intro f
  classical
  have h := C54_five_rankings f
  have hv : (1 : ℝ) < voteKurtosis := by unfold voteKurtosis; norm_num
  unfold topPick suggest
  show (Option.getD (Option.map (fun r => pyTake r 1) f.ranked) []).headD "" = _
  simp only [] at h
  rw [h]
  by_cases h1 : 1 / 4 < f.pOverN ∨ f.sphericity < 6 / 10 ∨ 50 < f.conditionNumber
  · rw [if_pos h1, if_pos (Or.inl h1)]
    by_cases h2 : 1 < f.avgExcessKurtosis
    · rw [if_pos h2]; rfl
    · rw [if_neg h2]; rfl
  · rw [if_neg h1]
    by_cases h3 : voteKurtosis < f.avgExcessKurtosis
    · rw [if_pos (Or.inr h3), if_pos (hv.trans h3), if_pos h3]; rfl
    · have hor : ¬ ((1 / 4 < f.pOverN ∨ f.sphericity < 6 / 10 ∨ 50 < f.conditionNumber) ∨ voteKurtosis < f.avgExcessKurtosis) := fun h => h.elim h1 h3
      rw [if_neg hor, if_neg h3]
      by_cases h2 : 1 < f.avgExcessKurtosis
      · rw [if_pos h2]; rfl
      · rw [if_neg h2]; rfl

/-- C87: the top recommendation is one of two of the 17 estimators: LedoitWolfCovariance, or EmpiricalCovariance, the latter exactly
when `p/n ≤ 1/4`, sphericity `≥ 0.6`, condition number `≤ 50` and mean excess kurtosis at most 1.2068. -/
theorem C87_two_picks (rows : List (Fin p → ℝ)) :
    let f := covarianceFeatures L rows
    (topPick L rows = "LedoitWolfCovariance" ∨ topPick L rows = "EmpiricalCovariance") ∧
    (topPick L rows = "EmpiricalCovariance" ↔
      f.pOverN ≤ 1 / 4 ∧ 6 / 10 ≤ f.sphericity ∧ f.conditionNumber ≤ 50 ∧ f.avgExcessKurtosis ≤ voteKurtosis) := by
  classical
  intro f
  have h := topPick_eq L rows
  simp only [] at h
  rw [h]
  have hne : "LedoitWolfCovariance" ≠ "EmpiricalCovariance" := by decide
  split
  · rename_i hc
    refine ⟨Or.inl rfl, ⟨fun h => absurd h hne, fun h => ?_⟩⟩
    rcases hc with (hc | hc | hc) | hc
    · exact absurd h.1 (not_le.2 hc)
    · exact absurd h.2.1 (not_le.2 hc)
    · exact absurd h.2.2.1 (not_le.2 hc)
    · exact absurd h.2.2.2 (not_le.2 hc)
  · rename_i hc
    push Not at hc
    exact ⟨Or.inr rfl, ⟨fun _ => ⟨hc.1.1, hc.1.2.1, hc.1.2.2, hc.2⟩, fun _ => rfl⟩⟩

/-- C87: with more than a quarter as many variables as rows the shipped recommender does not look at the data: its top pick is
LedoitWolfCovariance. -/
theorem C87_high_dimension (rows : List (Fin p → ℝ)) (hn : rows ≠ []) (h : rows.length < 4 * p) : topPick L rows = "LedoitWolfCovariance" := by
  have hl : (0 : ℝ) < rows.length := by exact_mod_cast List.length_pos_iff.2 hn
  rcases (C87_two_picks L rows).1 with h1 | h1
  · exact h1
  · have h2 := ((C87_two_picks L rows).2.1 h1).1
    have : (p : ℝ) / rows.length ≤ 1 / 4 := h2
    rw [div_le_iff₀ hl] at this
    have h3 : (rows.length : ℝ) < 4 * p := by exact_mod_cast h
    linarith

theorem topPick_mem (rows : List (Fin p → ℝ)) : topPick L rows ∈ estimatorNames := by
  rcases (C87_two_picks L rows).1 with h | h <;> rw [h] <;> decide

/-- C87: the scores of a trial. Each registered estimator is fitted to the drawn training rows only; if `fit` or `covariance_` raises, or the
judge does, its score is `-inf`; otherwise it is the judge's score of that covariance on the drawn test rows. The recommendation is made
from the training rows only. -/
theorem C87_trial (draw : String → G → (List (Fin p → ℝ) × List (Fin p → ℝ)) × G)
    (assess : Matrix (Fin p) (Fin p) ℝ → List (Fin p → ℝ) → Except PyErr (WithBot ℝ))
    (recommender : Option (List (Fin p → ℝ) → String)) (e : String) (g g' : G) (train test : List (Fin p → ℝ)) (hd : draw e g = ((train, test), g')) :
    ∃ scores pk, trialOf L draw assess recommender e g = ((scores, pk), g') ∧
      (∀ f, recommender = some f → pk = f train) ∧ (recommender = none → pk = topPick L train) ∧
      ∀ k f, (k, f) ∈ outOfBox L p → ∃ s, (k, s) ∈ scores ∧
        (∀ err, f [.fit (.batch train)] = .error err → s = ⊥) ∧
        (∀ cov err, f [.fit (.batch train)] = .ok cov → assess cov test = .error err → s = ⊥) ∧
        (∀ cov v, f [.fit (.batch train)] = .ok cov → assess cov test = .ok v → s = v) := by
  unfold trialOf
  simp only [hd]
  refine ⟨_, _, rfl, ?_, ?_, fun k f hk => ⟨_, List.mem_map.2 ⟨_, hk, rfl⟩, ?_, ?_, ?_⟩⟩
  · rintro f rfl; rfl
  · rintro rfl; rfl
  · intro err he; simp only [he]
  · intro cov err h1 h2; simp only [h1, h2]
  · intro cov v h1 h2; simp only [h1, h2]

/-- C87: the contract of C85 holds for the library as shipped: whatever is drawn and however it is judged, a trial scores exactly
the 17 registered estimators, and the recommended one is among them (a custom recommender must name a registered class). -/
theorem C87_sound (pick : List String → G → String × G) (hp : ∀ l g, l ≠ [] → (pick l g).1 ∈ l)
    (draw : String → G → (List (Fin p → ℝ) × List (Fin p → ℝ)) × G)
    (assess : Matrix (Fin p) (Fin p) ℝ → List (Fin p → ℝ) → Except PyErr (WithBot ℝ))
    (recommender : Option (List (Fin p → ℝ) → String)) (hr : ∀ f, recommender = some f → ∀ rows, f rows ∈ estimatorNames) :
    Sound estimatorNames pick (trialOf L draw assess recommender) := by
  refine ⟨hp, fun e g => ?_, fun e g => ?_⟩
  · show (trialScores L assess _ _).map Prod.fst = _
    unfold trialScores
    rw [List.map_map]
    exact C86_names L
  · show (match recommender with | some f => f _ | none => topPick L _) ∈ _
    cases recommender with
    | none => exact topPick_mem L _
    | some f => exact hr f rfl _

/-- C87 (finding): in the published study (`p = 30`, `n_train = 60`, any setting with `n_train < 4 p`) the recommender is a fixed
estimator. `leave_one_ensemble_out` completes, and in every line of its table `rank_recommender` is the mean rank of
LedoitWolfCovariance over the held-out trials; so the recommender cannot beat the best fixed estimator by choosing per problem,
and where the best fixed estimator is LedoitWolfCovariance the two columns are equal. -/
theorem C87_study_is_ledoit_wolf (pick : List String → G → String × G) (hp : ∀ l g, l ≠ [] → (pick l g).1 ∈ l)
    (draw : String → G → (List (Fin p → ℝ) × List (Fin p → ℝ)) × G) (nTrain : ℕ) (hd : ∀ e g, (draw e g).1.1.length = nTrain)
    (h0 : 0 < nTrain) (h4 : nTrain < 4 * p)
    (assess : Matrix (Fin p) (Fin p) ℝ → List (Fin p → ℝ) → Except PyErr (WithBot ℝ))
    (ens : List String) (he : ens.Nodup) (h2 : 2 ≤ ens.length) (trials : ℕ) (ht : 0 < trials) (g : G) :
    ∃ rs, leaveOneEnsembleOut pick (trialOf L draw assess none) ens trials g = .ok rs ∧ rs.map Prod.fst = ens ∧
      ∀ hr ∈ rs, (∃ samples : List (List (Fin p → ℝ) × List (Fin p → ℝ)), samples.length = trials ∧
          (∀ s ∈ samples, ∃ g, s = (draw hr.1 g).1) ∧
          hr.2.rankRecommender = (samples.map fun s => (rankIn (trialScores L assess s.1 s.2) "LedoitWolfCovariance" : ℝ)).sum / trials ∧
          hr.2.rankBestFixed = (samples.map fun s => (rankIn (trialScores L assess s.1 s.2) hr.2.bestFixed : ℝ)).sum / trials) ∧
        (hr.2.bestFixed = "LedoitWolfCovariance" → hr.2.rankRecommender = hr.2.rankBestFixed) := by
  obtain ⟨rs, r1, r2, r3⟩ := C85_leave_one_out estimatorNames (by decide) (by decide)
    (C87_sound L pick hp draw assess none (fun _ h => by cases h)) ens he h2 trials ht g
  refine ⟨rs, r1, r2, fun hr hm => ?_⟩
  obtain ⟨os, o1, o2, o3, o4⟩ := (r3 hr hm).evaluate
  have key : ∀ o ∈ os, ∃ s : List (Fin p → ℝ) × List (Fin p → ℝ), (∃ g, s = (draw hr.1 g).1) ∧
      o = (trialScores L assess s.1 s.2, "LedoitWolfCovariance") := by
    intro o ho
    obtain ⟨g', rfl⟩ := o2 o ho
    refine ⟨(draw hr.1 g').1, ⟨g', rfl⟩, ?_⟩
    have hl := hd hr.1 g'
    have hne : (draw hr.1 g').1.1 ≠ [] := by rw [← List.length_pos_iff, hl]; exact h0
    have := C87_high_dimension L (draw hr.1 g').1.1 hne (by rw [hl]; exact h4)
    show (trialScores L assess _ _, topPick L (draw hr.1 g').1.1) = _
    rw [this]
  have build : ∀ os : List (Scores × String), (∀ o ∈ os, ∃ s : List (Fin p → ℝ) × List (Fin p → ℝ), (∃ g, s = (draw hr.1 g).1) ∧
      o = (trialScores L assess s.1 s.2, "LedoitWolfCovariance")) →
      ∃ samples : List (List (Fin p → ℝ) × List (Fin p → ℝ)), (∀ s ∈ samples, ∃ g, s = (draw hr.1 g).1) ∧
        os = samples.map fun s => (trialScores L assess s.1 s.2, "LedoitWolfCovariance") := by
    intro os h
    induction os with
    | nil => exact ⟨[], by simp, rfl⟩
    | cons o os ih =>
      obtain ⟨s, hs, rfl⟩ := h o (by simp)
      obtain ⟨ss, h1, rfl⟩ := ih fun o ho => h o (by simp [ho])
      refine ⟨s :: ss, fun t ht => ?_, rfl⟩
      rcases List.mem_cons.1 ht with rfl | ht
      · exact hs
      · exact h1 t ht
  obtain ⟨samples, s1, rfl⟩ := build os key
  rw [List.length_map] at o1
  rw [List.map_map] at o3 o4
  refine ⟨⟨samples, o1, s1, o3, o4⟩, fun hb => ?_⟩
  rw [o3, o4, hb]
  rfl

/-- Non-vacuity of C87_high_dimension. -/
example : topPick L ([![1, 2], ![0, 1], ![3, 5]] : List (Fin 2 → ℝ)) = "LedoitWolfCovariance" :=
  C87_high_dimension L _ (by simp) (by simp)

/-- Non-vacuity of C87_study_is_ledoit_wolf: two ensembles, three training rows of two variables. -/
example : ∃ (pick : List String → ℕ → String × ℕ) (draw : String → ℕ → (List (Fin 2 → ℝ) × List (Fin 2 → ℝ)) × ℕ),
    (∀ l g, l ≠ [] → (pick l g).1 ∈ l) ∧ (∀ e g, (draw e g).1.1.length = 3) ∧ 3 < 4 * 2 :=
  ⟨fun l g => (l.headD "", g + 1), fun e g => (([![1, 2], ![0, g], ![3, 5]], [![0, 1]]), g + 1),
    fun l g h => by cases l with | nil => exact absurd rfl h | cons a t => simp, fun _ _ => rfl, by norm_num⟩

end Precise.Oos
