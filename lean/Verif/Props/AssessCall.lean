import Verif.Model.AssessorCall
import Verif.Props.AssessBlocks

/-!
# C73: choosing and calling judges through the registry
-/

set_option linter.all false

open Matrix

namespace Precise

variable {p : ℕ} (L : Lapack)

/-- C73: what each registered name computes, on test rows `X` and the true covariance `t`. -/
theorem C73_named (cov t : Matrix (Fin p) (Fin p) ℝ) (X : List (Fin p → ℝ)) :
    let run := fun name : String => (assessorFromName name).map fun a => a.score L cov (some X) (some t)
    run "LogLikelihood" = .ok (.num (logLikelihoodScore L cov X)) ∧
    run "BlockPseudoLikelihood" = .ok (.ofExcept (blockPseudoScore L 10 cov X)) ∧
    run "SchurLikelihood" = .ok (.ofExcept (schurLikelihoodScore L (1 / 2) 4 "linear" cov X)) ∧
    run "SteinLoss" = .ok (.num (steinScore L cov X)) ∧
    run "FrobeniusToTruth" = .ok (.num (frobeniusScore cov t : ℝ)) ∧
    run "GMVVariance" = .ok (.num (gmvScore L cov X : ℝ)) ∧
    run "VariogramScore" = .ok (.num (variogramScore cov X : ℝ)) := by
  refine ⟨?_, ?_, ?_, ?_, ?_, ?_, ?_⟩ <;> simp [assessorFromName, fromName, allAssessors, Except.map, AssessorKind.score]

/-- C73: `usable(have_data, have_truth)` says exactly whether `score` returns a number when called with just what is available
(at least one variable); an unusable judge raises or returns NaN, never a number. -/
theorem C73_usable (hp : 1 ≤ p) (a : AssessorKind) (cov : Matrix (Fin p) (Fin p) ℝ) (X : Option (List (Fin p → ℝ)))
    (truth : Option (Matrix (Fin p) (Fin p) ℝ)) :
    a.usable X.isSome truth.isSome = true ↔ ∃ s, a.score L cov X truth = .num s := by
  have hb : ∀ X, ∃ s, blockPseudoScore L 10 cov X = .ok s := fun X => by
    unfold blockPseudoScore; rw [if_neg (by norm_num), if_neg (by norm_num)]; exact ⟨_, rfl⟩
  have hs : ∀ X, ∃ s, schurLikelihoodScore L (1 / 2) 4 "linear" cov X = .ok s := fun X => by
    obtain ⟨S, -, h⟩ := (C57_schur_finite L (1 / 2) 4 "linear" cov X).2 (by norm_num) hp
    exact ⟨_, h⟩
  have hp0 : p ≠ 0 := by omega
  cases a <;> cases X <;> cases truth <;>
    simp [AssessorKind.usable, AssessorKind.needsData, AssessorKind.needsTruth, AssessorKind.score, hp0]
  all_goals first
    | (obtain ⟨s, h⟩ := hb ‹_›; rw [h]; exact ⟨s, rfl⟩)
    | (obtain ⟨s, h⟩ := hs ‹_›; rw [one_div] at h; rw [h]; exact ⟨s, rfl⟩)

/-- C73: a judge reads only what it declares: a data judge gives the same answer whatever truth is passed, a truth judge whatever
data. -/
theorem C73_reads_only_declared (a : AssessorKind) (cov : Matrix (Fin p) (Fin p) ℝ) (X X' : Option (List (Fin p → ℝ)))
    (t t' : Option (Matrix (Fin p) (Fin p) ℝ)) :
    (a.needsTruth = false → a.score L cov X t = a.score L cov X t') ∧ (a.needsData = false → a.score L cov X t = a.score L cov X' t) ∧
    (a.needsTruth = true ↔ a.needsData = false) := by
  refine ⟨fun h => ?_, fun h => ?_, ?_⟩
  · cases a <;> cases X <;> cases t <;> cases t' <;> first | rfl | (exact absurd h (by simp [AssessorKind.needsTruth]))
  · cases a <;> cases X <;> cases X' <;> cases t <;> first | rfl | (exact absurd h (by simp [AssessorKind.needsData]))
  · cases a <;> simp [AssessorKind.needsTruth, AssessorKind.needsData]

/-- C73: with data but no truth, exactly the six data judges can run, in registry order. -/
theorem C73_data_only : (allAssessors.filter fun a => a.2.usable true false).map Prod.fst =
    ["LogLikelihood", "BlockPseudoLikelihood", "SchurLikelihood", "SteinLoss", "GMVVariance", "VariogramScore"] ∧
    (allAssessors.filter fun a => a.2.usable false true).map Prod.fst = ["FrobeniusToTruth"] ∧
    (allAssessors.filter fun a => a.2.usable false false) = [] ∧
    (allAssessors.filter fun a => a.2.usable true true) = allAssessors := by
  refine ⟨?_, ?_, ?_, ?_⟩ <;> rfl

/-- Non-vacuity: a usable and an unusable call. -/
example : (∃ s, AssessorKind.score (p := 1) L .gmvVariance 1 (some [fun _ => 2]) none = .num s) ∧
    ¬ ∃ s, AssessorKind.score (p := 1) L .frobeniusToTruth 1 (some [fun _ => 2]) none = .num s :=
  ⟨(C73_usable L le_rfl _ _ _ _).1 rfl, fun h => by simpa [AssessorKind.usable, AssessorKind.needsData, AssessorKind.needsTruth] using (C73_usable L le_rfl _ _ _ _).2 h⟩

/-- C73: for zero variables SchurLikelihood raises (`array_split` into no sections) whatever data it is given: it does not return
NaN. -/
theorem C73_no_variables (cov : Matrix (Fin 0) (Fin 0) ℝ) (X : List (Fin 0 → ℝ)) (t : Option (Matrix (Fin 0) (Fin 0) ℝ)) :
    AssessorKind.schurLikelihood.score L cov (some X) t = .raised := by
  have h : schurLikelihoodScore L (1 / 2) 4 "linear" cov X = .error .valueError := by
    unfold schurLikelihoodScore
    have : schurNb? 4 0 = (.error .valueError : Except PyErr ℕ) := by decide
    rw [this]; rfl
  unfold AssessorKind.score
  simp only [h]; rfl

end Precise
