import Verif.Props.Base
import Verif.Lemmas.Lawful
import Verif.Model.Registry

/-!
# The protocol properties (C04–C09) for each of the 17 shipped classes, and C51: the registries
-/

set_option linter.all false

namespace Precise

open Obj

/-- Every class in the registry is lawful, for every number of variables and every backend. -/
theorem shipped_lawful (L : Lapack) (p : ℕ) (e : String × Cls (Fin p) ℝ) (he : e ∈ registry L p) : Lawful e.2 := by
  simp only [registry, List.mem_cons, List.not_mem_nil, or_false] at he
  rcases he with rfl | rfl | rfl | rfl | rfl | rfl | rfl | rfl | rfl | rfl | rfl | rfl | rfl | rfl | rfl | rfl | rfl
  · exact empirical_lawful _ _
  · exact diagonal_lawful _ _
  · exact block_lawful _ _
  · exact ewa_lawful _ _
  · exact adaptive_lawful _ _
  · exact ledoitWolf_lawful _ _
  · exact oas_lawful _ _
  · exact shrunk_lawful _
  · exact schur_lawful _ _
  · exact schurCond_lawful _ _
  · exact schurLW_lawful _ _
  · exact partialMoments_lawful _ _
  · exact huber_lawful _ _
  · exact tyler_lawful _ _
  · exact geodesic_lawful _ _
  · exact dcc_lawful _
  · exact factor_lawful _

section
variable (L : Lapack) (p : ℕ) (name : String) (C : Cls (Fin p) ℝ) (h : estimatorFromName L p name = .ok C)

theorem fromName_mem {α : Type*} (l : List (String × α)) (name : String) (a : α) (h : fromName l name = .ok a) : (name, a) ∈ l := by
  induction l with
  | nil => simp [fromName] at h
  | cons e l ih =>
    obtain ⟨n, b⟩ := e
    unfold fromName at h
    split at h
    · rename_i hn
      cases h; subst hn; simp
    · exact List.mem_cons_of_mem _ (ih h)

include h in
theorem named_lawful : Lawful C := shipped_lawful L p (name, C) (fromName_mem _ _ _ h)

include h in
/-- C04 for every estimator class that `estimator_from_name` returns. -/
theorem C04_shipped (pr : C.Param) (calls : List (Call (Fin p) ℝ)) :
    ((new C pr).run calls).nSamples =
      let n := (Spec.rowsSinceFit calls []).length
      if C.diff pr then n - 1 else n := C04_n_samples (named_lawful L p name C h) pr calls

include h in
/-- C05 for every shipped class. -/
theorem C05_shipped (pr : C.Param) (hd : C.diff pr = true) (calls : List (Call (Fin p) ℝ)) :
    let a := (new C pr).run calls
    let b := ((new C (C.withDiff false pr)).partialFit (.batch (Spec.diffs (Spec.rowsSinceFit calls [])))).1
    a.state = b.state ∧ a.nSamples = b.nSamples ∧ a.location = b.location ∧ a.covariance = b.covariance :=
  C05_diff (named_lawful L p name C h) pr hd calls

include h in
/-- C06 for every shipped class. -/
theorem C06_shipped (pr : C.Param) (calls : List (Call (Fin p) ℝ)) :
    let o := (new C pr).run calls
    (o.nSamples = 0 → o.location = .error .notFitted ∧ o.covariance = .error .notFitted) ∧
    (o.nSamples ≠ 0 → (∃ m, o.location = .ok m) ∧ (∃ c, o.covariance = .ok c)) :=
  (C06_not_fitted_iff (named_lawful L p name C h) pr calls).2

include h in
/-- C07 for every shipped class: resume from a checkpoint (diff=False). -/
theorem C07_shipped (pr : C.Param) (hd : C.diff pr = false) (past future : List (Call (Fin p) ℝ)) (target : Obj C)
    (ht : target.params = pr) :
    let a := ((new C pr).run past).run future
    let b := (target.setState ((new C pr).run past).getState).run future
    a.state = b.state ∧ a.nSamples = b.nSamples ∧ a.location = b.location ∧ a.covariance = b.covariance ∧
      a.getState = b.getState := C07_checkpoint_resume (named_lawful L p name C h) pr hd past future target ht

include h in
/-- C08 for every shipped class: pickling. -/
theorem C08_shipped (pr : C.Param) (past future : List (Call (Fin p) ℝ)) :
    ofPickle (toPickle ((new C pr).run past)) = (new C pr).run past ∧
    (ofPickle (toPickle ((new C pr).run past))).run future = ((new C pr).run past).run future :=
  ⟨C08_pickle_roundtrip (named_lawful L p name C h) pr past, C08_pickle_resume (named_lawful L p name C h) pr past future⟩

end

/-- C09: in each of the 16 shipped classes with a decay rate, the rate is captured at the first observation:
`set_params(r=...)` on a fitted estimator has no effect (`C09_frozen`) until the next `fit` (`C09_effective_after_fit`). -/
theorem C09_rate_frozen (L : Lapack) (p : ℕ) (r : ℝ) :
    FrozenParam (diagonalCls (Fin p) ℝ) (fun q => { q with r := r }) ∧
    FrozenParam (blockCls L p) (fun q => ({ (q : BlockParam) with r := r } : BlockParam)) ∧
    FrozenParam (ewaCls (Fin p) ℝ) (fun q => { q with r := r }) ∧
    FrozenParam (adaptiveCls L (Fin p)) (fun q => ({ (q : AdaParam) with r := r } : AdaParam)) ∧
    FrozenParam (ledoitWolfCls (Fin p) ℝ) (fun q => { q with r := r }) ∧
    FrozenParam (oasCls (Fin p) ℝ) (fun q => { q with r := r }) ∧
    FrozenParam (shrunkCls (Fin p)) (fun q => ({ (q : ShrunkParam) with r := r } : ShrunkParam)) ∧
    FrozenParam (schurCls L p) (fun q => ({ (q : SchurParam) with r := r } : SchurParam)) ∧
    FrozenParam (schurCondCls L p) (fun q => ({ (q : BlockParam) with r := r } : BlockParam)) ∧
    FrozenParam (schurLWCls L p) (fun q => ({ (q : BlockParam) with r := r } : BlockParam)) ∧
    FrozenParam (partialMomentsCls L (Fin p)) (fun q => ({ (q : RParam ℝ) with r := r } : RParam ℝ)) ∧
    FrozenParam (huberCls L (Fin p)) (fun q => ({ (q : HuberParam) with r := r } : HuberParam)) ∧
    FrozenParam (tylerCls L (Fin p)) (fun q => ({ (q : RParam ℝ) with r := r } : RParam ℝ)) ∧
    FrozenParam (geodesicCls L (Fin p)) (fun q => ({ (q : RParam ℝ) with r := r } : RParam ℝ)) ∧
    FrozenParam (dccCls (Fin p)) (fun q => ({ (q : DCCParam) with r := r } : DCCParam)) ∧
    FrozenParam (factorCls (Fin p)) (fun q => ({ (q : FactorParam) with r := r } : FactorParam)) := by
  refine ⟨?_, ?_, ?_, ?_, ?_, ?_, ?_, ?_, ?_, ?_, ?_, ?_, ?_, ?_, ?_, ?_⟩ <;>
    exact ⟨fun _ => rfl, fun _ => rfl, fun _ => rfl, fun _ => rfl⟩

/-- C09: not every parameter is captured. `n_blocks` is for BlockCovariance (the blocks are part of the state), and so
is `k` of FactorCovariance and `max_r` of AdaptiveEwaCovariance. -/
theorem C09_other_frozen (L : Lapack) (p : ℕ) (n : ℤ) (k : ℕ) (m : ℝ) :
    FrozenParam (blockCls L p) (fun q => ({ (q : BlockParam) with nBlocks := n } : BlockParam)) ∧
    FrozenParam (factorCls (Fin p)) (fun q => ({ (q : FactorParam) with k := k } : FactorParam)) ∧
    FrozenParam (adaptiveCls L (Fin p)) (fun q => ({ (q : AdaParam) with maxR := m } : AdaParam)) := by
  refine ⟨?_, ?_, ?_⟩ <;> exact ⟨fun _ => rfl, fun _ => rfl, fun _ => rfl, fun _ => rfl⟩

/-! ## C51 -/

theorem fromName_spec {α : Type*} (l : List (String × α)) (hn : (l.map Prod.fst).Nodup) (name : String) :
    (∀ a, fromName l name = .ok a ↔ (name, a) ∈ l) ∧
    (fromName l name = .error .keyError ↔ name ∉ l.map Prod.fst) := by
  induction l with
  | nil => simp [fromName]
  | cons e l ih =>
    obtain ⟨n, b⟩ := e
    simp only [List.map_cons, List.nodup_cons] at hn
    obtain ⟨i1, i2⟩ := ih hn.2
    unfold fromName
    by_cases h : n = name
    · subst h
      simp only [if_true]
      refine ⟨fun a => ⟨fun e => by cases e; simp, fun hm => ?_⟩, by simp⟩
      rcases List.mem_cons.1 hm with e | e
      · cases e; rfl
      · exact absurd (List.mem_map_of_mem (f := Prod.fst) e) hn.1
    · simp only [if_neg h]
      refine ⟨fun a => ?_, ?_⟩
      · rw [i1 a]; simp [Ne.symm h]
      · rw [i2]; simp [Ne.symm h]

/-- C51: the registry has 17 classes with pairwise distinct names, those of `estimator_names()`. -/
theorem C51_registry_names (L : Lapack) (p : ℕ) :
    (registry L p).map Prod.fst = estimatorNames ∧ estimatorNames.Nodup ∧ estimatorNames.length = 17 := by
  refine ⟨rfl, by decide, rfl⟩

/-- C51: for every string, `estimator_from_name` returns the registered class of that name and raises KeyError exactly
for the strings that are not registered names. -/
theorem C51_estimator_from_name (L : Lapack) (p : ℕ) (name : String) :
    (∀ C, estimatorFromName L p name = .ok C ↔ (name, C) ∈ registry L p) ∧
    (estimatorFromName L p name = .error .keyError ↔ name ∉ estimatorNames) ∧
    (name ∈ estimatorNames → ∃ C, estimatorFromName L p name = .ok C) := by
  have hnd : ((registry L p).map Prod.fst).Nodup := by
    rw [(C51_registry_names L p).1]; exact (C51_registry_names L p).2.1
  have h := fromName_spec (registry L p) hnd name
  rw [(C51_registry_names L p).1] at h
  refine ⟨h.1, h.2, fun hm => ?_⟩
  rw [← (C51_registry_names L p).1, List.mem_map] at hm
  obtain ⟨⟨n, C⟩, hC, rfl⟩ := hm
  exact ⟨C, (h.1 C).2 hC⟩

/-- C51: the same for assessors. -/
theorem C51_assessor_from_name (name : String) :
    (∀ a, assessorFromName name = .ok a ↔ (name, a) ∈ allAssessors) ∧
    (assessorFromName name = .error .keyError ↔ name ∉ allAssessors.map Prod.fst) ∧
    (allAssessors.map Prod.fst).Nodup ∧ allAssessors.length = 7 := by
  have h := fromName_spec allAssessors (by decide) name
  exact ⟨h.1, h.2, by decide, rfl⟩

-- a name that resolves and one that does not
example (L : Lapack) : estimatorFromName L 3 "HuberCovariance" = .ok (huberCls L (Fin 3)) := by
  rw [(C51_estimator_from_name L 3 _).1]; simp [registry]
example (L : Lapack) : estimatorFromName L 3 "huber" = .error .keyError := by
  rw [(C51_estimator_from_name L 3 _).2.1]; decide

end Precise
