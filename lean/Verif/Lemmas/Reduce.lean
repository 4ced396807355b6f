import Verif.Props.Ewa
import Verif.Lemmas.Lawful

/-! Reductions between the running states of the estimators: which of them contain an EWA state. -/

set_option linter.all false

open Matrix

namespace Precise

open Spec

theorem run_unfitted {ι K : Type} [Fintype ι] [Sub K] [Add K] [Div K] [OfNat K 2] {C : Cls ι K} (hC : Lawful C) (p : C.Param)
    (calls : List (Call ι K)) (h : used (C.diff p) calls = []) :
    ((Obj.new C p).run calls).covariance = .error .notFitted ∧ ((Obj.new C p).run calls).location = .error .notFitted := by
  have h1 := C06_not_fitted_iff hC p calls
  have n1 := h1.1.2 h
  exact ⟨(h1.2.1 n1).2, (h1.2.1 n1).1⟩

theorem run_fittedState {ι K : Type} [Fintype ι] [Sub K] {C : Cls ι K} (hC : Lawful C) (p : C.Param) (calls : List (Call ι K))
    (h : used (C.diff p) calls ≠ []) :
    ((Obj.new C p).run calls).fittedState = .ok ((used (C.diff p) calls).foldl (C.updateState p) (C.initState p)) := by
  have hst' := run_new_state p calls
  have hn0 := hC.fold_nSamples p (C.initState p) (used (C.diff p) calls)
  unfold Obj.fittedState
  rw [hst']
  change (match (match used (C.diff p) calls with | [] => none | ys => some (ys.foldl (C.updateState p) (C.initState p))) with
    | none => Except.error PyErr.notFitted | some s => if C.nSamples s < 1 then .error .notFitted else .ok s) = _
  revert h hn0
  generalize used (C.diff p) calls = ys
  intro h hn0
  cases ys with
  | nil => exact absurd rfl h
  | cons y ys =>
    simp only []
    rw [if_neg]
    rw [hn0]; simp

section K
variable {ι κ K : Type} [Fintype ι] [Fintype κ] [Field K] [LinearOrder K] [IsStrictOrderedRing K] [FloorRing K]

theorem lwUpdate_ewa (s : LWState ι K) (x : ι → K) : (lwUpdate s x).toEwaState = ewaUpdate s.toEwaState x := by
  unfold lwUpdate ewaUpdate; split <;> rfl

theorem lwFold_ewa (s : LWState ι K) (xs : List (ι → K)) :
    (xs.foldl lwUpdate s).toEwaState = xs.foldl ewaUpdate s.toEwaState := by
  induction xs generalizing s with
  | nil => rfl
  | cons x xs ih => rw [List.foldl_cons, List.foldl_cons, ih, lwUpdate_ewa]

/-- The diagonal estimator's mean is the EWA mean. -/
theorem diagUpdate_mean (s : DiagState ι K) (t : EwaState ι K) (x : ι → K) (h : s.mean = t.mean) (hn : s.nSamples = t.nSamples)
    (hr : s.r = t.r) (hb : s.nBurn = t.nBurn) :
    (diagUpdate s x).mean = (ewaUpdate t x).mean ∧ (diagUpdate s x).nSamples = (ewaUpdate t x).nSamples ∧
    (diagUpdate s x).r = (ewaUpdate t x).r ∧ (diagUpdate s x).nBurn = (ewaUpdate t x).nBurn := by
  unfold diagUpdate ewaUpdate
  simp only [hn, hb]
  by_cases hc : t.nSamples < t.nBurn
  · rw [if_pos (by omega), if_pos hc]
    simp [ewaBurnStep, empUpdate, h, hr, hb]
  · rw [if_neg (by omega), if_neg hc]
    simp [ewaBlend, h, hr, hb]

theorem diagFold_mean (s : DiagState ι K) (t : EwaState ι K) (xs : List (ι → K)) (h : s.mean = t.mean) (hn : s.nSamples = t.nSamples)
    (hr : s.r = t.r) (hb : s.nBurn = t.nBurn) : (xs.foldl diagUpdate s).mean = (xs.foldl ewaUpdate t).mean := by
  induction xs generalizing s t with
  | nil => exact h
  | cons x xs ih =>
    obtain ⟨h1, h2, h3, h4⟩ := diagUpdate_mean s t x h hn hr hb
    rw [List.foldl_cons, List.foldl_cons]
    exact ih _ _ h1 h2 h3 h4

/-- Restriction of a state to some of the variables. -/
def EwaState.restrict (s : EwaState ι K) (f : κ → ι) : EwaState κ K :=
  { nSamples := s.nSamples, mean := s.mean ∘ f, cov := s.cov.submatrix f f, r := s.r, nBurn := s.nBurn }

theorem ewaUpdate_restrict (s : EwaState ι K) (f : κ → ι) (x : ι → K) :
    (ewaUpdate s x).restrict f = ewaUpdate (s.restrict f) (x ∘ f) := by
  unfold ewaUpdate
  by_cases h : s.nSamples < s.nBurn
  · rw [if_pos h, if_pos (by exact h)]; rfl
  · rw [if_neg h, if_neg (by exact h)]; rfl

/-- Running the EWA on some of the variables is the same as restricting the EWA of all of them. -/
theorem ewaFold_restrict (r : K) (f : κ → ι) (xs : List (ι → K)) :
    (ewaFold r xs).restrict f = ewaFold r (xs.map (· ∘ f)) := by
  induction xs using List.reverseRecOn with
  | nil => rfl
  | append_singleton xs x ih => rw [ewaFold_snoc, ewaUpdate_restrict, ih, List.map_append, List.map_singleton, ewaFold_snoc]

end K

section R
variable {ι : Type} [Fintype ι] [DecidableEq ι]

theorem slwUpdate_ewa {p : ℕ} (pr : BlockParam) (s : SLWState (Fin p)) (x : Fin p → ℝ) :
    (slwUpdate pr s x).toEwaState = ewaUpdate s.toEwaState x := by
  unfold slwUpdate ewaUpdate; split <;> rfl

theorem slwFold_ewa {p : ℕ} (pr : BlockParam) (s : SLWState (Fin p)) (xs : List (Fin p → ℝ)) :
    (xs.foldl (slwUpdate pr) s).toEwaState = xs.foldl ewaUpdate s.toEwaState := by
  induction xs generalizing s with
  | nil => rfl
  | cons x xs ih => rw [List.foldl_cons, List.foldl_cons, ih, slwUpdate_ewa]

theorem pmFold_mean (s : PMState ι) (t : EwaState ι ℝ) (xs : List (ι → ℝ)) (h : s.mean = t.mean) (hn : s.nSamples = t.nSamples)
    (hr : s.r = t.r) (hb : s.nBurn = t.nBurn) : (xs.foldl pmUpdate s).mean = (xs.foldl ewaUpdate t).mean := by
  induction xs generalizing s t with
  | nil => exact h
  | cons x xs ih =>
    rw [List.foldl_cons, List.foldl_cons]
    refine ih _ _ ?_ (by rw [ewaUpdate_n, ← hn]; rfl) (by rw [ewaUpdate_r, ← hr]; rfl) (by rw [ewaUpdate_nBurn, ← hb]; rfl)
    unfold pmUpdate ewaUpdate
    simp only [hn, hb]
    by_cases hc : t.nSamples < t.nBurn
    · rw [if_pos (by omega), if_pos hc]; simp [ewaBurnStep, empUpdate, h]
    · rw [if_neg (by omega), if_neg hc]; simp [ewaBlend, h, hr]

theorem tylerFold_mean (L : Lapack) (s : TylerState ι) (t : EwaState ι ℝ) (xs : List (ι → ℝ)) (h : s.mean = t.mean) (hn : s.nSamples = t.nSamples)
    (hr : s.r = t.r) (hb : s.nBurn = t.nBurn) : (xs.foldl (tylerUpdate L) s).mean = (xs.foldl ewaUpdate t).mean := by
  induction xs generalizing s t with
  | nil => exact h
  | cons x xs ih =>
    rw [List.foldl_cons, List.foldl_cons]
    refine ih _ _ ?_ (by rw [ewaUpdate_n, ← hn]; rfl) (by rw [ewaUpdate_r, ← hr]; rfl) (by rw [ewaUpdate_nBurn, ← hb]; rfl)
    unfold tylerUpdate ewaUpdate
    simp only [hn, hb]
    by_cases hc : t.nSamples < t.nBurn
    · rw [if_pos (by omega), if_pos hc]; simp [ewaBurnStep, empUpdate, h]
    · rw [if_neg (by omega), if_neg hc]; simp [ewaBlend, h, hr]

theorem geodesicUpdate_n (L : Lapack) (s : EwaState ι ℝ) (x : ι → ℝ) : (geodesicUpdate L s x).nSamples = s.nSamples + 1 := by
  unfold geodesicUpdate; split <;> rfl
theorem geodesicUpdate_r (L : Lapack) (s : EwaState ι ℝ) (x : ι → ℝ) : (geodesicUpdate L s x).r = s.r := by
  unfold geodesicUpdate; split <;> rfl
theorem geodesicUpdate_nBurn (L : Lapack) (s : EwaState ι ℝ) (x : ι → ℝ) : (geodesicUpdate L s x).nBurn = s.nBurn := by
  unfold geodesicUpdate; split <;> rfl

theorem geodesicFold_mean (L : Lapack) (s : EwaState ι ℝ) (t : EwaState ι ℝ) (xs : List (ι → ℝ)) (h : s.mean = t.mean) (hn : s.nSamples = t.nSamples)
    (hr : s.r = t.r) (hb : s.nBurn = t.nBurn) : (xs.foldl (geodesicUpdate L) s).mean = (xs.foldl ewaUpdate t).mean := by
  induction xs generalizing s t with
  | nil => exact h
  | cons x xs ih =>
    rw [List.foldl_cons, List.foldl_cons]
    refine ih _ _ ?_ (by rw [ewaUpdate_n, ← hn, geodesicUpdate_n]) (by rw [ewaUpdate_r, ← hr, geodesicUpdate_r])
      (by rw [ewaUpdate_nBurn, ← hb, geodesicUpdate_nBurn])
    unfold geodesicUpdate ewaUpdate
    by_cases hc : t.nSamples < t.nBurn
    · rw [if_pos (by omega), if_pos hc]; simp [ewaBurnStep, empUpdate, h, hn]
    · rw [if_neg (by omega), if_neg hc]; simp [ewaBlend, h, hr]

/-- The sub-states of a block estimator are EWA states of the restricted streams. -/
theorem blockFold_spec {p : ℕ} (s : BlockState p) (xs : List (Fin p → ℝ)) :
    xs.foldl blockUpdate s = { s with
      nSamples := s.nSamples + xs.length
      subs := fun k => (xs.map fun x => fun i : BlockIx p s.nb k => x i.1).foldl ewaUpdate (s.subs k) } := by
  induction xs generalizing s with
  | nil => rfl
  | cons x xs ih =>
    rw [List.foldl_cons, ih]
    unfold blockUpdate
    simp only [List.length_cons, List.map_cons, List.foldl_cons]
    congr 1
    omega

end R

end Precise
