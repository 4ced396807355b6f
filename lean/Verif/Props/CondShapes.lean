import Verif.Model.CondShapes
import Verif.Spec.CondShapes
import Verif.Props.Conditional

/-!
# C113: ConditionalCovariance and rows of the wrong length
-/

set_option linter.all false

open Matrix

namespace Precise

open Spec Shapes

variable {d : ℕ} {V : Cls (Fin 1) ℝ} {Sk : Type} {C : Cls (Fin d) ℝ}

namespace CondObj

theorem pushList_ok (x : Fin d → ℝ) (is : List (Fin d)) : ∀ (vols : Fin d → VolModel V Sk), is.Nodup →
    pushList (List.ofFn x) is vols = (fun i => if i ∈ is then (vols i).push (x i) else vols i, .ok ()) := by
  induction is with
  | nil => intro vols _; simp [pushList]
  | cons i is ih =>
    intro vols hnd
    rw [List.nodup_cons] at hnd
    rw [pushList]
    have : (List.ofFn x)[i.1]? = some (x i) := by simp
    rw [this]
    simp only []
    rw [ih _ hnd.2]
    congr 1
    funext j
    by_cases hj : j = i
    · subst hj; simp [hnd.1]
    · simp [hj, Function.update_of_ne hj]

theorem pushList_one (hd : 2 ≤ d) (a : ℝ) (vols : Fin d → VolModel V Sk) :
    pushList [a] (List.finRange d) vols = (fun i => if i.1 = 0 then (vols i).push a else vols i, .error .indexError) := by
  obtain ⟨n, rfl⟩ : ∃ n, d = n + 2 := ⟨d - 2, by omega⟩
  rw [List.finRange_succ, List.finRange_succ, List.map_cons, pushList]
  have h1 : ([a] : List ℝ)[(0 : Fin (n + 2)).1]? = some a := rfl
  have h2 : ([a] : List ℝ)[(Fin.succ (0 : Fin (n + 1))).1]? = none := rfl
  rw [h1]
  simp only []
  rw [pushList, h2]
  simp only []
  congr 1
  funext i
  by_cases hi : i = 0
  · subst hi; simp
  · have : i.1 ≠ 0 := fun h => hi (Fin.ext h)
    rw [Function.update_of_ne hi, if_neg this]

theorem stepList_full (s : CondState V Sk C) (x : Fin d → ℝ) : stepList s (List.ofFn x) = (stepState s x, .ok ()) := by
  have hb : broadcastRow d (List.ofFn x) = .ok x := by
    unfold broadcastRow
    rw [dif_pos (by simp)]
    congr 1
    funext i
    simp
  unfold stepList
  rw [hb]
  simp only []
  rw [pushList_ok x _ _ (List.nodup_finRange d)]
  simp only [List.mem_finRange, if_true]
  rfl

theorem stepList_one (hd : 2 ≤ d) (s : CondState V Sk C) (a : ℝ) :
    stepList s [a] = ({ s with
      corrModel := (s.corrModel.partialFit (.row fun i => (a - (s.vols i).mean) / Real.sqrt (max (s.vols i).variance EPS))).1
      vols := fun i => if i.1 = 0 then (s.vols i).push a else s.vols i }, .error .indexError) := by
  have hb : broadcastRow d [a] = .ok fun _ => a := by
    unfold broadcastRow
    rw [dif_neg (by simp; omega)]
  unfold stepList
  rw [hb]
  simp only []
  rw [pushList_one hd]

end CondObj

open CondObj

/-- The object after `partial_fit` of one row after another, every exception caught. -/
noncomputable def condAttempts (o : CondObj V Sk C) (rows : List (List ℝ)) : CondObj V Sk C := rows.foldl (fun o x => (o.partialFitList x).1) o

/-! ## C113 -/

/-- C113: rows of the right length: the list model is the model of C40. -/
theorem C113_right_length (vol : VolArg V Sk) (hvol : vol ≠ .other) (corr : Obj C) (calls : List (Call (Fin d) ℝ)) (h : rowsSinceFit calls [] ≠ []) (x : Fin d → ℝ) :
    let o := (CondObj.new vol corr).run calls
    o.partialFitList (List.ofFn x) = o.partialFit (.row x) := by
  intro o
  obtain ⟨vm, hvm⟩ : ∃ vm, makeVol vol = .ok vm := by
    cases vol with
    | est e => exact ⟨_, rfl⟩
    | skater f => exact ⟨_, rfl⟩
    | other => exact absurd rfl hvol
  obtain ⟨-, -, hs⟩ := cond_run vol corr vm hvm calls (CondObj.new vol corr) [] rfl rfl rfl
  rw [condAfter_ne vol corr vm h] at hs
  change o.state = _ at hs
  unfold partialFitList
  rw [hs]
  simp only [stepList_full]
  show _ = o.feedRows [x]
  unfold feedRows stepRow
  rw [hs]
  rfl

/-- C113: a row whose length is neither `d` nor 1 raises ValueError and changes nothing. -/
theorem C113_wrong_length (o : CondObj V Sk C) (ho : o.state ≠ none) (x : List ℝ) (hd : x.length ≠ d) (h1 : x.length ≠ 1) :
    o.partialFitList x = (o, .error .valueError) := by
  unfold partialFitList
  rcases hs : o.state with _ | s
  · exact absurd hs ho
  · have hb : broadcastRow d x = .error .valueError := by
      unfold broadcastRow
      rw [dif_neg hd]
      split
      · simp at h1
      · rfl
    unfold stepList
    rw [hb]
    simp only []
    rw [← hs]

/-- the running state: what every part of the object has seen -/
theorem cond_mixed (hd : 2 ≤ d) (vol : VolArg V Sk) (vm : VolModel V Sk) (hvm : makeVol vol = .ok vm) (corr : Obj C) (x₀ : Fin d → ℝ) (rows : List (Row d ℝ)) :
    let o := condAttempts (((CondObj.new vol corr).partialFit (.row x₀)).1) (rows.map Row.list)
    let R := Row.full x₀ :: rows
    ∃ s, o.state = some s ∧ (∀ i, s.vols i = volFold vm (seenBy i R)) ∧ s.nSamples = (fullRows R).length ∧
      s.corrModel = (Obj.new C corr.params).run (feedCalls ((List.range R.length).map (mixedResidual vol R))) ∧
      ∀ pre x ones, R = pre ++ Row.full x :: ones → (∀ r ∈ ones, ∃ a, r = Row.one a) →
        s.mean = (fun i => forecastMean vol (seenBy i (pre ++ [Row.full x]))) ∧
        s.var = (fun i => max (forecastVar vol (seenBy i (pre ++ [Row.full x]))) (1 / 10 ^ 12)) := by
  have hres : ∀ (R : List (Row d ℝ)) (r : Row d ℝ), (List.range (R ++ [r]).length).map (mixedResidual vol (R ++ [r])) =
      (List.range R.length).map (mixedResidual vol R) ++
        [fun i => (r.repeated i - (volFold vm (seenBy i R)).mean) / Real.sqrt (max (volFold vm (seenBy i R)).variance EPS)] := by
    intro R r
    rw [List.length_append, List.length_singleton, List.range_succ, List.map_append, List.map_singleton]
    congr 1
    · refine List.map_congr_left fun t ht => ?_
      have ht' := List.mem_range.1 ht
      ext i
      unfold mixedResidual
      rw [List.take_append_of_le_length ht'.le]
      congr 2
      rw [List.map_append, List.getD_eq_getElem?_getD, List.getD_eq_getElem?_getD, List.getElem?_append_left (by simpa using ht')]
    · congr 1
      ext i
      unfold mixedResidual
      rw [List.take_left, ← (volFold_spec vol vm hvm _).1, ← (volFold_spec vol vm hvm _).2]
      simp [List.getD_eq_getElem?_getD, EPS]
  induction rows using List.reverseRecOn with
  | nil =>
    intro o R
    refine ⟨stepState (CondObj.initState ⟨vol, corr, none, none⟩ vm) x₀, ?_, fun i => rfl, rfl, ?_, ?_⟩
    · show ((CondObj.new vol corr).partialFit (.row x₀)).1.state = _
      show ((CondObj.new vol corr).feedRows [x₀]).1.state = _
      unfold feedRows stepRow
      simp only [CondObj.new, hvm]
      rfl
    · have := hres [] (Row.full x₀)
      rw [List.nil_append] at this
      show _ = (Obj.new C corr.params).run (feedCalls ((List.range [Row.full x₀].length).map (mixedResidual vol [Row.full x₀])))
      rw [this]
      rfl
    · intro pre x ones hR hones
      have hpre : pre = [] := by
        cases pre with
        | nil => rfl
        | cons a l => have := congrArg List.length hR; simp [R] at this
      subst hpre
      have hR' : [Row.full x₀] = Row.full x :: ones := hR
      cases hR'
      constructor
      · funext i
        show ((volFold vm []).push (x₀ i)).mean = _
        rw [← volFold_snoc, (volFold_spec vol vm hvm _).1]; rfl
      · funext i
        show max ((volFold vm []).push (x₀ i)).variance EPS = _
        rw [← volFold_snoc, (volFold_spec vol vm hvm _).2]; rfl
  | append_singleton rows r ih =>
    intro o R
    obtain ⟨s, h1, h2, h3, h4, h5⟩ := ih
    have ho : o.state = some (stepList s r.list).1 := by
      show (condAttempts _ ((rows ++ [r]).map Row.list)).state = _
      unfold condAttempts
      rw [List.map_append, List.map_singleton, List.foldl_append]
      show (partialFitList (condAttempts _ (rows.map Row.list)) r.list).1.state = _
      unfold partialFitList
      rw [h1]
    have hR : R = (Row.full x₀ :: rows) ++ [r] := rfl
    have hcorr : ∀ eps, eps = (fun i => (r.repeated i - (s.vols i).mean) / Real.sqrt (max (s.vols i).variance EPS)) →
        (s.corrModel.partialFit (.row eps)).1 = (Obj.new C corr.params).run (feedCalls ((List.range R.length).map (mixedResidual vol R))) := by
      rintro _ rfl
      rw [hR, hres]
      simp only [feedCalls, List.map_append, List.map_singleton, Obj.run, List.foldl_append, List.foldl_cons, List.foldl_nil]
      simp only [h2]
      show ((s.corrModel).partialFit _).1 = _
      rw [h4]; rfl
    cases r with
    | full x =>
      rw [show Row.list (Row.full x) = List.ofFn x from rfl, stepList_full] at ho
      have hv : ∀ i, (s.vols i).push (x i) = volFold vm (seenBy i R) := by
        intro i
        rw [h2, ← volFold_snoc, hR]
        congr 1
        simp [seenBy]
      refine ⟨_, ho, hv, ?_, hcorr _ rfl, ?_⟩
      · show s.nSamples + 1 = _
        rw [h3, hR]
        simp [fullRows]
      · intro pre y ones hRe hones
        have : pre ++ [Row.full y] = R := by
          rcases List.eq_nil_or_concat ones with rfl | ⟨l, b, rfl⟩
          · exact hRe.symm
          · obtain ⟨a, rfl⟩ := hones b (by simp)
            rw [hR, List.concat_eq_append, ← List.cons_append, ← List.append_assoc] at hRe
            have := (List.append_inj' hRe rfl).2
            simp at this
        rw [this]
        constructor
        · funext i
          show ((s.vols i).push (x i)).mean = _
          rw [hv, (volFold_spec vol vm hvm _).1]
        · funext i
          show max ((s.vols i).push (x i)).variance EPS = _
          rw [hv, (volFold_spec vol vm hvm _).2]; rfl
    | one a =>
      rw [show Row.list (Row.one a : Row d ℝ) = [a] from rfl, stepList_one hd] at ho
      refine ⟨_, ho, ?_, ?_, hcorr _ rfl, ?_⟩
      · intro i
        show (if i.1 = 0 then (s.vols i).push a else s.vols i) = _
        rw [hR]
        by_cases hi : i.1 = 0
        · rw [if_pos hi, h2, ← volFold_snoc]
          congr 1
          simp [seenBy, hi]
        · rw [if_neg hi, h2]
          congr 1
          simp [seenBy, hi]
      · show s.nSamples = _
        rw [h3, hR]
        simp [fullRows]
      · intro pre y ones hRe hones
        rcases List.eq_nil_or_concat ones with rfl | ⟨l, b, rfl⟩
        · rw [hR] at hRe
          have := (List.append_inj' hRe rfl).2
          simp at this
        · rw [hR, List.concat_eq_append, ← List.cons_append, ← List.append_assoc] at hRe
          exact h5 pre y l (List.append_inj' hRe rfl).1 (fun r hr => hones r (by simp [hr]))

/-- C113: a single number given to an object with `d ≥ 2` series raises IndexError, and yet: the correlation model has counted it, as if every
series had shown that number, and series 0 has moved on. `n_samples_` and `location_` do not change; `covariance_` mixes the old volatilities with
the new correlation. -/
theorem C113_single_number (hd : 2 ≤ d) (o : CondObj V Sk C) (s : CondState V Sk C) (hs : o.state = some s) (a : ℝ) :
    (o.partialFitList [a]).2 = .error .indexError ∧ (o.partialFitList [a]).1.nSamples = o.nSamples ∧ (o.partialFitList [a]).1.location = o.location ∧
    ∃ s', (o.partialFitList [a]).1.state = some s' ∧
      s'.corrModel = (s.corrModel.partialFit (.row fun i => (a - (s.vols i).mean) / Real.sqrt (max (s.vols i).variance EPS))).1 ∧
      (∀ i : Fin d, s'.vols i = if i.1 = 0 then (s.vols i).push a else s.vols i) := by
  unfold partialFitList
  rw [hs]
  simp only [stepList_one hd]
  refine ⟨trivial, ?_, ?_, _, rfl, rfl, fun i => rfl⟩
  · unfold CondObj.nSamples; rw [hs]
  · unfold CondObj.location CondObj.fittedState; rw [hs]
    simp only []
    split <;> rfl

/-- C113: any mixture, in terms of the sub-models used on their own. After a first full row and any rows, full or single numbers (each of which
raises, and is caught): `n_samples_` counts the full rows, the correlation model has seen all of them; series 0 has seen all of them, the other
series the full rows only, so that the series are out of step for good; `location_` and the volatilities are those of the last full row. -/
theorem C113_mixture (hd : 2 ≤ d) (vol : VolArg V Sk) (hvol : vol ≠ .other) (corr : Obj C) (x₀ : Fin d → ℝ) (rows : List (Row d ℝ)) :
    let o := condAttempts (((CondObj.new vol corr).partialFit (.row x₀)).1) (rows.map Row.list)
    let S := Row.full x₀ :: rows
    let R := (Obj.new C corr.params).run (feedCalls ((List.range S.length).map (mixedResidual vol S)))
    o.nSamples = (fullRows S).length ∧
    ∀ pre x ones, S = pre ++ Row.full x :: ones → (∀ r ∈ ones, ∃ a, r = Row.one a) →
      o.location = .ok (fun i => forecastMean vol (seenBy i (pre ++ [Row.full x]))) ∧
      (∀ e, R.correlation = .error e → o.covariance = .error e) ∧
      (∀ r, R.correlation = .ok r → o.covariance = .ok (Matrix.of fun i j =>
        Real.sqrt (max (forecastVar vol (seenBy i (pre ++ [Row.full x]))) (1 / 10 ^ 12)) * r i j *
          Real.sqrt (max (forecastVar vol (seenBy j (pre ++ [Row.full x]))) (1 / 10 ^ 12)))) := by
  intro o S R
  obtain ⟨vm, hvm⟩ : ∃ vm, makeVol vol = .ok vm := by
    cases vol with
    | est e => exact ⟨_, rfl⟩
    | skater f => exact ⟨_, rfl⟩
    | other => exact absurd rfl hvol
  obtain ⟨s, h1, h2, h3, h4, h5⟩ := cond_mixed hd vol vm hvm corr x₀ rows
  change o.state = some s at h1
  refine ⟨by unfold CondObj.nSamples; rw [h1]; exact h3, fun pre x ones hS hones => ?_⟩
  obtain ⟨hm, hv⟩ := h5 pre x ones hS hones
  have hn : ¬ s.nSamples < 1 := by rw [h3]; simp [fullRows]
  have hf : o.fittedState = .ok s := by
    unfold CondObj.fittedState; rw [h1]; simp only []; rw [if_neg hn]
  refine ⟨by unfold CondObj.location; rw [hf, ← hm]; rfl, fun e he => ?_, fun r he => ?_⟩
  · unfold CondObj.covariance
    rw [hf]
    show (s.corrModel.correlation >>= _) = _
    rw [h4]
    change (R.correlation >>= _) = _
    rw [he]; rfl
  · unfold CondObj.covariance
    rw [hf]
    show (s.corrModel.correlation >>= _) = _
    rw [h4]
    change (R.correlation >>= _) = _
    rw [he]
    show Except.ok _ = Except.ok _
    congr 1
    have hEPS : (EPS : ℝ) = 1 / 10 ^ 12 := rfl
    have hmm : ∀ i, max (s.var i) EPS = max (forecastVar vol (seenBy i (pre ++ [Row.full x]))) (1 / 10 ^ 12) := by
      intro i
      rw [hv, hEPS, max_assoc, max_self]
    have hr : Symm r := by
      unfold Obj.correlation Obj.covariance at he
      rcases hf : R.fittedState with _ | st
      · rw [hf] at he; cases he
      · rw [hf] at he; cases he; exact symm_covToCorr (symm_toSymmetric _)
    ext i j
    simp only [toSymmetric, Matrix.of_apply, hmm, hr j i]
    ring

theorem emp_forecastMean (ys : List ℝ) (h : ys ≠ []) :
    forecastMean (.est (Obj.new (empiricalCls (Fin 1) ℝ) false) : VolArg (empiricalCls (Fin 1) ℝ) Sk) ys = ys.sum / (ys.length : ℝ) := by
  have hv : volAfter (V := empiricalCls (Fin 1) ℝ) false ys = (Obj.new (empiricalCls (Fin 1) ℝ) false).run (feedCalls (ys.map fun y _ => y)) := by
    unfold volAfter feedCalls; rw [List.map_map]; rfl
  have hl := (emp_cov_of (ι := Fin 1) false rfl (ys.map fun y _ => y) (by simpa using h)).2
  unfold forecastMean
  show (match (volAfter (V := empiricalCls (Fin 1) ℝ) false ys).location with | .ok m => m 0 | .error _ => 0) = _
  rw [hv]
  change ((Obj.new (empiricalCls (Fin 1) ℝ) false).run (feedCalls (ys.map fun y _ => y))).location = _ at hl
  rw [hl]
  simp [meanOf, Function.comp_def]

/-- C113, in numbers: two series that are always equal, with one single number 3 in between (which raises): afterwards `location_` is 1 for the first and
0 for the second, and `n_samples_` is 2. -/
theorem C113_witness (corr : Obj (empiricalCls (Fin 2) ℝ)) :
    let vol : VolArg (empiricalCls (Fin 1) ℝ) Unit := .est (Obj.new (empiricalCls (Fin 1) ℝ) false)
    let o := condAttempts (((CondObj.new vol corr).partialFit (.row ![0, 0])).1) [[3], [0, 0]]
    o.nSamples = 2 ∧ o.location = .ok ![1, 0] := by
  intro vol o
  have e : ([[3], [0, 0]] : List (List ℝ)) = ([Row.one 3, Row.full ![0, 0]] : List (Row 2 ℝ)).map Row.list := by simp [Row.list]
  have h := C113_mixture (d := 2) le_rfl vol (by simp [vol]) corr ![0, 0] [Row.one 3, Row.full ![0, 0]]
  rw [← e] at h
  refine ⟨h.1, ?_⟩
  rw [(h.2 [Row.full ![0, 0], Row.one 3] ![0, 0] [] rfl (by simp)).1]
  congr 1
  funext i
  have s0 : seenBy (0 : Fin 2) ([Row.full ![0, 0], Row.one 3] ++ [Row.full ![0, 0]]) = [0, 3, 0] := by simp [seenBy]
  have s1 : seenBy (1 : Fin 2) ([Row.full ![0, 0], Row.one 3] ++ [Row.full ![0, 0]]) = [0, 0] := by simp [seenBy]
  fin_cases i
  · show forecastMean vol (seenBy 0 _) = _
    rw [s0, emp_forecastMean _ (by simp)]; norm_num
  · show forecastMean vol (seenBy 1 _) = _
    rw [s1, emp_forecastMean _ (by simp)]; norm_num

end Precise
