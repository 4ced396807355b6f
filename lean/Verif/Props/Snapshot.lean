import Verif.Model.Snapshot
import Verif.Props.Schur

/-!
# C116: looking at an estimator does not change it, and `gamma_` is the damping of the last look
-/

set_option linter.all false

open Matrix

namespace Precise
open Spec Obj

variable {ι : Type} [Fintype ι]

/-- The event is not a mere look. -/
def Ev.changes {C : Cls ι ℝ} : Ev C → Bool
  | .attr _ => false
  | _ => true

/-- The event leaves `gamma_` alone whatever the instance: it neither reads `covariance_` nor replaces the instance by a pickled copy. -/
def Ev.keepsGamma {C : Cls ι ℝ} : Ev C → Bool
  | .attr a => !a.readsCov
  | .reload => false
  | _ => true

section Generic
variable {C : Cls ι ℝ} (hook : C.Param → C.State → Option ℝ)

theorem snap_append (o : Snap C) (as bs : List (Ev C)) : o.run hook (as ++ bs) = (o.run hook as).run hook bs := List.foldl_append

theorem snap_look (o : Snap C) (a : Attr ι) : (o.step hook (.attr a)).obj = o.obj := by
  unfold Snap.step
  by_cases h : a.readsCov
  · simp only [h, if_true]; cases o.obj.fittedState <;> rfl
  · simp only [h]; rfl

theorem snap_step_obj (o o' : Snap C) (h : o.obj = o'.obj) (e : Ev C) : (o.step hook e).obj = (o'.step hook e).obj := by
  cases e with
  | attr a => rw [snap_look, snap_look, h]
  | call c => simp only [Snap.step, h]
  | setParams p => simp only [Snap.step, h]
  | setState d => simp only [Snap.step, h]
  | reload => simp only [Snap.step, h]

theorem snap_run_obj (o o' : Snap C) (h : o.obj = o'.obj) (es : List (Ev C)) : (o.run hook es).obj = (o'.run hook es).obj := by
  induction es generalizing o o' with
  | nil => exact h
  | cons e es ih => exact ih _ _ (snap_step_obj hook o o' h e)

theorem snap_filter (o : Snap C) (es : List (Ev C)) : (o.run hook es).obj = (o.run hook (es.filter Ev.changes)).obj := by
  induction es generalizing o with
  | nil => rfl
  | cons e es ih =>
    have h1 : o.run hook (e :: es) = (o.step hook e).run hook es := rfl
    by_cases h : e.changes
    · rw [List.filter_cons_of_pos h, h1, ih]; rfl
    · rw [List.filter_cons_of_neg h, h1, ← ih]
      cases e with
      | attr a => exact snap_run_obj hook _ _ (snap_look hook o a) es
      | _ => exact absurd rfl h

theorem snap_keeps (o : Snap C) (es : List (Ev C)) (h : ∀ e ∈ es, e.keepsGamma) : (o.run hook es).gamma = o.gamma := by
  induction es generalizing o with
  | nil => rfl
  | cons e es ih =>
    have h1 : o.run hook (e :: es) = (o.step hook e).run hook es := rfl
    rw [h1, ih _ fun e he => h e (by simp [he])]
    have := h e (by simp)
    cases e with
    | attr a =>
      have ha : a.readsCov = false := by simpa [Ev.keepsGamma] using this
      simp [Snap.step, ha]
    | reload => simp [Ev.keepsGamma] at this
    | _ => rfl

end Generic

variable {p : ℕ} (L : Lapack)

/-- C116: looking changes nothing: after any events, with reads of any attributes in between (also reads that raise), the estimates, the sample
count, the parameters and the checkpoint are those of the same events without the reads. For every class. -/
theorem C116_reads_change_nothing {C : Cls ι ℝ} (hook : C.Param → C.State → Option ℝ) (pr : C.Param) (es : List (Ev C)) :
    let o := ((Snap.new C pr).run hook es).obj
    let o' := ((Snap.new C pr).run hook (es.filter Ev.changes)).obj
    o.covariance = o'.covariance ∧ o.location = o'.location ∧ o.nSamples = o'.nSamples ∧ o.params = o'.params ∧ o.getState = o'.getState := by
  simp only []
  rw [snap_filter hook (Snap.new C pr) es]
  exact ⟨rfl, rfl, rfl, rfl, rfl⟩

/-- C116, SchurLedoitWolfCovariance: `gamma_` is the damping of the instance as it was at the last read of `covariance_` (or of anything computed
from it): events after it that neither read nor unpickle leave it, whatever they do to the data. -/
theorem C116_last_read (pr : BlockParam) (pre post : List (Ev (schurLWCls L p))) (a : Attr (Fin p)) (ha : a.readsCov) (g : ℝ)
    (hg : slwGammaAttr L ((Snap.new (schurLWCls L p) pr).run (slwHook L p) pre).obj = .ok g)
    (hn : 1 ≤ (((Snap.new (schurLWCls L p) pr).run (slwHook L p) pre).obj.params : BlockParam).nBlocks) (hp : 1 ≤ p)
    (hpost : ∀ e ∈ post, e.keepsGamma) :
    ((Snap.new (schurLWCls L p) pr).run (slwHook L p) (pre ++ .attr a :: post)).gamma = some g := by
  rw [snap_append]
  set o := (Snap.new (schurLWCls L p) pr).run (slwHook L p) pre
  show ((o.step (slwHook L p) (.attr a)).run (slwHook L p) post).gamma = some g
  rw [snap_keeps _ _ _ hpost]
  unfold slwGammaAttr at hg
  cases hf : o.obj.fittedState with
  | error e => rw [hf] at hg; cases hg
  | ok s =>
    rw [hf] at hg
    have hg' : slwGamma o.obj.params s = g := Except.ok.inj hg
    have hmin : ¬ min (BlockParam.nBlocks o.obj.params) (p : ℤ) ≤ 0 := by omega
    simp only [Snap.step, ha, if_true, hf, slwHook, hmin, if_false, hg']
    rfl

/-- C116, SchurConditionalCovariance: the same; `gamma_` is written even when the read itself raises LinAlgError in a later regression. -/
theorem C116_last_read_conditional (pr : BlockParam) (pre post : List (Ev (schurCondCls L p))) (a : Attr (Fin p)) (ha : a.readsCov) (g : ℝ)
    (hg : scGammaAttr L ((Snap.new (schurCondCls L p) pr).run (scHook L p) pre).obj = .ok g) (hpost : ∀ e ∈ post, e.keepsGamma) :
    ((Snap.new (schurCondCls L p) pr).run (scHook L p) (pre ++ .attr a :: post)).gamma = some g := by
  rw [snap_append]
  set o := (Snap.new (schurCondCls L p) pr).run (scHook L p) pre
  show ((o.step (scHook L p) (.attr a)).run (scHook L p) post).gamma = some g
  rw [snap_keeps _ _ _ hpost]
  unfold scGammaAttr at hg
  cases hf : o.obj.fittedState with
  | error e => rw [hf] at hg; cases hg
  | ok s =>
    rw [hf] at hg
    have hg' : scGammaOf o.obj.params s = g := Except.ok.inj hg
    simp only [Snap.step, ha, if_true, hf, scHook, hg']
    rfl

/-- C116: which reads count: `covariance_`, `correlation_`, `precision_`, `get_precision()`, and `mahalanobis` and `score` of one row or of a
batch; not `location_`, `n_samples_`, `get_params`, `get_state`, nor `mahalanobis` and `score` of an argument that is neither 1d nor 2d. Any class whose
`_state_to_cov` writes `g`. -/
theorem C116_which_reads {C : Cls ι ℝ} (hook : C.Param → C.State → Option ℝ) (pr : C.Param) (pre : List (Ev C)) (s : C.State) (g : ℝ)
    (hs : ((Snap.new C pr).run hook pre).obj.fittedState = .ok s) (hg : hook ((Snap.new C pr).run hook pre).obj.params s = some g)
    (x : ι → ℝ) (xs : List (ι → ℝ)) (n : ℕ) :
    (∀ a ∈ ([.covariance, .correlation, .precision, .getPrecision, .mahalanobis (.row x), .mahalanobis (.batch xs), .score (.row x), .score (.batch xs)] :
        List (Attr ι)), ((Snap.new C pr).run hook (pre ++ [.attr a])).gamma = some g) ∧
    (∀ a ∈ ([.location, .nSamples, .getParams, .getState, .mahalanobis (.other n), .score (.other n)] : List (Attr ι)),
        ((Snap.new C pr).run hook (pre ++ [.attr a])).gamma = ((Snap.new C pr).run hook pre).gamma) := by
  have key : ∀ a : Attr ι, a.readsCov = true → ((Snap.new C pr).run hook (pre ++ [.attr a])).gamma = some g := fun a ha => by
    rw [snap_append]
    show (Snap.step hook _ (.attr a)).gamma = some g
    simp only [Snap.step, ha, if_true, hs, hg]
    rfl
  have key' : ∀ a : Attr ι, a.readsCov = false →
      ((Snap.new C pr).run hook (pre ++ [.attr a])).gamma = ((Snap.new C pr).run hook pre).gamma := fun a ha => by
    rw [snap_append]
    exact snap_keeps hook _ _ (by simp [Ev.keepsGamma, ha])
  constructor
  · intro a ha
    simp only [List.mem_cons, List.not_mem_nil, or_false] at ha
    rcases ha with rfl | rfl | rfl | rfl | rfl | rfl | rfl | rfl <;> exact key _ rfl
  · intro a ha
    simp only [List.mem_cons, List.not_mem_nil, or_false] at ha
    rcases ha with rfl | rfl | rfl | rfl | rfl | rfl <;> exact key' _ rfl

/-- C116: a read that raises before a damping is computed (NotFittedError, also after `set_state(None)`; ValueError of SchurLedoitWolfCovariance with
`n_blocks <= 0`) leaves the old `gamma_`. -/
theorem C116_raising_read (pr : BlockParam) (pre : List (Ev (schurLWCls L p))) (a : Attr (Fin p))
    (h : (∃ e, ((Snap.new (schurLWCls L p) pr).run (slwHook L p) pre).obj.fittedState = .error e) ∨
      (((Snap.new (schurLWCls L p) pr).run (slwHook L p) pre).obj.params : BlockParam).nBlocks ≤ 0) :
    ((Snap.new (schurLWCls L p) pr).run (slwHook L p) (pre ++ [.attr a])).gamma = ((Snap.new (schurLWCls L p) pr).run (slwHook L p) pre).gamma := by
  rw [snap_append]
  set o := (Snap.new (schurLWCls L p) pr).run (slwHook L p) pre
  show (Snap.step _ o (.attr a)).gamma = o.gamma
  by_cases ha : a.readsCov
  · simp only [Snap.step, ha, if_true]
    cases hf : o.obj.fittedState with
    | error e => rfl
    | ok s =>
      rcases h with ⟨e, he⟩ | h
      · rw [hf] at he; cases he
      · have hmin : min (BlockParam.nBlocks o.obj.params) (p : ℤ) ≤ 0 := by omega
        simp only [slwHook, hmin, if_true]
        rfl
  · simp only [Snap.step, ha]; rfl

/-- C116: `gamma_` is `None` until the first read: in particular after `fit` alone, and again after unpickling. Both classes (any class). -/
theorem C116_none_until_read {C : Cls ι ℝ} (hook : C.Param → C.State → Option ℝ) (pr : C.Param) (pre post : List (Ev C))
    (hpost : ∀ e ∈ post, e.keepsGamma) :
    ((Snap.new C pr).run hook post).gamma = none ∧ ((Snap.new C pr).run hook (pre ++ .reload :: post)).gamma = none := by
  refine ⟨snap_keeps hook _ post hpost, ?_⟩
  rw [snap_append]
  exact snap_keeps hook _ post hpost

theorem snap_calls {C : Cls ι ℝ} (hook : C.Param → C.State → Option ℝ) (o : Snap C) (calls : List (Call ι ℝ)) :
    (o.run hook (calls.map .call)).obj = o.obj.run calls := by
  induction calls generalizing o with
  | nil => rfl
  | cons c cs ih => exact ih _

/-- C116: right after a read `gamma_` explains `covariance_`: it lies in [0, 1] and SchurCovariance with that `gamma` reports the same
covariance on the same data. -/
theorem C116_explains (pr : BlockParam) (hn : 1 ≤ pr.nBlocks) (hp : 1 ≤ p) (calls : List (Call (Fin p) ℝ)) (a : Attr (Fin p)) (ha : a.readsCov)
    (c : Matrix (Fin p) (Fin p) ℝ) (h : ((new (schurLWCls L p) pr).run calls).covariance = .ok c) :
    ∃ g, ((Snap.new (schurLWCls L p) pr).run (slwHook L p) (calls.map .call ++ [.attr a])).gamma = some g ∧ 0 ≤ g ∧ g ≤ 1 ∧
      ((new (schurCls L p) ⟨pr.r, pr.nBlocks, g, "linear", pr.diff⟩).run calls).covariance = .ok c := by
  obtain ⟨-, g, hg, hc, -⟩ := C31_is_schur L pr calls c h
  obtain ⟨h0, h1, -⟩ := C31_gamma_range L pr calls g hg
  have e : ((Snap.new (schurLWCls L p) pr).run (slwHook L p) (calls.map .call)).obj = (new (schurLWCls L p) pr).run calls := snap_calls _ _ _
  refine ⟨g, C116_last_read L pr _ [] a ha g (by rw [e]; exact hg) ?_ hp (by simp), h0, h1, hc⟩
  rw [e, (run_new (C := schurLWCls L p) pr calls).1]
  exact hn

/-! ### The stale value -/

theorem slwFold_zeros (pr : BlockParam) (n : ℕ) : (slwFold (p := 2) pr (List.replicate n 0)).mean = 0 ∧ (slwFold (p := 2) pr (List.replicate n 0)).cov = 0 := by
  have : ∀ n, (ewaFold pr.r (List.replicate n (0 : Fin 2 → ℝ))).mean = 0 ∧ (ewaFold pr.r (List.replicate n (0 : Fin 2 → ℝ))).cov = 0 := by
    intro n
    induction n with
    | zero => exact ⟨rfl, rfl⟩
    | succ n ih =>
      rw [List.replicate_succ', ewaFold_snoc]
      obtain ⟨h1, h2⟩ := ih
      generalize ewaFold pr.r (List.replicate n (0 : Fin 2 → ℝ)) = s at h1 h2
      unfold ewaUpdate
      split
      · constructor
        · funext i; simp [ewaBurnStep, empUpdate, h1]
        · ext i j; simp [ewaBurnStep, empUpdate, h1, h2]
      · constructor
        · funext i; simp [ewaBlend, h1]
        · ext i j; simp [ewaBlend, h1, h2, outer]
  have e := slwFold_toEwa pr (List.replicate n (0 : Fin 2 → ℝ))
  have h := this n
  rw [← e] at h
  exact h

theorem sumCross_two (m : Matrix (Fin 2) (Fin 2) ℝ) : sumCross (fun i : Fin 2 => blockId 2 2 i) m = m 0 1 + m 1 0 := by
  have b0 : blockId 2 2 ((0 : Fin 2) : ℕ) = 0 := by decide
  have b1 : blockId 2 2 ((1 : Fin 2) : ℕ) = 1 := by decide
  unfold sumCross
  simp only [Fin.sum_univ_two, b0, b1]
  norm_num

/-- C116 (violation of "after fitting, the data-estimated damping is available as `gamma_`"): with two variables, any `0 < r <= 1` and at least two
blocks, fit a stream of zeros, look at `covariance_`, then feed `(1, 1)`: `gamma_` still says 1 (no damping), whereas the covariance in force is
fully damped (`gamma_` = 0 if one looks). Without the first look `gamma_` is `None`, and a second `fit` does not reset it. -/
theorem C116_stale (pr : BlockParam) (hd : pr.diff = false) (h0 : 0 < pr.r) (hn : 2 ≤ pr.nBlocks) :
    let zeros : Call (Fin 2) ℝ := .fit (.batch (List.replicate (ewaBurnN pr.r) 0))
    let one : Call (Fin 2) ℝ := .partialFit (.row fun _ => 1)
    let go := fun es : List (Ev (schurLWCls L 2)) => ((Snap.new (schurLWCls L 2) pr).run (slwHook L 2) es).gamma
    go [.call zeros, .call one] = none ∧
    go [.call zeros, .attr .covariance, .call one] = some 1 ∧
    go [.call zeros, .attr .covariance, .call one, .attr .covariance] = some 0 ∧
    go [.call zeros, .call one, .attr .covariance, .call zeros] = some 0 ∧
    go [.call zeros, .call one, .attr .covariance, .call zeros, .attr .covariance] = some 1 := by
  intro zeros one go
  have h5 := (C19_burn_length pr.r h0).2.2.1
  have hnb : schurNb pr.nBlocks 2 = 2 := by unfold schurNb; omega
  have u1 : used pr.diff [zeros] = List.replicate (ewaBurnN pr.r) 0 := by rw [hd]; rfl
  have u2 : used pr.diff [zeros, one] = List.replicate (ewaBurnN pr.r) 0 ++ [fun _ => 1] := by rw [hd]; rfl
  have u3 : used pr.diff [zeros, one, zeros] = List.replicate (ewaBurnN pr.r) 0 := by rw [hd]; rfl
  have n1 : List.replicate (ewaBurnN pr.r) (0 : Fin 2 → ℝ) ≠ [] := by
    intro h; have := congrArg List.length h; simp at this; omega
  obtain ⟨zm, zc⟩ := slwFold_zeros pr (ewaBurnN pr.r)
  have g1 : slwGamma pr (slwFold (p := 2) pr (List.replicate (ewaBurnN pr.r) 0)) = 1 := by
    unfold slwGamma
    simp only [hnb, sumCross_two, zc, of_apply, Matrix.zero_apply]
    norm_num
  have zr : (slwFold (p := 2) pr (List.replicate (ewaBurnN pr.r) 0)).r = pr.r := by
    rw [slwFold_toEwa, ewaFold_r]
  have zp := slwFold_burn (p := 2) pr (List.replicate (ewaBurnN pr.r) 0) (by simp)
  have zn : ¬ (slwFold (p := 2) pr (List.replicate (ewaBurnN pr.r) 0)).nSamples < (slwFold (p := 2) pr (List.replicate (ewaBurnN pr.r) 0)).nBurn := by
    rw [slwFold_toEwa, ewaFold_n, ewaFold_nBurn]; simp
  have g0 : slwGamma pr (slwFold (p := 2) pr (List.replicate (ewaBurnN pr.r) 0 ++ [fun _ => 1])) = 0 := by
    rw [slwFold_snoc]
    generalize slwFold (p := 2) pr (List.replicate (ewaBurnN pr.r) 0) = s at zm zc zr zp zn
    unfold slwUpdate
    rw [if_neg zn]
    unfold slwGamma
    simp only [hnb, sumCross_two, of_apply, zm, zc, zr, zp, outer, ewaBlend, Matrix.add_apply, Matrix.smul_apply, Matrix.zero_apply, smul_eq_mul, Pi.zero_apply]
    have : 0 < pr.r * pr.r := mul_pos h0 h0
    rw [if_pos (by nlinarith)]
    have e : pr.r ≠ 0 := h0.ne'
    rw [show (1 : ℝ) - ((1 - pr.r) * 0 + pr.r * (((1 - 0) * (1 - 0) - 0) ^ 2 + ((1 - 0) * (1 - 0) - 0) ^ 2)) * pr.r /
      (((1 - pr.r) * 0 + pr.r * ((1 - 0) * (1 - 0))) ^ 2 + ((1 - pr.r) * 0 + pr.r * ((1 - 0) * (1 - 0))) ^ 2) = 0 by
        have : (pr.r * 2 * pr.r) / (pr.r ^ 2 + pr.r ^ 2) = 1 := by rw [div_eq_one_iff_eq (by positivity)]; ring
        ring_nf at this ⊢
        linarith]
    norm_num
  have G : ∀ (cs : List (Call (Fin 2) ℝ)) (post : List (Ev (schurLWCls L 2))) (g : ℝ), used pr.diff cs ≠ [] →
      slwGamma pr (slwFold (p := 2) pr (used pr.diff cs)) = g → (∀ e ∈ post, e.keepsGamma) → ∀ mid : List (Ev (schurLWCls L 2)),
      ((Snap.new (schurLWCls L 2) pr).run (slwHook L 2) mid).obj = (new (schurLWCls L 2) pr).run cs →
      go (mid ++ .attr .covariance :: post) = some g := fun cs post g hne hg hpost mid hmid =>
    C116_last_read L pr mid post .covariance rfl g (by rw [hmid, (slw_attrs L pr cs hne).1, hg])
      (by rw [hmid, (run_new (C := schurLWCls L 2) pr cs).1]; show 1 ≤ pr.nBlocks; omega) (by norm_num) hpost
  refine ⟨(C116_none_until_read (slwHook L 2) pr [] _ (by simp [Ev.keepsGamma])).1, ?_, ?_, ?_, ?_⟩
  · exact G [zeros] [.call one] 1 (by rw [u1]; exact n1) (by rw [u1]; exact g1) (by simp [Ev.keepsGamma]) [.call zeros] rfl
  · refine G [zeros, one] [] 0 (by rw [u2]; simp) (by rw [u2]; exact g0) (by simp) [.call zeros, .attr .covariance, .call one] ?_
    rw [snap_filter]; rfl
  · exact G [zeros, one] [.call zeros] 0 (by rw [u2]; simp) (by rw [u2]; exact g0) (by simp [Ev.keepsGamma]) [.call zeros, .call one] rfl
  · refine G [zeros, one, zeros] [] 1 (by rw [u3]; exact n1) (by rw [u3]; exact g1) (by simp) [.call zeros, .call one, .attr .covariance, .call zeros] ?_
    rw [snap_filter]; rfl

/-- Non-vacuity of the statements about SchurConditionalCovariance: two rows, a score, one more row. -/
example : ∃ g, ((Snap.new (schurCondCls L 2) ⟨1 / 20, 2, false⟩).run (scHook L 2)
    ([.call (.fit (.batch [![1, 2], ![3, 5]]))] ++ .attr (.score (.row ![1, 1])) :: [.call (.partialFit (.row ![0, 1]))])).gamma = some g := by
  have hne : used (⟨1 / 20, 2, false⟩ : BlockParam).diff [Call.fit (.batch [![1, 2], ![3, 5]])] ≠ ([] : List (Fin 2 → ℝ)) := by
    show ([![1, 2], ![3, 5]] : List (Fin 2 → ℝ)) ≠ []; simp
  have h := sc_attrs L ⟨1 / 20, 2, false⟩ [Call.fit (.batch [![1, 2], ![3, 5]])] hne
  have hg : ∃ g, scGammaAttr L ((new (schurCondCls L 2) ⟨1 / 20, 2, false⟩).run [Call.fit (.batch [![1, 2], ![3, 5]])]) = .ok g := by
    unfold scGammaAttr
    rw [h.1]; exact ⟨_, rfl⟩
  obtain ⟨g, hg⟩ := hg
  exact ⟨g, C116_last_read_conditional L ⟨1 / 20, 2, false⟩ [.call (.fit (.batch [![1, 2], ![3, 5]]))] _ (.score (.row ![1, 1])) rfl g hg
    (by simp [Ev.keepsGamma])⟩

end Precise
