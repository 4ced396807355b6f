import Verif.Props.Continuity
import Verif.Props.Memory
import Verif.Props.Stability
import Verif.Props.Masking

/-!
# C110 (continued): the estimators that need a nonsingular covariance, and the jumps
-/

set_option linter.all false

open Matrix

namespace Precise

namespace Spec

/-- `covariance_` of a `C(p)` jumps by more than `M` at some stream: streams as close as you like to it (entry by entry) have a
`covariance_` that differs from that of the stream by more than `M`. -/
def JumpsBy {ι : Type} [Fintype ι] (C : Cls ι ℝ) (p : C.Param) (M : ℝ) : Prop :=
  ∃ (xs : List (ι → ℝ)) (c : Matrix ι ι ℝ), ((Obj.new C p).run [.partialFit (.batch xs)]).covariance = .ok c ∧
    ∀ ε > 0, ∃ (ys : List (ι → ℝ)) (c' : Matrix ι ι ℝ), Near ε xs ys ∧ ((Obj.new C p).run [.partialFit (.batch ys)]).covariance = .ok c' ∧
      ∃ i j, M < |c i j - c' i j|

end Spec

open Spec Obj

variable {ι : Type} [Fintype ι] [DecidableEq ι]

/-! ## A nonsingular burn-in -/

section PDcont
variable {T : Type} [TopologicalSpace T]

theorem continuous_inv_of_pd {a : T → Matrix ι ι ℝ} (h : Continuous a) (hp : ∀ t, PD (a t)) : Continuous fun t => (a t)⁻¹ := by
  have e : (fun t => (a t)⁻¹) = fun t => (a t).det⁻¹ • (a t).adjugate := by
    funext t; rw [Matrix.inv_def, Ring.inverse_eq_inv']
  rw [e]
  exact (h.matrix_det.inv₀ fun t => (hp t).det_pos.ne').smul h.matrix_adjugate

theorem continuous_quad {a : T → Matrix ι ι ℝ} {v : T → ι → ℝ} (h : Continuous a) (hv : ∀ i, Continuous fun t => v t i) : Continuous fun t => quad (a t) (v t) := by
  unfold quad
  simp only [dotProduct, Matrix.mulVec]
  exact continuous_finset_sum _ fun i _ => (hv i).mul (continuous_finset_sum _ fun j _ => (h.matrix_elem i j).mul (hv j))

theorem continuous_maha (L : Lapack) {a : T → Matrix ι ι ℝ} {v : T → ι → ℝ} (h : Continuous a) (hp : ∀ t, PD (a t)) (hv : ∀ i, Continuous fun t => v t i) :
    Continuous fun t => quad (tryInvert L (a t)) (v t) := by
  have e : (fun t => quad (tryInvert L (a t)) (v t)) = fun t => quad (a t)⁻¹ (v t) := by
    funext t; rw [tryInvert_of_pd L (hp t)]
  rw [e]
  exact continuous_quad (continuous_inv_of_pd h hp) hv

theorem continuous_huberWeight [Nonempty ι] (L : Lapack) {c : ℝ} (hc : c ≠ 0) {a : T → Matrix ι ι ℝ} {v : T → ι → ℝ} (h : Continuous a) (hp : ∀ t, PD (a t))
    (hv : ∀ i, Continuous fun t => v t i) : Continuous fun t => huberWeight L c (a t) (v t) := by
  have hthr : 0 < c ^ 2 * (Fintype.card ι : ℝ) := mul_pos (by positivity) (by exact_mod_cast Fintype.card_pos)
  have e : (fun t => huberWeight L c (a t) (v t)) = fun t => Real.sqrt (c ^ 2 * (Fintype.card ι : ℝ) / max (quad (tryInvert L (a t)) (v t)) (c ^ 2 * (Fintype.card ι : ℝ))) := by
    funext t
    unfold huberWeight
    simp only []
    split
    · rename_i h1; rw [max_eq_right h1, div_self hthr.ne', Real.sqrt_one]
    · rename_i h1; rw [max_eq_left (not_le.1 h1).le]
  rw [e]
  exact Real.continuous_sqrt.comp (continuous_const.div ((continuous_maha L h hp hv).max continuous_const) fun t => (lt_max_of_lt_right hthr).ne')

end PDcont

/-- Rows `0 … N-1` of a family, and the rest. -/
theorem split_family {T : Type} (xs : List (T → ι → ℝ)) (N : ℕ) (t : T) :
    (xs.map fun x => x t) = ((xs.take N).map fun x => x t) ++ ((xs.drop N).map fun x => x t) := by
  rw [← List.map_append, List.take_append_drop]

theorem contE_burn {T : Type} [TopologicalSpace T] (r : ℝ) (u : EwaState ι ℝ → (ι → ℝ) → EwaState ι ℝ)
    (hu : ∀ s x, s.nSamples < s.nBurn → u s x = ewaBurnStep s x) (xs : List (T → ι → ℝ)) (hx : ∀ x ∈ xs, Continuous x) (hl : xs.length ≤ ewaBurnN r) :
    ContE r (ewaBurnN r) xs.length (fun t => (xs.map fun x => x t).foldl u (ewaInit r : EwaState ι ℝ)) := by
  induction xs using List.reverseRecOn with
  | nil => exact contE_init r
  | append_singleton xs x ih =>
    rw [List.length_append, List.length_singleton] at hl ⊢
    have ih := ih (fun y hy => hx y (by simp [hy])) (by omega)
    have e : (fun t => ((xs ++ [x]).map fun x => x t).foldl u (ewaInit r : EwaState ι ℝ))
        = fun t => ewaBurnStep ((xs.map fun x => x t).foldl u (ewaInit r)) (x t) := by
      funext t
      rw [List.map_append, List.foldl_append, List.map_singleton, List.foldl_cons, List.foldl_nil, hu _ _ (by
        have h1 := ih.m.n t
        have h2 := ih.b t
        omega)]
    rw [e]
    exact ⟨ih.r, ih.b, contM_update ih.m (hx x (by simp))⟩

theorem huber_pd_step [Nonempty ι] (L : Lapack) (pr : HuberParam) (hc0 : pr.c ≠ 0) (h0 : 0 ≤ pr.r) (h1 : pr.r < 1) {T : Type} [TopologicalSpace T] (n : ℕ)
    (s : T → EwaState ι ℝ) (x : T → ι → ℝ) (h : ContE pr.r (ewaBurnN pr.r) n s) (hn : ewaBurnN pr.r ≤ n) (hp : ∀ t, PD (s t).cov) (hx : Continuous x) :
    ContE pr.r (ewaBurnN pr.r) (n + 1) (fun t => huberUpdate L pr (s t) (x t)) ∧ ∀ t, PD (huberUpdate L pr (s t) (x t)).cov := by
  have hx' : ∀ i, Continuous fun t => x t i := fun i => (continuous_apply i).comp hx
  have hmn : ∀ i, Continuous fun t => (s t).mean i := h.m.mean
  have hcv : ∀ i j, Continuous fun t => (s t).cov i j := h.m.cov
  have hd : ∀ i, Continuous fun t => x t i - (s t).mean i := fun i => (hx' i).sub (hmn i)
  have hw := continuous_huberWeight L hc0 (v := fun t i => x t i - (s t).mean i) h.cont_cov hp hd
  have hns : ∀ t, (s t).nSamples = n := h.m.n
  set w := fun t => huberWeight L pr.c (s t).cov (fun i => x t i - (s t).mean i) with hwdef
  have e : ∀ t, huberUpdate L pr (s t) (x t) = { s t with
      nSamples := n + 1
      mean := fun i => (s t).mean i + pr.r * (w t * (x t i - (s t).mean i))
      cov := (1 - pr.r) • (s t).cov + pr.r • outer (fun i => w t * (x t i - (s t).mean i)) (fun i => w t * (x t i - (s t).mean i)) } := by
    intro t
    unfold huberUpdate
    rw [if_neg (by rw [hns, h.b]; omega)]
    simp only [hns, h.r, hwdef]
  refine ⟨⟨fun t => by rw [e]; exact h.r t, fun t => by rw [e]; exact h.b t, fun t => by rw [e], fun i => ?_, fun i j => ?_⟩, fun t => ?_⟩
  · simp only [e]; exact (hmn i).add (continuous_const.mul (hw.mul (hd i)))
  · simp only [e, Matrix.add_apply, Matrix.smul_apply, outer, Matrix.of_apply, smul_eq_mul]
    exact (continuous_const.mul (hcv i j)).add (continuous_const.mul ((hw.mul (hd i)).mul (hw.mul (hd j))))
  · rw [e]
    exact (PD.smul (hp t) (by linarith)).add_psd ((psd_outer _).smul h0)

theorem huber_family [Nonempty ι] (L : Lapack) (pr : HuberParam) (hc0 : pr.c ≠ 0) (h0 : 0 ≤ pr.r) (h1 : pr.r < 1) {T : Type} [TopologicalSpace T]
    (xs : List (T → ι → ℝ)) (hx : ∀ x ∈ xs, Continuous x)
    (hpd : ewaBurnN pr.r < xs.length → ∀ t, PD (covOf ((xs.map fun x => x t).take (ewaBurnN pr.r)))) :
    ContE pr.r (ewaBurnN pr.r) xs.length (fun t => (xs.map fun x => x t).foldl (huberUpdate L pr) (ewaInit pr.r : EwaState ι ℝ)) := by
  have hb : ∀ (s : EwaState ι ℝ) (x : ι → ℝ), s.nSamples < s.nBurn → huberUpdate L pr s x = ewaBurnStep s x :=
    fun s x h => by unfold huberUpdate; rw [if_pos h]
  rcases Nat.lt_or_ge (ewaBurnN pr.r) xs.length with hl | hl
  · have hA := contE_burn pr.r (huberUpdate L pr) hb (xs.take (ewaBurnN pr.r)) (fun x h => hx x (List.mem_of_mem_take h)) (by simp)
    have hlA : (xs.take (ewaBurnN pr.r)).length = ewaBurnN pr.r := by simp; omega
    rw [hlA] at hA
    have hP : ∀ t, PD (((xs.take (ewaBurnN pr.r)).map fun x => x t).foldl (huberUpdate L pr) (ewaInit pr.r : EwaState ι ℝ)).cov := by
      intro t
      have e := huberFold_burn L pr ((xs.take (ewaBurnN pr.r)).map fun x => x t) (by simp)
      have e2 : (((xs.take (ewaBurnN pr.r)).map fun x => x t).foldl (huberUpdate L pr) (ewaInit pr.r : EwaState ι ℝ)).cov = (empFold ((xs.take (ewaBurnN pr.r)).map fun x => x t)).cov :=
        congrArg EmpState.cov e
      have hne : ((xs.take (ewaBurnN pr.r)).map fun x => x t) ≠ [] := by
        intro h
        have := congrArg List.length h
        rw [List.length_map, hlA] at this
        have h2 := ewaBurnN_ge pr.r
        simp only [List.length_nil] at this
        omega
      rw [e2, empFold_cov hne, List.map_take]
      exact hpd hl t
    have := fold_family (huberUpdate L pr) (fun n (s : T → EwaState ι ℝ) => ContE pr.r (ewaBurnN pr.r) n s ∧ ewaBurnN pr.r ≤ n ∧ ∀ t, PD (s t).cov)
      (fun n s x h hx => by
        obtain ⟨a, b⟩ := huber_pd_step L pr hc0 h0 h1 n s x h.1 h.2.1 h.2.2 hx
        exact ⟨a, by have := h.2.1; omega, b⟩)
      (xs.drop (ewaBurnN pr.r)) (fun x h => hx x (List.mem_of_mem_drop h)) (ewaBurnN pr.r) _ ⟨hA, le_rfl, hP⟩
    have h2 := this.1
    have hlen : ewaBurnN pr.r + (xs.drop (ewaBurnN pr.r)).length = xs.length := by simp; omega
    rw [hlen] at h2
    have e : (fun t => (xs.map fun x => x t).foldl (huberUpdate L pr) (ewaInit pr.r : EwaState ι ℝ))
        = fun t => ((xs.drop (ewaBurnN pr.r)).map fun x => x t).foldl (huberUpdate L pr) (((xs.take (ewaBurnN pr.r)).map fun x => x t).foldl (huberUpdate L pr) (ewaInit pr.r)) := by
      funext t; rw [← List.foldl_append, ← split_family]
    rw [e]; exact h2
  · exact contE_burn pr.r _ hb xs hx hl

/-- C110: HuberCovariance (`c ≠ 0`, `0 ≤ r < 1`): if the sample covariance of the burn-in rows stays nonsingular, `location_` and `covariance_`
move continuously. -/
theorem C110_huber [Nonempty ι] (L : Lapack) (pr : HuberParam) (hc0 : pr.c ≠ 0) (h0 : 0 ≤ pr.r) (h1 : pr.r < 1) {T : Type} [TopologicalSpace T]
    (xs : List (T → ι → ℝ)) (hx : ∀ x ∈ xs, Continuous x)
    (hpd : ewaBurnN pr.r < xs.length → ∀ t, PD (covOf ((xs.map fun x => x t).take (ewaBurnN pr.r))))
    (calls : T → List (Call ι ℝ)) (hu : ∀ t, used pr.diff (calls t) = xs.map fun x => x t) (m : T → ι → ℝ) (c : T → Matrix ι ι ℝ)
    (hm : ∀ t, ((new (huberCls L ι) pr).run (calls t)).location = .ok (m t)) (hc : ∀ t, ((new (huberCls L ι) pr).run (calls t)).covariance = .ok (c t)) :
    Continuous m ∧ Continuous c := by
  have key := huber_family L pr hc0 h0 h1 xs hx hpd
  have e : ∀ t, c t = (huberFold L pr (xs.map fun x => x t)).cov ∧ m t = (huberFold L pr (xs.map fun x => x t)).mean := by
    intro t; have := huber_attrs L pr (calls t) (c t) (m t) (hc t) (hm t); rwa [hu] at this
  rw [show m = fun t => (huberFold L pr (xs.map fun x => x t)).mean from funext fun t => (e t).2,
    show c = fun t => (huberFold L pr (xs.map fun x => x t)).cov from funext fun t => (e t).1]
  exact ⟨key.cont_mean, key.cont_cov⟩

/-- The state family of AdaptiveEwaCovariance. -/
structure ContA (pr : AdaParam) {T : Type} [TopologicalSpace T] (n : ℕ) (s : T → AdaState ι) : Prop where
  e : ContE pr.r (ewaBurnN pr.r) n (fun t => (s t).toEwaState)
  maxR : ∀ t, (s t).maxR = pr.maxR
  sbar : Continuous fun t => (s t).sbar

theorem ada_pd_step (L : Lapack) (pr : AdaParam) (h0 : 0 ≤ pr.r) (hm0 : 0 ≤ pr.maxR) (h1 : pr.maxR < 1) {T : Type} [TopologicalSpace T] (n : ℕ)
    (s : T → AdaState ι) (x : T → ι → ℝ) (h : ContA pr n s) (hn : ewaBurnN pr.r ≤ n) (hp : ∀ t, PD (s t).cov) (hx : Continuous x) :
    ContA pr (n + 1) (fun t => adaUpdate L (s t) (x t)) ∧ ∀ t, PD (adaUpdate L (s t) (x t)).cov := by
  have hx' : ∀ i, Continuous fun t => x t i := fun i => (continuous_apply i).comp hx
  have hmn : ∀ i, Continuous fun t => (s t).mean i := h.e.m.mean
  have hd : ∀ i, Continuous fun t => x t i - (s t).mean i := fun i => (hx' i).sub (hmn i)
  have hq := continuous_maha L (v := fun t i => x t i - (s t).mean i) h.e.cont_cov hp hd
  have hsb : Continuous fun t => adaSbar L (s t) (fun i => x t i - (s t).mean i) := by
    unfold adaSbar
    simp only []
    refine (continuous_const.mul h.sbar).add (continuous_const.mul ?_)
    split
    · exact hq.div_const _
    · exact continuous_const
  have hr : ∀ t, (s t).r = pr.r := h.e.r
  have hmx := h.maxR
  have hrate : Continuous fun t => adaRate L (s t) (fun i => x t i - (s t).mean i) := by
    unfold adaRate
    simp only [hr, hmx]
    exact ((continuous_const.mul hsb).max continuous_const).min continuous_const
  have hns : ∀ t, (s t).nSamples = n := h.e.m.n
  have hbn : ∀ t, (s t).nBurn = ewaBurnN pr.r := h.e.b
  have e : ∀ t, adaUpdate L (s t) (x t) = { s t with
      toEwaState := { (s t).toEwaState with toEmpState := ewaBlend (adaRate L (s t) (fun i => x t i - (s t).mean i)) (s t).toEmpState (x t) }
      sbar := adaSbar L (s t) (fun i => x t i - (s t).mean i) } := by
    intro t
    unfold adaUpdate
    rw [if_neg (by rw [hns, hbn]; omega)]
  refine ⟨⟨⟨fun t => by rw [e]; exact hr t, fun t => by rw [e]; exact hbn t, ?_⟩, fun t => by rw [e]; exact hmx t, by simp only [e]; exact hsb⟩, fun t => ?_⟩
  · simp only [e]
    exact contM_blend h.e.m hx hrate
  · rw [e]
    have hrange := adaRate_range L (s t) (fun i => x t i - (s t).mean i)
    rw [hr, hmx] at hrange
    exact ewaBlend_pd (le_trans (le_min h0 hm0) hrange.1) (lt_of_le_of_lt hrange.2 h1) (hp t) (x t)

theorem ada_burn {T : Type} [TopologicalSpace T] (L : Lapack) (pr : AdaParam) (xs : List (T → ι → ℝ)) (hx : ∀ x ∈ xs, Continuous x) (hl : xs.length ≤ ewaBurnN pr.r) :
    ContA pr xs.length (fun t => adaFold L pr (xs.map fun x => x t)) ∧ ∀ t, (adaFold L pr (xs.map fun x => x t)).toEmpState = empFold (xs.map fun x => x t) := by
  induction xs using List.reverseRecOn with
  | nil => exact ⟨⟨contE_init pr.r, fun t => rfl, continuous_const⟩, fun t => rfl⟩
  | append_singleton xs x ih =>
    rw [List.length_append, List.length_singleton] at hl ⊢
    obtain ⟨ih, ih2⟩ := ih (fun y hy => hx y (by simp [hy])) (by omega)
    have e : ∀ t, adaFold L pr ((xs ++ [x]).map fun x => x t) = { adaFold L pr (xs.map fun x => x t) with
        toEwaState := ewaBurnStep (adaFold L pr (xs.map fun x => x t)).toEwaState (x t) } := by
      intro t
      rw [List.map_append, List.map_singleton, adaFold_snoc]
      unfold adaUpdate
      rw [if_pos (by
        have h1 := ih.e.m.n t
        have h2 := ih.e.b t
        omega)]
    refine ⟨⟨?_, fun t => by rw [e]; exact ih.maxR t, by simp only [e]; exact ih.sbar⟩, fun t => ?_⟩
    · simp only [e]
      exact ⟨ih.e.r, ih.e.b, contM_update ih.e.m (hx x (by simp))⟩
    · rw [e, List.map_append, List.map_singleton, empFold_snoc, ← ih2]
      rfl

/-- C110: AdaptiveEwaCovariance (`0 ≤ r`, `0 ≤ max_r < 1`): likewise while the sample covariance of the burn-in rows stays nonsingular. -/
theorem C110_adaptive (L : Lapack) (pr : AdaParam) (h0 : 0 ≤ pr.r) (hm0 : 0 ≤ pr.maxR) (h1 : pr.maxR < 1) {T : Type} [TopologicalSpace T]
    (xs : List (T → ι → ℝ)) (hx : ∀ x ∈ xs, Continuous x)
    (hpd : ewaBurnN pr.r < xs.length → ∀ t, PD (covOf ((xs.map fun x => x t).take (ewaBurnN pr.r))))
    (calls : T → List (Call ι ℝ)) (hu : ∀ t, used pr.diff (calls t) = xs.map fun x => x t) (m : T → ι → ℝ) (c : T → Matrix ι ι ℝ)
    (hm : ∀ t, ((new (adaptiveCls L ι) pr).run (calls t)).location = .ok (m t)) (hc : ∀ t, ((new (adaptiveCls L ι) pr).run (calls t)).covariance = .ok (c t)) :
    Continuous m ∧ Continuous c := by
  have key : ContA pr xs.length (fun t => adaFold L pr (xs.map fun x => x t)) := by
    rcases Nat.lt_or_ge (ewaBurnN pr.r) xs.length with hl | hl
    · obtain ⟨hA, hE⟩ := ada_burn L pr (xs.take (ewaBurnN pr.r)) (fun x h => hx x (List.mem_of_mem_take h)) (by simp)
      have hlA : (xs.take (ewaBurnN pr.r)).length = ewaBurnN pr.r := by simp; omega
      rw [hlA] at hA
      have hP : ∀ t, PD (adaFold L pr ((xs.take (ewaBurnN pr.r)).map fun x => x t)).cov := by
        intro t
        have hne : ((xs.take (ewaBurnN pr.r)).map fun x => x t) ≠ [] := by
          intro h
          have := congrArg List.length h
          rw [List.length_map, hlA] at this
          have h2 := ewaBurnN_ge pr.r
          simp only [List.length_nil] at this
          omega
        rw [hE, empFold_cov hne, List.map_take]
        exact hpd hl t
      have := fold_family (adaUpdate L) (fun n (s : T → AdaState ι) => ContA pr n s ∧ ewaBurnN pr.r ≤ n ∧ ∀ t, PD (s t).cov)
        (fun n s x h hx => by
          obtain ⟨a, b⟩ := ada_pd_step L pr h0 hm0 h1 n s x h.1 h.2.1 h.2.2 hx
          exact ⟨a, by have := h.2.1; omega, b⟩)
        (xs.drop (ewaBurnN pr.r)) (fun x h => hx x (List.mem_of_mem_drop h)) (ewaBurnN pr.r) _ ⟨hA, le_rfl, hP⟩
      have h2 := this.1
      have hlen : ewaBurnN pr.r + (xs.drop (ewaBurnN pr.r)).length = xs.length := by simp; omega
      rw [hlen] at h2
      have e : (fun t => adaFold L pr (xs.map fun x => x t))
          = fun t => ((xs.drop (ewaBurnN pr.r)).map fun x => x t).foldl (adaUpdate L) (adaFold L pr ((xs.take (ewaBurnN pr.r)).map fun x => x t)) := by
        funext t
        unfold adaFold
        rw [← List.foldl_append, ← split_family]
      rw [e]; exact h2
    · exact (ada_burn L pr xs hx hl).1
  rw [show m = fun t => (adaFold L pr (xs.map fun x => x t)).mean from funext fun t => by rw [ada_loc L pr (calls t) (m t) (hm t), hu],
    show c = fun t => (adaFold L pr (xs.map fun x => x t)).cov from funext fun t => by rw [ada_cov L pr (calls t) (c t) (hc t), hu]]
  exact ⟨key.e.cont_mean, key.e.cont_cov⟩

/-! ## Jumps -/

/-- C110: an estimator that jumps is not continuous in the data. -/
theorem C110_jump_not_continuous {C : Cls ι ℝ} (hC : Lawful C) (p : C.Param) (hd : C.diff p = false) {M : ℝ} (hM : 0 < M) (h : JumpsBy C p M) :
    ¬ MovesContinuously C p := by
  intro hcont
  obtain ⟨xs, c0, h0, hj⟩ := h
  have hne : xs ≠ [] := by
    have := (run_covariance_inv hC p _ c0 h0).1
    rwa [hd, used_batch] at this
  have hu : ∀ t : Fin xs.length → ι → ℝ, used (C.diff p) [Call.partialFit (.batch (List.ofFn t))] = (List.ofFn fun k : Fin xs.length => fun t : Fin xs.length → ι → ℝ => t k).map fun x => x t := by
    intro t
    rw [hd, used_batch, List.map_ofFn]
    rfl
  have hok : ∀ t : Fin xs.length → ι → ℝ, ∃ c, ((new C p).run [.partialFit (.batch (List.ofFn t))]).covariance = .ok c := by
    intro t
    refine run_cov_ok hC p _ ?_
    rw [hd, used_batch]
    intro h
    have := congrArg List.length h
    simp at this
    exact hne this
  choose c hc using hok
  have hcc := (hcont (Fin xs.length → ι → ℝ) (List.ofFn fun k => fun t => t k) (by
    intro x hx
    obtain ⟨k, rfl⟩ := (List.mem_ofFn' _ _).1 hx
    exact continuous_apply k) (fun t => [Call.partialFit (.batch (List.ofFn t))]) hu).2 c hc
  have e0 : c xs.get = c0 := by
    have := hc xs.get
    rw [List.ofFn_get, h0] at this
    exact (Except.ok.inj this).symm
  have hev : ∀ᶠ t in nhds xs.get, ∀ i j, |c xs.get i j - c t i j| < M := by
    rw [Filter.eventually_all]; intro i
    rw [Filter.eventually_all]; intro j
    have hcon : Continuous fun t => |c xs.get i j - c t i j| := (continuous_const.sub (hcc.matrix_elem i j)).abs
    have := hcon.tendsto xs.get
    simp only [sub_self, abs_zero] at this
    exact this.eventually (gt_mem_nhds hM)
  obtain ⟨ε, hε, hball⟩ := Metric.eventually_nhds_iff.1 hev
  obtain ⟨ys, c', hn, hc', i, j, hij⟩ := hj (ε / 2) (by linarith)
  have hlen : xs.length = ys.length := hn.length_eq
  let t : Fin xs.length → ι → ℝ := fun k => ys.get (k.cast hlen)
  have ht : List.ofFn t = ys := by
    apply List.ext_getElem
    · simp [hlen]
    · intro k h1 h2; simp [t]
  have hdist : dist t xs.get < ε := by
    refine lt_of_le_of_lt ?_ (show ε / 2 < ε by linarith)
    rw [dist_pi_le_iff (by linarith)]
    intro k
    rw [dist_pi_le_iff (by linarith)]
    intro i
    have := (List.forall₂_iff_get.1 hn).2 k.1 k.2 (by omega) i
    rw [Real.dist_eq, abs_sub_comm]
    exact this
  have h1 := hball hdist i j
  have e1 : c t = c' := by
    have := hc t
    rw [ht, hc'] at this
    exact (Except.ok.inj this).symm
  rw [e0, e1] at h1
  linarith

theorem factor_pair (r s c : ℝ) (hs : 0 < s) :
    (factorFold ⟨1, r, false⟩ [(Pi.single 0 s : Fin 3 → ℝ), ![s, 3 * c, 4 * c]]).V = factorLoop (1 / 2) [(Pi.single 0 s : Fin 3 → ℝ)] ![0, 3 * c, 4 * c] := by
  have hk : min 1 (Fintype.card (Fin 3)) = 1 := by simp
  have s1 : factorUpdate (factorInit (ι := Fin 3) ⟨1, r, false⟩) (Pi.single 0 s)
      = ⟨1, Pi.single 0 s, fun i => (Pi.single 0 s : Fin 3 → ℝ) i * (Pi.single 0 s : Fin 3 → ℝ) i, [Pi.single 0 s], 1, r, 2⟩ := by
    have h0 : vecNorm (0 : Fin 3 → ℝ) < EPS := by rw [vecNorm_zero]; exact EPS_pos
    unfold factorUpdate factorInit
    simp only [hk, List.replicate, factorLoop, h0, if_true]
    norm_num
  unfold factorFold
  simp only [List.foldl_cons, List.foldl_nil]
  rw [s1]
  unfold factorUpdate
  have : (fun i => (![s, 3 * c, 4 * c] : Fin 3 → ℝ) i - (Pi.single 0 s : Fin 3 → ℝ) i) = ![0, 3 * c, 4 * c] := by
    ext i; fin_cases i <;> simp
  simp only [this]
  norm_num

theorem factor_below (r s c : ℝ) (hs : 0 < s) (hE : s < EPS) (hc : 1 ≤ c) :
    factorPart (factorFold ⟨1, r, false⟩ [(Pi.single 0 s : Fin 3 → ℝ), ![s, 3 * c, 4 * c]]).V 1 2 = 12 * c / 5 := by
  rw [factor_pair r s c hs]
  have hE1 : (EPS : ℝ) < 1 := by unfold EPS; norm_num
  have hn : vecNorm (Pi.single 0 s : Fin 3 → ℝ) < EPS := by rw [vecNorm_single 0 hs.le]; exact hE
  simp only [factorLoop, hn, if_true]
  have h5 : vecNorm (![0, 3 * c, 4 * c] : Fin 3 → ℝ) = 5 * c := by
    unfold vecNorm normSq
    rw [Fin.sum_univ_three]
    simp only [Matrix.cons_val_zero, Matrix.cons_val_one, Matrix.cons_val]
    rw [show 0 * 0 + 3 * c * (3 * c) + 4 * c * (4 * c) = (5 * c) * (5 * c) by ring, Real.sqrt_mul_self (by linarith)]
  unfold factorPart factorActive
  rw [List.filter_cons_of_pos (by simp only [decide_eq_true_eq]; rw [h5]; linarith)]
  simp only [List.filter_nil, List.map_cons, List.map_nil, List.sum_cons, List.sum_nil, add_zero, Matrix.smul_apply, outer, Matrix.of_apply, smul_eq_mul, h5]
  simp only [Matrix.cons_val_one, Matrix.cons_val]
  field_simp; ring

theorem factor_at (r c : ℝ) : factorPart (factorFold ⟨1, r, false⟩ [(Pi.single 0 EPS : Fin 3 → ℝ), ![EPS, 3 * c, 4 * c]]).V 1 2 = 0 := by
  rw [factor_pair r EPS c EPS_pos]
  have hn : ¬ vecNorm (Pi.single 0 EPS : Fin 3 → ℝ) < EPS := by rw [vecNorm_single 0 EPS_pos.le]; exact lt_irrefl _
  simp only [factorLoop, hn, if_false]
  have : (fun i => (1 - 1 / 2) * (Pi.single 0 EPS : Fin 3 → ℝ) i + 1 / 2 * (∑ i, (![0, 3 * c, 4 * c] : Fin 3 → ℝ) i * ((Pi.single 0 EPS : Fin 3 → ℝ) i / vecNorm (Pi.single 0 EPS : Fin 3 → ℝ))) * (![0, 3 * c, 4 * c] : Fin 3 → ℝ) i)
      = (Pi.single 0 ((1 - 1 / 2) * EPS) : Fin 3 → ℝ) := by
    ext i
    rw [Fin.sum_univ_three]
    fin_cases i <;> simp
  rw [this]
  exact factorPart_single 0 _ 1 2 (by decide)

/-- C110 (finding): FactorCovariance with one factor, any rate: a first row of length exactly 1e-12 is a factor, one a little shorter is not, and
the covariance after the second row jumps by as much as you like. -/
theorem C110_factor_jump (r M : ℝ) : JumpsBy (factorCls (Fin 3)) (⟨1, r, false⟩ : FactorParam) M := by
  have hcov : ∀ s c : ℝ, ∃ C, ((new (factorCls (Fin 3)) (⟨1, r, false⟩ : FactorParam)).run
      [.partialFit (.batch [(Pi.single 0 s : Fin 3 → ℝ), ![s, 3 * c, 4 * c]])]).covariance = .ok C ∧
      C 1 2 = factorPart (factorFold ⟨1, r, false⟩ [(Pi.single 0 s : Fin 3 → ℝ), ![s, 3 * c, 4 * c]]).V 1 2 := by
    intro s c
    obtain ⟨C, hC⟩ := run_cov_ok (factor_lawful (Fin 3)) (⟨1, r, false⟩ : FactorParam)
      [Call.partialFit (.batch [(Pi.single 0 s : Fin 3 → ℝ), ![s, 3 * c, 4 * c]])] (by show used false _ ≠ []; rw [used_batch]; simp)
    refine ⟨C, hC, ?_⟩
    have e1 := (run_covariance_inv (factor_lawful (Fin 3)) _ _ C hC).2
    change C = toSymmetric (factorCov (factorFold ⟨1, r, false⟩ (used false _))) at e1
    rw [used_batch] at e1
    unfold factorCov at e1
    rw [toSymmetric_of_symm ((factorPart_psd _).1.add (symm_diagonal _))] at e1
    rw [e1, Matrix.add_apply, diagonal_apply_ne _ (by decide), add_zero]
  obtain ⟨C, hC, e⟩ := hcov EPS (|M| + 1)
  refine ⟨_, C, hC, fun ε hε => ?_⟩
  have hEp : (0:ℝ) < EPS := EPS_pos
  have hmin : 0 < min ε EPS := lt_min hε hEp
  have hle1 := min_le_left ε (EPS : ℝ)
  have hle2 := min_le_right ε (EPS : ℝ)
  obtain ⟨C', hC', e'⟩ := hcov (EPS - min ε EPS / 2) (|M| + 1)
  refine ⟨_, C', ?_, hC', 1, 2, ?_⟩
  · refine List.Forall₂.cons (fun i => ?_) (List.Forall₂.cons (fun i => ?_) List.Forall₂.nil)
    · fin_cases i
      · simp only [Fin.zero_eta, Pi.single_eq_same]
        rw [abs_of_nonneg (by linarith)]; linarith
      · simp [hε.le]
      · simp [hε.le]
    · fin_cases i
      · simp only [Fin.zero_eta, Matrix.cons_val_zero]
        rw [abs_of_nonneg (by linarith)]; linarith
      · simp [hε.le]
      · simp [hε.le]
  · rw [e, e', factor_at, factor_below r _ _ (by linarith) (by linarith) (by have := abs_nonneg M; linarith), zero_sub, abs_neg]
    have h1 := le_abs_self M
    have h2 := abs_nonneg M
    rw [abs_of_nonneg (by positivity)]
    linarith

/-- A burn-in of `N` rows of one variable: `δ`, then zeros. -/
def Spec.quietRows (N : ℕ) (δ : ℝ) : List (Fin 1 → ℝ) := (fun _ => δ) :: List.replicate (N - 1) (fun _ => 0)

theorem quiet_length (N : ℕ) (hN : 1 ≤ N) (δ : ℝ) : (quietRows N δ).length = N := by simp [quietRows]; omega

theorem quiet_emp (N : ℕ) (hN : 2 ≤ N) (δ : ℝ) : (empFold (quietRows N δ)).mean 0 = δ / N ∧ (empFold (quietRows N δ)).cov 0 0 = δ ^ 2 / N * (1 - 1 / N) := by
  have hne : quietRows N δ ≠ [] := by simp [quietRows]
  have hl := quiet_length N (by omega) δ
  have hN0 : (N : ℝ) ≠ 0 := by positivity
  have hs : ((quietRows N δ).map fun x => x 0).sum = δ := by simp [quietRows]
  have hss : ((quietRows N δ).map fun x => x 0 * x 0).sum = δ * δ := by simp [quietRows]
  have hm : meanOf (quietRows N δ) 0 = δ / N := by unfold meanOf; rw [hs, hl]
  refine ⟨by rw [empFold_mean hne, hm], ?_⟩
  rw [empFold_cov hne]
  unfold covOf
  rw [of_apply, sum_centered _ (fun x => x 0) (fun x => x 0), hm, hs, hss, hl]
  field_simp
  ring

theorem quiet_var (N : ℕ) (hN : 2 ≤ N) (δ : ℝ) : δ ^ 2 / N * (1 - 1 / N) ≤ δ ^ 2 ∧ (δ ≠ 0 → 0 < δ ^ 2 / N * (1 - 1 / N)) := by
  have hN2 : (2:ℝ) ≤ N := by exact_mod_cast hN
  have h1 : 1 / (N : ℝ) ≤ 1 / 2 := one_div_le_one_div_of_le (by norm_num) hN2
  have h2 : 0 < 1 / (N : ℝ) := by positivity
  constructor
  · have : δ ^ 2 / N ≤ δ ^ 2 := div_le_self (sq_nonneg δ) (by linarith)
    have h3 : 0 ≤ δ ^ 2 / N := by positivity
    nlinarith
  · intro hd
    have : 0 < δ ^ 2 / N := by positivity
    exact mul_pos this (by linarith)

theorem quiet_near (N : ℕ) {δ ε : ℝ} (h0 : 0 ≤ δ) (h1 : δ ≤ ε) (K : ℝ) : Near ε (quietRows N 0 ++ [fun _ => K]) (quietRows N δ ++ [fun _ => K]) := by
  have hε : 0 ≤ ε := h0.trans h1
  refine List.Forall₂.cons (fun i => by rw [zero_sub, abs_neg, abs_of_nonneg h0]; exact h1) ?_
  show List.Forall₂ _ (List.replicate (N - 1) (fun _ => (0:ℝ)) ++ [fun _ => K]) (List.replicate (N - 1) (fun _ => (0:ℝ)) ++ [fun _ => K])
  exact List.forall₂_same.2 fun x _ i => by simpa using hε

/-- The variance HuberCovariance reports after the burn-in `quietRows N δ` and one row `K`. -/
theorem huber_quiet (L : Lapack) (pr : HuberParam) (hd : pr.diff = false) (δ K : ℝ) : ∃ C,
    ((new (huberCls L (Fin 1)) pr).run [.partialFit (.batch (quietRows (ewaBurnN pr.r) δ ++ [fun _ => K]))]).covariance = .ok C ∧
      C 0 0 = (1 - pr.r) * (δ ^ 2 / ewaBurnN pr.r * (1 - 1 / ewaBurnN pr.r)) + pr.r * (huberWeight L pr.c (empFold (quietRows (ewaBurnN pr.r) δ)).cov
        (fun _ => K - δ / ewaBurnN pr.r) * (K - δ / ewaBurnN pr.r)) ^ 2 := by
  have hN : 2 ≤ ewaBurnN pr.r := by have := ewaBurnN_ge pr.r; omega
  obtain ⟨C, hC⟩ := run_cov_ok (huber_lawful L (Fin 1)) pr [Call.partialFit (.batch (quietRows (ewaBurnN pr.r) δ ++ [fun _ => K]))]
    (by show used pr.diff _ ≠ []; rw [hd, used_batch]; simp)
  refine ⟨C, hC, ?_⟩
  have e := ((run_covariance_inv (huber_lawful L (Fin 1)) pr _ C hC).2).trans (toSymmetric_of_symm (huberFold_symm L pr _))
  change C = (huberFold L pr (used pr.diff _)).cov at e
  rw [hd, used_batch, huberFold_snoc] at e
  have hl := quiet_length (ewaBurnN pr.r) (by omega) δ
  have hE := huberFold_burn L pr (quietRows (ewaBurnN pr.r) δ) hl.le
  obtain ⟨hn, hr, hbn⟩ := huber_inv L pr (quietRows (ewaBurnN pr.r) δ)
  change (huberFold L pr _).nSamples = _ at hn
  change (huberFold L pr _).r = _ at hr
  change (huberFold L pr _).nBurn = _ at hbn
  obtain ⟨q1, q2⟩ := quiet_emp (ewaBurnN pr.r) hN δ
  rw [← hE] at q1 q2 ⊢
  rw [hl] at hn
  rw [e]
  generalize huberFold L pr (quietRows (ewaBurnN pr.r) δ) = s at *
  unfold huberUpdate
  rw [if_neg (by omega)]
  have hm : s.mean = fun _ => δ / ewaBurnN pr.r := by ext i; rw [Subsingleton.elim i 0]; exact q1
  simp only [Matrix.add_apply, Matrix.smul_apply, outer, Matrix.of_apply, smul_eq_mul, hr, q2, hm]
  ring

/-- C110 (finding): HuberCovariance, any rate in (0,1] and any cut-off: after a burn-in of zeros an outlier `K` counts in full; if one burn-in entry is
not exactly 0, it hardly counts at all. The covariance jumps by as much as you like. -/
theorem C110_huber_jump (L : Lapack) (pr : HuberParam) (hd : pr.diff = false) (h0 : 0 < pr.r) (h1 : pr.r ≤ 1) (M : ℝ) : JumpsBy (huberCls L (Fin 1)) pr M := by
  have hN : 2 ≤ ewaBurnN pr.r := by have := ewaBurnN_ge pr.r; omega
  obtain ⟨C, hC, e⟩ := huber_quiet L pr hd 0 ((|M| + 2) / pr.r)
  have hz : (empFold (quietRows (ewaBurnN pr.r) 0)).cov = 0 := by
    ext i j
    rw [Subsingleton.elim i 0, Subsingleton.elim j 0, (quiet_emp _ hN 0).2]; simp
  have hpinv : tryInvert L (0 : Matrix (Fin 1) (Fin 1) ℝ) = 0 :=
    IsPinv.unique (tryInvert_pinv L symm_zero) ⟨by simp, by simp, by simp [symm_zero], by simp [symm_zero]⟩
  have hw1 : ∀ d, huberWeight L pr.c (0 : Matrix (Fin 1) (Fin 1) ℝ) d = 1 := by
    intro d
    unfold huberWeight
    simp only []
    rw [hpinv, quad_zero, if_pos (by positivity)]
  rw [hz, hw1] at e
  have hMa := abs_nonneg M
  have hbig : |M| + 2 ≤ C 0 0 := by
    have hK : 1 ≤ (|M| + 2) / pr.r := by rw [le_div_iff₀ h0]; linarith
    have e2 : C 0 0 = (|M| + 2) * ((|M| + 2) / pr.r) := by rw [e]; field_simp; ring
    rw [e2]; nlinarith
  refine ⟨_, C, hC, fun ε hε => ?_⟩
  have hc1 : 0 < 1 / (1 + |pr.c|) := by positivity
  set δ := min ε (1 / (1 + |pr.c|)) with hδ
  have hδ0 : 0 < δ := lt_min hε hc1
  obtain ⟨C', hC', e'⟩ := huber_quiet L pr hd δ ((|M| + 2) / pr.r)
  refine ⟨_, C', quiet_near _ hδ0.le (min_le_left _ _) _, hC', 0, 0, ?_⟩
  obtain ⟨v1, v2⟩ := quiet_var (ewaBurnN pr.r) hN δ
  have v2 := v2 hδ0.ne'
  have hcv := (quiet_emp (ewaBurnN pr.r) hN δ).2
  set v := δ ^ 2 / (ewaBurnN pr.r : ℝ) * (1 - 1 / (ewaBurnN pr.r : ℝ)) with hv
  set u := (|M| + 2) / pr.r - δ / (ewaBurnN pr.r : ℝ) with hu
  set A := (empFold (quietRows (ewaBurnN pr.r) δ)).cov with hA
  have hq : quad (tryInvert L A) (fun _ => u) = u ^ 2 / v := by
    rw [tryInvert_one L (by rw [hcv]; exact v2.ne'), hcv]
  have hw : (huberWeight L pr.c A (fun _ => u) * u) ^ 2 ≤ pr.c ^ 2 * v := by
    unfold huberWeight
    simp only []
    rw [hq]
    simp only [Fintype.card_fin, Nat.cast_one, mul_one]
    split
    · rename_i h; rw [div_le_iff₀ v2] at h; simpa using h
    · rename_i h
      have hp : 0 < u ^ 2 / v := lt_of_le_of_lt (sq_nonneg _) (not_le.1 h)
      have hu2 : 0 < u ^ 2 := by rw [div_pos_iff_of_pos_right v2] at hp; exact hp
      rw [mul_pow, Real.sq_sqrt (div_nonneg (sq_nonneg _) hp.le)]
      have : pr.c ^ 2 / (u ^ 2 / v) * u ^ 2 = pr.c ^ 2 * v := by
        have := v2.ne'
        have : u ≠ 0 := by rintro h; rw [h] at hu2; simp at hu2
        field_simp
      rw [this]
  have hsmall : C' 0 0 ≤ 1 := by
    rw [e']
    have hδ2 : (1 + pr.c ^ 2) * δ ^ 2 ≤ 1 := by
      have h3 : δ ≤ 1 / (1 + |pr.c|) := min_le_right _ _
      have h4 : δ * (1 + |pr.c|) ≤ 1 := by rwa [le_div_iff₀ (by positivity)] at h3
      have h5 : pr.c ^ 2 = |pr.c| ^ 2 := (sq_abs _).symm
      have h6 : 0 ≤ δ * (1 + |pr.c|) := by positivity
      have h7 : (δ * (1 + |pr.c|)) ^ 2 ≤ 1 := by nlinarith
      have h8 := abs_nonneg pr.c
      rw [h5]
      nlinarith [mul_nonneg (sq_nonneg δ) h8]
    have h9 : pr.r * (huberWeight L pr.c A (fun _ => u) * u) ^ 2 ≤ pr.c ^ 2 * v := by
      have : pr.r * (huberWeight L pr.c A (fun _ => u) * u) ^ 2 ≤ 1 * (huberWeight L pr.c A (fun _ => u) * u) ^ 2 := mul_le_mul_of_nonneg_right h1 (sq_nonneg _)
      linarith
    have h10 : (1 - pr.r) * v ≤ v := by nlinarith
    have h11 : (1 + pr.c ^ 2) * v ≤ (1 + pr.c ^ 2) * δ ^ 2 := mul_le_mul_of_nonneg_left v1 (by positivity)
    nlinarith
  have := le_abs_self M
  have := le_abs_self (C 0 0 - C' 0 0)
  linarith

/-- The variance AdaptiveEwaCovariance reports after the burn-in `quietRows N δ` and one row `K`. -/
theorem ada_quiet (L : Lapack) (pr : AdaParam) (hd : pr.diff = false) (δ K : ℝ) : ∃ C,
    ((new (adaptiveCls L (Fin 1)) pr).run [.partialFit (.batch (quietRows (ewaBurnN pr.r) δ ++ [fun _ => K]))]).covariance = .ok C ∧
      ∃ ρ, ρ = min (max (pr.r * ((1 - 1 / 10) * 1 + 1 / 10 * quad (tryInvert L (empFold (quietRows (ewaBurnN pr.r) δ)).cov) (fun _ => K - δ / ewaBurnN pr.r))) pr.r) pr.maxR ∧
      C 0 0 = (1 - ρ) * (δ ^ 2 / ewaBurnN pr.r * (1 - 1 / ewaBurnN pr.r)) + ρ * (K - δ / ewaBurnN pr.r) ^ 2 := by
  have hN : 2 ≤ ewaBurnN pr.r := by have := ewaBurnN_ge pr.r; omega
  obtain ⟨C, hC⟩ := run_cov_ok (adaptive_lawful L (Fin 1)) pr [Call.partialFit (.batch (quietRows (ewaBurnN pr.r) δ ++ [fun _ => K]))]
    (by show used pr.diff _ ≠ []; rw [hd, used_batch]; simp)
  refine ⟨C, hC, _, rfl, ?_⟩
  have e := ada_cov L pr _ C hC
  rw [hd, used_batch, adaFold_snoc] at e
  have hl := quiet_length (ewaBurnN pr.r) (by omega) δ
  obtain ⟨-, hE⟩ := ada_burn (T := Unit) L pr ((quietRows (ewaBurnN pr.r) δ).map fun x _ => x) (fun x hx => by
    obtain ⟨y, _, rfl⟩ := List.mem_map.1 hx
    exact continuous_const) (by simp [hl])
  have hE := hE ()
  simp only [List.map_map, Function.comp_def, List.map_id'] at hE
  have hsb := adaFold_sbar L pr (quietRows (ewaBurnN pr.r) δ) hl (fun _ => 0) 0 ⟨0⟩
  simp only [List.range_zero, List.map_nil, List.append_nil, pow_zero, Finset.sum_empty, Finset.range_zero, add_zero] at hsb
  obtain ⟨hn, hr, hbn, hmx⟩ := ada_inv L pr (quietRows (ewaBurnN pr.r) δ)
  change (adaFold L pr _).nSamples = _ at hn
  change (adaFold L pr _).r = _ at hr
  change (adaFold L pr _).nBurn = _ at hbn
  change (adaFold L pr _).maxR = _ at hmx
  obtain ⟨q1, q2⟩ := quiet_emp (ewaBurnN pr.r) hN δ
  rw [← hE] at q1 q2 ⊢
  rw [hl] at hn
  rw [e]
  generalize adaFold L pr (quietRows (ewaBurnN pr.r) δ) = s at *
  have hm : s.mean = fun _ => δ / ewaBurnN pr.r := by ext i; rw [Subsingleton.elim i 0]; exact q1
  have hrate : adaRate L s (fun _ => K - δ / ewaBurnN pr.r) = min (max (pr.r * ((1 - 1 / 10) * 1 + 1 / 10 * quad (tryInvert L s.cov) (fun _ => K - δ / ewaBurnN pr.r))) pr.r) pr.maxR := by
    unfold adaRate adaSbar
    simp only [hr, hmx, hsb, Fintype.card_fin, Nat.cast_one, div_one, zero_lt_one, if_true]
  unfold adaUpdate
  rw [if_neg (by omega)]
  simp only [hm, hrate, ewaBlend, Matrix.add_apply, Matrix.smul_apply, outer, Matrix.of_apply, smul_eq_mul, q2]
  ring

theorem sq_four {u : ℝ} (h : 2 ≤ u) : 4 ≤ u ^ 2 := by nlinarith

theorem sq_third {r : ℝ} (h0 : 0 < r) (h1 : r ≤ 1) : (r / 3) ^ 2 ≤ r * (2 / 5) := by nlinarith

theorem ada_arith {R r K a : ℝ} (hKK : (R - r) * K = a + 3) (hK : 3 ≤ K) (ha : 0 ≤ a) (hR : R ≤ 1) (hR0 : 0 ≤ R) : a + 1 ≤ R * (K - 1) ^ 2 - r * K ^ 2 := by
  have h9 : R * (K - 1) ^ 2 - r * K ^ 2 = ((R - r) * K) * K - 2 * R * K + R := by ring
  rw [h9, hKK]
  nlinarith

/-- C110 (finding): AdaptiveEwaCovariance, `0 < r < max_r ≤ 1`: after a burn-in of zeros an outlier is no surprise and counts with the rate `r`; if one
burn-in entry is not exactly 0, it counts with the rate `max_r`. The covariance jumps by as much as you like. -/
theorem C110_adaptive_jump (L : Lapack) (pr : AdaParam) (hd : pr.diff = false) (h0 : 0 < pr.r) (h1 : pr.r < pr.maxR) (h2 : pr.maxR ≤ 1) (M : ℝ) :
    JumpsBy (adaptiveCls L (Fin 1)) pr M := by
  have hN : 2 ≤ ewaBurnN pr.r := by have := ewaBurnN_ge pr.r; omega
  have hMa := abs_nonneg M
  have hgap : 0 < pr.maxR - pr.r := by linarith
  have hK3 : 3 ≤ (|M| + 3) / (pr.maxR - pr.r) := by rw [le_div_iff₀ hgap]; linarith
  have hKK : (pr.maxR - pr.r) * ((|M| + 3) / (pr.maxR - pr.r)) = |M| + 3 := by field_simp
  set K := (|M| + 3) / (pr.maxR - pr.r) with hK
  obtain ⟨C, hC, ρ, hρ, e⟩ := ada_quiet L pr hd 0 K
  have hz : (empFold (quietRows (ewaBurnN pr.r) 0)).cov = 0 := by
    ext i j
    rw [Subsingleton.elim i 0, Subsingleton.elim j 0, (quiet_emp _ hN 0).2]; simp
  have hpinv : tryInvert L (0 : Matrix (Fin 1) (Fin 1) ℝ) = 0 :=
    IsPinv.unique (tryInvert_pinv L symm_zero) ⟨by simp, by simp, by simp [symm_zero], by simp [symm_zero]⟩
  have e0 : C 0 0 = pr.r * K ^ 2 := by
    have : ρ = pr.r := by
      rw [hρ, hz, hpinv, quad_zero, max_eq_right (by linarith), min_eq_left h1.le]
    rw [e, this]; simp
  refine ⟨_, C, hC, fun ε hε => ?_⟩
  have hr3 : 0 < pr.r / 3 := by positivity
  set δ := min ε (pr.r / 3) with hδ
  have hδ0 : 0 < δ := lt_min hε hr3
  have hδr : δ ≤ pr.r / 3 := min_le_right _ _
  obtain ⟨C', hC', ρ', hρ', e'⟩ := ada_quiet L pr hd δ K
  refine ⟨_, C', quiet_near _ hδ0.le (min_le_left _ _) _, hC', 0, 0, ?_⟩
  obtain ⟨v1, v2⟩ := quiet_var (ewaBurnN pr.r) hN δ
  have v2 := v2 hδ0.ne'
  have hcv := (quiet_emp (ewaBurnN pr.r) hN δ).2
  have hNr : (2:ℝ) ≤ ewaBurnN pr.r := by exact_mod_cast hN
  have hmδ : δ / (ewaBurnN pr.r : ℝ) ≤ δ := div_le_self hδ0.le (by linarith)
  set v := δ ^ 2 / (ewaBurnN pr.r : ℝ) * (1 - 1 / (ewaBurnN pr.r : ℝ)) with hv
  set u := K - δ / (ewaBurnN pr.r : ℝ) with hu
  have hu1 : K - 1 ≤ u := by rw [hu]; linarith
  have hu2 : 4 ≤ u ^ 2 := sq_four (by linarith)
  have hq : quad (tryInvert L (empFold (quietRows (ewaBurnN pr.r) δ)).cov) (fun _ => u) = u ^ 2 / v := by
    rw [tryInvert_one L (by rw [hcv]; exact v2.ne'), hcv]
  have hbig : pr.maxR ≤ pr.r * ((1 - 1 / 10) * 1 + 1 / 10 * (u ^ 2 / v)) := by
    have h3 : v ≤ pr.r * (2 / 5) := by
      have h5 : δ ^ 2 ≤ (pr.r / 3) ^ 2 := pow_le_pow_left₀ hδ0.le hδr 2
      have h6 : (pr.r / 3) ^ 2 ≤ pr.r * (2 / 5) := sq_third h0 (by linarith)
      linarith
    have h4 : 10 ≤ pr.r * (u ^ 2 / v) := by
      rw [← mul_div_assoc, le_div_iff₀ v2]
      have h5 := mul_le_mul_of_nonneg_left hu2 h0.le
      linarith
    have h5 : pr.r * ((1 - 1 / 10) * 1 + 1 / 10 * (u ^ 2 / v)) = 9 / 10 * pr.r + 1 / 10 * (pr.r * (u ^ 2 / v)) := by ring
    rw [h5]; linarith
  have hρ2 : ρ' = pr.maxR := by rw [hρ', hq]; exact min_eq_right (hbig.trans (le_max_left _ _))
  have hC2 : pr.maxR * (K - 1) ^ 2 ≤ C' 0 0 := by
    rw [e', hρ2]
    have h5 : (K - 1) ^ 2 ≤ u ^ 2 := pow_le_pow_left₀ (by linarith) hu1 2
    have h6 : 0 ≤ (1 - pr.maxR) * v := mul_nonneg (by linarith) v2.le
    have h7 := mul_le_mul_of_nonneg_left h5 (by linarith : 0 ≤ pr.maxR)
    linarith
  have h8 : |M| + 1 ≤ C' 0 0 - C 0 0 := by
    rw [e0]
    have := ada_arith hKK hK3 hMa h2 (by linarith)
    linarith
  have h10 := neg_abs_le (C 0 0 - C' 0 0)
  have h11 := le_abs_self M
  linarith

theorem tyler_first_any (L : Lapack) [Nonempty ι] (pr : RParam ℝ) (x : ι → ℝ) (hx : x ≠ 0) :
    (tylerFold L pr [x]).shape = some (((Fintype.card ι : ℝ) / normSq x) • outer x x) := by
  have h1 : 1 ≤ ewaBurnN pr.r := by have := ewaBurnN_ge pr.r; omega
  have e : (tylerFold L pr [x]).shape = tylerShape L 1 1 x := by
    show (tylerUpdate L _ x).shape = _
    unfold tylerUpdate
    simp [h1]
  have hp : (0:ℝ) < (Fintype.card ι : ℝ) := by exact_mod_cast Fintype.card_pos
  have hn : 0 < normSq x := Precise.normSq_pos hx
  have hq : 0 < max (normSq x) EPS := lt_max_of_lt_left hn
  have hinv : tryInvert L (1 : Matrix ι ι ℝ) = 1 := by rw [tryInvert_of_pd L pd_one]; exact inv_one
  rw [e]
  unfold tylerShape
  simp only []
  rw [hinv, quad_one, sub_self, zero_smul, zero_add, one_mul, trace_smul, trace_outer, smul_eq_mul]
  have hne : (Fintype.card ι : ℝ) / max (normSq x) EPS * normSq x ≠ 0 := by positivity
  rw [if_neg hne, smul_smul]
  congr 2
  field_simp

/-- C110 (finding): TylerCovariance: the correlation reported after one row of two variables depends on the signs of its entries only, so rows as close
as you like (and as close to zero as you like) have correlations almost 1 and almost -1. -/
theorem C110_tyler_jump (L : Lapack) (r ε : ℝ) (hε : 0 < ε) : ∃ (x y : Fin 2 → ℝ) (c c' : Matrix (Fin 2) (Fin 2) ℝ), Near ε [x] [y] ∧
    ((new (tylerCls L (Fin 2)) (⟨r, false⟩ : RParam ℝ)).run [.partialFit (.batch [x])]).covariance = .ok c ∧
    ((new (tylerCls L (Fin 2)) (⟨r, false⟩ : RParam ℝ)).run [.partialFit (.batch [y])]).covariance = .ok c' ∧
    c 0 1 = 1 / (1 + 1 / 10 ^ 12) ∧ c' 0 1 = -(1 / (1 + 1 / 10 ^ 12)) := by
  have key : ∀ σ : ℝ, σ = 1 ∨ σ = -1 → ∃ c, ((new (tylerCls L (Fin 2)) (⟨r, false⟩ : RParam ℝ)).run [.partialFit (.batch [![ε / 2, σ * (ε / 2)]])]).covariance = .ok c ∧
      c 0 1 = σ / (1 + 1 / 10 ^ 12) := by
    intro σ hσ
    have hσ2 : σ * σ = 1 := by rcases hσ with h | h <;> rw [h] <;> norm_num
    set x : Fin 2 → ℝ := ![ε / 2, σ * (ε / 2)] with hx
    have x0 : x 0 = ε / 2 := rfl
    have x1 : x 1 = σ * (ε / 2) := rfl
    have hx0 : x ≠ 0 := by
      intro h
      have := congrFun h 0
      simp [hx] at this
      linarith
    have hnorm : normSq x = ε ^ 2 / 2 := by
      simp only [normSq, Fin.sum_univ_two, x0, x1]
      have : σ * (ε / 2) * (σ * (ε / 2)) = (σ * σ) * (ε / 2) ^ 2 := by ring
      rw [this, hσ2]; ring
    have hne : used false [Call.partialFit (.batch [x])] ≠ [] := by rw [used_batch]; simp
    have hcov := run_covariance (tyler_lawful L (Fin 2)) (⟨r, false⟩ : RParam ℝ) [Call.partialFit (.batch [x])] hne
    set C := ((Fintype.card (Fin 2) : ℝ) / normSq x) • outer x x with hC
    have hP : PSD C := (psd_outer _).smul (by rw [hnorm]; positivity)
    have e : (tylerCls L (Fin 2)).toCov (⟨r, false⟩ : RParam ℝ) (List.foldl ((tylerCls L (Fin 2)).updateState (⟨r, false⟩ : RParam ℝ))
        ((tylerCls L (Fin 2)).initState (⟨r, false⟩ : RParam ℝ)) (used false [Call.partialFit (.batch [x])])) = covToCorr C := by
      show ((tylerFold L (⟨r, false⟩ : RParam ℝ) (used false _)).shape.map covToCorr).getD 0 = _
      rw [used_batch, tyler_first_any L _ x hx0]; rfl
    rw [show (tylerCls L (Fin 2)).diff (⟨r, false⟩ : RParam ℝ) = false from rfl, e, toSymmetric_of_symm (symm_covToCorr hP.1)] at hcov
    refine ⟨_, hcov, ?_⟩
    show C 0 1 / (Real.sqrt (C 1 1 * C 0 0) + EPS) = _
    have hk : (Fintype.card (Fin 2) : ℝ) / normSq x = 4 / ε ^ 2 := by rw [hnorm]; simp; field_simp; norm_num
    have hε0 := hε.ne'
    have c00 : C 0 0 = 1 := by
      rw [hC, hk]; simp only [Matrix.smul_apply, outer, Matrix.of_apply, x0, x1, smul_eq_mul]; field_simp; norm_num
    have c11 : C 1 1 = 1 := by
      rw [hC, hk]; simp only [Matrix.smul_apply, outer, Matrix.of_apply, x0, x1, smul_eq_mul]
      have : σ * (ε / 2) * (σ * (ε / 2)) = (σ * σ) * (ε / 2) ^ 2 := by ring
      rw [this, hσ2]; field_simp; norm_num
    have c01 : C 0 1 = σ := by
      rw [hC, hk]; simp only [Matrix.smul_apply, outer, Matrix.of_apply, x0, x1, smul_eq_mul]
      field_simp; ring
    rw [c00, c11, c01, EPS]; simp
  obtain ⟨c, hc, e⟩ := key 1 (Or.inl rfl)
  obtain ⟨c', hc', e'⟩ := key (-1) (Or.inr rfl)
  refine ⟨_, _, c, c', ?_, hc, hc', e, by rw [e']; ring⟩
  refine List.Forall₂.cons (fun i => ?_) List.Forall₂.nil
  fin_cases i
  · simp [hε.le]
  · show |1 * (ε / 2) - -1 * (ε / 2)| ≤ ε
    rw [show 1 * (ε / 2) - -1 * (ε / 2) = ε by ring, abs_of_pos hε]

/-! ## Non-vacuity -/

-- the default HuberCovariance and AdaptiveEwaCovariance jump, so they are not continuous
example (L : Lapack) : ¬ MovesContinuously (huberCls L (Fin 1)) (⟨1 / 20, 3, false⟩ : HuberParam) :=
  C110_jump_not_continuous (huber_lawful L (Fin 1)) _ rfl one_pos (C110_huber_jump L _ rfl (by norm_num) (by norm_num) 1)
example (L : Lapack) : ¬ MovesContinuously (adaptiveCls L (Fin 1)) (⟨1 / 20, 1 / 2, false⟩ : AdaParam) :=
  C110_jump_not_continuous (adaptive_lawful L (Fin 1)) _ rfl one_pos (C110_adaptive_jump L _ rfl (by norm_num) (by norm_num) (by norm_num) 1)
example : ¬ MovesContinuously (factorCls (Fin 3)) (⟨1, 1 / 20, false⟩ : FactorParam) :=
  C110_jump_not_continuous (factor_lawful (Fin 3)) _ rfl one_pos (C110_factor_jump (1 / 20) 1)

/-- One row of three moves along a line. -/
def movingRows : List (ℝ → Fin 2 → ℝ) := [fun _ => ![1, 0], fun t => ![t, 2 * t], fun _ => ![0, 3]]

theorem movingRows_continuous : ∀ x ∈ movingRows, Continuous x := by
  intro x hx
  simp only [movingRows, List.mem_cons, List.not_mem_nil, or_false] at hx
  rcases hx with rfl | rfl | rfl
  · exact continuous_const
  · refine continuous_pi fun i => ?_
    fin_cases i
    · show Continuous fun t : ℝ => t
      exact continuous_id
    · show Continuous fun t : ℝ => 2 * t
      fun_prop
  · exact continuous_const

-- the covariance of LedoitWolfCovariance along that line exists and is continuous
example (r : ℝ) : ∃ c : ℝ → Matrix (Fin 2) (Fin 2) ℝ, Continuous c ∧
    ∀ t, ((new (ledoitWolfCls (Fin 2) ℝ) (⟨r, false⟩ : RParam ℝ)).run [.partialFit (.batch (movingRows.map fun x => x t))]).covariance = .ok (c t) := by
  have : ∀ t, ∃ c, ((new (ledoitWolfCls (Fin 2) ℝ) (⟨r, false⟩ : RParam ℝ)).run [.partialFit (.batch (movingRows.map fun x => x t))]).covariance = .ok c := fun t =>
    run_cov_ok (ledoitWolf_lawful (Fin 2) ℝ) _ _ (by show used false _ ≠ []; rw [used_batch]; simp [movingRows])
  choose c hc using this
  have hu : ∀ t, used ((ledoitWolfCls (Fin 2) ℝ).diff (⟨r, false⟩ : RParam ℝ)) [Call.partialFit (.batch (movingRows.map fun x => x t))] = movingRows.map fun x => x t :=
    fun t => used_batch _
  have h := C110_ledoitWolf (ι := Fin 2) (⟨r, false⟩ : RParam ℝ)
  have h2 := h ℝ movingRows movingRows_continuous (fun t => [.partialFit (.batch (movingRows.map fun x => x t))]) hu
  exact ⟨c, h2.2 c hc, hc⟩

-- a burn-in of five rows of one variable, one of them moving, stays nonsingular (`C110_huber`, `C110_adaptive`)
example : ewaBurnN (1 / 5 : ℝ) < [fun _ => (fun _ : Fin 1 => (1:ℝ)), fun _ => fun _ => -1, fun _ => fun _ => 1, fun _ => fun _ => -1, fun t : ℝ => fun _ => t, fun t => fun _ => t].length ∧
    ∀ t : ℝ, PD (covOf (([fun _ => (fun _ : Fin 1 => (1:ℝ)), fun _ => fun _ => -1, fun _ => fun _ => 1, fun _ => fun _ => -1, fun t : ℝ => fun _ => t, fun t => fun _ => t].map
      fun x => x t).take (ewaBurnN (1 / 5 : ℝ)))) := by
  have hb : ewaBurnN (1 / 5 : ℝ) = 5 := by unfold ewaBurnN; norm_num; rfl
  rw [hb]
  refine ⟨by simp, fun t => ⟨fun i j => by rw [Subsingleton.elim i j], fun x hx => ?_⟩⟩
  have hx0 : x 0 ≠ 0 := by intro h0; apply hx; ext i; rw [Subsingleton.elim i 0]; exact h0
  have hv : covOf (([fun _ => (fun _ : Fin 1 => (1:ℝ)), fun _ => fun _ => -1, fun _ => fun _ => 1, fun _ => fun _ => -1, fun t : ℝ => fun _ => t, fun t => fun _ => t].map
      fun x => x t).take 5) 0 0 = 4 / 5 + 4 / 25 * t ^ 2 := by
    simp [covOf, meanOf]; ring
  rw [quad_expand, Fin.sum_univ_one, Fin.sum_univ_one, hv]
  have := mul_self_pos.2 hx0
  nlinarith [sq_nonneg t, mul_nonneg (sq_nonneg t) this.le]

end Precise
