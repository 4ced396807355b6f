import Verif.Lemmas.Continuity
import Verif.Props.Shrinkage
import Verif.Props.Dynamic
import Verif.Props.Schur
import Verif.Props.Diagonal
import Verif.Props.Conditional

/-!
# C110: which estimates are continuous in the data, and where the others jump

The rows used are functions `x t` of a parameter `t` of any topological space (the space of all data sets of a given length, an interval, ...).
-/

set_option linter.all false

open Matrix

namespace Precise

namespace Spec

/-- With the observations used moving continuously, `location_` and `covariance_` of a `C(p)` move continuously. -/
def MovesContinuously {ι : Type} [Fintype ι] (C : Cls ι ℝ) (p : C.Param) : Prop :=
  ∀ (T : Type) [TopologicalSpace T] (xs : List (T → ι → ℝ)), (∀ x ∈ xs, Continuous x) →
    ∀ calls : T → List (Call ι ℝ), (∀ t, used (C.diff p) (calls t) = xs.map fun x => x t) →
      (∀ m : T → ι → ℝ, (∀ t, ((Obj.new C p).run (calls t)).location = .ok (m t)) → Continuous m) ∧
      (∀ c : T → Matrix ι ι ℝ, (∀ t, ((Obj.new C p).run (calls t)).covariance = .ok (c t)) → Continuous c)

end Spec

open Spec Obj

variable {ι : Type} [Fintype ι] [DecidableEq ι]

theorem fold_family {T σ : Type} [TopologicalSpace T] (f : σ → (ι → ℝ) → σ) (P : ℕ → (T → σ) → Prop)
    (hs : ∀ n s x, P n s → Continuous x → P (n + 1) (fun t => f (s t) (x t))) (xs : List (T → ι → ℝ)) (hx : ∀ x ∈ xs, Continuous x)
    (n : ℕ) (s : T → σ) (h0 : P n s) : P (n + xs.length) (fun t => (xs.map fun x => x t).foldl f (s t)) := by
  induction xs generalizing n s with
  | nil => exact h0
  | cons x xs ih =>
    have := ih (fun y hy => hx y (by simp [hy])) (n + 1) _ (hs n s x h0 (hx x (by simp)))
    simpa only [List.length_cons, Nat.add_assoc, Nat.add_comm 1, List.map_cons, List.foldl_cons] using this

theorem moves_of_fold {C : Cls ι ℝ} (hC : Lawful C) (p : C.Param)
    (h : ∀ (T : Type) [TopologicalSpace T] (xs : List (T → ι → ℝ)), (∀ x ∈ xs, Continuous x) →
      Continuous (fun t => C.toMean p ((xs.map fun x => x t).foldl (C.updateState p) (C.initState p))) ∧
      Continuous (fun t => C.toCov p ((xs.map fun x => x t).foldl (C.updateState p) (C.initState p)))) : MovesContinuously C p := by
  intro T _ xs hx calls hu
  obtain ⟨h1, h2⟩ := h T xs hx
  constructor
  · intro m hm
    have : m = fun t => C.toMean p ((xs.map fun x => x t).foldl (C.updateState p) (C.initState p)) := by
      funext t; rw [(run_location_inv hC p _ _ (hm t)).2, hu]
    rw [this]; exact h1
  · intro c hc
    have : c = fun t => toSymmetric (C.toCov p ((xs.map fun x => x t).foldl (C.updateState p) (C.initState p))) := by
      funext t; rw [(run_covariance_inv hC p _ _ (hc t)).2, hu]
    rw [this]; exact Continuous.toSymmetric' h2

/-! ## Running states -/

section States
variable {T : Type} [TopologicalSpace T]

structure ContM (n : ℕ) (s : T → EmpState ι ℝ) : Prop where
  n : ∀ t, (s t).nSamples = n
  mean : ∀ i, Continuous fun t => (s t).mean i
  cov : ∀ i j, Continuous fun t => (s t).cov i j

theorem contM_update {n : ℕ} {s : T → EmpState ι ℝ} {x : T → ι → ℝ} (h : ContM n s) (hx : Continuous x) :
    ContM (n + 1) (fun t => empUpdate (s t) (x t)) := by
  have hx' : ∀ i, Continuous fun t => x t i := fun i => (continuous_apply i).comp hx
  have hm := h.mean
  have hc := h.cov
  refine ⟨fun t => by simp [empUpdate, h.n t], fun i => ?_, fun i j => ?_⟩
  · simp only [empUpdate, h.n]
    exact (hm i).add (((hx' i).sub (hm i)).div_const _)
  · simp only [empUpdate, h.n, Matrix.of_apply]
    exact (((hc i j).mul continuous_const).div_const _).add (((hx' i).sub (hm i)).mul
      (((hx' j).sub ((hm j).add (((hx' j).sub (hm j)).div_const _))).div_const _))

theorem contM_blend {n : ℕ} {s : T → EmpState ι ℝ} {x : T → ι → ℝ} {r : T → ℝ} (h : ContM n s) (hx : Continuous x) (hr : Continuous r) :
    ContM (n + 1) (fun t => ewaBlend (r t) (s t) (x t)) := by
  have hx' : ∀ i, Continuous fun t => x t i := fun i => (continuous_apply i).comp hx
  have hm := h.mean
  have hc := h.cov
  refine ⟨fun t => by simp [ewaBlend, h.n t], fun i => ?_, fun i j => ?_⟩
  · simp only [ewaBlend]; fun_prop
  · simp only [ewaBlend, Matrix.add_apply, Matrix.smul_apply, outer, Matrix.of_apply, smul_eq_mul]; fun_prop

structure ContE (r : ℝ) (b n : ℕ) (s : T → EwaState ι ℝ) : Prop where
  r : ∀ t, (s t).r = r
  b : ∀ t, (s t).nBurn = b
  m : ContM n (fun t => (s t).toEmpState)

theorem contE_update {r : ℝ} {b n : ℕ} {s : T → EwaState ι ℝ} {x : T → ι → ℝ} (h : ContE r b n s) (hx : Continuous x) :
    ContE r b (n + 1) (fun t => ewaUpdate (s t) (x t)) := by
  have hn : ∀ t, (s t).nSamples = n := h.m.n
  by_cases hb : n < b
  · have e : (fun t => ewaUpdate (s t) (x t)) = fun t => { s t with toEmpState := empUpdate (s t).toEmpState (x t) } := by
      funext t; unfold ewaUpdate; rw [if_pos (by rw [hn, h.b]; exact hb)]; rfl
    rw [e]; exact ⟨h.r, h.b, contM_update h.m hx⟩
  · have e : (fun t => ewaUpdate (s t) (x t)) = fun t => { s t with toEmpState := ewaBlend r (s t).toEmpState (x t) } := by
      funext t; unfold ewaUpdate; rw [if_neg (by rw [hn, h.b]; exact hb)]; simp only [h.r]
    rw [e]; exact ⟨h.r, h.b, contM_blend h.m hx continuous_const⟩

theorem contE_init (r : ℝ) : ContE r (ewaBurnN r) 0 (fun _ : T => (ewaInit r : EwaState ι ℝ)) :=
  ⟨fun _ => rfl, fun _ => rfl, fun _ => rfl, fun _ => continuous_const, fun _ _ => continuous_const⟩

theorem contE_fold (r : ℝ) (xs : List (T → ι → ℝ)) (hx : ∀ x ∈ xs, Continuous x) :
    ContE r (ewaBurnN r) xs.length (fun t => (xs.map fun x => x t).foldl ewaUpdate (ewaInit r : EwaState ι ℝ)) := by
  have := fold_family (ewaUpdate (ι := ι) (K := ℝ)) (ContE r (ewaBurnN r)) (fun n s x h hx => contE_update h hx) xs hx 0 (fun _ => ewaInit r) (contE_init r)
  simpa using this

theorem ContE.cont_mean {r : ℝ} {b n : ℕ} {s : T → EwaState ι ℝ} (h : ContE r b n s) : Continuous fun t => (s t).mean := continuous_pi h.m.mean
theorem ContE.cont_cov {r : ℝ} {b n : ℕ} {s : T → EwaState ι ℝ} (h : ContE r b n s) : Continuous fun t => (s t).cov := continuous_matrix h.m.cov

end States

/-! ## The classes -/

/-- C110: EmpiricalCovariance and EwaCovariance (any rate). -/
theorem C110_emp_ewa (d : Bool) (p : RParam ℝ) : MovesContinuously (empiricalCls ι ℝ) d ∧ MovesContinuously (ewaCls ι ℝ) p := by
  constructor
  · refine moves_of_fold (empirical_lawful ι ℝ) d fun T _ xs hx => ?_
    have h : ContM (0 + xs.length) (fun t => (xs.map fun x => x t).foldl empUpdate (empInit : EmpState ι ℝ)) :=
      fold_family empUpdate ContM (fun n s x h hx => contM_update h hx) xs hx 0 (fun _ => empInit) ⟨fun _ => rfl, fun _ => continuous_const, fun _ _ => continuous_const⟩
    exact ⟨continuous_pi h.mean, continuous_matrix h.cov⟩
  · refine moves_of_fold (ewa_lawful ι ℝ) p fun T _ xs hx => ?_
    have h := contE_fold p.r xs hx
    exact ⟨h.cont_mean, h.cont_cov⟩

/-- C110: DiagonalCovariance. -/
theorem C110_diagonal (p : RParam ℝ) : MovesContinuously (diagonalCls ι ℝ) p := by
  refine moves_of_fold (diagonal_lawful ι ℝ) p fun T _ xs hx => ?_
  have h : (fun n (s : T → DiagState ι ℝ) => (∀ t, (s t).nSamples = n ∧ (s t).r = p.r ∧ (s t).nBurn = ewaBurnN p.r) ∧ (∀ i, Continuous fun t => (s t).mean i)
      ∧ ∀ i, Continuous fun t => (s t).var i) (0 + xs.length) (fun t => (xs.map fun x => x t).foldl diagUpdate (diagInit p.r : DiagState ι ℝ)) := by
    refine fold_family diagUpdate (fun n (s : T → DiagState ι ℝ) => (∀ t, (s t).nSamples = n ∧ (s t).r = p.r ∧ (s t).nBurn = ewaBurnN p.r) ∧ (∀ i, Continuous fun t => (s t).mean i)
      ∧ ∀ i, Continuous fun t => (s t).var i) ?_ xs hx 0 _ ⟨fun t => ⟨rfl, rfl, rfl⟩, fun _ => continuous_const, fun _ => continuous_const⟩
    rintro n s x ⟨h0, hm, hv⟩ hx
    have hx' : ∀ i, Continuous fun t => x t i := fun i => (continuous_apply i).comp hx
    have e1 := fun t => (h0 t).1
    have e2 := fun t => (h0 t).2.1
    have e3 := fun t => (h0 t).2.2
    unfold diagUpdate
    simp only [e1, e3]
    split
    · refine ⟨fun t => ⟨rfl, e2 t, rfl⟩, fun i => ?_, fun i => ?_⟩
      · exact (hm i).add (((hx' i).sub (hm i)).div_const _)
      · exact (hv i).add (((((hx' i).sub (hm i)).mul ((hx' i).sub (hm i))).sub (hv i)).div_const _)
    · refine ⟨fun t => ⟨rfl, e2 t, rfl⟩, fun i => ?_, fun i => ?_⟩
      · simp only [e2]; fun_prop
      · simp only [e2]; fun_prop
  refine ⟨continuous_pi h.2.1, continuous_matrix fun i j => ?_⟩
  show Continuous fun t => Matrix.diagonal ((xs.map fun x => x t).foldl diagUpdate (diagInit p.r : DiagState ι ℝ)).var i j
  by_cases hij : i = j
  · subst hij; simp only [diagonal_apply_eq]; exact h.2.2 i
  · simp only [diagonal_apply_ne _ hij]; exact continuous_const

theorem continuous_shrunkCov {T : Type} [TopologicalSpace T] (p : ShrunkParam) {s : T → EwaState ι ℝ} (hc : ∀ i j, Continuous fun t => (s t).cov i j) :
    Continuous fun t => shrunkCov p (s t) := by
  have hpos : ∀ x : ℝ, 0 < Real.sqrt (max x EPS) := fun x => Real.sqrt_pos.2 (lt_max_of_lt_right (by unfold EPS; positivity))
  have hd : ∀ i, Continuous fun t => Real.sqrt (max ((s t).cov i i) EPS) := fun i => Real.continuous_sqrt.comp ((hc i i).max continuous_const)
  refine continuous_matrix fun i j => ?_
  unfold shrunkCov
  simp only [Matrix.add_apply, Matrix.smul_apply, smul_eq_mul]
  refine (continuous_const.mul (hc i j)).add (continuous_const.mul ?_)
  by_cases ht : p.target = "identity"
  · simp only [ht, if_true, Matrix.smul_apply, smul_eq_mul, Matrix.trace, Matrix.diag_apply]
    exact ((continuous_finset_sum _ fun k _ => hc k k).div_const _).mul continuous_const
  · simp only [ht, if_false, Matrix.of_apply]
    split
    · exact hc i i
    · refine Continuous.mul ?_ ((hd i).mul (hd j))
      unfold shrunkRbar
      split
      · exact continuous_const
      · refine (continuous_finset_sum _ fun k _ => continuous_finset_sum _ fun l _ => ?_).div_const _
        split
        · exact continuous_const
        · exact (hc k l).div ((hd k).mul (hd l)) fun t => (mul_pos (hpos _) (hpos _)).ne'

/-- C110: ShrunkCovariance, either target, any intensity. -/
theorem C110_shrunk (p : ShrunkParam) : MovesContinuously (shrunkCls ι) p := by
  refine moves_of_fold (shrunk_lawful ι) p fun T _ xs hx => ?_
  have h := contE_fold p.r xs hx
  exact ⟨h.cont_mean, continuous_shrunkCov p h.m.cov⟩

/-! ### Data-driven intensities -/

theorem sum_sq_eq_zero {a : Matrix ι ι ℝ} (h : ∑ i, ∑ j, a i j ^ 2 ≤ 0) (i j : ι) : a i j = 0 := by
  have h1 := (Finset.sum_eq_zero_iff_of_nonneg (fun i _ => Finset.sum_nonneg fun j _ => sq_nonneg (a i j))).1
    (le_antisymm h (Finset.sum_nonneg fun i _ => Finset.sum_nonneg fun j _ => sq_nonneg _)) i (Finset.mem_univ i)
  have h2 := (Finset.sum_eq_zero_iff_of_nonneg (fun j _ => sq_nonneg (a i j))).1 h1 j (Finset.mem_univ j)
  exact pow_eq_zero_iff (two_ne_zero) |>.1 h2

section Shrink
variable {T : Type} [TopologicalSpace T]

/-- Distance of `S` from its scaled identity. -/
noncomputable def offTarget (S : Matrix ι ι ℝ) (i j : ι) : ℝ := ((S.trace / (Fintype.card ι : ℝ)) • (1 : Matrix ι ι ℝ)) i j - S i j

theorem continuous_offTarget {S : T → Matrix ι ι ℝ} (h : Continuous S) (i j : ι) : Continuous fun t => offTarget (S t) i j := by
  have h := continuous_entries.1 h
  unfold offTarget
  simp only [Matrix.smul_apply, smul_eq_mul, Matrix.trace, Matrix.diag_apply]
  exact (((continuous_finset_sum _ fun k _ => h k k).div_const _).mul continuous_const).sub (h i j)

/-- `(1-w) S + w μ I` moves continuously if the weight is in [0,1] and moves continuously where `S` is not a multiple of the identity. -/
theorem continuous_shrink {S : T → Matrix ι ι ℝ} (h : Continuous S) {w : T → ℝ} (h0 : ∀ t, 0 ≤ w t) (h1 : ∀ t, w t ≤ 1)
    (hc : ∀ t, (∃ i j, offTarget (S t) i j ≠ 0) → ContinuousAt w t) :
    Continuous fun t => (1 - w t) • S t + (w t * ((S t).trace / (Fintype.card ι : ℝ))) • (1 : Matrix ι ι ℝ) := by
  refine continuous_matrix fun i j => ?_
  have e : ∀ t, ((1 - w t) • S t + (w t * ((S t).trace / (Fintype.card ι : ℝ))) • (1 : Matrix ι ι ℝ)) i j = S t i j + w t * offTarget (S t) i j := by
    intro t
    simp only [offTarget, Matrix.add_apply, Matrix.smul_apply, smul_eq_mul]; ring
  simp only [e]
  refine (h.matrix_elem i j).add (continuous_weighted (continuous_offTarget h i j) (fun t => ?_) fun t ht => hc t ⟨i, j, ht⟩)
  rw [abs_of_nonneg (h0 t)]; exact h1 t

/-- The squared distance of `S` from its scaled identity, per dimension. -/
noncomputable def dispersion (S : Matrix ι ι ℝ) : ℝ := (∑ i, ∑ j, offTarget S i j ^ 2) / (Fintype.card ι : ℝ)

theorem continuous_dispersion {S : T → Matrix ι ι ℝ} (h : Continuous S) : Continuous fun t => dispersion (S t) :=
  (continuous_finset_sum _ fun i _ => continuous_finset_sum _ fun j _ => (continuous_offTarget h i j).pow 2).div_const _

theorem dispersion_pos {S : Matrix ι ι ℝ} (h : ∃ i j, offTarget S i j ≠ 0) : 0 < dispersion S := by
  obtain ⟨i, j, hij⟩ := h
  have hp : (0:ℝ) < Fintype.card ι := by exact_mod_cast Fintype.card_pos_iff.2 ⟨i⟩
  refine div_pos (lt_of_not_ge fun hle => hij ?_) hp
  exact sum_sq_eq_zero (a := Matrix.of (offTarget S)) hle i j

theorem dispersion_nonneg (S : Matrix ι ι ℝ) : 0 ≤ dispersion S :=
  div_nonneg (Finset.sum_nonneg fun i _ => Finset.sum_nonneg fun j _ => sq_nonneg _) (by positivity)

theorem offTarget_of_dispersion {S : Matrix ι ι ℝ} (h : dispersion S ≤ 0) (i j : ι) : offTarget S i j = 0 := by
  by_contra hne
  exact absurd (dispersion_pos ⟨i, j, hne⟩) (not_lt.2 h)

theorem lwCov_eq (s : LWState ι ℝ) : lwCov s = (1 - min (max (s.piBar ⊔ 0) 0 * (s.r ⊔ 0)) (dispersion s.cov) / dispersion s.cov) • s.cov
    + (min (max (s.piBar ⊔ 0) 0 * (s.r ⊔ 0)) (dispersion s.cov) / dispersion s.cov * (s.cov.trace / (Fintype.card ι : ℝ))) • 1 := by
  have ed : (∑ i, ∑ j, (s.cov i j - ((s.cov.trace / (Fintype.card ι : ℝ)) • (1 : Matrix ι ι ℝ)) i j) ^ 2) / (Fintype.card ι : ℝ) = dispersion s.cov := by
    unfold dispersion offTarget
    congr 1
    exact Finset.sum_congr rfl fun i _ => Finset.sum_congr rfl fun j _ => by ring
  unfold lwCov
  simp only [ed]
  rw [max_eq_left (le_max_right s.piBar 0)]
  split
  · rename_i h
    rcases h with h | h
    · have : dispersion s.cov = 0 := le_antisymm h (dispersion_nonneg _)
      simp [this]
    · rw [max_eq_right h, zero_mul, min_eq_left (dispersion_nonneg _)]; simp
  · rename_i h
    push Not at h
    obtain ⟨h1, h2⟩ := h
    rw [max_eq_left h2.le]
    have key : min (max (min (s.piBar * s.r) (dispersion s.cov) / dispersion s.cov) 0) 1 = min (s.piBar * (s.r ⊔ 0)) (dispersion s.cov) / dispersion s.cov := by
      rcases le_total 0 s.r with hr | hr
      · rw [max_eq_left hr, max_eq_left, min_eq_left]
        · rw [div_le_one h1]; exact min_le_right _ _
        · exact div_nonneg (le_min (mul_nonneg h2.le hr) h1.le) h1.le
      · rw [max_eq_right hr, mul_zero, min_eq_left h1.le, zero_div, max_eq_right, min_eq_left zero_le_one]
        exact div_nonpos_of_nonpos_of_nonneg ((min_le_left _ _).trans (mul_nonpos_of_nonneg_of_nonpos h2.le hr)) h1.le
    rw [key]

theorem continuous_lwCov {r : ℝ} {s : T → LWState ι ℝ} (hr : ∀ t, (s t).r = r) (hcov : Continuous fun t => (s t).cov) (hp : Continuous fun t => (s t).piBar) :
    Continuous fun t => lwCov (s t) := by
  simp only [lwCov_eq, hr]
  have hd := continuous_dispersion hcov
  refine continuous_shrink hcov (fun t => ?_) (fun t => ?_) fun t ht => ?_
  · exact div_nonneg (le_min (mul_nonneg (le_max_right _ _) (le_max_right _ _)) (dispersion_nonneg _)) (dispersion_nonneg _)
  · exact div_le_one_of_le₀ (min_le_right _ _) (dispersion_nonneg _)
  · refine ContinuousAt.div (Continuous.continuousAt ?_) hd.continuousAt (dispersion_pos ht).ne'
    exact ((((hp.max continuous_const).max continuous_const).mul continuous_const).min hd)

end Shrink

/-- C110: LedoitWolfCovariance, any rate: the 0/0 in its intensity, where the EWA covariance is a multiple of the identity, does not show. -/
theorem C110_ledoitWolf (p : RParam ℝ) : MovesContinuously (ledoitWolfCls ι ℝ) p := by
  refine moves_of_fold (ledoitWolf_lawful ι ℝ) p fun T _ xs hx => ?_
  have h : (fun n (s : T → LWState ι ℝ) => ContE p.r (ewaBurnN p.r) n (fun t => (s t).toEwaState) ∧ Continuous fun t => (s t).piBar) (0 + xs.length)
      (fun t => (xs.map fun x => x t).foldl lwUpdate { toEwaState := ewaInit p.r, piBar := 0 }) := by
    refine fold_family lwUpdate (fun n (s : T → LWState ι ℝ) => ContE p.r (ewaBurnN p.r) n (fun t => (s t).toEwaState) ∧ Continuous fun t => (s t).piBar) ?_ xs hx 0 _
      ⟨contE_init p.r, continuous_const⟩
    rintro n s x ⟨hE, hp⟩ hx
    refine ⟨?_, ?_⟩
    · simp only [lwUpdate_ewa]; exact contE_update hE hx
    · have hx' : ∀ i, Continuous fun t => x t i := fun i => (continuous_apply i).comp hx
      have e1 : ∀ t, (s t).nSamples = n := hE.m.n
      have e2 : ∀ t, (s t).r = p.r := hE.r
      have e3 : ∀ t, (s t).nBurn = ewaBurnN p.r := hE.b
      have hm : ∀ i, Continuous fun t => (s t).mean i := hE.m.mean
      have hc : ∀ i j, Continuous fun t => (s t).cov i j := hE.m.cov
      unfold lwUpdate
      simp only [e1, e3, e2]
      split
      · exact hp
      · refine (continuous_const.mul hp).add (continuous_const.mul (Continuous.div_const (continuous_finset_sum _ fun i _ => continuous_finset_sum _ fun j _ => ?_) _))
        simp only [outer, Matrix.of_apply]
        exact ((((hx' i).sub (hm i)).mul ((hx' j).sub (hm j))).sub (hc i j)).pow 2
  exact ⟨h.1.cont_mean, continuous_lwCov h.1.r h.1.cont_cov h.2⟩

theorem continuous_oasCov {T : Type} [TopologicalSpace T] {r : ℝ} {s : T → EwaState ι ℝ} (hr : ∀ t, (s t).r = r) (hsy : ∀ t, Symm (s t).cov)
    (hcov : Continuous fun t => (s t).cov) : Continuous fun t => oasCov (s t) := by
  have hc := continuous_entries.1 hcov
  have htr : Continuous fun t => (s t).cov.trace := by
    simp only [Matrix.trace, Matrix.diag_apply]; exact continuous_finset_sum _ fun k _ => hc k k
  have htr2 : Continuous fun t => ((s t).cov * (s t).cov).trace := by
    simp only [Matrix.trace, Matrix.diag_apply, Matrix.mul_apply]
    exact continuous_finset_sum _ fun k _ => continuous_finset_sum _ fun l _ => (hc k l).mul (hc l k)
  unfold oasCov
  simp only [hr]
  refine continuous_shrink hcov (fun t => ?_) (fun t => ?_) fun t ht => ?_
  · split
    · exact zero_le_one
    · exact le_min (le_max_right _ _) zero_le_one
  · split
    · exact le_rfl
    · exact min_le_right _ _
  · have hp : (1:ℝ) ≤ Fintype.card ι := by
      obtain ⟨i, _⟩ := ht
      exact_mod_cast Nat.one_le_iff_ne_zero.2 (Fintype.card_pos_iff.2 ⟨i⟩).ne'
    set n : ℝ := max (1 / r) 2
    set p : ℝ := (Fintype.card ι : ℝ)
    have hd := dispersion_pos ht
    have key : ((s t).cov * (s t).cov).trace - (s t).cov.trace * (s t).cov.trace / p = p * dispersion (s t).cov := by
      have e1 : ((s t).cov * (s t).cov).trace = ∑ i, ∑ j, (s t).cov i j ^ 2 := by
        simp only [Matrix.trace, Matrix.diag_apply, Matrix.mul_apply]
        exact Finset.sum_congr rfl fun i _ => Finset.sum_congr rfl fun j _ => by rw [hsy t j i]; ring
      have e2 : ∀ i j, offTarget (s t).cov i j ^ 2 = (s t).cov i j ^ 2 + ((s t).cov.trace / p) ^ 2 * (1 : Matrix ι ι ℝ) i j - 2 * ((s t).cov.trace / p) * ((s t).cov i j * (1 : Matrix ι ι ℝ) i j) := by
        intro i j
        simp only [offTarget, Matrix.smul_apply, smul_eq_mul, Matrix.one_apply]
        split <;> ring
      have e3 : ∑ i, ∑ j, (1 : Matrix ι ι ℝ) i j = p := by simp [Matrix.one_apply, p]
      have e4 : ∑ i, ∑ j, (s t).cov i j * (1 : Matrix ι ι ℝ) i j = (s t).cov.trace := by simp [Matrix.one_apply, Matrix.trace]
      have hp0 : p ≠ 0 := by linarith
      rw [dispersion, mul_div_cancel₀ _ hp0, e1]
      simp only [e2, Finset.sum_add_distrib, Finset.sum_sub_distrib, ← Finset.mul_sum, e3, e4]
      field_simp; ring
    have hn : (2:ℝ) ≤ n := le_max_right _ _
    have hden : 0 < (n + 1 - 2 / p) * (((s t).cov * (s t).cov).trace - (s t).cov.trace * (s t).cov.trace / p) := by
      rw [key]
      have : 2 / p ≤ 2 := by rw [div_le_iff₀ (by linarith)]; linarith
      exact mul_pos (by linarith) (mul_pos (by linarith) hd)
    have cden : Continuous fun t => (n + 1 - 2 / p) * (((s t).cov * (s t).cov).trace - (s t).cov.trace * (s t).cov.trace / p) :=
      continuous_const.mul (htr2.sub ((htr.mul htr).div_const _))
    have cnum : Continuous fun t => (1 - 2 / p) * ((s t).cov * (s t).cov).trace + (s t).cov.trace * (s t).cov.trace :=
      (continuous_const.mul htr2).add (htr.mul htr)
    have ev := cden.continuousAt.eventually (lt_mem_nhds hden)
    refine ContinuousAt.congr (f := fun t => min (max (((1 - 2 / p) * ((s t).cov * (s t).cov).trace + (s t).cov.trace * (s t).cov.trace) /
        ((n + 1 - 2 / p) * (((s t).cov * (s t).cov).trace - (s t).cov.trace * (s t).cov.trace / p))) 0) 1) ?_ ?_
    · exact ((cnum.continuousAt.div cden.continuousAt hden.ne').max continuousAt_const).min continuousAt_const
    · filter_upwards [ev] with u hu
      rw [if_neg (not_le.2 hu)]

/-- C110: OASCovariance, any rate. -/
theorem C110_oas (p : RParam ℝ) : MovesContinuously (oasCls ι ℝ) p := by
  refine moves_of_fold (oas_lawful ι ℝ) p fun T _ xs hx => ?_
  have h := contE_fold p.r xs hx
  exact ⟨h.cont_mean, continuous_oasCov h.r (fun t => symm_ewaFold p.r _) h.cont_cov⟩

/-! ### DCC and Geodesic -/

theorem continuous_dccCov {T : Type} [TopologicalSpace T] {s : T → DCCState ι} (hh : ∀ i, Continuous fun t => (s t).h i)
    (hq : ∀ i j, Continuous fun t => (s t).Q i j) : Continuous fun t => dccCov (s t) := by
  have hpos : ∀ x : ℝ, 0 < Real.sqrt (max x EPS) := fun x => Real.sqrt_pos.2 (lt_max_of_lt_right (by unfold EPS; positivity))
  refine continuous_matrix fun i j => ?_
  simp only [dccCov, Matrix.of_apply]
  have hqi : ∀ i, Continuous fun t => 1 / Real.sqrt (max ((s t).Q i i) EPS) := fun i =>
    continuous_const.div (Real.continuous_sqrt.comp ((hq i i).max continuous_const)) fun t => (hpos _).ne'
  have hdi : ∀ i, Continuous fun t => Real.sqrt (max ((s t).h i) EPS) := fun i => Real.continuous_sqrt.comp ((hh i).max continuous_const)
  exact ((hq i j).mul ((hqi i).mul (hqi j))).mul ((hdi i).mul (hdi j))

/-- C110: DCCCovariance: the floor under the variances makes the division continuous. -/
theorem C110_dcc (p : DCCParam) : MovesContinuously (dccCls ι) p := by
  have hpos : ∀ x : ℝ, 0 < Real.sqrt (max x EPS) := fun x => Real.sqrt_pos.2 (lt_max_of_lt_right (by unfold EPS; positivity))
  refine moves_of_fold (dcc_lawful ι) p fun T _ xs hx => ?_
  have h : (fun n (s : T → DCCState ι) => (∀ t, (s t).nSamples = n ∧ (s t).r = p.r ∧ (s t).volR = p.volR.getD p.r ∧ (s t).nBurn = (dccInit p : DCCState ι).nBurn) ∧
      (∀ i, Continuous fun t => (s t).mean i) ∧ (∀ i, Continuous fun t => (s t).h i) ∧ ∀ i j, Continuous fun t => (s t).Q i j) (0 + xs.length)
      (fun t => (xs.map fun x => x t).foldl dccUpdate (dccInit p)) := by
    refine fold_family dccUpdate (fun n (s : T → DCCState ι) => (∀ t, (s t).nSamples = n ∧ (s t).r = p.r ∧ (s t).volR = p.volR.getD p.r ∧ (s t).nBurn = (dccInit p : DCCState ι).nBurn) ∧
      (∀ i, Continuous fun t => (s t).mean i) ∧ (∀ i, Continuous fun t => (s t).h i) ∧ ∀ i j, Continuous fun t => (s t).Q i j) ?_ xs hx 0 _
      ⟨fun t => ⟨rfl, rfl, rfl, rfl⟩, fun _ => continuous_const, fun _ => continuous_const, fun _ _ => continuous_const⟩
    rintro n s x ⟨h0, hm, hh, hq⟩ hx
    have hx' : ∀ i, Continuous fun t => x t i := fun i => (continuous_apply i).comp hx
    have e1 := fun t => (h0 t).1
    have e2 := fun t => (h0 t).2.1
    have e3 := fun t => (h0 t).2.2.1
    have e4 := fun t => (h0 t).2.2.2
    unfold dccUpdate
    simp only [e1, e2, e3, e4]
    have hd : ∀ i, Continuous fun t => x t i - (s t).mean i := fun i => (hx' i).sub (hm i)
    split
    · have hh' : ∀ i, Continuous fun t => (s t).h i + ((x t i - (s t).mean i) * (x t i - (s t).mean i) - (s t).h i) / ((n + 1 : ℕ) : ℝ) := fun i =>
        (hh i).add ((((hd i).mul (hd i)).sub (hh i)).div_const _)
      refine ⟨fun t => by simp, fun i => (hm i).add ((hd i).div_const _), hh', fun i j => ?_⟩
      simp only [Matrix.add_apply, Matrix.smul_apply, Matrix.sub_apply, outer, Matrix.of_apply, smul_eq_mul]
      have he : ∀ i, Continuous fun t => (x t i - (s t).mean i) / Real.sqrt (max ((s t).h i + ((x t i - (s t).mean i) * (x t i - (s t).mean i) - (s t).h i) / ((n + 1 : ℕ) : ℝ)) EPS) :=
        fun i => (hd i).div (Real.continuous_sqrt.comp ((hh' i).max continuous_const)) fun t => (hpos _).ne'
      exact (hq i j).add (continuous_const.mul (((he i).mul (he j)).sub (hq i j)))
    · have hh' : ∀ i, Continuous fun t => (1 - p.volR.getD p.r) * (s t).h i + p.volR.getD p.r * ((x t i - (s t).mean i) * (x t i - (s t).mean i)) := fun i =>
        (continuous_const.mul (hh i)).add (continuous_const.mul ((hd i).mul (hd i)))
      refine ⟨fun t => by simp, fun i => (continuous_const.mul (hm i)).add (continuous_const.mul (hx' i)), hh', fun i j => ?_⟩
      simp only [Matrix.add_apply, Matrix.smul_apply, outer, Matrix.of_apply, smul_eq_mul]
      have he : ∀ i, Continuous fun t => (x t i - (s t).mean i) / Real.sqrt (max ((1 - p.volR.getD p.r) * (s t).h i + p.volR.getD p.r * ((x t i - (s t).mean i) * (x t i - (s t).mean i))) EPS) :=
        fun i => (hd i).div (Real.continuous_sqrt.comp ((hh' i).max continuous_const)) fun t => (hpos _).ne'
      exact (continuous_const.mul (hq i j)).add (continuous_const.mul ((he i).mul (he j)))
  obtain ⟨-, hm, hh, hq⟩ := h
  refine ⟨continuous_pi hm, continuous_matrix fun i j => ?_⟩
  exact (continuous_dccCov hh hq).matrix_elem i j

/-- C110: GeodesicEwaCovariance, rate at least 0, whatever eigenvectors LAPACK returns. -/
theorem C110_geodesic (L : Lapack) (p : RParam ℝ) (h0 : 0 ≤ p.r) : MovesContinuously (geodesicCls L ι) p := by
  refine moves_of_fold (geodesic_lawful L ι) p fun T _ xs hx => ?_
  have h : ContE p.r (ewaBurnN p.r) (0 + xs.length) (fun t => (xs.map fun x => x t).foldl (geodesicUpdate L) (ewaInit p.r : EwaState ι ℝ)) := by
    refine fold_family (geodesicUpdate L) (ContE p.r (ewaBurnN p.r)) (fun n s x h hx => ?_) xs hx 0 _ (contE_init p.r)
    have hn : ∀ t, (s t).nSamples = n := h.m.n
    have hx' : ∀ i, Continuous fun t => x t i := fun i => (continuous_apply i).comp hx
    have hm : ∀ i, Continuous fun t => (s t).mean i := h.m.mean
    unfold geodesicUpdate
    simp only [hn, h.b, h.r]
    split
    · exact ⟨h.r, h.b, contM_update h.m hx⟩
    · refine ⟨fun t => by simp only [h.r], fun t => by simp only [h.b], fun t => rfl, fun i => ?_, ?_⟩
      · exact (continuous_const.mul (hm i)).add (continuous_const.mul (hx' i))
      · refine continuous_entries.1 (continuous_geodesicStep L h.cont_cov (continuous_matrix fun i j => ?_) h0)
        simp only [outer, Matrix.of_apply]
        exact ((hx' i).sub (hm i)).mul ((hx' j).sub (hm j))
  exact ⟨h.cont_mean, h.cont_cov⟩

/-! ### Blocks -/

section Blocks
variable {p : ℕ} (L : Lapack)

theorem continuous_dampCross {T : Type} [TopologicalSpace T] (bid : Fin p → ℕ) {g : T → ℝ} {a : T → Matrix (Fin p) (Fin p) ℝ} (ha : Continuous a)
    (hg : ∀ i j, bid i ≠ bid j → Continuous fun t => g t * a t i j) : Continuous fun t => dampCross bid (g t) (a t) := by
  refine continuous_matrix fun i j => ?_
  simp only [dampCross, Matrix.of_apply]
  split
  · rename_i h; simpa only [mul_comm] using hg i j h
  · exact ha.matrix_elem i j

theorem continuous_schurCov {T : Type} [TopologicalSpace T] (pr : SchurParam) (hg : pr.interpolation = "geodesic" → 0 ≤ pr.gamma)
    (s : T → EwaState (Fin p) ℝ) (hc : Continuous fun t => (s t).cov) : Continuous fun t => schurCov L pr (s t) := by
  unfold schurCov
  by_cases hi : pr.interpolation = "geodesic"
  · simp only [hi, if_true]
    refine continuous_geodesicStep L (continuous_makePosDef L (continuous_matrix fun i j => ?_) _) (continuous_makePosDef L hc _) (hg hi)
    simp only [Matrix.of_apply]
    split
    · exact continuous_const
    · exact hc.matrix_elem i j
  · simp only [hi, if_false]
    exact continuous_makePosDef L (Continuous.toSymmetric' (continuous_dampCross _ hc fun i j _ => continuous_const.mul (hc.matrix_elem i j))) _

/-- C110: SchurCovariance: linear interpolation with any `gamma`, geodesic interpolation with `gamma ≥ 0`. -/
theorem C110_schur (pr : SchurParam) (hg : pr.interpolation = "geodesic" → 0 ≤ pr.gamma) : MovesContinuously (schurCls L p) pr := by
  refine moves_of_fold (schur_lawful L p) pr fun T _ xs hx => ?_
  have h := contE_fold pr.r xs hx
  exact ⟨h.cont_mean, continuous_schurCov L pr hg _ h.cont_cov⟩

/-- C110: BlockCovariance. -/
theorem C110_block (pr : BlockParam) (hn : 1 ≤ pr.nBlocks) (hp : 1 ≤ p) : MovesContinuously (blockCls L p) pr := by
  intro T _ xs hx calls hu
  have h := C110_schur L (⟨pr.r, pr.nBlocks, 0, "linear", pr.diff⟩ : SchurParam) (fun _ => le_rfl) T xs hx calls hu
  refine ⟨fun m hm => h.1 m fun t => ?_, fun c hc => h.2 c fun t => ?_⟩
  · rw [← (C26_is_schur L pr hn hp "linear" (calls t)).2]; exact hm t
  · rw [← (C26_is_schur L pr hn hp "linear" (calls t)).1]; exact hc t

theorem continuous_sumCross {T : Type} [TopologicalSpace T] (bid : Fin p → ℕ) {a : T → Matrix (Fin p) (Fin p) ℝ}
    (ha : ∀ i j, Continuous fun t => a t i j) : Continuous fun t => sumCross bid (a t) := by
  unfold sumCross
  refine continuous_finset_sum _ fun i _ => continuous_finset_sum _ fun j _ => ?_
  split
  · exact ha i j
  · exact continuous_const

theorem sumCross_pos {bid : Fin p → ℕ} {a : Matrix (Fin p) (Fin p) ℝ} (h0 : ∀ i j, 0 ≤ a i j) {i j : Fin p} (hb : bid i ≠ bid j) (h : 0 < a i j) : 0 < sumCross bid a := by
  unfold sumCross
  have hnn : ∀ i j, 0 ≤ (if bid i ≠ bid j then a i j else 0) := fun i j => by split; exact h0 i j; exact le_rfl
  refine lt_of_lt_of_le ?_ (Finset.single_le_sum (f := fun i => ∑ j, if bid i ≠ bid j then a i j else 0) (fun i _ => Finset.sum_nonneg fun j _ => hnn i j) (Finset.mem_univ i))
  refine lt_of_lt_of_le ?_ (Finset.single_le_sum (f := fun j => if bid i ≠ bid j then a i j else 0) (fun j _ => hnn i j) (Finset.mem_univ j))
  rw [if_pos hb]; exact h

theorem continuous_slwCov {T : Type} [TopologicalSpace T] (pr : BlockParam) (s : T → SLWState (Fin p)) (hr : ∀ t, (s t).r = pr.r)
    (hc : Continuous fun t => (s t).cov) (hpi : Continuous fun t => (s t).piCross) : Continuous fun t => slwCov L pr (s t) := by
  unfold slwCov
  refine continuous_makePosDef L (Continuous.toSymmetric' (continuous_dampCross _ hc fun i j hij => ?_)) _
  refine continuous_weighted (hc.matrix_elem i j) (fun t => ?_) fun t ht => ?_
  · unfold slwGamma
    simp only []
    split
    · rw [abs_of_nonneg (le_min (le_max_right _ _) zero_le_one)]; exact min_le_right _ _
    · simp
  · unfold slwGamma
    simp only [hr]
    have cm : Continuous fun t => sumCross (fun i : Fin p => blockId p (schurNb pr.nBlocks p) i) (Matrix.of fun i j => (s t).cov i j ^ 2) :=
      continuous_sumCross _ fun i j => (hc.matrix_elem i j).pow 2
    have hpos : 0 < sumCross (fun i : Fin p => blockId p (schurNb pr.nBlocks p) i) (Matrix.of fun i j => (s t).cov i j ^ 2) :=
      sumCross_pos (fun i j => sq_nonneg _) hij (by simp only [Matrix.of_apply]; positivity)
    have ev := cm.continuousAt.eventually (lt_mem_nhds hpos)
    refine ContinuousAt.congr (f := fun t => min (max (1 - (s t).piCross * pr.r / sumCross (fun i : Fin p => blockId p (schurNb pr.nBlocks p) i)
      (Matrix.of fun i j => (s t).cov i j ^ 2)) 0) 1) ?_ ?_
    · exact ((continuousAt_const.sub ((hpi.mul continuous_const).continuousAt.div cm.continuousAt hpos.ne')).max continuousAt_const).min continuousAt_const
    · filter_upwards [ev] with u hu
      rw [if_pos hu]

/-- C110: SchurLedoitWolfCovariance: its damping `gamma_` jumps only where there is nothing to damp. -/
theorem C110_schurLW (pr : BlockParam) : MovesContinuously (schurLWCls L p) pr := by
  refine moves_of_fold (schurLW_lawful L p) pr fun T _ xs hx => ?_
  have h : (fun n (s : T → SLWState (Fin p)) => ContE pr.r (ewaBurnN pr.r) n (fun t => (s t).toEwaState) ∧ Continuous fun t => (s t).piCross) (0 + xs.length)
      (fun t => (xs.map fun x => x t).foldl (slwUpdate pr) { toEwaState := ewaInit pr.r, piCross := 0 }) := by
    refine fold_family (slwUpdate pr) (fun n (s : T → SLWState (Fin p)) => ContE pr.r (ewaBurnN pr.r) n (fun t => (s t).toEwaState) ∧ Continuous fun t => (s t).piCross) ?_ xs hx 0 _
      ⟨contE_init pr.r, continuous_const⟩
    rintro n s x ⟨hE, hp⟩ hx
    refine ⟨?_, ?_⟩
    · simp only [slwUpdate_ewa]; exact contE_update hE hx
    · have hx' : ∀ i, Continuous fun t => x t i := fun i => (continuous_apply i).comp hx
      have e1 : ∀ t, (s t).nSamples = n := hE.m.n
      have e2 : ∀ t, (s t).r = pr.r := hE.r
      have e3 : ∀ t, (s t).nBurn = ewaBurnN pr.r := hE.b
      have hm : ∀ i, Continuous fun t => (s t).mean i := hE.m.mean
      have hc : ∀ i j, Continuous fun t => (s t).cov i j := hE.m.cov
      unfold slwUpdate
      simp only [e1, e3, e2]
      split
      · exact hp
      · refine (continuous_const.mul hp).add (continuous_const.mul (continuous_sumCross _ fun i j => ?_))
        simp only [outer, Matrix.of_apply]
        exact ((((hx' i).sub (hm i)).mul ((hx' j).sub (hm j))).sub (hc i j)).pow 2
  exact ⟨h.1.cont_mean, continuous_slwCov L pr _ h.1.r h.1.cont_cov h.2⟩

/-! ### SchurConditional -/

theorem continuous_scGamma {T : Type} [TopologicalSpace T] (bid : Fin p → ℕ) {R : T → Matrix (Fin p) (Fin p) ℝ} (hR : Continuous R) {n : ℝ} (hn : 0 < n) :
    Continuous fun t => scGamma bid (R t) n := by
  have hR := continuous_entries.1 hR
  unfold scGamma
  by_cases hb : ∀ i j, bid i = bid j
  · simp only [if_pos hb]; exact continuous_const
  simp only [if_neg hb]
  have cnum : Continuous fun t => sumCross bid (Matrix.of fun i j => max (R t i j ^ 2 - (1 + R t i j ^ 2) / n) 0) :=
    continuous_sumCross _ fun i j => ((((hR i j).pow 2).sub ((continuous_const.add ((hR i j).pow 2)).div_const _)).max continuous_const)
  have cden : Continuous fun t => sumCross bid (Matrix.of fun i j => R t i j ^ 2) := continuous_sumCross _ fun i j => (hR i j).pow 2
  rw [continuous_iff_continuousAt]
  intro t
  by_cases hd : 0 < sumCross bid (Matrix.of fun i j => R t i j ^ 2)
  · have ev := cden.continuousAt.eventually (lt_mem_nhds hd)
    refine ContinuousAt.congr (f := fun t => min (max (sumCross bid (Matrix.of fun i j => max (R t i j ^ 2 - (1 + R t i j ^ 2) / n) 0) /
      sumCross bid (Matrix.of fun i j => R t i j ^ 2)) 0) 1) ?_ ?_
    · exact ((cnum.continuousAt.div cden.continuousAt hd.ne').max continuousAt_const).min continuousAt_const
    · filter_upwards [ev] with u hu
      rw [if_pos hu]
  · have hz : ∀ i j, bid i ≠ bid j → R t i j = 0 := by
      intro i j hij
      by_contra hne
      exact hd (sumCross_pos (fun i j => sq_nonneg _) hij (by simp only [Matrix.of_apply]; positivity))
    have ev : ∀ᶠ u in nhds t, ∀ i j, bid i ≠ bid j → R u i j ^ 2 < 1 / n := by
      rw [Filter.eventually_all]; intro i
      rw [Filter.eventually_all]; intro j
      by_cases hij : bid i ≠ bid j
      · have := ((hR i j).pow 2).continuousAt.eventually (gt_mem_nhds (show R t i j ^ 2 < 1 / n by rw [hz i j hij, zero_pow two_ne_zero]; positivity))
        filter_upwards [this] with u hu _ using hu
      · exact Filter.Eventually.of_forall fun u h => absurd h hij
    refine ContinuousAt.congr (f := fun _ => (0:ℝ)) continuousAt_const ?_
    filter_upwards [ev] with u hu
    have h0 : sumCross bid (Matrix.of fun i j => max (R u i j ^ 2 - (1 + R u i j ^ 2) / n) 0) = 0 := by
      unfold sumCross
      refine Finset.sum_eq_zero fun i _ => Finset.sum_eq_zero fun j _ => ?_
      split
      · rename_i h
        have h1 := hu i j h
        simp only [Matrix.of_apply]
        refine max_eq_right ?_
        have : 1 / n ≤ (1 + R u i j ^ 2) / n := by gcongr; nlinarith [sq_nonneg (R u i j)]
        linarith
      · rfl
    rw [h0]; simp

theorem continuous_inv_of_det {κ T : Type} [Fintype κ] [DecidableEq κ] [TopologicalSpace T] {a : T → Matrix κ κ ℝ} (h : Continuous a) (hd : ∀ t, (a t).det ≠ 0) :
    Continuous fun t => (a t)⁻¹ := by
  simp only [Matrix.inv_def, Ring.inverse_eq_inv']
  exact (h.matrix_det.inv₀ hd).smul h.matrix_adjugate

theorem continuous_scStep {T : Type} [TopologicalSpace T] (nb k : ℕ) {R Rg : T → Matrix (Fin p) (Fin p) ℝ} {n : ℝ} {g : T → ℝ} (hR : Continuous R) (hG : Continuous Rg)
    (hg : Continuous g) (hd : ∀ t, (scSystem nb k (R t) n).det ≠ 0) : Continuous fun t => scStep L nb (R t) n (g t) (Rg t) k := by
  have hsub : ∀ {κ μ : Type} (f : κ → Fin p) (f' : μ → Fin p) {a : T → Matrix (Fin p) (Fin p) ℝ}, Continuous a → Continuous fun t => (a t).submatrix f f' :=
    fun f f' a ha => continuous_matrix fun i j => ha.matrix_elem _ _
  have hsys : Continuous fun t => scSystem nb k (R t) n := by
    refine continuous_matrix fun i j => ?_
    unfold scSystem
    simp only [Matrix.add_apply, Matrix.smul_apply, smul_eq_mul, Matrix.submatrix_apply]
    refine ((continuous_const.mul (hR.matrix_elem _ _)).add (continuous_const.mul ?_)).add continuous_const
    by_cases hij : i = j
    · subst hij; simp only [diagonal_apply_eq]; exact hR.matrix_elem _ _
    · simp only [diagonal_apply_ne _ hij]; exact continuous_const
  have hinv := continuous_inv_of_det hsys hd
  have hck : Continuous fun t => ((R t).submatrix Subtype.val Subtype.val : Matrix (PrevIx p nb k) (BlockIx p nb k) ℝ) := hsub _ _ hR
  have hkk : Continuous fun t => ((R t).submatrix Subtype.val Subtype.val : Matrix (BlockIx p nb k) (BlockIx p nb k) ℝ) := hsub _ _ hR
  have hpr : Continuous fun t => ((Rg t).submatrix Subtype.val Subtype.val : Matrix (PrevIx p nb k) (PrevIx p nb k) ℝ) := hsub _ _ hG
  have hbb := hinv.matrix_mul hck
  have hS := continuous_makePosDef L (Continuous.toSymmetric' (hkk.sub (hck.matrix_transpose.matrix_mul hbb))) (1 / 10 ^ 8)
  have hbg := hg.smul hbb
  have h1g : Continuous fun t => 1 - g t := continuous_const.sub hg
  have hSg := (h1g.smul hkk).add (hg.smul hS)
  have hlow := hbg.matrix_transpose.matrix_mul hpr
  have hnew := hSg.add (hlow.matrix_mul hbg)
  refine continuous_matrix fun i j => ?_
  unfold scStep
  simp only [Matrix.of_apply]
  split
  · split
    · exact hnew.matrix_elem _ _
    · split
      · exact hlow.matrix_elem _ _
      · exact hG.matrix_elem i j
  · split
    · split
      · exact hlow.matrix_elem _ _
      · exact hG.matrix_elem i j
    · exact hG.matrix_elem i j

theorem continuous_scCov {T : Type} [TopologicalSpace T] (pr : BlockParam) {n : ℕ} {s : T → EwaState (Fin p) ℝ} (h : ContE pr.r (ewaBurnN pr.r) n s)
    (hs : ∀ t, scSolvable pr (s t)) : Continuous fun t => scCov L pr (s t) := by
  have hn : ∀ t, scNEff (s t) = max 2 (min (n : ℝ) ((2 - pr.r) / pr.r)) := by
    intro t
    have : (s t).nSamples = n := h.m.n t
    unfold scNEff; rw [this, h.r]
  set ne : ℝ := max 2 (min (n : ℝ) ((2 - pr.r) / pr.r))
  have hne : 0 < ne := lt_of_lt_of_le two_pos (le_max_left _ _)
  have hR := continuous_covToCorr h.cont_cov
  have hg : Continuous fun t => scGammaOf pr (s t) := by
    unfold scGammaOf; simp only [hn]; exact continuous_scGamma _ hR hne
  have hre : Continuous fun t => scReassemble L (nbClamped pr.nBlocks p) (covToCorr (s t).cov) ne (scGammaOf pr (s t)) := by
    unfold scReassemble
    simp only []
    have hks : ∀ k ∈ (List.range (nbClamped pr.nBlocks p - 1)).map (· + 1), ∀ t, (scSystem (nbClamped pr.nBlocks p) k (covToCorr (s t).cov) ne).det ≠ 0 := by
      intro k hk t
      obtain ⟨j, hj, rfl⟩ := List.mem_map.1 hk
      have hj := List.mem_range.1 hj
      have := hs t (j + 1) (by omega) (by omega)
      rwa [hn] at this
    generalize (List.range (nbClamped pr.nBlocks p - 1)).map (· + 1) = ks at hks
    have h0 : Continuous fun t => (Matrix.of fun i j => if i.1 < ((slices p (nbClamped pr.nBlocks p)).getD 0 (0, 0)).2 ∧ j.1 < ((slices p (nbClamped pr.nBlocks p)).getD 0 (0, 0)).2
        then covToCorr (s t).cov i j else 0 : Matrix (Fin p) (Fin p) ℝ) := by
      refine continuous_matrix fun i j => ?_
      simp only [Matrix.of_apply]
      split
      · exact hR.matrix_elem i j
      · exact continuous_const
    have key : ∀ ks : List ℕ, (∀ k ∈ ks, ∀ t, (scSystem (nbClamped pr.nBlocks p) k (covToCorr (s t).cov) ne).det ≠ 0) → ∀ G : T → Matrix (Fin p) (Fin p) ℝ, Continuous G →
        Continuous fun t => ks.foldl (scStep L (nbClamped pr.nBlocks p) (covToCorr (s t).cov) ne (scGammaOf pr (s t))) (G t) := by
      intro ks
      induction ks with
      | nil => intro _ G hG; exact hG
      | cons k ks ih =>
        intro hk G hG
        exact ih (fun j hj => hk j (by simp [hj])) _ (continuous_scStep L _ k hR hG hg (hk k (by simp)))
    exact key ks hks _ h0
  unfold scCov
  simp only [hn]
  refine continuous_matrix fun i j => ?_
  simp only [Matrix.of_apply]
  have hd : ∀ i, Continuous fun t => Real.sqrt (max ((s t).cov i i) EPS) := fun i => Real.continuous_sqrt.comp ((h.m.cov i i).max continuous_const)
  exact ((continuous_makePosDef L (Continuous.toSymmetric' hre) _).matrix_elem i j).mul ((hd i).mul (hd j))

/-- C110: SchurConditionalCovariance, as long as none of its regressions raises: `gamma_` is 0 near the data without cross-block correlation. -/
theorem C110_schurConditional (pr : BlockParam) {T : Type} [TopologicalSpace T] (xs : List (T → Fin p → ℝ)) (hx : ∀ x ∈ xs, Continuous x)
    (calls : T → List (Call (Fin p) ℝ)) (hu : ∀ t, used pr.diff (calls t) = xs.map fun x => x t) (c : T → Matrix (Fin p) (Fin p) ℝ)
    (hc : ∀ t, scCovariance? L ((new (schurCondCls L p) pr).run (calls t)) = .ok (c t)) (g : T → ℝ)
    (hg : ∀ t, scGammaAttr L ((new (schurCondCls L p) pr).run (calls t)) = .ok (g t)) : Continuous c ∧ Continuous g := by
  have h := contE_fold pr.r xs hx
  have hst : ∀ t, ((new (schurCondCls L p) pr).run (calls t)).fittedState = .ok (ewaFold pr.r (xs.map fun x => x t)) ∧
      ((new (schurCondCls L p) pr).run (calls t)).params = pr := by
    intro t
    have hne : used pr.diff (calls t) ≠ [] := by
      intro he
      have := hc t
      unfold scCovariance? at this
      have e : ((new (schurCondCls L p) pr).run (calls t)).fittedState = .error .notFitted := by
        have h1 := run_unfitted (schurCond_lawful L p) pr (calls t) he
        unfold Obj.location at h1
        rcases h2 : ((new (schurCondCls L p) pr).run (calls t)).fittedState with e | s
        · have := h1.2; rw [h2] at this; simpa [Except.map] using this
        · have := h1.2; rw [h2] at this; simp [Except.map] at this
      rw [e] at this
      simp at this
    have := sc_attrs L pr (calls t) hne
    rw [hu t] at this
    exact this
  have hsol : ∀ t, scSolvable pr (ewaFold pr.r (xs.map fun x => x t)) ∧ c t = toSymmetric (scCov L pr (ewaFold pr.r (xs.map fun x => x t))) := by
    intro t
    have := hc t
    unfold scCovariance? at this
    rw [(hst t).1, (hst t).2] at this
    simp only [] at this
    split at this
    · rename_i hs; exact ⟨hs, (Except.ok.inj this).symm⟩
    · simp at this
  constructor
  · have e : c = fun t => toSymmetric (scCov L pr (ewaFold pr.r (xs.map fun x => x t))) := funext fun t => (hsol t).2
    rw [e]
    exact Continuous.toSymmetric' (continuous_scCov L pr h fun t => (hsol t).1)
  · have e : g = fun t => scGammaOf pr (ewaFold pr.r (xs.map fun x => x t)) := by
      funext t
      have := hg t
      unfold scGammaAttr at this
      rw [(hst t).1, (hst t).2] at this
      simpa [Except.map] using this.symm
    rw [e]
    have hn : ∀ t, scNEff (ewaFold pr.r (xs.map fun x => x t)) = max 2 (min (xs.length : ℝ) ((2 - pr.r) / pr.r)) := by
      intro t
      have h1 : (ewaFold pr.r (xs.map fun x => x t)).nSamples = xs.length := h.m.n t
      have h2 : (ewaFold pr.r (xs.map fun x => x t)).r = pr.r := h.r t
      unfold scNEff; rw [h1, h2]
    unfold scGammaOf
    simp only [hn]
    exact continuous_scGamma _ (continuous_covToCorr h.cont_cov) (lt_of_lt_of_le two_pos (le_max_left _ _))

end Blocks

/-! ### PartialMoments and Conditional -/

/-- C110: PartialMomentsCovariance: continuous up to one unit in the last place: `covariance_` is a continuous matrix, or that plus `np.spacing`
of its norm on the diagonal. -/
theorem C110_partialMoments (L : Lapack) (p : RParam ℝ) {T : Type} [TopologicalSpace T] (xs : List (T → ι → ℝ)) (hx : ∀ x ∈ xs, Continuous x)
    (calls : T → List (Call ι ℝ)) (hu : ∀ t, used p.diff (calls t) = xs.map fun x => x t) (c : T → Matrix ι ι ℝ)
    (hc : ∀ t, ((new (partialMomentsCls L ι) p).run (calls t)).covariance = .ok (c t)) :
    ∃ S P : T → Matrix ι ι ℝ, Continuous S ∧ Continuous P ∧
      ∀ t, c t = P t ∨ c t = P t + L.spacing (Real.sqrt (∑ i, ∑ j, S t i j ^ 2)) • (1 : Matrix ι ι ℝ) := by
  have hS : Continuous fun t => toSymmetric (pmSum p.r (xs.map fun x => x t)) := by
    refine Continuous.toSymmetric' ?_
    clear hu hc
    induction xs using List.reverseRecOn with
    | nil => simp only [List.map_nil]; exact continuous_const
    | append_singleton xs x ih =>
      have ih := ih fun y hy => hx y (by simp [hy])
      have hxx := hx x (by simp)
      have hE := contE_fold p.r xs fun y hy => hx y (by simp [hy])
      have hx' : ∀ i, Continuous fun t => x t i := fun i => (continuous_apply i).comp hxx
      have hm : ∀ i, Continuous fun t => (ewaFold p.r (xs.map fun x => x t)).mean i := hE.m.mean
      have hout : ∀ i j, Continuous fun t => outer (x t - (ewaFold p.r (xs.map fun x => x t)).mean) (x t - (ewaFold p.r (xs.map fun x => x t)).mean) i j := by
        intro i j
        simp only [outer, Matrix.of_apply, Pi.sub_apply]
        exact ((hx' i).sub (hm i)).mul ((hx' j).sub (hm j))
      refine continuous_matrix fun i j => ?_
      by_cases hb : xs.length + 1 ≤ ewaBurnN p.r
      · have e : ∀ t, pmSum p.r ((xs ++ [x]).map fun x => x t) i j = pmSum p.r (xs.map fun x => x t) i j + (1 / ((xs.length + 1 : ℕ) : ℝ)) *
            (outer (x t - (ewaFold p.r (xs.map fun x => x t)).mean) (x t - (ewaFold p.r (xs.map fun x => x t)).mean) i j - pmSum p.r (xs.map fun x => x t) i j) := by
          intro t
          rw [List.map_append, List.map_singleton, pmSum_burn p.r _ _ (by simpa using hb)]
          simp only [Matrix.add_apply, Matrix.smul_apply, Matrix.sub_apply, smul_eq_mul, List.length_map]
        simp only [e]
        exact (ih.matrix_elem i j).add (continuous_const.mul ((hout i j).sub (ih.matrix_elem i j)))
      · have e : ∀ t, pmSum p.r ((xs ++ [x]).map fun x => x t) i j = (1 - p.r) * pmSum p.r (xs.map fun x => x t) i j + p.r *
            outer (x t - (ewaFold p.r (xs.map fun x => x t)).mean) (x t - (ewaFold p.r (xs.map fun x => x t)).mean) i j := by
          intro t
          rw [List.map_append, List.map_singleton, pmSum_post p.r _ _ (by simp; omega)]
          simp only [Matrix.add_apply, Matrix.smul_apply, smul_eq_mul]
        simp only [e]
        exact (continuous_const.mul (ih.matrix_elem i j)).add (continuous_const.mul (hout i j))
  refine ⟨_, _, hS, continuous_makePosDef L hS 0, fun t => ?_⟩
  obtain ⟨-, e⟩ := pm_attrs L p (calls t) (c t) (hc t)
  rw [e, hu]
  have := (C49_terminates L (toSymmetric (pmSum p.r (xs.map fun x => x t))) 2 le_rfl).2
  simpa only [frobNorm, ← sq] using this

theorem effective_family {T : Type} [TopologicalSpace T] (d : Bool) (xs : List (T → ι → ℝ)) (hx : ∀ x ∈ xs, Continuous x) :
    ∃ ys : List (T → ι → ℝ), (∀ y ∈ ys, Continuous y) ∧ ∀ t, effective d (xs.map fun x => x t) = ys.map fun y => y t := by
  cases d with
  | false => exact ⟨xs, hx, fun t => rfl⟩
  | true =>
    suffices h : ∃ ys : List (T → ι → ℝ), (∀ y ∈ ys, Continuous y) ∧ ∀ t, diffs (xs.map fun x => x t) = ys.map fun y => y t by simpa [effective] using h
    induction xs with
    | nil => exact ⟨[], by simp, fun t => rfl⟩
    | cons x xs ih =>
      cases xs with
      | nil => exact ⟨[], by simp, fun t => rfl⟩
      | cons y xs =>
        obtain ⟨ys, h1, h2⟩ := ih fun z hz => hx z (by simp [hz])
        refine ⟨(fun t => y t - x t) :: ys, ?_, fun t => ?_⟩
        · intro z hz
          rcases List.mem_cons.1 hz with rfl | hz
          · exact (hx y (by simp)).sub (hx x (by simp))
          · exact h1 z hz
        · simp only [List.map_cons, diffs] at h2 ⊢
          rw [h2]

/-- What an object reports after the rows of a continuous family: the same error for all members, or a continuous family. -/
theorem moves_or_error {κ : Type} [Fintype κ] [DecidableEq κ] {C : Cls κ ℝ} (hC : Lawful C) (p : C.Param) (hm : MovesContinuously C p) {T : Type} [TopologicalSpace T]
    (xs : List (T → κ → ℝ)) (hx : ∀ x ∈ xs, Continuous x) (calls : T → List (Call κ ℝ)) (hr : ∀ t, rowsSinceFit (calls t) [] = xs.map fun x => x t) :
    ((∀ t, ((new C p).run (calls t)).location = .error .notFitted) ∧ ∀ t, ((new C p).run (calls t)).covariance = .error .notFitted) ∨
    ∃ (m : T → κ → ℝ) (c : T → Matrix κ κ ℝ), Continuous m ∧ Continuous c ∧ (∀ t, ((new C p).run (calls t)).location = .ok (m t)) ∧
      ∀ t, ((new C p).run (calls t)).covariance = .ok (c t) := by
  obtain ⟨ys, hy, hys⟩ := effective_family (C.diff p) xs hx
  have hu : ∀ t, used (C.diff p) (calls t) = ys.map fun y => y t := fun t => by unfold used; rw [hr, hys]
  rcases eq_or_ne ys [] with rfl | hne
  · left
    exact ⟨fun t => (run_unfitted hC p (calls t) (by rw [hu]; rfl)).2, fun t => (run_unfitted hC p (calls t) (by rw [hu]; rfl)).1⟩
  · right
    have hne' : ∀ t, used (C.diff p) (calls t) ≠ [] := fun t => by rw [hu]; simpa using hne
    have h := hm T ys hy calls hu
    exact ⟨_, _, h.1 _ fun t => run_location hC p (calls t) (hne' t), h.2 _ fun t => run_covariance hC p (calls t) (hne' t),
      fun t => run_location hC p (calls t) (hne' t), fun t => run_covariance hC p (calls t) (hne' t)⟩

theorem rowsSinceFit_rows {κ : Type} (ys : List (κ → ℝ)) : ∀ acc, rowsSinceFit (ys.map fun y => (Call.partialFit (.row y) : Call κ ℝ)) acc = acc ++ ys := by
  induction ys with
  | nil => simp [rowsSinceFit]
  | cons y ys ih => intro acc; simp [rowsSinceFit, rowsOf, ih]

/-- C110: ConditionalCovariance of any two estimators whose own estimates move continuously. -/
theorem C110_conditional {V : Cls (Fin 1) ℝ} {Sk : Type} {C : Cls ι ℝ} (hV : Lawful V) (hC : Lawful C) (o : Obj V) (corr : Obj C)
    (mv : MovesContinuously V o.params) (mc : MovesContinuously C corr.params) {T : Type} [TopologicalSpace T] (xs : List (T → ι → ℝ)) (hx : ∀ x ∈ xs, Continuous x)
    (calls : T → List (Call ι ℝ)) (hu : ∀ t, rowsSinceFit (calls t) [] = xs.map fun x => x t) :
    (∀ m : T → ι → ℝ, (∀ t, ((CondObj.new (.est o : VolArg V Sk) corr).run (calls t)).location = .ok (m t)) → Continuous m) ∧
    (∀ c : T → Matrix ι ι ℝ, (∀ t, ((CondObj.new (.est o : VolArg V Sk) corr).run (calls t)).covariance = .ok (c t)) → Continuous c) := by
  have hEPS : (0:ℝ) < 1 / 10 ^ 12 := by positivity
  -- the forecasts move continuously
  have hf : ∀ (us : List (T → ι → ℝ)), (∀ x ∈ us, Continuous x) → ∀ i, (Continuous fun t => forecastMean (.est o : VolArg V Sk) ((us.map fun x => x t).map fun x => x i)) ∧
      Continuous fun t => forecastVar (.est o : VolArg V Sk) ((us.map fun x => x t).map fun x => x i) := by
    intro us hus i
    have h := moves_or_error hV o.params mv (us.map fun x t (_ : Fin 1) => x t i) (by
      intro z hz
      obtain ⟨x, hx, rfl⟩ := List.mem_map.1 hz
      exact continuous_pi fun _ => (continuous_apply i).comp (hus x hx))
      (fun t => ((us.map fun x => x t).map fun x => x i).map fun y => .partialFit (.row fun _ => y)) (by
        intro t
        have := rowsSinceFit_rows ((us.map fun x t (_ : Fin 1) => x t i).map fun x => x t) []
        simp only [List.map_map, List.nil_append] at this ⊢
        exact this)
    unfold forecastMean forecastVar volAfter
    rcases h with ⟨h1, h2⟩ | ⟨m, c, hm, hc, h1, h2⟩
    · simp only [h1, h2]; exact ⟨continuous_const, continuous_const⟩
    · simp only [h1, h2]; exact ⟨(continuous_apply (0 : Fin 1)).comp hm, hc.matrix_elem 0 0⟩
  have hcomp := fun t => C40_composition (.est o : VolArg V Sk) (by simp) corr (calls t)
  simp only [hu] at hcomp
  have hres : ∀ k, k < xs.length → Continuous fun t => standardized (.est o : VolArg V Sk) (xs.map fun x => x t) k := by
    intro k hk
    refine continuous_pi fun i => ?_
    have hft := hf (xs.take k) (fun x h => hx x (List.mem_of_mem_take h)) i
    unfold standardized
    have e1 : ∀ t, (xs.map fun x => x t).getD k 0 i = xs[k] t i := by
      intro t; rw [List.getD_eq_getElem _ _ (by simpa using hk)]; simp
    have e2 : ∀ t, (xs.map fun x => x t).take k = (xs.take k).map fun x => x t := fun t => by rw [List.map_take]
    simp only [e1, e2]
    refine (((continuous_apply i).comp (hx _ (List.getElem_mem hk))).sub hft.1).div (Real.continuous_sqrt.comp (hft.2.max continuous_const)) fun t => ?_
    exact (Real.sqrt_pos.2 (lt_max_of_lt_right hEPS)).ne'
  rcases eq_or_ne xs [] with rfl | hne
  · constructor
    · intro m hm
      rw [continuous_iff_continuousAt]; intro t
      have := (hcomp t).2.1 rfl
      rw [hm t] at this; simp at this
    · intro c hc
      rw [continuous_iff_continuousAt]; intro t
      have := (hcomp t).2.1 rfl
      rw [hc t] at this; simp at this
  · have hne' : ∀ t, (xs.map fun x => x t) ≠ [] := fun t => by simpa using hne
    constructor
    · intro m hm
      have e : m = fun t i => forecastMean (.est o : VolArg V Sk) ((xs.map fun x => x t).map fun x => x i) := by
        funext t
        have := ((hcomp t).2.2 (hne' t)).1
        rw [hm t] at this
        exact Except.ok.inj this
      rw [e]
      exact continuous_pi fun i => (hf xs hx i).1
    · intro c hc
      have hR := moves_or_error hC corr.params mc ((List.range xs.length).map fun k t => standardized (.est o : VolArg V Sk) (xs.map fun x => x t) k) (by
        intro z hz
        obtain ⟨k, hk, rfl⟩ := List.mem_map.1 hz
        exact hres k (List.mem_range.1 hk))
        (fun t => feedCalls ((List.range (xs.map fun x => x t).length).map (standardized (.est o : VolArg V Sk) (xs.map fun x => x t)))) (by
          intro t
          rw [rowsSinceFit_feedCalls]
          simp only [List.nil_append, List.length_map, List.map_map]
          rfl)
      rcases hR with ⟨-, h2⟩ | ⟨m, r, -, hr, -, h2⟩
      · rw [continuous_iff_continuousAt]; intro t
        have := ((hcomp t).2.2 (hne' t)).2.1 .notFitted (by unfold Obj.correlation; rw [h2]; rfl)
        rw [hc t] at this; simp at this
      · have e : c = fun t => Matrix.of fun i j => Real.sqrt (max (forecastVar (.est o : VolArg V Sk) ((xs.map fun x => x t).map fun x => x i)) (1 / 10 ^ 12)) * covToCorr (r t) i j *
            Real.sqrt (max (forecastVar (.est o : VolArg V Sk) ((xs.map fun x => x t).map fun x => x j)) (1 / 10 ^ 12)) := by
          funext t
          have := ((hcomp t).2.2 (hne' t)).2.2 (covToCorr (r t)) (by unfold Obj.correlation; rw [h2]; rfl)
          rw [hc t] at this
          exact Except.ok.inj this
        rw [e]
        have hd : ∀ i, Continuous fun t => Real.sqrt (max (forecastVar (.est o : VolArg V Sk) ((xs.map fun x => x t).map fun x => x i)) (1 / 10 ^ 12)) :=
          fun i => Real.continuous_sqrt.comp ((hf xs hx i).2.max continuous_const)
        refine continuous_matrix fun i j => ?_
        simp only [Matrix.of_apply]
        exact ((hd i).mul ((continuous_covToCorr hr).matrix_elem i j)).mul (hd j)

/-- C110: `correlation_` of every estimator that moves continuously does so too: the `1e-12` in its denominator removes the 0/0. -/
theorem C110_correlation {C : Cls ι ℝ} (p : C.Param) (hm : MovesContinuously C p) {T : Type} [TopologicalSpace T] (xs : List (T → ι → ℝ)) (hx : ∀ x ∈ xs, Continuous x)
    (calls : T → List (Call ι ℝ)) (hu : ∀ t, used (C.diff p) (calls t) = xs.map fun x => x t) (R : T → Matrix ι ι ℝ)
    (hR : ∀ t, ((new C p).run (calls t)).correlation = .ok (R t)) : Continuous R := by
  have : ∀ t, ∃ c, ((new C p).run (calls t)).covariance = .ok c ∧ R t = covToCorr c := by
    intro t
    have := hR t
    unfold Obj.correlation at this
    rcases h : ((new C p).run (calls t)).covariance with e | c
    · rw [h] at this; simp [Except.map] at this
    · rw [h] at this; exact ⟨c, rfl, by simpa [Except.map] using this.symm⟩
  choose c hc hRc using this
  have e : R = fun t => covToCorr (c t) := funext hRc
  rw [e]
  exact continuous_covToCorr ((hm T xs hx calls hu).2 c hc)

end Precise
