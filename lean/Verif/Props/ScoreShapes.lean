import Verif.Model.ScoreShapes
import Verif.Lemmas.Shapes
import Verif.Props.Shapes
import Verif.Props.Score
import Verif.Props.Emp

/-!
# C94: scoring rows of any length

`o` is an estimator of any class in any state, of dimension `d`. Typed rows are passed as lists of their entries.
-/

set_option linter.all false

open Matrix

namespace Precise.Shapes

open Precise.Spec

theorem sum_range_list (n : ℕ) (f : ℕ → ℝ) : ((List.range n).map f).sum = ∑ i : Fin n, f i := by
  rw [← Finset.sum_range]
  induction n with
  | zero => simp
  | succ n ih => rw [List.range_succ, Finset.sum_range_succ]; simp [ih]

theorem entry_ofFn {α : Type} (z : α) {d : ℕ} (g : Fin d → α) (i : Fin d) : entry z (List.ofFn g) i = g i := by
  unfold entry
  split
  · rename_i h
    have h1 : d = 1 := by simpa using h
    subst h1
    have : i = 0 := Subsingleton.elim _ _
    subst this
    simp
  · simp [List.getD_eq_getElem?_getD]

theorem entry_one {α : Type} (z u : α) (i : ℕ) : entry z [u] i = u := by simp [entry]

theorem headD_nested_length {d : ℕ} (P : Matrix (Fin d) (Fin d) ℝ) : ((nested P).headD []).length = d := by
  cases d with
  | zero => simp [nested]
  | succ d => simp [nested, List.ofFn_succ]

theorem einsumRow_ofFn {d : ℕ} (P : Matrix (Fin d) (Fin d) ℝ) (c : Fin d → ℝ) :
    einsumRow (List.ofFn c) (nested P) = .ok (Obj.mahaRow P c) := by
  unfold einsumRow
  have h1 : axisLen (List.ofFn c).length (nested P).length = .ok d := by simp [axisLen, nested]
  have h2 : axisLen ((nested P).headD []).length (List.ofFn c).length = .ok d := by
    rw [headD_nested_length]; simp [axisLen]
  rw [h1, h2]
  simp only [bind, Except.bind, pure, Except.pure]
  congr 1
  rw [sum_range_list, Obj.mahaRow]
  refine Finset.sum_congr rfl fun j _ => ?_
  rw [sum_range_list]
  refine Finset.sum_congr rfl fun k _ => ?_
  rw [entry_ofFn, entry_ofFn, nested, entry_ofFn, entry_ofFn]

/-- the only shape besides the right one: a one-dimensional estimator and a wide row -/
theorem einsumRow_wide (P : Matrix (Fin 1) (Fin 1) ℝ) (c : List ℝ) :
    einsumRow c (nested P) = .ok (P 0 0 * c.sum ^ 2) := by
  unfold einsumRow
  have hn : nested P = [[P 0 0]] := by simp [nested]
  rw [hn]
  have h1 : axisLen c.length ([[P 0 0]] : List (List ℝ)).length = .ok c.length := by
    unfold axisLen; split
    · rfl
    · split <;> simp_all
  have h2 : axisLen (([[P 0 0]] : List (List ℝ)).headD []).length c.length = .ok c.length := by
    unfold axisLen; simp
  rw [h1, h2]
  simp only [bind, Except.bind, pure, Except.pure]
  congr 1
  have hs : ∀ f : ℝ → ℝ, ((List.range c.length).map fun j => f (entry 0 c j)).sum = (c.map f).sum := by
    intro f
    congr 1
    apply List.ext_getElem (by simp)
    intro i h₁ h₂
    have hi : i < c.length := by simpa using h₂
    simp only [List.getElem_map, List.getElem_range]
    congr 1
    unfold entry
    split
    · rename_i h; have : i = 0 := by omega
      subst this; simp [List.getD_eq_getElem?_getD, hi]
    · simp [List.getD_eq_getElem?_getD, hi]
  simp only [entry_one]
  have e1 : ∀ j, ((List.range c.length).map fun k => entry 0 c j * P 0 0 * entry 0 c k).sum
      = entry 0 c j * P 0 0 * c.sum := by
    intro j
    rw [hs (fun v => entry 0 c j * P 0 0 * v), List.sum_map_mul_left]
    simp
  simp only [e1]
  rw [hs (fun v => v * P 0 0 * c.sum)]
  have : (c.map fun v => v * P 0 0 * c.sum) = c.map fun v => (P 0 0 * c.sum) * v := by
    congr 1; funext v; ring
  rw [this, List.sum_map_mul_left]; simp; ring

variable {d : ℕ} {C : Cls (Fin d) ℝ}

theorem rect_ofFn (xs : List (Fin d → ℝ)) : rect (xs.map List.ofFn) = true := by
  cases xs with
  | nil => rfl
  | cons x xs => simp [rect]

theorem asRowsL_emb (X : Input (Fin d) ℝ) : asRowsL (embIn X) = (asRows X).map fun xs => xs.map List.ofFn := by
  cases X with
  | row x => rfl
  | batch xs => simp [embIn, asRowsL, rect_ofFn, asRows, Except.map]
  | other n => rfl

/-- what `mahalanobis` computes on a rectangular batch whose centered rows are `g` -/
theorem mahalanobisL_rows (L : Lapack) (o : Obj C) (xs : List (List ℝ)) (hr : rect xs = true) (ξ : List ℝ → Fin d → ℝ)
    (hx : ∀ x ∈ xs, Rep x (ξ x)) :
    mahalanobisL L o (.batch xs) = o.mahalanobis L (.batch (xs.map ξ)) := by
  classical
  unfold mahalanobisL Obj.mahalanobis
  simp only [asRowsL, hr, if_true, asRows, bind, Except.bind]
  cases hp : o.precision L with
  | error e => rfl
  | ok P =>
    cases hl : o.location with
    | error e => rfl
    | ok m =>
      simp only []
      rw [mapM_ok _ (fun x => List.ofFn fun i => ξ x i - m i) xs fun x hxx =>
        vec2_rep _ (hx x hxx) (rep_full m) (.inr rfl)]
      simp only []
      rw [mapM_ok _ (fun c => if h : ∃ g : Fin d → ℝ, c = List.ofFn g then Obj.mahaRow P h.choose else 0)]
      · simp only [pure, Except.pure, List.map_map]
        congr 1
        refine List.map_congr_left fun x _ => ?_
        have h : ∃ g : Fin d → ℝ, (List.ofFn fun i => ξ x i - m i) = List.ofFn g := ⟨_, rfl⟩
        simp only [Function.comp]
        rw [dif_pos h, ← List.ofFn_injective h.choose_spec]
        rfl
      · intro c hc
        obtain ⟨x, _, rfl⟩ := List.mem_map.1 hc
        have h : ∃ g : Fin d → ℝ, (List.ofFn fun i => ξ x i - m i) = List.ofFn g := ⟨_, rfl⟩
        rw [dif_pos h, ← List.ofFn_injective h.choose_spec, einsumRow_ofFn]

/-- `ofFn` read back -/
noncomputable def unlist (x : List ℝ) : Fin d → ℝ := fun i => x.getD i 0

theorem unlist_ofFn (g : Fin d → ℝ) : unlist (List.ofFn g) = g := by
  funext i; simp [unlist, List.getD_eq_getElem?_getD]

/-- **C94.** Rows of the right length: `mahalanobis` and `score` are the functions of the other properties, for
every class and state, including the exceptions. -/
theorem C94_right_length (L : Lapack) (o : Obj C) (X : Input (Fin d) ℝ) :
    mahalanobisL L o (embIn X) = o.mahalanobis L X ∧ scoreL L o (embIn X) = o.score L X := by
  have hb : ∀ xs : List (Fin d → ℝ), mahalanobisL L o (.batch (xs.map List.ofFn)) = o.mahalanobis L (.batch xs) := by
    intro xs
    rw [mahalanobisL_rows L o _ (rect_ofFn xs) unlist]
    · congr 2; rw [List.map_map]
      conv_rhs => rw [← List.map_id xs]
      exact List.map_congr_left fun x _ => unlist_ofFn x
    · intro x hx
      obtain ⟨g, _, rfl⟩ := List.mem_map.1 hx
      rw [unlist_ofFn]; exact .inl rfl
  have hs : ∀ xs : List (Fin d → ℝ), scoreL L o (.batch (xs.map List.ofFn)) = o.score L (.batch xs) := by
    intro xs
    unfold scoreL Obj.score
    simp only [asRowsL, rect_ofFn, if_true, asRows, bind, Except.bind, hb]
    cases hp : o.precision L with
    | error e => rfl
    | ok P =>
      simp only []
      cases hm : o.mahalanobis L (.batch xs) with
      | error e => rfl
      | ok q =>
        simp only []
        cases xs with
        | nil =>
          have : q = [] := by
            unfold Obj.mahalanobis at hm
            simp only [asRows, bind, Except.bind, hp] at hm
            cases hl : o.location with
            | error e => rw [hl] at hm; cases hm
            | ok m => rw [hl] at hm; simp [pure, Except.pure] at hm; exact hm
          subst this; simp
        | cons x xs => simp
  cases X with
  | row x =>
    have h1 := hb [x]
    have h2 := hs [x]
    refine ⟨?_, ?_⟩
    · rw [← show o.mahalanobis L (.batch [x]) = o.mahalanobis L (.row x) from rfl, ← h1]; rfl
    · rw [← show o.score L (.batch [x]) = o.score L (.row x) from rfl, ← h2]; rfl
  | batch xs => exact ⟨hb xs, hs xs⟩
  | other n => exact ⟨rfl, rfl⟩

/-- **C94.** Rows whose length is neither `d` nor 1, `d ≠ 1`: both raise ValueError on a fitted estimator; on an
unfitted one the NotFittedError comes first. A ragged batch raises ValueError in every state. -/
theorem C94_wrong_length (L : Lapack) (o : Obj C) (hd : d ≠ 1) (xs : List (List ℝ)) (hne : xs ≠ []) (n : ℕ)
    (hn : ∀ x ∈ xs, x.length = n) (h1 : n ≠ 1) (h2 : n ≠ d) :
    (∀ c m, o.covariance = .ok c → o.location = .ok m →
      mahalanobisL L o (.batch xs) = .error .valueError ∧ scoreL L o (.batch xs) = .error .valueError) ∧
    (o.covariance = .error .notFitted →
      mahalanobisL L o (.batch xs) = .error .notFitted ∧ scoreL L o (.batch xs) = .error .notFitted) := by
  have hr : rect xs = true := by
    cases xs with
    | nil => rfl
    | cons x t => simp [rect]; intro y hy; rw [hn y (by simp [hy]), hn x (by simp)]
  obtain ⟨x, t, rfl⟩ := List.exists_cons_of_ne_nil hne
  constructor
  · intro c m hc hm
    have hp : o.precision L = .ok (tryInvert L c) := by simp [Obj.precision, hc, Except.map]
    have hv : vec2 (fun a b : ℝ => a - b) x (List.ofFn m) = .error .valueError :=
      bcast_bad _ _ _ (by rw [hn x (by simp)]; simpa using h2) (by rw [hn x (by simp)]; exact h1) (by simpa using hd)
    have hmm : mahalanobisL L o (.batch (x :: t)) = .error .valueError := by
      unfold mahalanobisL
      simp only [asRowsL, hr, if_true, bind, Except.bind, hp, hm, List.mapM_cons, hv]
    refine ⟨hmm, ?_⟩
    unfold scoreL
    simp only [asRowsL, hr, if_true, bind, Except.bind, hp, hmm]
  · intro hc
    have hp : o.precision L = .error .notFitted := by simp [Obj.precision, hc, Except.map]
    constructor
    · unfold mahalanobisL; simp only [asRowsL, hr, if_true, bind, Except.bind, hp]
    · unfold scoreL; simp only [asRowsL, hr, if_true, bind, Except.bind, hp]

/-- **C94.** A ragged batch or an array of another rank raises ValueError in every state of every class. -/
theorem C94_bad_input (L : Lapack) (o : Obj C) (n : ℕ) (xs : List (List ℝ)) (x y : List ℝ) (hx : x ∈ xs) (hy : y ∈ xs)
    (hne : x.length ≠ y.length) :
    mahalanobisL L o (.batch xs) = .error .valueError ∧ scoreL L o (.batch xs) = .error .valueError ∧
    mahalanobisL L o (.other n) = .error .valueError ∧ scoreL L o (.other n) = .error .valueError := by
  have hr : rect xs = false := by
    cases xs with
    | nil => simp at hx
    | cons z t =>
      by_contra h
      have h : rect (z :: t) = true := by simpa using h
      simp only [rect, List.all_eq_true, beq_iff_eq] at h
      have hz : ∀ w ∈ z :: t, w.length = z.length := fun w hw => by
        rcases List.mem_cons.1 hw with rfl | hw
        · rfl
        · exact h w hw
      exact hne ((hz x hx).trans (hz y hy).symm)
  refine ⟨?_, ?_, rfl, rfl⟩
  · unfold mahalanobisL; simp [asRowsL, hr, bind, Except.bind]
  · unfold scoreL; simp [asRowsL, hr, bind, Except.bind]

/-- **C94**, violation: rows of length 1 are accepted by an estimator of any dimension. `mahalanobis` is that of the
row with the number repeated in every coordinate, but `score` uses the length 1 for the constant of the normal
density: for a positive-definite `covariance_` it returns the mean log-density plus `(d-1)/2 · log 2π`. -/
theorem C94_length_one (L : Lapack) (o : Obj C) (as : List ℝ) (hne : as ≠ []) :
    mahalanobisL L o (.batch (as.map fun a => [a])) = o.mahalanobis L (.batch (as.map fun a _ => a)) ∧
    ∀ c m, o.covariance = .ok c → o.location = .ok m → PD c →
      scoreL L o (.batch (as.map fun a => [a]))
        = .ok ((meanLogLik m c (as.map fun a _ => a) + ((d : ℝ) - 1) / 2 * Real.log (2 * Real.pi) : ℝ) : WithBot ℝ) := by
  have hr : rect (as.map fun a => [a]) = true := by
    cases as with
    | nil => rfl
    | cons x t => simp [rect]
  have hm : mahalanobisL L o (.batch (as.map fun a => [a])) = o.mahalanobis L (.batch (as.map fun a _ => a)) := by
    rw [mahalanobisL_rows L o _ hr (fun x _ => x.getD 0 0)]
    · congr 2; rw [List.map_map]; rfl
    · intro x hx
      obtain ⟨a, _, rfl⟩ := List.mem_map.1 hx
      exact .inr ⟨a, rfl, rfl⟩
  refine ⟨hm, ?_⟩
  intro c m hc hl hpd
  have h14 := C14_score_is_loglik L o c m hc hl hpd (as.map fun a _ => a)
  unfold Obj.score at h14
  unfold scoreL
  simp only [asRowsL, hr, if_true, asRows, bind, Except.bind, hm] at h14 ⊢
  have hp : o.precision L = .ok (tryInvert L c) := by simp [Obj.precision, hc, Except.map]
  simp only [hp] at h14 ⊢
  obtain ⟨q, hq⟩ : ∃ q, o.mahalanobis L (.batch (as.map fun a _ => a)) = .ok q := by
    unfold Obj.mahalanobis; simp only [asRows, bind, Except.bind, hp, hl]; exact ⟨_, rfl⟩
  have hlen : q.length = as.length := by
    unfold Obj.mahalanobis at hq
    simp only [asRows, bind, Except.bind, hp, hl, pure, Except.pure] at hq
    injection hq with hq
    rw [← hq]; simp
  simp only [hq] at h14 ⊢
  simp only [pure, Except.pure] at h14 ⊢
  injection h14 with h14
  congr 1
  cases hdet : Obj.logAbsDet (tryInvert L c) with
  | bot => rw [hdet] at h14; cases h14
  | coe ld =>
    rw [hdet] at h14
    simp only [WithBot.map_coe] at h14 ⊢
    have h14 := WithBot.coe_injective h14
    congr 1
    rw [← h14]
    have hlp : (q.length : ℝ) ≠ 0 := by rw [hlen]; simpa using hne
    obtain ⟨a, t, rfl⟩ := List.exists_cons_of_ne_nil hne
    rw [eq_comm, div_add' _ _ _ hlp]
    congr 1
    have : ∀ (l : List ℝ) (u v : ℝ), (l.map fun q => (1/2) * ld - (1/2) * q - u).sum + (u - v) * l.length
        = (l.map fun q => (1/2) * ld - (1/2) * q - v).sum := by
      intro l u v
      induction l with
      | nil => simp
      | cons z l ih => simp only [List.map_cons, List.sum_cons, List.length_cons, ← ih]; push_cast; ring
    have h := this q ((1/2) * (Fintype.card (Fin d) : ℝ) * Real.log (2 * Real.pi)) ((1/2) * ((1 : ℕ) : ℝ) * Real.log (2 * Real.pi))
    have e : (((a :: t).map fun a => [a]).headD []).length = 1 := rfl
    rw [e, ← h]
    simp only [Fintype.card_fin]
    push_cast
    ring

/-- **C94**, violation: from two dimensions on the score of a length-1 batch exceeds the mean log-density under the
estimate. -/
theorem C94_length_one_too_high (L : Lapack) (o : Obj C) (hd : 2 ≤ d) (as : List ℝ) (hne : as ≠ []) (c : Matrix (Fin d) (Fin d) ℝ)
    (m : Fin d → ℝ) (hc : o.covariance = .ok c) (hm : o.location = .ok m) (hpd : PD c) :
    ∃ v : ℝ, scoreL L o (.batch (as.map fun a => [a])) = .ok (v : WithBot ℝ) ∧
      meanLogLik m c (as.map fun a _ => a) < v := by
  refine ⟨_, (C94_length_one L o as hne).2 c m hc hm hpd, ?_⟩
  have h1 : 0 < Real.log (2 * Real.pi) := Real.log_pos (by nlinarith [Real.pi_gt_three])
  have h2 : (2:ℝ) ≤ d := by exact_mod_cast hd
  have : 0 < ((d:ℝ) - 1) / 2 * Real.log (2 * Real.pi) := mul_pos (by linarith) h1
  linarith

/-- **C94**, violation: a one-dimensional estimator accepts rows of every length. With variance `v > 0` and mean `m`
the "squared distance" of the row `x₁,…,xₙ` is `(Σ (xᵢ - m))² / v`: deviations of opposite sign cancel, so a row far from the mean
in every entry can be at distance 0. -/
theorem C94_one_dim_wide {C : Cls (Fin 1) ℝ} (L : Lapack) (o : Obj C) (c : Matrix (Fin 1) (Fin 1) ℝ) (m : Fin 1 → ℝ)
    (hc : o.covariance = .ok c) (hm : o.location = .ok m) (hv : 0 < c 0 0) (x : List ℝ) :
    mahalanobisL L o (.row x) = .ok [(x.map fun a => a - m 0).sum ^ 2 / c 0 0] := by
  have hpd : PD c := by
    refine ⟨fun i j => by rw [Subsingleton.elim i j], fun y hy => ?_⟩
    have h0 : y 0 ≠ 0 := fun h => hy (by funext i; rw [Subsingleton.elim i 0, h]; rfl)
    have : quad c y = c 0 0 * y 0 ^ 2 := by rw [quad_expand]; simp; ring
    rw [this]; positivity
  have hp : o.precision L = .ok (tryInvert L c) := by simp [Obj.precision, hc, Except.map]
  have hi : tryInvert L c 0 0 = (c 0 0)⁻¹ := by
    have hd := hpd.det_pos.ne'
    have h1 : c⁻¹ * c = 1 := Matrix.nonsing_inv_mul _ (isUnit_iff_ne_zero.2 hd)
    have h2 := congrFun (congrFun h1 0) 0
    rw [Matrix.mul_apply, Fin.sum_univ_one] at h2
    have e : tryInvert L c = c⁻¹ := by unfold tryInvert; rw [if_neg hd]
    rw [e]
    exact eq_inv_of_mul_eq_one_left (by simpa using h2)
  unfold mahalanobisL
  simp only [asRowsL, bind, Except.bind, hp, hm]
  have hcen : vec2 (fun a b : ℝ => a - b) x (List.ofFn m) = .ok (x.map fun a => a - m 0) := by
    have : x = List.ofFn fun i : Fin x.length => x[i] := by simp
    rw [show List.ofFn m = [m 0] by simp]
    conv_lhs => rw [this]
    rw [vec2, bcast_right (k := fun i => x[i] - m 0)]
    · congr 1; conv_rhs => rw [this, List.map_ofFn]
      rfl
    · intro i; rfl
  rw [List.mapM_cons, hcen]
  simp only [List.mapM_nil, bind, Except.bind, pure, Except.pure]
  rw [List.mapM_cons, einsumRow_wide]
  simp only [List.mapM_nil, bind, Except.bind, pure, Except.pure]
  rw [hi]
  congr 2
  field_simp

/-! ## The hypotheses are met -/

-- EmpiricalCovariance fitted on the corners of a square: scoring the single numbers 3 and 4 raises nothing and
-- exceeds the mean log-density by log(2π)/2
example (L : Lapack) :
    let o := (Obj.new (empiricalCls (Fin 2) ℝ) false).run [.fit (.batch [![1, 1], ![1, -1], ![-1, 1], ![-1, -1]])]
    ∃ c m, o.covariance = .ok c ∧ o.location = .ok m ∧ PD c ∧
      scoreL L o (.batch [[3], [4]])
        = .ok ((meanLogLik m c [fun _ => 3, fun _ => 4] + 1 / 2 * Real.log (2 * Real.pi) : ℝ) : WithBot ℝ) := by
  have h := C15_batch (K := ℝ) (ι := Fin 2) false [.fit (.batch [![1, 1], ![1, -1], ![-1, 1], ![-1, -1]])]
    (by simp [used, effective, rowsSinceFit])
  have hu : used false [Call.fit (.batch ([![1, 1], ![1, -1], ![-1, 1], ![-1, -1]] : List (Fin 2 → ℝ)))]
      = [![1, 1], ![1, -1], ![-1, 1], ![-1, -1]] := by simp [used, effective, rowsSinceFit]
  rw [hu] at h
  have hpd : PD (covOf ([![1, 1], ![1, -1], ![-1, 1], ![-1, -1]] : List (Fin 2 → ℝ))) := by
    have e : covOf ([![1, 1], ![1, -1], ![-1, 1], ![-1, -1]] : List (Fin 2 → ℝ)) = 1 := by
      ext i j
      fin_cases i <;> fin_cases j <;> simp [covOf, meanOf] <;> norm_num
    rw [e]; exact pd_one
  refine ⟨_, _, h.2.1, h.1, hpd, ?_⟩
  have h2 := (C94_length_one L _ [3, 4] (by simp)).2 _ _ h.2.1 h.1 hpd
  have e : (((2 : ℕ) : ℝ) - 1) / 2 = 1 / 2 := by norm_num
  rw [e] at h2
  exact h2

-- one-dimensional estimator with mean 0 and variance 1: the row (5, -5) is at distance 0
example (L : Lapack) :
    mahalanobisL L ((Obj.new (empiricalCls (Fin 1) ℝ) false).run [.fit (.batch [fun _ => 1, fun _ => -1])]) (.row [5, -5])
      = .ok [0] := by
  have h := C15_batch (K := ℝ) (ι := Fin 1) false [.fit (.batch [fun _ => 1, fun _ => -1])]
    (by simp [used, effective, rowsSinceFit])
  have hu : used false [Call.fit (.batch ([fun _ => 1, fun _ => -1] : List (Fin 1 → ℝ)))]
      = [fun _ => 1, fun _ => -1] := by simp [used, effective, rowsSinceFit]
  rw [hu] at h
  rw [C94_one_dim_wide L _ _ _ h.2.1 h.1 (by simp [covOf, meanOf])]
  simp [meanOf]

end Precise.Shapes
