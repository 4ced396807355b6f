import Verif.Spec.Regression
import Verif.Props.Columns
import Verif.Props.Linalg
import Verif.Props.Ewa
import Verif.Props.Emp

/-!
# C134: `precision_` is regression
-/

set_option linter.all false

open Matrix

namespace Precise

open Spec Obj

variable {ι κ : Type} [Fintype ι] [DecidableEq ι] [Fintype κ] [DecidableEq κ]

theorem quad_inv {c P : Matrix ι ι ℝ} (h : c * P = 1) (v : ι → ℝ) : quad c (P *ᵥ v) = quad P v := by
  simp only [quad]
  rw [mulVec_mulVec, h, one_mulVec, dotProduct_comm]

theorem quad_shift {c P : Matrix ι ι ℝ} (hs : Symm c) (h : c * P = 1) (b v : ι → ℝ) (t : ℝ) :
    quad c (b + t • P *ᵥ v) = quad c b + 2 * t * (b ⬝ᵥ v) + t * t * quad P v := by
  rw [quad_add_vec hs, mulVec_mulVec, h, one_mulVec, quad_inv h]

theorem hedged_dot (i : ι) (β z : ι → ℝ) : hedged i β ⬝ᵥ z = lineResidual i 0 β z := by
  simp only [dotProduct, hedged, lineResidual]
  rw [← Finset.add_sum_erase _ _ (Finset.mem_univ i), if_pos rfl, zero_add, one_mul]
  rw [Finset.sum_congr rfl (g := fun j => -(β j * z j)) fun j hj => by rw [if_neg (Finset.ne_of_mem_erase hj)]; ring]
  rw [Finset.sum_neg_distrib]; ring

theorem residual_eq (i : ι) (α : ℝ) (β z : ι → ℝ) : lineResidual i α β z = hedged i β ⬝ᵥ z - α := by rw [hedged_dot]; simp only [lineResidual]; ring

/-- the algebra of one regression -/
theorem hedge_core {c P : Matrix ι ι ℝ} (hc : PD c) (hP : PD P) (h : c * P = 1) (i : ι) (β : ι → ℝ) :
    quad c (hedged i β) = 1 / P i i + quad c (fun j => if j = i then 0 else -(β j + P i j / P i i)) := by
  have hp := hP.diag_pos i
  have e : (fun j => if j = i then 0 else -(β j + P i j / P i i)) = hedged i β + (-(1 / P i i)) • P *ᵥ Pi.single i 1 := by
    funext j
    simp only [hedged, Pi.add_apply, Pi.smul_apply, smul_eq_mul, mulVec_single_one, col_apply]
    split
    · subst j; field_simp; ring
    · rw [hP.1 j i]; ring
  rw [e, quad_shift hc.1 h, dotProduct_single, quad_single]
  simp only [hedged, if_true]
  field_simp
  ring

theorem hedge_min {c P : Matrix ι ι ℝ} (hc : PD c) (hP : PD P) (h : c * P = 1) (i : ι) (β : ι → ℝ) :
    1 / P i i ≤ quad c (hedged i β) ∧ (quad c (hedged i β) = 1 / P i i ↔ ∀ j, j ≠ i → β j = -P i j / P i i) := by
  rw [hedge_core hc hP h]
  refine ⟨by linarith [hc.psd.2 fun j => if j = i then 0 else -(β j + P i j / P i i)], ?_⟩
  rw [add_eq_left]
  constructor
  · intro h0 j hj
    have hz : (fun j => if j = i then 0 else -(β j + P i j / P i i)) = 0 := by
      by_contra hne
      exact (hc.2 _ hne).ne' h0
    have := congrFun hz j
    simp only [if_neg hj, Pi.zero_apply] at this
    rw [neg_div]; linarith
  · intro hb
    have hz : (fun j => if j = i then 0 else -(β j + P i j / P i i)) = 0 := by
      funext j
      by_cases hj : j = i
      · simp [hj]
      · rw [if_neg hj, hb j hj]; simp; ring
    rw [hz, quad_zero_right]

section
variable {C : Cls ι ℝ} (L : Lapack) (o : Obj C) (c P : Matrix ι ι ℝ) (hc : o.covariance = .ok c) (hP : o.precision L = .ok P) (hpd : PD c)
include hc hP hpd

theorem precision_facts : PD P ∧ c * P = 1 ∧ P * c = 1 := by
  obtain ⟨h1, _, _, _, h2⟩ := C12_precision L o c P hc hP
  exact ⟨h2 hpd, (h1 hpd.det_pos.ne').2, (h1 hpd.det_pos.ne').1⟩

/-- C134: for every estimator: the hedge of column `i` with the others of least reported variance is `β j = -P i j / P i i`, and only that; the variance it leaves is
`1 / P i i`. -/
theorem C134_hedge (i : ι) : 0 < P i i ∧ ∀ β : ι → ℝ, 1 / P i i ≤ quad c (hedged i β) ∧
    (quad c (hedged i β) = 1 / P i i ↔ ∀ j, j ≠ i → β j = -P i j / P i i) := by
  obtain ⟨h1, h2, _⟩ := precision_facts L o c P hc hP hpd
  exact ⟨h1.diag_pos i, hedge_min hpd h1 h2 i⟩

/-- C134: the variance inflation factor: the others never add to the variance of a column, and take nothing off exactly when it is uncorrelated with all of them. -/
theorem C134_inflation (i : ι) : 1 ≤ P i i * c i i ∧ (P i i * c i i = 1 ↔ ∀ j, j ≠ i → c i j = 0) ∧ (P i i * c i i = 1 ↔ ∀ j, j ≠ i → P i j = 0) := by
  obtain ⟨h1, h2, h3⟩ := precision_facts L o c P hc hP hpd
  have hp := h1.diag_pos i
  have e0 : hedged i (0 : ι → ℝ) = Pi.single i 1 := by
    funext j
    simp only [hedged, Pi.zero_apply, neg_zero, Pi.single_apply]
  have hm := hedge_min hpd h1 h2 i 0
  rw [e0, quad_single] at hm
  have hP0 : P i i * c i i = 1 ↔ ∀ j, j ≠ i → P i j = 0 := by
    rw [show (P i i * c i i = 1 ↔ c i i = 1 / P i i) by rw [eq_div_iff hp.ne', mul_comm], hm.2]
    refine forall_congr' fun j => imp_congr_right fun hj => ?_
    rw [Pi.zero_apply, neg_div, eq_comm, neg_eq_zero, div_eq_zero_iff]
    simp [hp.ne']
  have row : ∀ {A B : Matrix ι ι ℝ}, A * B = 1 → (∀ j, j ≠ i → A i j = 0) → ∀ j, A i i * B i j = if i = j then 1 else 0 := by
    intro A B hAB hA j
    have := congrFun (congrFun hAB i) j
    rw [Matrix.mul_apply, Finset.sum_eq_single i (fun k _ hk => by rw [hA k hk, zero_mul]) (fun h => absurd (Finset.mem_univ i) h), Matrix.one_apply] at this
    exact this
  refine ⟨?_, ⟨fun h j hj => ?_, fun h => ?_⟩, hP0⟩
  · have := hm.1
    rw [div_le_iff₀ hp] at this
    linarith
  · have := row h3 (hP0.1 h) j
    rw [if_neg hj.symm] at this
    exact (mul_eq_zero.1 this).resolve_left hp.ne'
  · have := row h2 h i
    rw [if_pos rfl] at this
    rw [mul_comm]; exact this

/-- C134: partial correlations lie strictly between -1 and 1. -/
theorem C134_partial (i j : ι) (hij : i ≠ j) : (P i j) ^ 2 < P i i * P j j := by
  obtain ⟨h1, _, _⟩ := precision_facts L o c P hc hP hpd
  have hp := h1.diag_pos i
  have h := h1.2 (Pi.single j 1 + (-(P i j / P i i)) • Pi.single i 1) (by
    intro h0
    have := congrFun h0 j
    simp [Pi.single_apply, hij.symm] at this)
  rw [quad_add_vec h1.1, quad_single, quad_single, mulVec_single_one, single_dotProduct, one_mul, col_apply, h1.1 j i] at h
  have e : P j j + 2 * -(P i j / P i i) * P i j + -(P i j / P i i) * -(P i j / P i i) * P i i = P j j - (P i j) ^ 2 / P i i := by field_simp; ring
  rw [e, sub_pos, div_lt_iff₀ hp] at h
  linarith

end

/-- C134: EmpiricalCovariance: that hedge is ordinary least squares with an intercept: among all lines, the mean squared residual of column `i` on the data is least,
`1 / P i i`, exactly for `β j = -P i j / P i i` through the mean. -/
theorem C134_least_squares (L : Lapack) (d : Bool) (calls : List (Call ι ℝ)) (hu : used d calls ≠ []) (c P : Matrix ι ι ℝ) (m : ι → ℝ)
    (hc : ((new (empiricalCls ι ℝ) d).run calls).covariance = .ok c) (hP : ((new (empiricalCls ι ℝ) d).run calls).precision L = .ok P) (hpd : PD c)
    (hm : ((new (empiricalCls ι ℝ) d).run calls).location = .ok m) (i : ι) (α : ℝ) (β : ι → ℝ) :
    1 / P i i ≤ ((used d calls).map fun z => lineResidual i α β z ^ 2).sum / (used d calls).length ∧
    (((used d calls).map fun z => lineResidual i α β z ^ 2).sum / (used d calls).length = 1 / P i i ↔
      (∀ j, j ≠ i → β j = -P i j / P i i) ∧ lineResidual i α β m = 0) := by
  have hb := C15_batch d calls hu
  have em : m = meanOf (used d calls) := Except.ok.inj (hm.symm.trans hb.1)
  have ec : c = covOf (used d calls) := Except.ok.inj (hc.symm.trans hb.2.1)
  have hmin := (C134_hedge L _ c P hc hP hpd i).2 β
  generalize used d calls = xs at *
  have hn : (xs.length : ℝ) ≠ 0 := by exact_mod_cast (List.length_pos_iff.2 hu).ne'
  have key : (xs.map fun z => lineResidual i α β z ^ 2).sum / xs.length = quad c (hedged i β) + lineResidual i α β m ^ 2 := by
    have hsum : ∀ (u : ι → ℝ) (a : ℝ) (ys : List (ι → ℝ)), (ys.map fun z => (u ⬝ᵥ z - a) ^ 2).sum
        = (ys.map fun z => (u ⬝ᵥ (z - m)) * (u ⬝ᵥ (z - m))).sum + 2 * (u ⬝ᵥ m - a) * (ys.map fun z => u ⬝ᵥ (z - m)).sum + ys.length * (u ⬝ᵥ m - a) ^ 2 := by
      intro u a ys
      induction ys with
      | nil => simp
      | cons y ys ih =>
        simp only [List.map_cons, List.sum_cons, List.length_cons, ih, dotProduct_sub]
        push_cast; ring
    have hz : ∀ (u : ι → ℝ), (xs.map fun z => u ⬝ᵥ (z - m)).sum = 0 := by
      intro u
      have e1 : ∀ ys : List (ι → ℝ), (ys.map fun z => u ⬝ᵥ (z - m)).sum = ∑ k, u k * ((ys.map fun z => z k).sum - ys.length * m k) := by
        intro ys
        induction ys with
        | nil => simp
        | cons y ys ih =>
          rw [List.map_cons, List.sum_cons, ih, List.length_cons, dotProduct, ← Finset.sum_add_distrib]
          simp only [List.map_cons, List.sum_cons]
          refine Finset.sum_congr rfl fun k _ => ?_
          simp only [Pi.sub_apply]; push_cast; ring
      rw [e1]
      refine Finset.sum_eq_zero fun k _ => ?_
      rw [em, meanOf]
      field_simp
      ring
    simp only [residual_eq]
    rw [hsum, hz, ec, quad_covOf, ← em]
    field_simp
    ring
  rw [key]
  refine ⟨by nlinarith [hmin.1, sq_nonneg (lineResidual i α β m)], ⟨fun h => ?_, fun h => ?_⟩⟩
  · have h0 := sq_nonneg (lineResidual i α β m)
    have h1 : quad c (hedged i β) = 1 / P i i := le_antisymm (by linarith) hmin.1
    refine ⟨hmin.2.1 h1, ?_⟩
    have : lineResidual i α β m ^ 2 = 0 := by linarith
    exact pow_eq_zero_iff (by norm_num) |>.1 this
  · rw [hmin.2.2 h.1, h.2]; ring

/-- C134: EwaCovariance: it is exponentially weighted least squares on the errors of `location_` as a one-step-ahead forecast. -/
theorem C134_ewa_least_squares (L : Lapack) (p : RParam ℝ) (hd : p.diff = false) (hr : 0 < p.r) (burn : List (ι → ℝ)) (y : ℕ → ι → ℝ) (k : ℕ)
    (hb : burn.length = ewaBurnN p.r) (m : ℕ → ι → ℝ)
    (hm : ∀ t < k, ((new (ewaCls ι ℝ) p).run [.partialFit (.batch (burn ++ (List.range t).map y))]).location = .ok (m t)) (c P : Matrix ι ι ℝ)
    (hc : ((new (ewaCls ι ℝ) p).run [.partialFit (.batch (burn ++ (List.range k).map y))]).covariance = .ok c)
    (hP : ((new (ewaCls ι ℝ) p).run [.partialFit (.batch (burn ++ (List.range k).map y))]).precision L = .ok P) (hpd : PD c) (i : ι) (β : ι → ℝ) :
    let loss := (1 - p.r) ^ k * ((burn.map fun z => lineResidual i 0 β (z - meanOf burn) ^ 2).sum / burn.length)
      + ∑ t ∈ Finset.range k, p.r * (1 - p.r) ^ (k - 1 - t) * lineResidual i 0 β (y t - m t) ^ 2
    1 / P i i ≤ loss ∧ (loss = 1 / P i i ↔ ∀ j, j ≠ i → β j = -P i j / P i i) := by
  intro loss
  have hmin := (C134_hedge L _ c P hc hP hpd i).2 β
  have e := Except.ok.inj (hc.symm.trans (C20_covariance p hd burn y k hb hr m hm))
  have el : quad c (hedged i β) = loss := by
    rw [e, quad_add, quad_smul, quad_covOf, quad_sum (Finset.range k)]
    simp only [loss, ← hedged_dot, quad_smul, quad_outer, pow_two, dotProduct_comm (hedged i β)]
  rw [← el]
  exact hmin

/-! ## More columns -/

/-- the inverse of a part is below the part of the inverse -/
theorem inv_part_le {c P : Matrix ι ι ℝ} {c' P' : Matrix κ κ ℝ} (f : κ → ι) (hc : PD c) (h : c * P = 1) (e : c' = colsMat f c) (h' : c' * P' = 1) (v : ι → ℝ) :
    quad P' (cols f v) ≤ quad P v := by
  set u := P' *ᵥ cols f v with hu
  set U : ι → ℝ := fun i => ∑ a, if f a = i then u a else 0 with hU
  have hpush : ∀ g : ι → ℝ, ∑ i, U i * g i = ∑ a, u a * g (f a) := by
    intro g
    simp only [hU, Finset.sum_mul]
    rw [Finset.sum_comm]
    refine Finset.sum_congr rfl fun a _ => ?_
    rw [Finset.sum_eq_single (f a)]
    · rw [if_pos rfl]
    · intro b _ hb; rw [if_neg hb.symm, zero_mul]
    · intro h; exact absurd (Finset.mem_univ _) h
  have hUv : U ⬝ᵥ v = quad P' (cols f v) := by
    have e1 : U ⬝ᵥ v = u ⬝ᵥ cols f v := hpush v
    rw [e1, hu, dotProduct_comm]; rfl
  have hUc : quad c U = quad P' (cols f v) := by
    rw [← quad_inv h', ← hu, e]
    show ∑ i, U i * (c *ᵥ U) i = _
    rw [hpush]
    refine Finset.sum_congr rfl fun a _ => ?_
    congr 1
    show ∑ j, c (f a) j * U j = ∑ b, colsMat f c a b * u b
    rw [Finset.sum_congr rfl fun j _ => mul_comm (c (f a) j) (U j), hpush]
    exact Finset.sum_congr rfl fun b _ => mul_comm _ _
  have := hc.psd.2 (U + (-1 : ℝ) • P *ᵥ v)
  rw [quad_shift hc.1 h, hUv, hUc] at this
  linarith

/-- C134: an estimator that watches more columns (and says the same about the ones in common): no row gets closer to the centre, the residual variance of no column
grows, and the least variance of a fully invested portfolio does not grow. -/
theorem C134_more_columns (L : Lapack) {C : Cls ι ℝ} {C' : Cls κ ℝ} (f : κ → ι) (hf : Function.Injective f) (o : Obj C) (o' : Obj C') (c P : Matrix ι ι ℝ) (m : ι → ℝ)
    (P' : Matrix κ κ ℝ) (hc : o.covariance = .ok c) (hP : o.precision L = .ok P) (hpd : PD c) (hm : o.location = .ok m)
    (hc' : o'.covariance = .ok (colsMat f c)) (hP' : o'.precision L = .ok P') (hm' : o'.location = .ok (cols f m)) :
    (∀ x : ι → ℝ, ∃ D D', o.mahalanobis L (.row x) = .ok [D] ∧ o'.mahalanobis L (.row (cols f x)) = .ok [D'] ∧ D' ≤ D) ∧
    (∀ k, 1 / P (f k) (f k) ≤ 1 / P' k k) ∧
    ∀ [Nonempty κ], 1 / (∑ i, ∑ j, P i j) ≤ 1 / (∑ k, ∑ l, P' k l) := by
  obtain ⟨h1, h2, _⟩ := precision_facts L o c P hc hP hpd
  have hpd' : PD (colsMat f c) := hpd.submatrix_inj f hf
  obtain ⟨h1', h2', _⟩ := precision_facts L o' _ P' hc' hP' hpd'
  have key := inv_part_le f hpd h2 rfl h2'
  refine ⟨fun x => ⟨quad P (x - m), quad P' (cols f (x - m)), ?_, ?_, key _⟩, fun k => ?_, fun {_} => ?_⟩
  · simp [Obj.mahalanobis, asRows, hP, hm, bind, Except.bind, pure, Except.pure, mahaRow_eq]
  · simp [Obj.mahalanobis, asRows, hP', hm', bind, Except.bind, pure, Except.pure, mahaRow_eq]
    rfl
  · have := key (Pi.single (f k) 1)
    have e : cols f (Pi.single (f k) (1:ℝ)) = Pi.single k 1 := by
      funext l
      simp only [cols, Pi.single_apply, hf.eq_iff]
    rw [e, quad_single, quad_single] at this
    exact one_div_le_one_div_of_le (h1'.diag_pos k) this
  · have := key (fun _ => 1)
    have e : cols f (fun _ => (1:ℝ)) = fun _ => 1 := rfl
    have hpos := h1'.2 (fun _ => 1) (by intro h0; exact one_ne_zero (congrFun h0 (Classical.arbitrary κ)))
    rw [e, quad_expand, quad_expand] at this
    rw [quad_expand] at hpos
    simp only [one_mul, mul_one] at this hpos
    exact one_div_le_one_div_of_le hpos this

/-- C134: so for EmpiricalCovariance, EwaCovariance, DiagonalCovariance and DCCCovariance fed the same history with columns left out. -/
theorem C134_more_columns_classes (L : Lapack) (f : κ → ι) (hf : Function.Injective f) {C : Cls ι ℝ} {C' : Cls κ ℝ} (p : C.Param) (p' : C'.Param)
    (hT : Transports C C' p p' (cols f) (cols f) (colsMat f)) (calls : List (Call ι ℝ)) (c P : Matrix ι ι ℝ) (m : ι → ℝ) (P' : Matrix κ κ ℝ)
    (hc : ((new C p).run calls).covariance = .ok c) (hP : ((new C p).run calls).precision L = .ok P) (hpd : PD c) (hm : ((new C p).run calls).location = .ok m)
    (hP' : ((new C' p').run (calls.map (mapCall (cols f)))).precision L = .ok P') :
    (∀ x : ι → ℝ, ∃ D D', ((new C p).run calls).mahalanobis L (.row x) = .ok [D] ∧
      ((new C' p').run (calls.map (mapCall (cols f)))).mahalanobis L (.row (cols f x)) = .ok [D'] ∧ D' ≤ D) ∧ ∀ k, 1 / P (f k) (f k) ≤ 1 / P' k k := by
  obtain ⟨_, t1, t2⟩ := hT calls
  obtain ⟨h1, h2, _⟩ := C134_more_columns L f hf _ ((new C' p').run (calls.map (mapCall (cols f)))) c P m P' hc hP hpd hm
    (by rw [t2, hc]; rfl) hP' (by rw [t1, hm]; rfl)
  exact ⟨h1, h2⟩

/-- Non-vacuity: three rows of two correlated columns; the least squares slope of the first on the second is 3/2. -/
example : ∃ c : Matrix (Fin 2) (Fin 2) ℝ, ((new (empiricalCls (Fin 2) ℝ) false).run [.partialFit (.batch [![0, 0], ![1, 1], ![2, 1]])]).covariance = .ok c ∧ PD c ∧
    c 0 1 / c 1 1 = 3 / 2 := by
  have hu : used false [Call.partialFit (.batch [![0, 0], ![1, 1], (![2, 1] : Fin 2 → ℝ)])] = [![0, 0], ![1, 1], ![2, 1]] := rfl
  have h := C15_batch (ι := Fin 2) (K := ℝ) false [Call.partialFit (.batch [![0, 0], ![1, 1], ![2, 1]])] (by rw [hu]; simp)
  have e : covOf [![0, 0], ![1, 1], (![2, 1] : Fin 2 → ℝ)] = !![2 / 3, 1 / 3; 1 / 3, 2 / 9] := by
    ext i j
    fin_cases i <;> fin_cases j <;> simp [covOf, meanOf] <;> norm_num
  refine ⟨_, h.2.1, ?_, ?_⟩
  · rw [hu, e]
    refine ⟨fun i j => by fin_cases i <;> fin_cases j <;> rfl, fun x hx => ?_⟩
    rw [quad_expand]
    simp only [Fin.sum_univ_two, Matrix.of_apply, cons_val', cons_val_zero, cons_val_one, cons_val_fin_one]
    have hq : x 0 * (2 / 3) * x 0 + x 0 * (1 / 3) * x 1 + (x 1 * (1 / 3) * x 0 + x 1 * (2 / 9) * x 1) = 2 / 3 * (x 0 + x 1 / 2) ^ 2 + 1 / 18 * x 1 ^ 2 := by ring
    rw [hq]
    by_contra hn
    have h1 : x 1 ^ 2 = 0 := by nlinarith [sq_nonneg (x 0 + x 1 / 2), sq_nonneg (x 1)]
    have h2 : (x 0 + x 1 / 2) ^ 2 = 0 := by nlinarith [sq_nonneg (x 0 + x 1 / 2), sq_nonneg (x 1)]
    have h3 : x 1 = 0 := pow_eq_zero_iff (by norm_num) |>.1 h1
    have h4 : x 0 + x 1 / 2 = 0 := pow_eq_zero_iff (by norm_num) |>.1 h2
    refine hx (funext fun i => ?_)
    fin_cases i
    · show x 0 = 0; rw [h3] at h4; linarith
    · exact h3
  · rw [hu, e]; norm_num

end Precise
