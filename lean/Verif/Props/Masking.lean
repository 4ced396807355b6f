import Verif.Props.Score
import Verif.Props.Linalg
import Verif.Props.Emp
import Verif.Props.Ewa
import Verif.Props.Shrinkage
import Verif.Props.Location
import Verif.Props.Diagonal
import Verif.Props.Schur
import Mathlib.LinearAlgebra.Trace
import Mathlib.LinearAlgebra.Matrix.Rank

/-!
# C96: the distance of an observation the estimator has already seen

`mahalanobis` of the data an estimator was fitted on: it averages to the rank of the covariance, and no single row, however extreme, can
be further away than a bound that depends on the number of rows (or the rate) alone. An outlier test has to be made before the row is fed.
-/

set_option linter.all false

open Matrix

namespace Precise

open Spec Obj

variable {ι : Type} [Fintype ι] [DecidableEq ι] (L : Lapack)

/-- If `c` is at least `a u uᵀ` then `uᵀ c⁺ u ≤ 1/a`: no invertibility is needed. -/
theorem quad_pinv_le {c p : Matrix ι ι ℝ} (hs : Symm c) (hp : IsPinv c p) {a : ℝ} (ha : 0 < a) {u : ι → ℝ}
    (h : Loewner (a • outer u u) c) : quad p u ≤ 1 / a := by
  have hsp := IsPinv.symm hs hp
  have h1 := h (p *ᵥ u)
  rw [quad_smul, quad_outer] at h1
  have h2 : u ⬝ᵥ p *ᵥ u = quad p u := rfl
  have h3 : quad c (p *ᵥ u) = quad p u := by
    unfold quad
    rw [Matrix.mulVec_mulVec, Matrix.dotProduct_mulVec, Matrix.vecMul_mulVec, ← Matrix.dotProduct_mulVec, hsp.transpose,
      ← Matrix.mul_assoc, hp.2.1]
  rw [h2, h3] at h1
  rw [le_div_iff₀ ha]
  by_contra hc
  have hq : 0 < quad p u := by
    by_contra h0
    exact hc (by nlinarith)
  nlinarith

/-- The trace of `p c` for a Moore-Penrose inverse `p` of `c` is the rank of `c`. -/
theorem trace_pinv_mul {c p : Matrix ι ι ℝ} (hp : IsPinv c p) : (p * c).trace = (c.rank : ℝ) := by
  have hpc : (p * c) * (p * c) = p * c := by rw [← Matrix.mul_assoc, hp.2.1]
  have hid : IsIdempotentElem (Matrix.toLin' (p * c)) := by
    show Matrix.toLin' (p * c) ∘ₗ Matrix.toLin' (p * c) = _
    rw [← Matrix.toLin'_mul, hpc]
  have ht := (LinearMap.IsIdempotentElem.isProj_range _ hid).trace
  rw [Matrix.trace_toLin'_eq] at ht
  rw [ht]
  have hr : (p * c).rank = c.rank := le_antisymm (Matrix.rank_mul_le_right p c) (by
    calc c.rank = (c * (p * c)).rank := by rw [← Matrix.mul_assoc, hp.1]
      _ ≤ _ := Matrix.rank_mul_le_right _ _)
  rw [← hr]
  rfl

/-- The distances of rows from an object's own attributes. -/
theorem maha_eq {C : Cls ι ℝ} (o : Obj C) (c : Matrix ι ι ℝ) (m : ι → ℝ) (hc : o.covariance = .ok c) (hm : o.location = .ok m)
    (rows : List (ι → ℝ)) : o.mahalanobis L (.batch rows) = .ok (rows.map fun x => quad (tryInvert L c) (x - m)) := by
  simp [Obj.mahalanobis, asRows, Obj.precision, hc, hm, Except.map, bind, Except.bind, pure, Except.pure, mahaRow_eq]

/-! ## EmpiricalCovariance -/

/-- C96: after any calls, the distances of the `n` observations used sum to `n` times the rank of `covariance_` (`n p` when it is
invertible). -/
theorem C96_average (d : Bool) (calls : List (Call ι ℝ)) (h : used d calls ≠ []) :
    ∃ (c : Matrix ι ι ℝ) (ds : List ℝ), ((new (empiricalCls ι ℝ) d).run calls).covariance = .ok c ∧
      ((new (empiricalCls ι ℝ) d).run calls).mahalanobis L (.batch (used d calls)) = .ok ds ∧
      ds.sum = ((used d calls).length : ℝ) * (c.rank : ℝ) ∧
      (c.det ≠ 0 → ds.sum = ((used d calls).length : ℝ) * (Fintype.card ι : ℝ)) := by
  obtain ⟨hm, hc, -⟩ := C15_batch d calls h
  refine ⟨_, _, hc, maha_eq L _ _ _ hc hm _, ?_⟩
  have hs : Symm (covOf (used d calls)) := C10_symmetric _ _ hc
  have hsum : (List.map (fun x => quad (tryInvert L (covOf (used d calls))) (x - meanOf (used d calls))) (used d calls)).sum
      = ((used d calls).length : ℝ) * ((covOf (used d calls)).rank : ℝ) := by
    rw [mean_quad _ (tryInvert_symm L hs) _ _ h, sub_self, show quad (tryInvert L (covOf (used d calls))) 0 = 0 by simp [quad], add_zero, trace_pinv_mul (tryInvert_pinv L hs)]
  refine ⟨hsum, fun hd => ?_⟩
  rw [hsum, Matrix.rank_of_isUnit _ ((Matrix.isUnit_iff_isUnit_det _).2 (isUnit_iff_ne_zero.2 hd))]

/-- `n cov ⪰ n/(n-1) u uᵀ` for the deviation `u` of any row from the mean. -/
theorem loewner_row (xs : List (ι → ℝ)) (x : ι → ℝ) (hx : x ∈ xs) (h2 : 2 ≤ xs.length) :
    Loewner ((1 / ((xs.length : ℝ) - 1)) • outer (x - meanOf xs) (x - meanOf xs)) (covOf xs) := by
  intro y
  have hn : (2:ℝ) ≤ (xs.length : ℝ) := by exact_mod_cast h2
  rw [quad_smul, quad_outer, quad_covOf]
  obtain ⟨s, t, rfl⟩ := List.append_of_mem hx
  set m := meanOf (s ++ x :: t) with hm
  set n : ℝ := ((s ++ x :: t).length : ℝ) with hnn
  have hne : n ≠ 0 := by positivity
  -- the deviations along `y` sum to zero
  have hz : ((s ++ x :: t).map fun z => y ⬝ᵥ (z - m)).sum = 0 := by
    have h1 : ((s ++ x :: t).map fun z => y ⬝ᵥ (z - m)).sum = ∑ i, y i * (((s ++ x :: t).map fun z => z i).sum - n * m i) := by
      simp only [dotProduct]
      rw [list_sum_finset]
      refine Finset.sum_congr rfl fun i _ => ?_
      simp only [Pi.sub_apply]
      rw [sum_map_mul_left']
      congr 1
      rw [hnn]
      generalize s ++ x :: t = l
      induction l with
      | nil => simp
      | cons a l ih => simp only [List.map_cons, List.sum_cons, List.length_cons, ih]; push_cast; ring
    rw [h1]
    refine Finset.sum_eq_zero fun i _ => ?_
    have : n * m i = ((s ++ x :: t).map fun z => z i).sum := by rw [hm, meanOf]; field_simp; rw [hnn]; ring
    rw [this, sub_self, mul_zero]
  set f : (ι → ℝ) → ℝ := fun z => y ⬝ᵥ (z - m) with hf
  have hcs : ∀ l : List (ι → ℝ), (l.map f).sum ^ 2 ≤ (l.length : ℝ) * (l.map fun z => f z * f z).sum := by
    intro l
    induction l with
    | nil => simp
    | cons a l ih =>
      simp only [List.map_cons, List.sum_cons, List.length_cons, Nat.cast_add, Nat.cast_one]
      rcases Nat.eq_zero_or_pos l.length with h0 | h0
      · rw [List.length_eq_zero_iff.1 h0]; simp; nlinarith
      · have hl : (1:ℝ) ≤ (l.length : ℝ) := by exact_mod_cast h0
        set S := (l.map f).sum
        set Q := (l.map fun z => f z * f z).sum
        have hq : S ^ 2 / (l.length : ℝ) ≤ Q := by rw [div_le_iff₀ (by linarith)]; linarith
        have e : 0 ≤ ((l.length : ℝ) * f a - S) ^ 2 / (l.length : ℝ) := by positivity
        have e2 : ((l.length : ℝ) * f a - S) ^ 2 / (l.length : ℝ) = (l.length : ℝ) * (f a * f a) - 2 * f a * S + S ^ 2 / (l.length : ℝ) := by
          field_simp; ring
        nlinarith
  have hrest := hcs (s ++ t)
  simp only [List.map_append, List.sum_append, List.map_cons, List.sum_cons, List.length_append] at hz hrest ⊢
  have hl : n = (s.length : ℝ) + (t.length : ℝ) + 1 := by rw [hnn]; simp; ring
  have hr : (s.map f).sum + (t.map f).sum = - f x := by linarith
  rw [hr] at hrest
  push_cast at hrest
  have hk : (s.length : ℝ) + (t.length : ℝ) = n - 1 := by linarith
  rw [hk] at hrest
  have hc : (x - m) ⬝ᵥ y = f x := by rw [hf, dotProduct_comm]
  rw [hc]
  have hn1 : 0 < n - 1 := by linarith
  rw [le_div_iff₀ (by linarith)]
  set Q := (s.map fun z => f z * f z).sum + (t.map fun z => f z * f z).sum with hQ
  have hq : f x ^ 2 / (n - 1) ≤ Q := by rw [div_le_iff₀ hn1]; nlinarith
  have goal : 1 / (n - 1) * (f x * f x) * n ≤ f x * f x + Q := by
    have : 1 / (n - 1) * (f x * f x) * n = f x * f x + f x ^ 2 / (n - 1) := by field_simp; ring
    rw [this]; linarith
  have e3 : (List.map (fun x => f x * f x) s).sum + (f x * f x + (List.map (fun x => f x * f x) t).sum) = f x * f x + Q := by rw [hQ]; ring
  linarith

/-- C96: after any calls that used at least two observations, no observation used is at a (squared) distance above `n - 1`,
however extreme it is and whether or not the covariance is invertible. -/
theorem C96_max (d : Bool) (calls : List (Call ι ℝ)) (h : 2 ≤ (used d calls).length) :
    ∃ ds, ((new (empiricalCls ι ℝ) d).run calls).mahalanobis L (.batch (used d calls)) = .ok ds ∧ ds.length = (used d calls).length ∧
      ∀ q ∈ ds, q ≤ ((used d calls).length : ℝ) - 1 := by
  have hne : used d calls ≠ [] := by intro e; rw [e] at h; simp at h
  obtain ⟨hm, hc, -⟩ := C15_batch d calls hne
  refine ⟨_, maha_eq L _ _ _ hc hm _, by simp, fun q hq => ?_⟩
  obtain ⟨x, hx, rfl⟩ := List.mem_map.1 hq
  have hs : Symm (covOf (used d calls)) := C10_symmetric _ _ hc
  have hn : (2:ℝ) ≤ ((used d calls).length : ℝ) := by exact_mod_cast h
  have := quad_pinv_le hs (tryInvert_pinv L hs) (by have : 0 < ((used d calls).length : ℝ) - 1 := by linarith
                                                    positivity) (loewner_row _ x hx h)
  simpa using this

theorem tryInvert_one {c : Matrix (Fin 1) (Fin 1) ℝ} (hc : c 0 0 ≠ 0) (u : Fin 1 → ℝ) : quad (tryInvert L c) u = u 0 ^ 2 / c 0 0 := by
  have hs : Symm c := fun i j => by rw [Subsingleton.elim i j]
  have h := congrFun (congrFun (tryInvert_pinv L hs).1 0) 0
  rw [mul_apply, Fin.sum_univ_one, mul_apply, Fin.sum_univ_one] at h
  have e : tryInvert L c 0 0 = 1 / c 0 0 := by
    have : c 0 0 * (c 0 0 * tryInvert L c 0 0 - 1) = 0 := by linarith
    rcases mul_eq_zero.1 this with h0 | h0
    · exact absurd h0 hc
    · field_simp; linarith
  rw [quad_expand, Fin.sum_univ_one, Fin.sum_univ_one, e]; ring

/-- C96: `n - 1` is attained: after `n ≥ 1` zeros, any non-zero number is at distance exactly `n` from an estimate that includes it. -/
theorem C96_max_sharp (n : ℕ) (hn : 1 ≤ n) (v : ℝ) (hv : v ≠ 0) :
    ((new (empiricalCls (Fin 1) ℝ) false).run [.partialFit (.batch (List.replicate n 0 ++ [fun _ => v]))]).mahalanobis L (.row fun _ => v)
      = .ok [(n : ℝ)] := by
  set rows : List (Fin 1 → ℝ) := List.replicate n 0 ++ [fun _ => v] with hrows
  have hu : used false [Call.partialFit (Input.batch rows)] = rows := by simp [used, effective, rowsSinceFit, rowsOf]
  obtain ⟨hm, hc, -⟩ := C15_batch false [Call.partialFit (Input.batch rows)] (by rw [hu]; simp [hrows])
  rw [hu] at hm hc
  have hn1 : (0:ℝ) < (n : ℝ) := by exact_mod_cast hn
  have hn2 : ((n : ℝ) + 1) ≠ 0 := by positivity
  have em : meanOf rows 0 = v / ((n : ℝ) + 1) := by simp [meanOf, hrows]
  have ec : covOf rows 0 0 = (n : ℝ) * v ^ 2 / ((n : ℝ) + 1) ^ 2 := by
    have : covOf rows 0 0 = (rows.map fun x => (x 0 - meanOf rows 0) * (x 0 - meanOf rows 0)).sum / (rows.length : ℝ) := rfl
    rw [this, em]
    simp [hrows]
    field_simp
    ring
  have hrow : ((new (empiricalCls (Fin 1) ℝ) false).run [.partialFit (.batch rows)]).mahalanobis L (.row fun _ => v)
      = ((new (empiricalCls (Fin 1) ℝ) false).run [.partialFit (.batch rows)]).mahalanobis L (.batch [fun _ => v]) := rfl
  rw [hrow, maha_eq L _ _ _ hc hm]
  simp only [List.map_cons, List.map_nil]
  rw [tryInvert_one L (by rw [ec]; positivity), ec, Pi.sub_apply, em]
  congr 2
  field_simp
  ring

/-- C96: the score of EmpiricalCovariance on its own data is `-(log det + p + p log 2π)/2`. -/
theorem C96_own_score (d : Bool) (calls : List (Call ι ℝ)) (h : used d calls ≠ []) (c : Matrix ι ι ℝ)
    (hc : ((new (empiricalCls ι ℝ) d).run calls).covariance = .ok c) (hpd : PD c) :
    ((new (empiricalCls ι ℝ) d).run calls).score L (.batch (used d calls))
      = .ok ((-(1/2) * (Real.log c.det + (Fintype.card ι : ℝ) + (Fintype.card ι : ℝ) * Real.log (2 * Real.pi)) : ℝ) : WithBot ℝ) := by
  obtain ⟨hm, hc', -⟩ := C15_batch d calls h
  have e : covOf (used d calls) = c := by rw [hc'] at hc; exact Except.ok.inj hc
  rw [C14_score_is_loglik L _ c _ hc hm hpd, meanLogLik_eq _ hpd _ h, e, sub_self, quad_zero_right, add_zero,
    Matrix.nonsing_inv_mul _ (isUnit_iff_ne_zero.2 hpd.det_pos.ne'), Matrix.trace_one]
  congr 2
  ring

/-! ## Exponential weights -/

/-- After the burn-in: what the last observation does to location and covariance. -/
theorem ewa_last {r : ℝ} (h0 : 0 ≤ r) (h1 : r ≤ 1) (xs : List (ι → ℝ)) (x : ι → ℝ) (hb : ewaBurnN r ≤ xs.length) :
    x - (ewaFold r (xs ++ [x])).mean = (1 - r) • (x - (ewaFold r xs).mean) ∧
    (ewaFold r (xs ++ [x])).cov = (1 - r) • (ewaFold r xs).cov + r • outer (x - (ewaFold r xs).mean) (x - (ewaFold r xs).mean) := by
  have e := ewaUpdate_post (s := ewaFold r xs) (by rw [ewaFold_nBurn, ewaFold_n]; exact hb) x
  rw [← ewaFold_snoc] at e
  have em : (ewaFold r (xs ++ [x])).mean = (ewaBlend (ewaFold r xs).r (ewaFold r xs).toEmpState x).mean := congrArg EmpState.mean e
  have ec : (ewaFold r (xs ++ [x])).cov = (ewaBlend (ewaFold r xs).r (ewaFold r xs).toEmpState x).cov := congrArg EmpState.cov e
  rw [em, ec, ewaFold_r]
  constructor
  · ext i; simp [ewaBlend]; ring
  · ext i j; simp [ewaBlend, outer]; try ring

theorem loewner_ewa_last {r : ℝ} (h0 : 0 ≤ r) (h1 : r ≤ 1) (xs : List (ι → ℝ)) (x : ι → ℝ) (hb : ewaBurnN r ≤ xs.length) :
    Loewner (r • outer (x - (ewaFold r xs).mean) (x - (ewaFold r xs).mean)) (ewaFold r (xs ++ [x])).cov := by
  intro y
  rw [(ewa_last h0 h1 xs x hb).2, quad_add, quad_smul _ (ewaFold r xs).cov]
  have hp : PSD (ewaFold r xs).cov := ewaFold_psd h0 h1 xs
  have := mul_nonneg (sub_nonneg.2 h1) (hp.2 y)
  linarith

/-- The distance of a row just fed, given that the covariance is at least `a` times its innovation's outer product. -/
theorem last_le {r a : ℝ} (ha : 0 < a) {c : Matrix ι ι ℝ} (hs : Symm c) (x δ m : ι → ℝ) (hd : x - m = (1 - r) • δ) (h : Loewner (a • outer δ δ) c) :
    quad (tryInvert L c) (x - m) ≤ (1 - r) ^ 2 / a := by
  have hq := quad_pinv_le hs (tryInvert_pinv L hs) ha h
  have e : quad (tryInvert L c) ((1 - r) • δ) = (1 - r) ^ 2 * quad (tryInvert L c) δ := by
    unfold quad; rw [Matrix.mulVec_smul, smul_dotProduct, dotProduct_smul, smul_eq_mul, smul_eq_mul]; ring
  rw [hd, e]
  have := mul_le_mul_of_nonneg_left hq (sq_nonneg (1 - r))
  calc _ ≤ _ := this
    _ = _ := by ring

/-- C96: EwaCovariance after the burn-in: the observation just fed is at a (squared) distance of at most `(1-r)²/r`, whatever it is. With
the default rate 0.05 that is 18.05. -/
theorem C96_ewa_last (p : RParam ℝ) (h0 : 0 < p.r) (h1 : p.r ≤ 1) (calls : List (Call ι ℝ)) (xs : List (ι → ℝ)) (x : ι → ℝ)
    (hu : used p.diff calls = xs ++ [x]) (hb : ewaBurnN p.r ≤ xs.length) :
    ∃ q, ((new (ewaCls ι ℝ) p).run calls).mahalanobis L (.row x) = .ok [q] ∧ q ≤ (1 - p.r) ^ 2 / p.r := by
  obtain ⟨hm, hc⟩ := ewa_attrs p calls (by rw [hu]; simp)
  have hrow : ((new (ewaCls ι ℝ) p).run calls).mahalanobis L (.row x) = ((new (ewaCls ι ℝ) p).run calls).mahalanobis L (.batch [x]) := rfl
  refine ⟨_, by rw [hrow, maha_eq L _ _ _ hc hm]; rfl, ?_⟩
  have hs : Symm (ewaFold p.r (used p.diff calls)).cov := C10_symmetric _ _ hc
  rw [hu] at hs ⊢
  exact last_le L h0 hs x _ _ (ewa_last h0.le h1 xs x hb).1 (loewner_ewa_last h0.le h1 xs x hb)

/-- C96: the bound is attained by every outlier after a constant stream: its size does not matter. -/
theorem C96_ewa_last_sharp (r : ℝ) (h0 : 0 < r) (h1 : r ≤ 1) (v : ℝ) (hv : v ≠ 0) :
    ((new (ewaCls (Fin 1) ℝ) ⟨r, false⟩).run [.partialFit (.batch (List.replicate (ewaBurnN r) 0 ++ [fun _ => v]))]).mahalanobis L (.row fun _ => v)
      = .ok [(1 - r) ^ 2 / r] := by
  set xs : List (Fin 1 → ℝ) := List.replicate (ewaBurnN r) 0 with hxs
  have hu : used false [Call.partialFit (Input.batch (xs ++ [fun _ => v]))] = xs ++ [fun _ => v] := by simp [used, effective, rowsSinceFit, rowsOf]
  obtain ⟨hm, hc⟩ := ewa_attrs (⟨r, false⟩ : RParam ℝ) [.partialFit (.batch (xs ++ [fun _ => v]))] (by show used false _ ≠ []; rw [hu]; simp)
  have hl : xs.length = ewaBurnN r := by simp [hxs]
  have hne : xs ≠ [] := by
    intro e
    rw [e] at hl
    have := (C19_burn_length r h0).2.2.1
    simp at hl; omega
  change _ = Except.ok (ewaFold r (used false _)).mean at hm
  change _ = Except.ok (ewaFold r (used false _)).cov at hc
  rw [hu] at hm hc
  have hbase := ewaFold_burn r xs hl.le
  have em : (ewaFold r xs).mean 0 = 0 := by
    have : (ewaFold r xs).mean = (empFold xs).mean := congrArg EmpState.mean hbase
    rw [this, empFold_mean hne]; simp [meanOf, hxs]
  have ec : (ewaFold r xs).cov 0 0 = 0 := by
    have : (ewaFold r xs).cov = (empFold xs).cov := congrArg EmpState.cov hbase
    rw [this, empFold_cov hne]; simp [covOf, meanOf, hxs]
  obtain ⟨e1, e2⟩ := ewa_last h0.le h1 xs (fun _ => v) hl.ge
  have hrow : ((new (ewaCls (Fin 1) ℝ) ⟨r, false⟩).run [.partialFit (.batch (xs ++ [fun _ => v]))]).mahalanobis L (.row fun _ => v)
      = ((new (ewaCls (Fin 1) ℝ) ⟨r, false⟩).run [.partialFit (.batch (xs ++ [fun _ => v]))]).mahalanobis L (.batch [fun _ => v]) := rfl
  have e3 : (ewaFold r (xs ++ [fun _ => v])).cov 0 0 = r * v ^ 2 := by
    rw [e2]; simp only [Matrix.add_apply, Matrix.smul_apply, smul_eq_mul, outer, of_apply, Pi.sub_apply, ec, em]; ring
  rw [hrow, maha_eq L _ _ _ hc hm]
  simp only [List.map_cons, List.map_nil]
  rw [tryInvert_one L (by rw [e3]; positivity), e3, e1]
  simp [em]
  field_simp

/-- C96: LedoitWolfCovariance and OASCovariance on `p` variables after the burn-in: at most `p (1-r)²/r`. -/
theorem C96_shrinkage_last [Nonempty ι] (p : RParam ℝ) (h0 : 0 < p.r) (h1 : p.r ≤ 1) (calls : List (Call ι ℝ)) (xs : List (ι → ℝ)) (x : ι → ℝ)
    (hu : used p.diff calls = xs ++ [x]) (hb : ewaBurnN p.r ≤ xs.length) :
    (∃ q, ((new (ledoitWolfCls ι ℝ) p).run calls).mahalanobis L (.row x) = .ok [q] ∧ q ≤ (Fintype.card ι : ℝ) * (1 - p.r) ^ 2 / p.r) ∧
    (∃ q, ((new (oasCls ι ℝ) p).run calls).mahalanobis L (.row x) = .ok [q] ∧ q ≤ (Fintype.card ι : ℝ) * (1 - p.r) ^ 2 / p.r) := by
  have hne : used p.diff calls ≠ [] := by rw [hu]; simp
  obtain ⟨hm, hS⟩ := ewa_attrs p calls hne
  obtain ⟨_, l1, l2⟩ := C22_same_location p calls
  obtain ⟨c1, hc1⟩ := run_cov_ok (ledoitWolf_lawful ι ℝ) p calls hne
  obtain ⟨c2, hc2⟩ := run_cov_ok (oas_lawful ι ℝ) p calls hne
  have hq : (0:ℝ) < (Fintype.card ι : ℝ) := by exact_mod_cast Fintype.card_pos
  have hq1 : (1:ℝ) ≤ (Fintype.card ι : ℝ) := by exact_mod_cast Fintype.card_pos
  have hpsd : PSD (ewaFold p.r (used p.diff calls)).cov := ewaFold_psd h0.le h1 _
  have key : ∀ (c : Matrix ι ι ℝ) (a : ℝ), 0 ≤ a → a ≤ 1 → Symm c →
      c = (1 - a) • (ewaFold p.r (used p.diff calls)).cov + (a * ((ewaFold p.r (used p.diff calls)).cov.trace / (Fintype.card ι : ℝ))) • 1 →
      quad (tryInvert L c) (x - (ewaFold p.r (used p.diff calls)).mean) ≤ (Fintype.card ι : ℝ) * (1 - p.r) ^ 2 / p.r := by
    intro c a a0 a1 hs hc
    have hL : Loewner ((p.r / (Fintype.card ι : ℝ)) • outer (x - (ewaFold p.r xs).mean) (x - (ewaFold p.r xs).mean)) c := by
      intro y
      set δ := x - (ewaFold p.r xs).mean with hδ
      have hS' := loewner_ewa_last h0.le h1 xs x hb
      rw [← hu] at hS'
      have s1 := hS' y
      rw [quad_smul, quad_outer] at s1
      have tr : p.r * (δ ⬝ᵥ δ) ≤ (ewaFold p.r (used p.diff calls)).cov.trace := by
        unfold Matrix.trace dotProduct
        rw [Finset.mul_sum]
        refine Finset.sum_le_sum fun i _ => ?_
        have := hS' (Pi.single i 1)
        rw [quad_smul, quad_single, quad_single] at this
        exact this
      have cs : (δ ⬝ᵥ y) * (δ ⬝ᵥ y) ≤ (δ ⬝ᵥ δ) * (y ⬝ᵥ y) := by
        have := Finset.sum_mul_sq_le_sq_mul_sq Finset.univ δ y
        simp only [dotProduct]
        simpa only [pow_two] using this
      rw [hc, quad_smul, quad_outer, quad_add, quad_smul, quad_smul, quad_one]
      set T := (ewaFold p.r (used p.diff calls)).cov.trace
      set Q := quad (ewaFold p.r (used p.diff calls)).cov y
      have hny : normSq y = y ⬝ᵥ y := by simp [normSq, dotProduct]
      rw [hny]
      have hyy : 0 ≤ y ⬝ᵥ y := by simp only [dotProduct]; exact Finset.sum_nonneg fun i _ => mul_self_nonneg _
      have b1 : p.r / (Fintype.card ι : ℝ) * ((δ ⬝ᵥ y) * (δ ⬝ᵥ y)) ≤ Q := by
        refine le_trans ?_ s1
        exact mul_le_mul_of_nonneg_right (div_le_self h0.le hq1) (mul_self_nonneg _)
      have b2 : p.r / (Fintype.card ι : ℝ) * ((δ ⬝ᵥ y) * (δ ⬝ᵥ y)) ≤ T / (Fintype.card ι : ℝ) * (y ⬝ᵥ y) := by
        rw [div_mul_eq_mul_div, div_mul_eq_mul_div]
        refine div_le_div_of_nonneg_right ?_ hq.le
        calc p.r * ((δ ⬝ᵥ y) * (δ ⬝ᵥ y)) ≤ p.r * ((δ ⬝ᵥ δ) * (y ⬝ᵥ y)) := mul_le_mul_of_nonneg_left cs h0.le
          _ = p.r * (δ ⬝ᵥ δ) * (y ⬝ᵥ y) := by ring
          _ ≤ _ := mul_le_mul_of_nonneg_right tr hyy
      have b3 := mul_le_mul_of_nonneg_left b1 (sub_nonneg.2 a1)
      have b4 := mul_le_mul_of_nonneg_left b2 a0
      nlinarith
    have hx : x - (ewaFold p.r (used p.diff calls)).mean = (1 - p.r) • (x - (ewaFold p.r xs).mean) := by
      rw [hu]; exact (ewa_last h0.le h1 xs x hb).1
    have := last_le L (by positivity) hs x _ _ hx hL
    calc _ ≤ _ := this
      _ = _ := by field_simp
  constructor
  · obtain ⟨a, a0, a1, e, _⟩ := C27_convex p h0.le h1 calls c1 _ hc1 hS
    have hrow : ((new (ledoitWolfCls ι ℝ) p).run calls).mahalanobis L (.row x) = ((new (ledoitWolfCls ι ℝ) p).run calls).mahalanobis L (.batch [x]) := rfl
    exact ⟨_, by rw [hrow, maha_eq L _ _ _ hc1 (l1.trans hm)]; rfl, key c1 a a0 a1 (C10_symmetric _ _ hc1) e⟩
  · obtain ⟨_, a0, a1, e, _⟩ := C28_intensity p h0 h1 calls c2 _ hc2 hS
    have hrow : ((new (oasCls ι ℝ) p).run calls).mahalanobis L (.row x) = ((new (oasCls ι ℝ) p).run calls).mahalanobis L (.batch [x]) := rfl
    exact ⟨_, by rw [hrow, maha_eq L _ _ _ hc2 (l2.trans hm)]; rfl, key c2 _ a0 a1 (C10_symmetric _ _ hc2) e⟩

/-! ## Non-vacuity -/

section Examples

-- four rows of two variables with an invertible covariance: the distances sum to 8 and none exceeds 3
example : ∃ ds, ((new (empiricalCls (Fin 2) ℝ) false).run [.partialFit (.batch demoRows)]).mahalanobis L (.batch demoRows) = .ok ds ∧
    ds.sum = 8 ∧ ∀ q ∈ ds, q ≤ 3 := by
  have hne : used false [Call.partialFit (.batch demoRows)] ≠ [] := by rw [demo_used]; simp [demoRows]
  obtain ⟨c, ds, hc, hds, _, hsum⟩ := C96_average L false [Call.partialFit (.batch demoRows)] hne
  obtain ⟨ds', hds', _, hmax⟩ := C96_max L false [Call.partialFit (.batch demoRows)] (by rw [demo_used]; simp [demoRows])
  rw [hds] at hds'
  cases hds'
  have ec : c = !![2, 1; 1, 1] := by
    have h := (C15_batch false [Call.partialFit (.batch demoRows)] hne).2.1
    rw [h, demo_used] at hc
    cases hc
    ext i j
    fin_cases i <;> fin_cases j <;> simp [covOf, meanOf, demoRows] <;> norm_num
  rw [demo_used] at hds hsum hmax
  refine ⟨ds, hds, ?_, fun q hq => (hmax q hq).trans (by simp [demoRows]; norm_num)⟩
  rw [hsum (by rw [ec]; simp [det_fin_two]; norm_num)]
  simp [demoRows]; norm_num

-- six rows with `r = 1/2` are past the burn-in of 5: the sixth is at distance at most 1/2
example (x : Fin 2 → ℝ) : ∃ q, ((new (ewaCls (Fin 2) ℝ) ⟨1/2, false⟩).run [.partialFit (.batch ((demoRows ++ [![1, 1]]) ++ [x]))]).mahalanobis L (.row x) = .ok [q] ∧
    q ≤ 1 / 2 := by
  have hb : ewaBurnN (1/2:ℝ) = 5 := by
    have : ⌈(1:ℝ) / (1/2)⌉ = 2 := by norm_num
    unfold ewaBurnN; rw [this]; rfl
  obtain ⟨q, h1, h2⟩ := C96_ewa_last L (⟨1/2, false⟩ : RParam ℝ) (by norm_num) (by norm_num) [.partialFit (.batch ((demoRows ++ [![1, 1]]) ++ [x]))]
    (demoRows ++ [![1, 1]]) x (by simp [used, effective, rowsSinceFit, rowsOf]) (by rw [hb]; simp [demoRows])
  exact ⟨q, h1, h2.trans (by norm_num)⟩

end Examples

end Precise
