import Verif.Props.Relabel
import Verif.Props.Dynamic
import Verif.Props.Schur

/-!
# C65 (change of origin for the block estimators), C66 (the block estimators do depend on the column order) and
C67 (where the symmetries stop: the first observation, and the absolute floor of `make_pos_def`)
-/

set_option linter.all false

open Matrix

namespace Precise

open Spec Obj

/-! ## C65: translations of the block estimators -/

section Shift
variable {ι : Type} [Fintype ι] [DecidableEq ι]

theorem affine_one (b x : ι → ℝ) : affine (1 : Matrix ι ι ℝ) b x = x + b := by
  ext i; simp [affine]

theorem used_shift (d : Bool) (b : ι → ℝ) (calls : List (Call ι ℝ)) :
    used d (calls.map (mapCall fun x => x + b)) = (used d calls).map (fun x => x + offset d b) := by
  have := used_affine d (1 : Matrix ι ι ℝ) b calls
  have e : ∀ c : ι → ℝ, affine (1 : Matrix ι ι ℝ) c = fun x => x + c := fun c => funext fun x => affine_one c x
  rwa [e, e] at this

variable {b : ι → ℝ} {s t : EwaState ι ℝ}

theorem EwaRel.cov_one (h : EwaRel (1 : Matrix ι ι ℝ) b s t) : t.cov = s.cov := by
  rw [h.cov]; simp

theorem EwaRel.mean_one (h : EwaRel (1 : Matrix ι ι ℝ) b s t) (h0 : 0 < s.nSamples) : t.mean = s.mean + b := by
  rw [h.mean h0, affine_one]

theorem EwaRel.update_one (h : EwaRel (1 : Matrix ι ι ℝ) b s t) (x : ι → ℝ) : EwaRel (1 : Matrix ι ι ℝ) b (ewaUpdate s x) (ewaUpdate t (x + b)) := by
  have := h.update x; rwa [affine_one] at this

end Shift

section Blocks
variable (L : Lapack) {p : ℕ} (b : Fin p → ℝ)

/-- C65: SchurCovariance does not depend on the origin of the data. -/
theorem C65_schur_translation (pr : SchurParam) :
    Transports (schurCls L p) (schurCls L p) pr pr (fun x => x + b) (fun m => m + offset pr.diff b) id := by
  refine transports_of_sim (schur_lawful L p) (schur_lawful L p) rfl (fun calls => used_shift pr.diff b calls)
    (EwaRel (1 : Matrix (Fin p) (Fin p) ℝ) (offset pr.diff b)) (ewaRel_init pr.r) (fun s t x h => h.update_one x)
    (fun s t h h0 => h.mean_one h0) ?_
  intro (s : EwaState (Fin p) ℝ) (t : EwaState (Fin p) ℝ) h h0
  show toSymmetric (schurCov L pr t) = toSymmetric (schurCov L pr s)
  unfold schurCov
  rw [h.cov_one]

/-- C65: SchurLedoitWolfCovariance does not depend on the origin of the data; neither does `gamma_`. -/
theorem C65_schurLW_translation (pr : BlockParam) :
    Transports (schurLWCls L p) (schurLWCls L p) pr pr (fun x => x + b) (fun m => m + offset pr.diff b) id := by
  refine transports_of_sim (schurLW_lawful L p) (schurLW_lawful L p) rfl (fun calls => used_shift pr.diff b calls)
    (fun (s : SLWState (Fin p)) (t : SLWState (Fin p)) =>
      EwaRel (1 : Matrix (Fin p) (Fin p) ℝ) (offset pr.diff b) s.toEwaState t.toEwaState ∧ t.piCross = s.piCross)
    ⟨ewaRel_init pr.r, rfl⟩ ?_ (fun s t h h0 => h.1.mean_one h0) ?_
  · rintro (s : SLWState (Fin p)) (t : SLWState (Fin p)) x ⟨h, hp⟩
    show EwaRel _ _ (slwUpdate pr s x).toEwaState (slwUpdate pr t _).toEwaState ∧ (slwUpdate pr t _).piCross = (slwUpdate pr s x).piCross
    unfold slwUpdate
    by_cases hb : s.nSamples < s.nBurn
    · rw [if_pos hb, if_pos (h.burning.2 hb)]
      have := h.burnStep x
      rw [affine_one] at this
      exact ⟨this, hp⟩
    · rw [if_neg hb, if_neg (mt h.burning.1 hb)]
      have h1 := h.blend (h.pos hb) s.r x
      rw [affine_one] at h1
      simp only [h.r] at h1
      have hd := h.dev (h.pos hb) x
      rw [affine_one, Matrix.one_mulVec] at hd
      simp only []
      rw [hd, h.cov_one, hp, h.r]
      exact ⟨h1, rfl⟩
  · rintro (s : SLWState (Fin p)) (t : SLWState (Fin p)) ⟨h, hp⟩ _
    show toSymmetric (slwCov L pr t) = toSymmetric (slwCov L pr s)
    unfold slwCov slwGamma
    rw [h.cov_one, hp, h.r]

/-- C65: SchurConditionalCovariance does not depend on the origin of the data: `covariance_` raises for the shifted data
exactly when it raises for the original data, and otherwise has the same value. -/
theorem C65_schurCond_translation (pr : BlockParam) (calls : List (Call (Fin p) ℝ)) :
    scCovariance? L ((new (schurCondCls L p) pr).run (calls.map (mapCall fun x => x + b)))
      = scCovariance? L ((new (schurCondCls L p) pr).run calls) ∧
    ((new (schurCondCls L p) pr).run (calls.map (mapCall fun x => x + b))).location
      = ((new (schurCondCls L p) pr).run calls).location.map (fun m => m + offset pr.diff b) := by
  have R : ∀ xs : List (Fin p → ℝ), EwaRel (1 : Matrix (Fin p) (Fin p) ℝ) (offset pr.diff b) (ewaFold pr.r xs)
      (ewaFold pr.r (xs.map fun x => x + offset pr.diff b)) := by
    intro xs
    induction xs using List.reverseRecOn with
    | nil => exact ewaRel_init pr.r
    | append_singleton xs x ih =>
      simp only [List.map_append, List.map_cons, List.map_nil]
      rw [ewaFold_snoc, ewaFold_snoc]
      exact ih.update_one x
  have hu := used_shift pr.diff b calls
  by_cases hne : used pr.diff calls = []
  · have h1 := run_unfitted (schurCond_lawful L p) pr calls hne
    have h2 := run_unfitted (schurCond_lawful L p) pr (calls.map (mapCall fun x => x + b)) (by
      show used pr.diff _ = []; rw [hu, hne]; rfl)
    refine ⟨?_, by rw [h1.2, h2.2]; rfl⟩
    have f : ∀ cs : List (Call (Fin p) ℝ), used pr.diff cs = [] → scCovariance? L ((new (schurCondCls L p) pr).run cs) = .error .notFitted := by
      intro cs hc
      have h := (run_unfitted (schurCond_lawful L p) pr cs hc).1
      unfold Obj.covariance at h
      unfold scCovariance?
      cases hf : ((new (schurCondCls L p) pr).run cs).fittedState with
      | error e => rw [hf] at h; simpa [Except.map, bind, Except.bind] using h
      | ok s => rw [hf] at h; simp [Except.map, bind, Except.bind, pure, Except.pure] at h
    rw [f _ hne, f _ (by rw [hu, hne]; rfl)]
  · have hne' : used pr.diff (calls.map (mapCall fun x => x + b)) ≠ [] := by rw [hu]; simpa using hne
    have hR := R (used pr.diff calls)
    have hn : 0 < (ewaFold pr.r (used pr.diff calls)).nSamples := by
      rw [ewaFold_n]; exact List.length_pos_iff.2 hne
    constructor
    · unfold scCovariance?
      rw [(sc_attrs L pr calls hne).1, (sc_attrs L pr _ hne').1, (sc_attrs L pr calls hne).2, (sc_attrs L pr _ hne').2, hu]
      have hnn : scNEff (ewaFold pr.r ((used pr.diff calls).map fun x => x + offset pr.diff b)) = scNEff (ewaFold pr.r (used pr.diff calls)) := by
        unfold scNEff; rw [hR.n, hR.r]
      have h1 : scSolvable pr (ewaFold pr.r ((used pr.diff calls).map fun x => x + offset pr.diff b)) = scSolvable pr (ewaFold pr.r (used pr.diff calls)) := by
        unfold scSolvable; rw [hR.cov_one, hnn]
      have h2 : scCov L pr (ewaFold pr.r ((used pr.diff calls).map fun x => x + offset pr.diff b)) = scCov L pr (ewaFold pr.r (used pr.diff calls)) := by
        unfold scCov scGammaOf; rw [hR.cov_one, hnn]
      simp only [h2]
      by_cases hs : scSolvable pr (ewaFold pr.r (used pr.diff calls))
      · rw [if_pos hs, if_pos (h1 ▸ hs)]
      · rw [if_neg hs, if_neg (h1 ▸ hs)]
    · rw [run_location (schurCond_lawful L p) pr calls hne, run_location (schurCond_lawful L p) pr _ hne']
      show Except.ok (ewaFold pr.r (used pr.diff _)).mean = .ok ((ewaFold pr.r (used pr.diff calls)).mean + offset pr.diff b)
      rw [hu, hR.mean_one hn]

/-- C65: BlockCovariance does not depend on the origin of the data. -/
theorem C65_block_translation (hp : 1 ≤ p) (pr : BlockParam) :
    Transports (blockCls L p) (blockCls L p) pr pr (fun x => x + b) (fun m => m + offset pr.diff b) id := by
  have key : ∀ xs : List (Fin p → ℝ), xs ≠ [] →
      (blockCls L p).toMean pr (xs.foldl blockUpdate (blockInit p pr)) = (ewaFold pr.r xs).mean ∧
      toSymmetric ((blockCls L p).toCov pr (xs.foldl blockUpdate (blockInit p pr)))
        = makePosDef L (blockDiag p (nbClamped pr.nBlocks p) (ewaFold pr.r xs).cov) := by
    intro xs hne
    have hu : used false [Call.partialFit (.batch xs)] = xs := by simp [used, effective, rowsSinceFit, rowsOf]
    have a := block_attrs L ⟨pr.r, pr.nBlocks, false⟩ hp [.partialFit (.batch xs)] (by show used false _ ≠ []; rw [hu]; exact hne)
    have b1 := run_location (block_lawful L p) (⟨pr.r, pr.nBlocks, false⟩ : BlockParam) [.partialFit (.batch xs)] (by show used false _ ≠ []; rw [hu]; exact hne)
    have b2 := run_covariance (block_lawful L p) (⟨pr.r, pr.nBlocks, false⟩ : BlockParam) [.partialFit (.batch xs)] (by show used false _ ≠ []; rw [hu]; exact hne)
    have c1 := Except.ok.inj (b1.symm.trans a.1)
    have c2 := Except.ok.inj (b2.symm.trans a.2)
    simp only [show used (blockCls L p |>.diff (⟨pr.r, pr.nBlocks, false⟩ : BlockParam)) [Call.partialFit (.batch xs)] = xs from hu, hu] at c1 c2
    exact ⟨c1, c2⟩
  have R : ∀ xs : List (Fin p → ℝ), EwaRel (1 : Matrix (Fin p) (Fin p) ℝ) (offset pr.diff b) (ewaFold pr.r xs)
      (ewaFold pr.r (xs.map fun x => x + offset pr.diff b)) := by
    intro xs
    induction xs using List.reverseRecOn with
    | nil => exact ewaRel_init pr.r
    | append_singleton xs x ih =>
      simp only [List.map_append, List.map_cons, List.map_nil]
      rw [ewaFold_snoc, ewaFold_snoc]
      exact ih.update_one x
  have pos : ∀ xs : List (Fin p → ℝ), 0 < (blockCls L p).nSamples (xs.foldl blockUpdate (blockInit p pr)) → xs ≠ [] := by
    rintro xs h rfl
    exact absurd h (lt_irrefl 0)
  refine transports_of_sim (block_lawful L p) (block_lawful L p) rfl (fun calls => used_shift pr.diff b calls)
    (fun s t => ∃ xs : List (Fin p → ℝ), s = xs.foldl blockUpdate (blockInit p pr) ∧
      t = (xs.map fun x => x + offset pr.diff b).foldl blockUpdate (blockInit p pr)) ⟨[], rfl, rfl⟩ ?_ ?_ ?_
  · rintro _ _ x ⟨xs, rfl, rfl⟩
    refine ⟨xs ++ [x], ?_, ?_⟩
    · rw [List.foldl_append]; rfl
    · rw [List.map_append, List.foldl_append]; rfl
  · rintro _ _ ⟨xs, rfl, rfl⟩ h0
    have hne := pos xs h0
    refine ((key _ (by simpa using hne)).1).trans (Eq.trans ?_ (congrArg (· + offset pr.diff b) (key xs hne).1.symm))
    exact (R xs).mean_one (by rw [ewaFold_n]; exact List.length_pos_iff.2 hne)
  · rintro _ _ ⟨xs, rfl, rfl⟩ h0
    have hne := pos xs h0
    refine ((key _ (by simpa using hne)).2).trans (Eq.trans ?_ (key xs hne).2.symm)
    rw [(R xs).cov_one]

end Blocks

/-! ## C66: the block estimators depend on the column order -/

section Order
variable (L : Lapack)

/-- four observations of three variables, the third uncorrelated with the first two -/
def orderRows : List (Fin 3 → ℝ) := [![2, 1, 1], ![-2, -1, 1], ![0, 1, -1], ![0, -1, -1]]

theorem order_cov : (ewaFold (1/20) orderRows).cov = !![2, 1, 0; 1, 1, 0; 0, 0, 1] := by
  rw [ewaFold_burn (1/20 : ℝ) orderRows (by have := (C19_burn_length (1/20 : ℝ) (by norm_num)).2.2.1; have e : orderRows.length = 4 := rfl; omega),
    empFold_cov (by simp [orderRows])]
  ext i j
  fin_cases i <;> fin_cases j <;> simp [covOf, meanOf, orderRows] <;> norm_num

/-- C66: BlockCovariance with two blocks of three variables does depend on the order of the columns: after exchanging
columns 1 and 2 the reported covariance is not the original one with these columns exchanged (the pair (0,1) is in one
block before and in two blocks after). -/
theorem C66_block_depends_on_order :
    ¬ Transports (blockCls L 3) (blockCls L 3) (⟨1/20, 2, false⟩ : BlockParam) (⟨1/20, 2, false⟩ : BlockParam)
      (relabelVec (Equiv.swap 1 2)) (relabelVec (Equiv.swap 1 2)) (relabelMat (Equiv.swap 1 2)) := by
  intro h
  have hu : used false [Call.partialFit (.batch orderRows)] = orderRows := by simp [used, effective, rowsSinceFit, rowsOf]
  have hE : ((new (ewaCls (Fin 3) ℝ) ⟨1/20, false⟩).run [.partialFit (.batch orderRows)]).covariance = .ok !![2, 1, 0; 1, 1, 0; 0, 0, 1] := by
    rw [(ewa_attrs (⟨1/20, false⟩ : RParam ℝ) [.partialFit (.batch orderRows)] (by show used false _ ≠ []; rw [hu]; simp [orderRows])).2]
    show Except.ok (ewaFold (1/20) (used false _)).cov = _
    rw [hu, order_cov]
  have hm : MinEigGE (!![2, 1, 0; 1, 1, 0; 0, 0, 1] : Matrix (Fin 3) (Fin 3) ℝ) (1 / 10 ^ 8) := by
    intro x
    rw [quad_expand]
    simp only [normSq, Fin.sum_univ_three]
    simp
    nlinarith [sq_nonneg (x 0 * 4 + x 1 * 3), sq_nonneg (x 0), sq_nonneg (x 1), sq_nonneg (x 0 + x 1), sq_nonneg (x 2)]
  have h1 := (C30_linear L ⟨1/20, 2, 0, "linear", false⟩ (by decide) (by norm_num) (by norm_num) _ _ hE).2.2 le_rfl zero_le_one hm
  have h2 := (C26_is_schur L (p := 3) ⟨1/20, 2, false⟩ (by norm_num) (by norm_num) "linear" [.partialFit (.batch orderRows)]).1
  have h3 := h2.trans h1
  obtain ⟨-, -, hc⟩ := h [.partialFit (.batch orderRows)]
  rw [h3] at hc
  have h4 := (C26_block L (p := 3) ⟨1/20, 2, false⟩ (by norm_num) _ _ hc).2.1 0 2 (by
    rintro ⟨b, hb, h5⟩
    have : slices 3 (nbClamped 2 3) = [(0, 2), (2, 3)] := by decide
    rw [this] at hb
    simp at hb
    rcases hb with rfl | rfl <;> simp at h5)
  have h5 : damped (slices 3 (schurNb 2 3)) (0:ℝ) !![2, 1, 0; 1, 1, 0; 0, 0, 1] 0 1 = 1 := by
    unfold damped
    have : SameBlock (slices 3 (schurNb 2 3)) 0 1 := ⟨(0, 2), by decide, by decide⟩
    simp [this]
  have h6 : damped (slices 3 (schurNb 2 3)) (0:ℝ) !![2, 1, 0; 1, 1, 0; 0, 0, 1] 0 1 = 0 := h4
  rw [h5] at h6
  exact one_ne_zero h6

end Order

/-! ## C67: the first observation -/

section First

/-- One observation `x` of one variable. -/
theorem first_used (ι : Type) (x : ι → ℝ) : used false [Call.partialFit (.row x)] = [x] := by
  simp [used, effective, rowsSinceFit, rowsOf]

theorem not_translation_of {ι : Type} [Fintype ι] {C : Cls ι ℝ} {p : C.Param} (x b m : ι → ℝ) (i j : ι) (c c' : Matrix ι ι ℝ)
    (h1 : ((new C p).run [.partialFit (.row x)]).covariance = .ok c)
    (h2 : ((new C p).run [.partialFit (.row (x + b))]).covariance = .ok c') (h : c' i j ≠ c i j) :
    ¬ Transports C C p p (fun x => x + b) (fun x => x + m) id := by
  intro hT
  have := (hT [.partialFit (.row x)]).2.2
  simp only [List.map_cons, List.map_nil, mapCall] at this
  rw [h1, h2] at this
  exact h (congrFun (congrFun (Except.ok.inj this) i) j)

theorem one_row_cov {ι : Type} [Fintype ι] {C : Cls ι ℝ} (hC : Lawful C) (p : C.Param) (hd : C.diff p = false) (x : ι → ℝ) :
    ((new C p).run [.partialFit (.row x)]).covariance = .ok (toSymmetric (C.toCov p (C.updateState p (C.initState p) x))) := by
  have hu : used (C.diff p) [Call.partialFit (.row x)] = [x] := by rw [hd]; exact first_used ι x
  rw [run_covariance hC p _ (by rw [hu]; simp), hu]; rfl

theorem burn_ge_one (r : ℝ) : 0 + 1 ≤ ewaBurnN r := ewaBurnN_pos r

/-- C67: after a single observation `x` of one variable the PartialMomentsCovariance variance is `x²`, not 0: the
running mean starts at 0 and the innovation of the first observation is measured from there. -/
theorem C67_first_partialMoments (L : Lapack) (r a : ℝ) (ha : a ≠ 0) :
    ((new (partialMomentsCls L (Fin 1)) (⟨r, false⟩ : RParam ℝ)).run [.partialFit (.row ![a])]).covariance = .ok !![a ^ 2] := by
  rw [one_row_cov (partialMoments_lawful L (Fin 1)) (⟨r, false⟩ : RParam ℝ) rfl]
  congr 1
  show toSymmetric (pmCov L (pmUpdate (pmInit r) ![a])) = _
  have hq : ∑ q, (pmUpdate (pmInit r) ![a]).quadrants q = !![a ^ 2] := by
    rw [pmUpdate_sum]
    have : (pmInit r : PMState (Fin 1)).nSamples + 1 ≤ (pmInit r : PMState (Fin 1)).nBurn := burn_ge_one r
    rw [if_pos this]
    ext i j
    fin_cases i; fin_cases j
    simp [pmInit, outer, sq]
  have hpd : PD (!![a ^ 2] : Matrix (Fin 1) (Fin 1) ℝ) := by
    refine ⟨fun i j => by fin_cases i; fin_cases j; rfl, fun x hx => ?_⟩
    have h0 : x 0 ≠ 0 := fun h => hx (by ext i; fin_cases i; exact h)
    rw [quad_expand]; simp
    have := mul_self_pos.2 h0; have := mul_self_pos.2 ha; nlinarith [mul_pos this (mul_self_pos.2 h0)]
  unfold pmCov
  rw [hq, toSymmetric_of_symm hpd.1, C49_identity L _ hpd, toSymmetric_of_symm hpd.1]

/-- C67: the same for DCCCovariance, for `|x| ≥ 1e-6`. -/
theorem C67_first_dcc (p : DCCParam) (hd : p.diff = false) (a : ℝ) (ha : EPS ≤ a ^ 2) :
    ((new (dccCls (Fin 1)) p).run [.partialFit (.row ![a])]).covariance = .ok !![a ^ 2] := by
  rw [one_row_cov (dcc_lawful (Fin 1)) p hd]
  congr 1
  show toSymmetric (dccCov (dccUpdate (dccInit p) ![a])) = _
  have hb : (dccInit p : DCCState (Fin 1)).nSamples + 1 ≤ (dccInit p : DCCState (Fin 1)).nBurn := ewaBurnN_pos _
  have hE := EPS_pos
  have ha0 : 0 < a ^ 2 := lt_of_lt_of_le hE ha
  have hane : a ≠ 0 := fun h => by rw [h] at ha0; norm_num at ha0
  have hh : (dccUpdate (dccInit p) ![a]).h 0 = a ^ 2 := by
    simp only [dccUpdate, if_pos hb]; simp [dccInit]; ring
  have hQ : (dccUpdate (dccInit p) ![a]).Q 0 0 = 1 := by
    simp only [dccUpdate, if_pos hb]
    simp [dccInit, outer]
    rw [max_eq_left (by rw [← sq]; exact ha), div_mul_div_comm, Real.mul_self_sqrt (mul_self_nonneg a)]
    rw [div_self (by positivity)]
  have hE1 : EPS ≤ 1 := by unfold EPS; norm_num
  have hc : dccCov (dccUpdate (dccInit p) ![a]) 0 0 = a ^ 2 := by
    simp only [dccCov, of_apply, hQ, hh]
    rw [max_eq_left hE1, max_eq_left ha, Real.mul_self_sqrt ha0.le]; simp
  ext i j
  fin_cases i; fin_cases j
  simp [toSymmetric, hc]

/-- C67: the same for FactorCovariance with one factor; moreover for `|x| < 1` the factor enters with `|x|` itself (a
standard deviation where a variance is meant) and the reported variance is `|x| > x²`. -/
theorem C67_first_factor (r a : ℝ) (ha : 1 / 10 ^ 6 ≤ |a|) :
    ((new (factorCls (Fin 1)) (⟨1, r, false⟩ : FactorParam)).run [.partialFit (.row ![a])]).covariance = .ok !![max (a ^ 2) |a|] := by
  rw [one_row_cov (factor_lawful (Fin 1)) (⟨1, r, false⟩ : FactorParam) rfl]
  congr 1
  have hpos : 0 < |a| := lt_of_lt_of_le (by norm_num) ha
  show toSymmetric (factorCov (factorUpdate (factorInit ⟨1, r, false⟩) ![a])) = _
  have hV : (factorUpdate (factorInit ⟨1, r, false⟩) ![a] : FactorState (Fin 1)).V = [![a]] := by
    simp only [factorUpdate, factorInit]
    have : min 1 (Fintype.card (Fin 1)) = 1 := by simp
    simp only [this, List.replicate_one, factorLoop]
    have h0 : vecNorm (0 : Fin 1 → ℝ) < EPS := by simp [vecNorm, normSq]; exact EPS_pos
    rw [if_pos h0]
    congr 1; ext i; fin_cases i; simp
  have hvar : (factorUpdate (factorInit ⟨1, r, false⟩) ![a] : FactorState (Fin 1)).var 0 = a ^ 2 := by
    have hb : (factorInit ⟨1, r, false⟩ : FactorState (Fin 1)).nSamples + 1 ≤ (factorInit ⟨1, r, false⟩ : FactorState (Fin 1)).nBurn := by
      simp [factorInit]
    simp only [factorUpdate, if_pos hb]
    simp [factorInit]; ring
  have hn : vecNorm ![a] = |a| := by simp [vecNorm, normSq, ← sq, Real.sqrt_sq_eq_abs]
  have hact : factorActive [![a]] = [![a]] := by
    unfold factorActive
    rw [List.filter_cons_of_pos]; rfl
    simp only [hn, decide_eq_true_eq]
    refine lt_of_lt_of_le ?_ ha
    unfold EPS; norm_num
  have e1 : factorPart [![a]] 0 0 = |a| := by
    unfold factorPart; rw [hact]
    simp [hn, outer]
    rw [← sq, ← sq_abs, sq, ← mul_assoc, inv_mul_cancel₀ hpos.ne', one_mul]
  have e2 : factorCaptured [![a]] 0 = |a| := by
    unfold factorCaptured; rw [hact]
    simp [hn]
    rw [div_pow, sq_abs, div_self (by rw [← sq_abs]; positivity), mul_one]
  have hc : factorCov (factorUpdate (factorInit ⟨1, r, false⟩) ![a]) 0 0 = max (a ^ 2) |a| := by
    unfold factorCov
    rw [hV, Matrix.add_apply, diagonal_apply_eq, e1, e2, hvar]
    rcases le_total (a ^ 2) |a| with h | h
    · rw [max_eq_right h, max_eq_right (by linarith)]; ring
    · rw [max_eq_left h, max_eq_left (by linarith)]; ring
  ext i j
  fin_cases i; fin_cases j
  simp only [toSymmetric, of_apply]
  simp
  rw [hc]

/-- C67: hence none of the three is invariant under a change of origin, in contrast to the classes of C65. -/
theorem C67_not_translation_invariant (L : Lapack) (r : ℝ) (m : Fin 1 → ℝ) :
    ¬ Transports (partialMomentsCls L (Fin 1)) (partialMomentsCls L (Fin 1)) (⟨r, false⟩ : RParam ℝ) (⟨r, false⟩ : RParam ℝ)
        (fun x => x + ![1]) (fun x => x + m) id ∧
    ¬ Transports (dccCls (Fin 1)) (dccCls (Fin 1)) (⟨r, none, false⟩ : DCCParam) (⟨r, none, false⟩ : DCCParam)
        (fun x => x + ![1]) (fun x => x + m) id ∧
    ¬ Transports (factorCls (Fin 1)) (factorCls (Fin 1)) (⟨1, r, false⟩ : FactorParam) (⟨1, r, false⟩ : FactorParam)
        (fun x => x + ![1]) (fun x => x + m) id := by
  have e : (![1] : Fin 1 → ℝ) + ![1] = ![2] := by ext i; fin_cases i; simp; norm_num
  have hE : EPS ≤ 1 := by unfold EPS; norm_num
  refine ⟨?_, ?_, ?_⟩
  · refine not_translation_of ![1] ![1] m 0 0 _ !![2 ^ 2] (C67_first_partialMoments L r 1 one_ne_zero) ?_ ?_
    · rw [e]; exact C67_first_partialMoments L r 2 two_ne_zero
    · simp; norm_num
  · refine not_translation_of ![1] ![1] m 0 0 _ !![2 ^ 2] (C67_first_dcc ⟨r, none, false⟩ rfl 1 (by linarith)) ?_ ?_
    · rw [e]; exact C67_first_dcc _ rfl 2 (by linarith)
    · simp; norm_num
  · refine not_translation_of ![1] ![1] m 0 0 _ !![max (2 ^ 2) |2|] (C67_first_factor r 1 (by norm_num)) ?_ ?_
    · rw [e]; exact C67_first_factor r 2 (by norm_num)
    · simp; norm_num

end First

/-! ## C67: the absolute floor of `make_pos_def` -/

section Floor
variable {ι : Type} [Fintype ι] [DecidableEq ι] (L : Lapack)

theorem makePosDef_floor {a : Matrix ι ι ℝ} (ha : Symm a) {eps : ℝ} (h : MaxEigLE a eps) : makePosDef L a eps = eps • 1 := by
  have ho := L.eigh_orth a ha
  have hs := L.eigh_spec ha
  rw [makePosDef_of_spec L ho (by rw [toSymmetric_of_symm ha]; exact hs) eps]
  have hle := eigs_le ho (c := eps) (by rw [← hs]; exact h)
  have : (fun i => max ((L.eigh a).1 i) eps) = fun i => eps * 1 := by
    funext i; rw [max_eq_right (hle i), mul_one]
  rw [this, spec_smul, spec_one ho]

theorem maxEig_of_trace {a : Matrix ι ι ℝ} (ha : PSD a) {eps : ℝ} (h : a.trace ≤ eps) : MaxEigLE a eps := by
  obtain ⟨⟨w, v⟩, hv, e⟩ := exists_spec ha.1
  change vᵀ * v = 1 at hv
  change a = spec v w at e
  rw [e] at ha h ⊢
  rw [trace_spec hv] at h
  have h0 := eigs_nonneg hv ha
  exact maxEig_spec hv fun i => (Finset.single_le_sum (fun j _ => h0 j) (Finset.mem_univ i)).trans h

theorem geodesicStep_same {A B : Matrix ι ι ℝ} (h : makePosDef L A = makePosDef L B) (g : ℝ) : geodesicStep L A B g = makePosDef L A := by
  obtain ⟨R, Ri, hR, hRi, hRR, hRRi, hRiR, v, w, hv, hw, hM, hg⟩ := geodesic_facts L A B
  rw [hg g]
  have hone : spec v w = 1 := by
    rw [← hM, ← h, ← hRR]
    have : Ri * (R * R) * Ri = (Ri * R) * (R * Ri) := by simp only [Matrix.mul_assoc]
    rw [this, hRRi, hRiR, Matrix.mul_one]
  have hw1 : ∀ i, w i = 1 := fun i => by
    have := quad_spec_col hv w i
    rw [hone, quad_one, normSq_col hv] at this
    exact this.symm
  have : (fun i => w i ^ g) = fun _ => 1 := by funext i; rw [hw1 i, Real.one_rpow]
  rw [this, spec_one hv, Matrix.mul_one, hRR]

variable {p : ℕ}

theorem damped_trace (bs : List (ℕ × ℕ)) (g : ℝ) (c : Matrix (Fin p) (Fin p) ℝ) (h : ∀ i : Fin p, SameBlock bs i i) :
    (damped bs g c).trace = c.trace := by
  unfold Matrix.trace
  refine Finset.sum_congr rfl fun i _ => ?_
  simp [damped, h i]

theorem sameBlock_refl (n : ℤ) (hn : 1 ≤ n) (hp : 1 ≤ p) (i : Fin p) : SameBlock (slices p (schurNb n p)) i i := by
  have hb : 1 ≤ schurNb n p := by unfold schurNb; omega
  rw [sameBlock_iff p _ hb]

/-- C67: as long as the total variance of the stream (the trace of the exponentially weighted covariance) is at most 1e-8
(p variables with standard deviations below `1e-4/√p`), SchurCovariance with either interpolation reports exactly 1e-8 times
the identity whatever the data: all variances and correlations are lost. -/
theorem C67_floor_schur (pr : SchurParam) (hn : 1 ≤ pr.nBlocks) (hp : 1 ≤ p) (h0 : 0 ≤ pr.r) (h1 : pr.r ≤ 1)
    (hg0 : 0 ≤ pr.gamma) (hg1 : pr.gamma ≤ 1) (calls : List (Call (Fin p) ℝ)) (c : Matrix (Fin p) (Fin p) ℝ)
    (h : ((new (ewaCls (Fin p) ℝ) ⟨pr.r, pr.diff⟩).run calls).covariance = .ok c) (ht : c.trace ≤ 1 / 10 ^ 8) :
    ((new (schurCls L p) pr).run calls).covariance = .ok ((1 / 10 ^ 8 : ℝ) • 1) := by
  have hb : 1 ≤ schurNb pr.nBlocks p := by unfold schurNb; omega
  obtain ⟨hne, hce⟩ := ewa_attrs_inv _ calls c h
  have hpsd : PSD c := by rw [hce]; exact ewaFold_psd h0 h1 _
  have D : ∀ g, 0 ≤ g → g ≤ 1 → makePosDef L (damped (slices p (schurNb pr.nBlocks p)) g c) = (1 / 10 ^ 8 : ℝ) • 1 := by
    intro g hg hg'
    have hD := (C30_linear L ⟨pr.r, pr.nBlocks, g, "linear", pr.diff⟩ (by simp) hn hp calls c h).2.1 hg hg' h0 h1
    refine makePosDef_floor L hD.1 (maxEig_of_trace hD ?_)
    rw [damped_trace _ _ _ (sameBlock_refl _ hn hp)]; exact ht
  by_cases hi : pr.interpolation = "geodesic"
  · rw [(schur_attrs L pr calls hne).2]
    congr 1
    change c = (ewaFold pr.r (used pr.diff calls)).cov at hce
    rw [toSymmetric_of_symm (schurCov_symm L pr _)]
    unfold schurCov
    simp only [if_pos hi]
    rw [← hce]
    have e1 : (Matrix.of fun i j : Fin p => if blockId p (schurNb pr.nBlocks p) i ≠ blockId p (schurNb pr.nBlocks p) j then 0 else c i j)
        = damped (slices p (schurNb pr.nBlocks p)) 0 c := by
      rw [damped_eq hb]; ext i j; simp [dampCross]
    rw [e1, D 0 le_rfl zero_le_one]
    have e2 : makePosDef L c = (1 / 10 ^ 8 : ℝ) • 1 := makePosDef_floor L hpsd.1 (maxEig_of_trace hpsd ht)
    rw [e2]
    have e3 : makePosDef L ((1 / 10 ^ 8 : ℝ) • (1 : Matrix (Fin p) (Fin p) ℝ)) = (1 / 10 ^ 8 : ℝ) • 1 := by
      rw [← e2]; exact C50_idempotent L c _
    rw [geodesicStep_same L rfl, e3]
  · rw [(C30_linear L pr hi hn hp calls c h).1, D _ hg0 hg1]

/-- C67: the same for BlockCovariance. -/
theorem C67_floor_block (pr : BlockParam) (hn : 1 ≤ pr.nBlocks) (hp : 1 ≤ p) (h0 : 0 ≤ pr.r) (h1 : pr.r ≤ 1)
    (calls : List (Call (Fin p) ℝ)) (c : Matrix (Fin p) (Fin p) ℝ)
    (h : ((new (ewaCls (Fin p) ℝ) ⟨pr.r, pr.diff⟩).run calls).covariance = .ok c) (ht : c.trace ≤ 1 / 10 ^ 8) :
    ((new (blockCls L p) pr).run calls).covariance = .ok ((1 / 10 ^ 8 : ℝ) • 1) := by
  rw [(C26_is_schur L pr hn hp "linear" calls).1]
  exact C67_floor_schur L ⟨pr.r, pr.nBlocks, 0, "linear", pr.diff⟩ hn hp h0 h1 le_rfl zero_le_one calls c h ht

/-- C67: the same for SchurLedoitWolfCovariance. -/
theorem C67_floor_schurLW (pr : BlockParam) (hn : 1 ≤ pr.nBlocks) (hp : 1 ≤ p) (h0 : 0 ≤ pr.r) (h1 : pr.r ≤ 1)
    (calls : List (Call (Fin p) ℝ)) (c : Matrix (Fin p) (Fin p) ℝ)
    (h : ((new (ewaCls (Fin p) ℝ) ⟨pr.r, pr.diff⟩).run calls).covariance = .ok c) (ht : c.trace ≤ 1 / 10 ^ 8) :
    ((new (schurLWCls L p) pr).run calls).covariance = .ok ((1 / 10 ^ 8 : ℝ) • 1) := by
  have hne := (ewa_attrs_inv _ calls c h).1
  have a := slw_attrs L pr calls hne
  obtain ⟨-, g, hg, hcov, -⟩ := C31_is_schur L pr calls _ a.2
  have hr := C31_gamma_range L pr calls g hg
  rw [a.2, ← hcov]
  exact C67_floor_schur L ⟨pr.r, pr.nBlocks, g, "linear", pr.diff⟩ hn hp h0 h1 hr.1 hr.2.1 calls c h ht

theorem maxEig_outer (u : ι → ℝ) : MaxEigLE (outer u u) (normSq u) := by
  have := maxEig_of_trace (psd_outer u) (eps := normSq u) (le_of_eq (trace_outer u))
  exact this

theorem normSq_combo {a b : ι → ℝ} {t B : ℝ} (h0 : 0 ≤ t) (h1 : t ≤ 1) (ha : normSq a ≤ B) (hb : normSq b ≤ B) :
    normSq (fun i => (1 - t) * a i + t * b i) ≤ B := by
  have : normSq (fun i => (1 - t) * a i + t * b i) ≤ (1 - t) * normSq a + t * normSq b := by
    unfold normSq
    rw [Finset.mul_sum, Finset.mul_sum, ← Finset.sum_add_distrib]
    refine Finset.sum_le_sum fun i _ => ?_
    nlinarith [mul_nonneg (mul_nonneg h0 (sub_nonneg.2 h1)) (sq_nonneg (a i - b i))]
  nlinarith

theorem normSq_sub_le (a b : ι → ℝ) : normSq (fun i => a i - b i) ≤ 2 * normSq a + 2 * normSq b := by
  unfold normSq
  rw [Finset.mul_sum, Finset.mul_sum, ← Finset.sum_add_distrib]
  refine Finset.sum_le_sum fun i _ => ?_
  nlinarith [sq_nonneg (a i + b i)]

/-- C67: GeodesicEwaCovariance: if every observation has length at most 5e-5, then from the first observation after the
burn-in on `covariance_` is exactly 1e-8 times the identity, whatever the data. -/
theorem C67_floor_geodesic (pr : RParam ℝ) (h0 : 0 ≤ pr.r) (h1 : pr.r ≤ 1) (calls : List (Call ι ℝ))
    (hx : ∀ x ∈ used pr.diff calls, normSq x ≤ 1 / (4 * 10 ^ 8)) (hb : ewaBurnN pr.r < (used pr.diff calls).length) :
    ((new (geodesicCls L ι) pr).run calls).covariance = .ok ((1 / 10 ^ 8 : ℝ) • 1) := by
  have hne : used pr.diff calls ≠ [] := by intro h; rw [h] at hb; simp at hb
  have hcov := run_covariance (geodesic_lawful L ι) pr calls hne
  have key : ∀ xs : List (ι → ℝ), (∀ x ∈ xs, normSq x ≤ 1 / (4 * 10 ^ 8)) →
      normSq (geoFold L pr xs).mean ≤ 1 / (4 * 10 ^ 8) ∧ MaxEigLE (geoFold L pr xs).cov (1 / 10 ^ 8) ∧
      (ewaBurnN pr.r < xs.length → (geoFold L pr xs).cov = (1 / 10 ^ 8 : ℝ) • 1) := by
    intro xs
    induction xs using List.reverseRecOn with
    | nil =>
      intro _
      refine ⟨by simp [geoFold, ewaInit, empInit, normSq], fun x => ?_, fun h => by simp at h⟩
      have := normSq_nonneg x
      simp [geoFold, ewaInit, empInit, quad]; positivity
    | append_singleton xs x ih =>
      intro hx
      obtain ⟨im, ic, -⟩ := ih fun y hy => hx y (List.mem_append_left _ hy)
      have hxx := hx x (by simp)
      obtain ⟨hn, hr, hbn⟩ := geoFold_inv L pr xs
      have hsym := geoFold_symm L pr xs
      rw [geoFold_snoc]
      generalize geoFold L pr xs = s at *
      have hd : normSq (fun i => x i - s.mean i) ≤ 1 / 10 ^ 8 := by
        have := normSq_sub_le x s.mean
        norm_num at *; linarith
      have hout : MaxEigLE (outer (fun i => x i - s.mean i) (fun i => x i - s.mean i)) (1 / 10 ^ 8) := fun y =>
        (maxEig_outer _ y).trans (mul_le_mul_of_nonneg_right hd (normSq_nonneg y))
      unfold geodesicUpdate
      by_cases hc : s.nSamples < s.nBurn
      · rw [if_pos hc]
        refine ⟨?_, ?_, fun h => absurd h (by rw [hn, hbn] at hc; simp; omega)⟩
        · show normSq (empUpdate s.toEmpState x).mean ≤ _
          rw [empUpdate_mean]
          have : (0:ℝ) ≤ s.nSamples := Nat.cast_nonneg _
          exact normSq_combo (by positivity) (by rw [div_le_one (by positivity)]; linarith) im hxx
        · show MaxEigLE (empUpdate s.toEmpState x).cov _
          rw [empUpdate_cov]
          intro y
          have hk : (0:ℝ) ≤ s.nSamples := Nat.cast_nonneg _
          have a1 := ic y
          have a2 : quad (outer (x - s.mean) (x - s.mean)) y ≤ 1 / 10 ^ 8 * normSq y := hout y
          rw [quad_add, quad_smul, quad_smul]
          set N : ℝ := (s.nSamples : ℝ)
          set Z : ℝ := 1 / 10 ^ 8 * normSq y with hZ
          have hZ0 : 0 ≤ Z := mul_nonneg (by positivity) (normSq_nonneg y)
          have b1 : N / (N + 1) * quad s.cov y ≤ N / (N + 1) * Z := mul_le_mul_of_nonneg_left a1 (by positivity)
          have b2 := mul_le_mul_of_nonneg_left a2 (show 0 ≤ N / (N + 1) ^ 2 by positivity)
          have b3 : N / (N + 1) + N / (N + 1) ^ 2 ≤ 1 := by
            rw [div_add_div _ _ (by positivity) (by positivity), div_le_one (by positivity)]; nlinarith
          nlinarith
      · rw [if_neg hc]
        have e1 : makePosDef L s.cov = (1 / 10 ^ 8 : ℝ) • 1 := makePosDef_floor L hsym ic
        have e2 : makePosDef L (outer (fun i => x i - s.mean i) (fun i => x i - s.mean i)) = (1 / 10 ^ 8 : ℝ) • 1 :=
          makePosDef_floor L (symm_outer _) hout
        have e3 : geodesicStep L s.cov (outer (fun i => x i - s.mean i) (fun i => x i - s.mean i)) s.r = (1 / 10 ^ 8 : ℝ) • 1 := by
          rw [geodesicStep_same L (e1.trans e2.symm), e1]
        refine ⟨?_, ?_, fun _ => e3⟩
        · exact normSq_combo (by rw [hr]; exact h0) (by rw [hr]; exact h1) im hxx
        · show MaxEigLE (geodesicStep L s.cov (outer (fun i => x i - s.mean i) (fun i => x i - s.mean i)) s.r) _
          rw [e3]
          intro y
          rw [quad_smul, quad_one]
  rw [hcov]
  congr 1
  show toSymmetric (geoFold L pr (used pr.diff calls)).cov = _
  rw [toSymmetric_of_symm (geoFold_symm L pr _)]
  exact (key _ hx).2.2 hb

end Floor

/-! ## The hypotheses are met -/

section Examples
variable (L : Lapack)

/-- a rotation that is not a permutation of the axes -/
theorem demo_orth : Orth (!![3/5, -4/5; 4/5, 3/5] : Matrix (Fin 2) (Fin 2) ℝ) := by
  constructor <;> ext i j <;> fin_cases i <;> fin_cases j <;> simp [Matrix.mul_apply, Fin.sum_univ_two] <;> norm_num

-- C65 with that rotation, the unit 1/1000 and the origin (7, -2)
example := C65_ledoitWolf_similarity demo_orth (k := 1 / 1000) (by norm_num) ![7, -2] ⟨1 / 20, false⟩
example := C65_huber_similarity demo_orth (k := 1 / 1000) (by norm_num) ![7, -2] L ⟨1 / 20, 3 / 2, false⟩
example := C65_geodesic_rigid L demo_orth ![7, -2] ⟨1 / 20, false⟩
-- C66 with two columns exchanged, on the four rows of `orderRows`
example := (C66_huber (Equiv.swap (1 : Fin 3) 2) L ⟨1 / 20, 3 / 2, false⟩) [.partialFit (.batch orderRows)]

/-- two perfectly correlated variables measured in small units -/
noncomputable def tinyRows : List (Fin 2 → ℝ) := [![1 / 10 ^ 5, 2 / 10 ^ 5], ![-1 / 10 ^ 5, -2 / 10 ^ 5]]

theorem tiny_cov : (ewaFold (1/20) tinyRows).cov = !![1 / 10 ^ 10, 2 / 10 ^ 10; 2 / 10 ^ 10, 4 / 10 ^ 10] := by
  rw [ewaFold_burn (1/20 : ℝ) tinyRows (by have := (C19_burn_length (1/20 : ℝ) (by norm_num)).2.2.1; have e : tinyRows.length = 2 := rfl; omega),
    empFold_cov (by simp [tinyRows])]
  ext i j
  fin_cases i <;> fin_cases j <;> simp [covOf, meanOf, tinyRows] <;> norm_num

-- C67: standard deviations 1e-5 and 2e-5, correlation 1; the floor reports two uncorrelated variables of variance 1e-8
example : ((new (blockCls L 2) (⟨1/20, 1, false⟩ : BlockParam)).run [.partialFit (.batch tinyRows)]).covariance = .ok ((1 / 10 ^ 8 : ℝ) • 1) := by
  have hu : used false [Call.partialFit (.batch tinyRows)] = tinyRows := by simp [used, effective, rowsSinceFit, rowsOf]
  refine C67_floor_block L ⟨1/20, 1, false⟩ (by norm_num) (by norm_num) (by norm_num) (by norm_num) _ _
    (show ((new (ewaCls (Fin 2) ℝ) ⟨1/20, false⟩).run [.partialFit (.batch tinyRows)]).covariance
      = .ok !![1 / 10 ^ 10, 2 / 10 ^ 10; 2 / 10 ^ 10, 4 / 10 ^ 10] from ?_) ?_
  · rw [(ewa_attrs (⟨1/20, false⟩ : RParam ℝ) [.partialFit (.batch tinyRows)] (by show used false _ ≠ []; rw [hu]; simp [tinyRows])).2]
    show Except.ok (ewaFold (1/20) (used false _)).cov = _
    rw [hu, tiny_cov]
  · simp [Matrix.trace, Fin.sum_univ_two]; norm_num

-- C67_floor_geodesic: 251 rows exceed every burn-in
example : ((new (geodesicCls L (Fin 2)) (⟨1/20, false⟩ : RParam ℝ)).run
    [.partialFit (.batch (List.replicate 251 ![1 / 10 ^ 5, -1 / 10 ^ 5]))]).covariance = .ok ((1 / 10 ^ 8 : ℝ) • 1) := by
  have hu : ∀ xs : List (Fin 2 → ℝ), used false [Call.partialFit (.batch xs)] = xs := by
    intro xs; simp [used, effective, rowsSinceFit, rowsOf]
  refine C67_floor_geodesic L ⟨1/20, false⟩ (by norm_num) (by norm_num) _ ?_ ?_
  · intro x hx
    change x ∈ used false _ at hx
    rw [hu] at hx
    rw [List.eq_of_mem_replicate hx]
    simp [normSq, Fin.sum_univ_two]; norm_num
  · show ewaBurnN (1/20 : ℝ) < (used false _).length
    rw [hu, List.length_replicate]
    have h := (C19_burn_length (1/20 : ℝ) (by norm_num)).2.2.2.1
    omega

end Examples

end Precise
