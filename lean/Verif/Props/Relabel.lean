import Verif.Props.Symmetry

/-!
# C65 (rotation and translation of the remaining estimators) and C66 (the order of the columns does not matter)

`relabelVec e`, `relabelMat e` rename the variables by a bijection `e`; with `ι = κ` that is a permutation of the columns.
-/

set_option linter.all false

open Matrix

namespace Precise

open Spec Obj

variable {ι κ : Type} [Fintype ι] [Fintype κ] [DecidableEq ι] [DecidableEq κ]

/-! ## GeodesicEwaCovariance: rotations and translations -/

/-- C65: GeodesicEwaCovariance respects orthogonal changes of coordinates and changes of origin (but not of units, see
`C67_floor_geodesic`). -/
theorem C65_geodesic_rigid (L : Lapack) {Q : Matrix κ ι ℝ} (hQ : Orth Q) (b : κ → ℝ) (p : RParam ℝ) :
    Transports (geodesicCls L ι) (geodesicCls L κ) p p (affine Q b) (affine Q (offset p.diff b)) (fun a => Q * a * Qᵀ) := by
  have hsym : ∀ {τ : Type} [Fintype τ] [DecidableEq τ] (a b : Matrix τ τ ℝ) (g : ℝ), Symm (geodesicStep L a b g) := by
    intro τ _ _ a b g
    unfold geodesicStep
    exact symm_toSymmetric _
  refine transports_of_sim (geodesic_lawful L ι) (geodesic_lawful L κ) rfl (fun calls => used_affine p.diff Q b calls)
    (EwaRel Q (offset p.diff b)) (ewaRel_init p.r) ?_ (fun s t h h0 => h.mean h0) ?_
  · intro (s : EwaState ι ℝ) (t : EwaState κ ℝ) x h
    show EwaRel _ _ (geodesicUpdate L s x) (geodesicUpdate L t _)
    unfold geodesicUpdate
    by_cases hb : s.nSamples < s.nBurn
    · rw [if_pos hb, if_pos (h.burning.2 hb)]; exact h.burnStep x
    · rw [if_neg hb, if_neg (mt h.burning.1 hb)]
      have h0 := h.pos hb
      have hbl := h.blend h0 s.r x
      refine ⟨by show t.nSamples + 1 = s.nSamples + 1; rw [h.n], h.r, h.nBurn, h.burn, ?_, ?_, hsym _ _ _⟩
      · show geodesicStep L t.cov (outer _ _) t.r = conj Q (geodesicStep L s.cov (outer _ _) s.r)
        rw [h.dev h0 x, conj_outer hQ, h.cov, h.r]
        exact conj_geodesicStep hQ L _ _ _
      · intro hp
        have := hbl.mean hp
        show (fun i => (1 - t.r) * t.mean i + t.r * affine Q (offset p.diff b) x i) = _
        rw [h.r]
        exact this
  · intro (s : EwaState ι ℝ) (t : EwaState κ ℝ) h h0
    show toSymmetric t.cov = conj Q (toSymmetric s.cov)
    rw [← conj_toSymmetric hQ, h.cov]; rfl

/-! ## PartialMomentsCovariance: rotations (not translations, see `C67_first_observation`) -/

theorem pmLeg_sum (c : ι → ℝ) : ∑ q, outer (pmLeg (quadrantSigns q).1 c) (pmLeg (quadrantSigns q).2 c) = outer c c := by
  have h : ∀ t : ℝ, max t 0 + -max (-t) 0 = t := by
    intro t
    rcases le_total 0 t with h | h
    · rw [max_eq_left h, max_eq_right (by linarith)]; ring
    · rw [max_eq_right h, max_eq_left (by linarith)]; ring
  ext i j
  simp only [Fin.sum_univ_four, quadrantSigns, Matrix.add_apply, outer, of_apply, pmLeg, Matrix.cons_val_zero, Matrix.cons_val_one,
    Matrix.cons_val, mul_one, mul_neg]
  have hi := h (c i)
  have hj := h (c j)
  calc _ = (max (c i) 0 + -max (-c i) 0) * (max (c j) 0 + -max (-c j) 0) := by ring
    _ = _ := by rw [hi, hj]

/-- the sum of the quadrants, which is all `covariance_` reads -/
theorem pmUpdate_sum (s : PMState ι) (x : ι → ℝ) :
    ∑ q, (pmUpdate s x).quadrants q =
      (if s.nSamples + 1 ≤ s.nBurn then ∑ q, s.quadrants q + (1 / ((s.nSamples + 1 : ℕ) : ℝ)) •
          (outer (fun i => x i - s.mean i) (fun i => x i - s.mean i) - ∑ q, s.quadrants q)
        else (1 - s.r) • ∑ q, s.quadrants q + s.r • outer (fun i => x i - s.mean i) (fun i => x i - s.mean i)) := by
  unfold pmUpdate
  by_cases h : s.nSamples + 1 ≤ s.nBurn
  · simp only [if_pos h]
    rw [Finset.sum_add_distrib, ← Finset.smul_sum, Finset.sum_sub_distrib, pmLeg_sum]
  · simp only [if_neg h]
    rw [Finset.sum_add_distrib, ← Finset.smul_sum, ← Finset.smul_sum, pmLeg_sum]

/-- C65: PartialMomentsCovariance respects orthogonal changes of coordinates. -/
theorem C65_partialMoments_rotation (L : Lapack) {Q : Matrix κ ι ℝ} (hQ : Orth Q) (p : RParam ℝ) :
    Transports (partialMomentsCls L ι) (partialMomentsCls L κ) p p (fun x => Q *ᵥ x) (fun x => Q *ᵥ x) (fun a => Q * a * Qᵀ) := by
  refine transports_of_sim (partialMoments_lawful L ι) (partialMoments_lawful L κ) rfl
    (g₁ := fun x => Q *ᵥ x) (fun calls => used_map_additive _ (fun x y => Matrix.mulVec_sub _ _ _) _ calls)
    (fun (s : PMState ι) (t : PMState κ) => t.nSamples = s.nSamples ∧ t.r = s.r ∧ t.nBurn = s.nBurn ∧ t.mean = Q *ᵥ s.mean ∧
      ∑ q, t.quadrants q = conj Q (∑ q, s.quadrants q)) ?_ ?_ ?_ ?_
  · refine ⟨rfl, rfl, rfl, ?_, ?_⟩
    · show (fun _ => (0:ℝ)) = Q *ᵥ fun _ => 0
      exact (Matrix.mulVec_zero Q).symm
    · show ∑ q : Fin 4, (0 : Matrix κ κ ℝ) = conj Q (∑ q : Fin 4, 0)
      simp [conj]
  · rintro (s : PMState ι) (t : PMState κ) x ⟨h1, h2, h3, h4, h5⟩
    have hdev : (fun i => (Q *ᵥ x) i - t.mean i) = Q *ᵥ (fun i => x i - s.mean i) := by
      rw [h4]; exact (Matrix.mulVec_sub Q x s.mean).symm
    refine ⟨by show t.nSamples + 1 = s.nSamples + 1; rw [h1], h2, h3, ?_, ?_⟩
    · show (pmUpdate t _).mean = Q *ᵥ (pmUpdate s x).mean
      have hc : ∀ a b : ℝ, (fun i => a * t.mean i + b * (Q *ᵥ x) i) = Q *ᵥ (fun i => a * s.mean i + b * x i) := by
        intro a b
        have e : (fun i => a * s.mean i + b * x i) = a • s.mean + b • x := rfl
        rw [e, Matrix.mulVec_add, Matrix.mulVec_smul, Matrix.mulVec_smul, h4]; rfl
      unfold pmUpdate
      rw [h1, h3, h2]
      by_cases hb : s.nSamples + 1 ≤ s.nBurn
      · simp only [if_pos hb]
        have := hc (1 - 1 / ((s.nSamples + 1 : ℕ) : ℝ)) (1 / ((s.nSamples + 1 : ℕ) : ℝ))
        convert this using 1
        · ext i; ring
        · congr 1; ext i; ring
      · simp only [if_neg hb]
        exact hc _ _
    · show ∑ q, (pmUpdate t _).quadrants q = conj Q (∑ q, (pmUpdate s x).quadrants q)
      rw [pmUpdate_sum, pmUpdate_sum, hdev, conj_outer hQ, h5, h1, h2, h3]
      by_cases hb : s.nSamples + 1 ≤ s.nBurn
      · rw [if_pos hb, if_pos hb, conj_add hQ, conj_smul hQ]
        congr 2
        unfold conj; rw [Matrix.mul_sub, Matrix.sub_mul]
      · rw [if_neg hb, if_neg hb, conj_add hQ, conj_smul hQ, conj_smul hQ]
  · rintro (s : PMState ι) (t : PMState κ) h _
    exact h.2.2.2.1
  · rintro (s : PMState ι) (t : PMState κ) ⟨-, -, -, -, h⟩ _
    show toSymmetric (pmCov L t) = conj Q (toSymmetric (pmCov L s))
    unfold pmCov
    rw [h, conj_toSymmetric hQ, conj_nearestPosDef hQ, conj_toSymmetric hQ]

/-! ## C66 relabelling -/

/-- the permutation matrix of `e` -/
def permQ (e : ι ≃ κ) : Matrix κ ι ℝ := Matrix.of fun k i => if e.symm k = i then 1 else 0

theorem permQ_mulVec (e : ι ≃ κ) (x : ι → ℝ) : permQ e *ᵥ x = relabelVec e x := by
  ext k; simp [permQ, Matrix.mulVec, dotProduct, relabelVec]

theorem permQ_conj (e : ι ≃ κ) (a : Matrix ι ι ℝ) : permQ e * a * (permQ e)ᵀ = relabelMat e a := by
  ext k l
  simp [permQ, Matrix.mul_apply, relabelMat, Finset.sum_mul]

theorem permQ_orth (e : ι ≃ κ) : Orth (permQ e) := by
  constructor
  · ext i j
    simp only [permQ, Matrix.mul_apply, transpose_apply, of_apply, ite_mul, one_mul, zero_mul, mul_ite, mul_one, mul_zero]
    rw [Matrix.one_apply]
    by_cases h : i = j
    · subst h
      have : ∀ k, (if e.symm k = i then (if e.symm k = i then (1:ℝ) else 0) else 0) = if k = e i then 1 else 0 := by
        intro k
        by_cases hk : k = e i
        · subst hk; simp
        · have : e.symm k ≠ i := fun h => hk (by rw [← h]; simp)
          simp [hk, this]
      simp [this]
    · rw [if_neg h]
      refine Finset.sum_eq_zero fun k _ => ?_
      split_ifs with h1 h2 h2 <;> first | rfl | (exfalso; exact h (by rw [← h1, ← h2]))
  · have := permQ_conj e (1 : Matrix ι ι ℝ)
    rw [Matrix.mul_one] at this
    rw [this]
    ext k l
    simp [relabelMat, Matrix.one_apply]

/-- the special case of a similarity -/
theorem transports_perm (e : ι ≃ κ) {C : Cls ι ℝ} {C' : Cls κ ℝ} {p : C.Param} {p' : C'.Param} (d : Bool)
    (h : Transports C C' p p' (affine ((1:ℝ) • permQ e) 0) (affine ((1:ℝ) • permQ e) (offset d 0)) (fun a => (1:ℝ) ^ 2 • (permQ e * a * (permQ e)ᵀ))) :
    Transports C C' p p' (relabelVec e) (relabelVec e) (relabelMat e) := by
  have e1 : (affine ((1:ℝ) • permQ e) 0 : (ι → ℝ) → κ → ℝ) = relabelVec e := by
    funext x; simp [affine, permQ_mulVec]
  have e2 : (affine ((1:ℝ) • permQ e) (offset d 0) : (ι → ℝ) → κ → ℝ) = relabelVec e := by
    funext x; cases d <;> simp [affine, permQ_mulVec, offset]
  have e3 : (fun a => (1:ℝ) ^ 2 • (permQ e * a * (permQ e)ᵀ)) = relabelMat e := by
    funext a; simp [permQ_conj]
  rw [e1, e2, e3] at h
  exact h

theorem relabel_outer (e : ι ≃ κ) (x y : ι → ℝ) : outer (relabelVec e x) (relabelVec e y) = relabelMat e (outer x y) := rfl

theorem relabel_quad (e : ι ≃ κ) (a : Matrix ι ι ℝ) (x : ι → ℝ) : quad (relabelMat e a) (relabelVec e x) = quad a x := by
  rw [← permQ_conj, ← permQ_mulVec]; exact conj_quad (permQ_orth e) a x

theorem relabel_tryInvert (L : Lapack) (e : ι ≃ κ) {a : Matrix ι ι ℝ} (ha : Symm a) :
    tryInvert L (relabelMat e a) = relabelMat e (tryInvert L a) := by
  rw [← permQ_conj, ← permQ_conj]; exact conj_tryInvert (permQ_orth e) L ha

theorem relabel_sum (e : ι ≃ κ) (x : ι → ℝ) : ∑ k, relabelVec e x k = ∑ i, x i := Equiv.sum_comp e.symm x

theorem relabel_trace (e : ι ≃ κ) (a : Matrix ι ι ℝ) : (relabelMat e a).trace = a.trace := by
  rw [← permQ_conj]; exact conj_trace (permQ_orth e) a

theorem relabel_one (e : ι ≃ κ) : relabelMat e (1 : Matrix ι ι ℝ) = 1 := by
  ext k l; simp [relabelMat, Matrix.one_apply]

theorem relabel_toSymmetric (e : ι ≃ κ) (a : Matrix ι ι ℝ) : toSymmetric (relabelMat e a) = relabelMat e (toSymmetric a) := rfl

theorem relabel_card (e : ι ≃ κ) : Fintype.card κ = Fintype.card ι := (Fintype.card_congr e).symm

theorem relabel_used (e : ι ≃ κ) (d : Bool) (calls : List (Call ι ℝ)) :
    used d (calls.map (mapCall (relabelVec e))) = (used d calls).map (relabelVec e) :=
  used_map_additive _ (fun _ _ => rfl) d calls

variable (e : ι ≃ κ) (L : Lapack)

/-- C66: EmpiricalCovariance. -/
theorem C66_empirical (d : Bool) :
    Transports (empiricalCls ι ℝ) (empiricalCls κ ℝ) d d (relabelVec e) (relabelVec e) (relabelMat e) := by
  refine transports_of_sim (empirical_lawful ι ℝ) (empirical_lawful κ ℝ) rfl (relabel_used e _)
    (fun (s : EmpState ι ℝ) (t : EmpState κ ℝ) => t = ⟨s.nSamples, relabelVec e s.mean, relabelMat e s.cov⟩) rfl ?_ ?_ ?_
  · rintro (s : EmpState ι ℝ) t x rfl; rfl
  · rintro (s : EmpState ι ℝ) t rfl _; rfl
  · rintro (s : EmpState ι ℝ) t rfl _; rfl

/-- C66: EwaCovariance. -/
theorem C66_ewa (p : RParam ℝ) :
    Transports (ewaCls ι ℝ) (ewaCls κ ℝ) p p (relabelVec e) (relabelVec e) (relabelMat e) := by
  refine transports_of_sim (ewa_lawful ι ℝ) (ewa_lawful κ ℝ) rfl (relabel_used e _)
    (fun (s : EwaState ι ℝ) (t : EwaState κ ℝ) => t = ⟨⟨s.nSamples, relabelVec e s.mean, relabelMat e s.cov⟩, s.r, s.nBurn⟩) rfl ?_ ?_ ?_
  · rintro (s : EwaState ι ℝ) t x rfl
    show ewaUpdate _ _ = _
    change _ = EwaState.mk (EmpState.mk (ewaUpdate s x).nSamples (relabelVec e (ewaUpdate s x).mean) (relabelMat e (ewaUpdate s x).cov)) (ewaUpdate s x).r (ewaUpdate s x).nBurn
    unfold ewaUpdate
    by_cases h : s.nSamples < s.nBurn
    · simp only [if_pos h]; rfl
    · simp only [if_neg h]; rfl
  · rintro (s : EwaState ι ℝ) t rfl _; rfl
  · rintro (s : EwaState ι ℝ) t rfl _; rfl

/-- C66: LedoitWolfCovariance. -/
theorem C66_ledoitWolf (p : RParam ℝ) :
    Transports (ledoitWolfCls ι ℝ) (ledoitWolfCls κ ℝ) p p (relabelVec e) (relabelVec e) (relabelMat e) :=
  transports_perm e p.diff (C65_ledoitWolf_similarity (permQ_orth e) one_ne_zero 0 p)

/-- C66: OASCovariance. -/
theorem C66_oas (p : RParam ℝ) : Transports (oasCls ι ℝ) (oasCls κ ℝ) p p (relabelVec e) (relabelVec e) (relabelMat e) :=
  transports_perm e p.diff (C65_oas_similarity (permQ_orth e) one_ne_zero 0 p)

/-- C66: HuberCovariance. -/
theorem C66_huber (p : HuberParam) : Transports (huberCls L ι) (huberCls L κ) p p (relabelVec e) (relabelVec e) (relabelMat e) :=
  transports_perm e p.diff (C65_huber_similarity (permQ_orth e) one_ne_zero 0 L p)

/-- C66: AdaptiveEwaCovariance. -/
theorem C66_adaptive (p : AdaParam) : Transports (adaptiveCls L ι) (adaptiveCls L κ) p p (relabelVec e) (relabelVec e) (relabelMat e) :=
  transports_perm e p.diff (C65_adaptive_similarity (permQ_orth e) one_ne_zero 0 L p)

/-- C66: GeodesicEwaCovariance. -/
theorem C66_geodesic (p : RParam ℝ) : Transports (geodesicCls L ι) (geodesicCls L κ) p p (relabelVec e) (relabelVec e) (relabelMat e) := by
  refine transports_perm e p.diff ?_
  have := C65_geodesic_rigid L (permQ_orth e) 0 p
  simpa only [one_smul, one_pow] using this

/-- C66: PartialMomentsCovariance. -/
theorem C66_partialMoments (p : RParam ℝ) :
    Transports (partialMomentsCls L ι) (partialMomentsCls L κ) p p (relabelVec e) (relabelVec e) (relabelMat e) := by
  have := C65_partialMoments_rotation L (permQ_orth e) p
  simpa only [permQ_mulVec, permQ_conj] using this

/-- C66: DiagonalCovariance. -/
theorem C66_diagonal (p : RParam ℝ) :
    Transports (diagonalCls ι ℝ) (diagonalCls κ ℝ) p p (relabelVec e) (relabelVec e) (relabelMat e) := by
  refine transports_of_sim (diagonal_lawful ι ℝ) (diagonal_lawful κ ℝ) rfl (relabel_used e _)
    (fun (s : DiagState ι ℝ) (t : DiagState κ ℝ) => t = ⟨s.nSamples, relabelVec e s.mean, relabelVec e s.var, s.r, s.nBurn⟩) rfl ?_ ?_ ?_
  · rintro (s : DiagState ι ℝ) t x rfl
    show diagUpdate _ _ = DiagState.mk (diagUpdate s x).nSamples (relabelVec e (diagUpdate s x).mean) (relabelVec e (diagUpdate s x).var) (diagUpdate s x).r (diagUpdate s x).nBurn
    unfold diagUpdate
    by_cases h : s.nSamples + 1 ≤ s.nBurn
    · simp only [if_pos h]; rfl
    · simp only [if_neg h]; rfl
  · rintro (s : DiagState ι ℝ) t rfl _; rfl
  · rintro (s : DiagState ι ℝ) t rfl _
    show toSymmetric (Matrix.diagonal (relabelVec e s.var)) = relabelMat e (toSymmetric (Matrix.diagonal s.var))
    rw [← relabel_toSymmetric]
    congr 1
    ext k l
    simp [relabelMat, relabelVec, Matrix.diagonal_apply]

/-- C66: DCCCovariance. -/
theorem C66_dcc (p : DCCParam) :
    Transports (dccCls ι) (dccCls κ) p p (relabelVec e) (relabelVec e) (relabelMat e) := by
  refine transports_of_sim (dcc_lawful ι) (dcc_lawful κ) rfl (relabel_used e _)
    (fun (s : DCCState ι) (t : DCCState κ) => t = ⟨s.nSamples, relabelVec e s.mean, relabelVec e s.h, relabelMat e s.Q, s.r, s.volR, s.nBurn⟩) ?_ ?_ ?_ ?_
  · show dccInit p = _
    have : (dccInit p : DCCState κ).Q = relabelMat e (dccInit p : DCCState ι).Q := (relabel_one e).symm
    unfold dccInit at this ⊢
    simp only at this
    show DCCState.mk _ _ _ _ _ _ _ = DCCState.mk _ _ _ _ _ _ _
    rw [this]; rfl
  · rintro (s : DCCState ι) t x rfl
    show dccUpdate _ _ = DCCState.mk (dccUpdate s x).nSamples (relabelVec e (dccUpdate s x).mean) (relabelVec e (dccUpdate s x).h) (relabelMat e (dccUpdate s x).Q) (dccUpdate s x).r (dccUpdate s x).volR (dccUpdate s x).nBurn
    unfold dccUpdate
    by_cases h : s.nSamples + 1 ≤ s.nBurn
    · simp only [if_pos h]; rfl
    · simp only [if_neg h]; rfl
  · rintro (s : DCCState ι) t rfl _; rfl
  · rintro (s : DCCState ι) t rfl _; rfl

/-- C66: ShrunkCovariance, both targets. -/
theorem C66_shrunk (p : ShrunkParam) :
    Transports (shrunkCls ι) (shrunkCls κ) p p (relabelVec e) (relabelVec e) (relabelMat e) := by
  refine transports_of_sim (shrunk_lawful ι) (shrunk_lawful κ) rfl (relabel_used e _)
    (fun (s : EwaState ι ℝ) (t : EwaState κ ℝ) => t = ⟨⟨s.nSamples, relabelVec e s.mean, relabelMat e s.cov⟩, s.r, s.nBurn⟩) rfl ?_ ?_ ?_
  · rintro (s : EwaState ι ℝ) t x rfl
    show ewaUpdate _ _ = EwaState.mk (EmpState.mk (ewaUpdate s x).nSamples (relabelVec e (ewaUpdate s x).mean) (relabelMat e (ewaUpdate s x).cov)) (ewaUpdate s x).r (ewaUpdate s x).nBurn
    unfold ewaUpdate
    by_cases h : s.nSamples < s.nBurn
    · simp only [if_pos h]; rfl
    · simp only [if_neg h]; rfl
  · rintro (s : EwaState ι ℝ) t rfl _; rfl
  · rintro (s : EwaState ι ℝ) t rfl _
    show toSymmetric (shrunkCov p _) = relabelMat e (toSymmetric (shrunkCov p s))
    rw [← relabel_toSymmetric]
    congr 1
    unfold shrunkCov
    by_cases ht : p.target = "identity"
    · simp only [if_pos ht]
      rw [relabel_trace, relabel_card e, ← relabel_one e]; rfl
    · simp only [if_neg ht]
      have hr : shrunkRbar (relabelMat e s.cov) (fun i => Real.sqrt (max (relabelMat e s.cov i i) EPS))
          = shrunkRbar s.cov (fun i => Real.sqrt (max (s.cov i i) EPS)) := by
        unfold shrunkRbar
        rw [relabel_card e]
        congr 2
        rw [← Equiv.sum_comp e.symm (fun i => ∑ j, if i = j then (0:ℝ) else s.cov i j / (Real.sqrt (max (s.cov i i) EPS) * Real.sqrt (max (s.cov j j) EPS)))]
        refine Finset.sum_congr rfl fun k _ => ?_
        rw [← Equiv.sum_comp e.symm (fun j => if e.symm k = j then (0:ℝ) else s.cov (e.symm k) j / (Real.sqrt (max (s.cov (e.symm k) (e.symm k)) EPS) * Real.sqrt (max (s.cov j j) EPS)))]
        refine Finset.sum_congr rfl fun l _ => ?_
        simp only [EmbeddingLike.apply_eq_iff_eq]
        rfl
      rw [hr]
      ext k l
      simp only [relabelMat, Matrix.add_apply, Matrix.smul_apply, of_apply, EmbeddingLike.apply_eq_iff_eq]

/-- C66: TylerCovariance (a NaN shape stays NaN under both labellings). -/
theorem C66_tyler (p : RParam ℝ) :
    Transports (tylerCls L ι) (tylerCls L κ) p p (relabelVec e) (relabelVec e) (relabelMat e) := by
  refine transports_of_sim (tyler_lawful L ι) (tyler_lawful L κ) rfl (relabel_used e _)
    (fun (s : TylerState ι) (t : TylerState κ) => t = ⟨s.nSamples, relabelVec e s.mean, s.shape.map (relabelMat e), s.r, s.nBurn⟩ ∧
      ∀ C, s.shape = some C → Symm C) ⟨?_, ?_⟩ ?_ ?_ ?_
  · show TylerState.mk 0 (fun _ => 0) (some 1) p.r _ = TylerState.mk 0 (relabelVec e fun _ => 0) (Option.map (relabelMat e) (some 1)) p.r _
    rw [Option.map_some, relabel_one e]; rfl
  · rintro C ⟨⟩; exact symm_one
  · rintro (s : TylerState ι) t x ⟨rfl, hs⟩
    refine ⟨?_, ?_⟩
    · show tylerUpdate L _ _ = TylerState.mk (tylerUpdate L s x).nSamples (relabelVec e (tylerUpdate L s x).mean) ((tylerUpdate L s x).shape.map (relabelMat e)) (tylerUpdate L s x).r (tylerUpdate L s x).nBurn
      have hsh : ∀ lr : ℝ, (s.shape.map (relabelMat e)).bind (fun C => tylerShape L lr C (relabelVec e fun i => x i - s.mean i))
          = (s.shape.bind fun C => tylerShape L lr C fun i => x i - s.mean i).map (relabelMat e) := by
        intro lr
        cases hC : s.shape with
        | none => rfl
        | some C =>
          simp only [Option.map_some, Option.bind_some]
          unfold tylerShape
          simp only []
          rw [relabel_tryInvert L e (hs C hC), relabel_quad, relabel_outer, relabel_card e]
          have e1 : ∀ u v : ℝ, u • relabelMat e C + v • relabelMat e (outer (fun i => x i - s.mean i) fun i => x i - s.mean i)
            = relabelMat e (u • C + v • outer (fun i => x i - s.mean i) fun i => x i - s.mean i) := fun u v => rfl
          rw [e1, relabel_trace]
          split_ifs <;> rfl
      unfold tylerUpdate
      by_cases h : s.nSamples + 1 ≤ s.nBurn
      · simp only [if_pos h]
        rw [← hsh]; rfl
      · simp only [if_neg h]
        rw [← hsh]; rfl
    · intro C hC
      change (s.shape.bind fun C => tylerShape L (if s.nSamples + 1 ≤ s.nBurn then 1 / ((s.nSamples + 1 : ℕ) : ℝ) else s.r) C fun i => x i - s.mean i) = some C at hC
      obtain ⟨D, hD, hC⟩ := Option.bind_eq_some_iff.1 hC
      unfold tylerShape at hC
      simp only [] at hC
      split_ifs at hC
      all_goals
        cases hC
        exact (((hs D hD).smul _).add ((symm_outer _).smul _)).smul _
  · rintro (s : TylerState ι) t ⟨rfl, _⟩ _; rfl
  · rintro (s : TylerState ι) t ⟨rfl, _⟩ _
    show toSymmetric (((s.shape.map (relabelMat e)).map covToCorr).getD 0) = relabelMat e (toSymmetric ((s.shape.map covToCorr).getD 0))
    cases s.shape with
    | none => rfl
    | some C => rfl

/-- C66: FactorCovariance. -/
theorem C66_factor (p : FactorParam) :
    Transports (factorCls ι) (factorCls κ) p p (relabelVec e) (relabelVec e) (relabelMat e) := by
  have hnorm : ∀ v : ι → ℝ, vecNorm (relabelVec e v) = vecNorm v := by
    intro v; unfold vecNorm normSq; congr 1; exact relabel_sum e fun i => v i * v i
  have hloop : ∀ (lr : ℝ) (V : List (ι → ℝ)) (u : ι → ℝ),
      factorLoop lr (V.map (relabelVec e)) (relabelVec e u) = (factorLoop lr V u).map (relabelVec e) := by
    intro lr V
    induction V with
    | nil => intro u; rfl
    | cons v vs ih =>
      intro u
      simp only [List.map_cons, factorLoop]
      rw [hnorm]
      by_cases h : vecNorm v < EPS
      · rw [if_pos h, if_pos h]; rfl
      · rw [if_neg h, if_neg h]
        have hproj : ∑ i, relabelVec e u i * (relabelVec e v i / vecNorm v) = ∑ i, u i * (v i / vecNorm v) :=
          relabel_sum e fun i => u i * (v i / vecNorm v)
        rw [hproj, List.map_cons, ← ih]
        rfl
  have hact : ∀ V : List (ι → ℝ), factorActive (V.map (relabelVec e)) = (factorActive V).map (relabelVec e) := by
    intro V
    unfold factorActive
    rw [List.filter_map]
    congr 1
    refine List.filter_congr fun v _ => ?_
    simp [hnorm]
  refine transports_of_sim (factor_lawful ι) (factor_lawful κ) rfl (relabel_used e _)
    (fun (s : FactorState ι) (t : FactorState κ) => t = ⟨s.nSamples, relabelVec e s.mean, relabelVec e s.var, s.V.map (relabelVec e), s.k, s.r, s.nBurn⟩) ?_ ?_ ?_ ?_
  · show factorInit p = _
    show FactorState.mk 0 (fun _ => 0) (fun _ => 0) (List.replicate (min p.k (Fintype.card κ)) 0) (min p.k (Fintype.card κ)) p.r (min p.k (Fintype.card κ) + 1)
      = FactorState.mk 0 (relabelVec e fun _ => 0) (relabelVec e fun _ => 0) ((List.replicate (min p.k (Fintype.card ι)) 0).map (relabelVec e)) (min p.k (Fintype.card ι)) p.r (min p.k (Fintype.card ι) + 1)
    rw [relabel_card e, List.map_replicate]; rfl
  · rintro (s : FactorState ι) t x rfl
    show factorUpdate _ _ = FactorState.mk (factorUpdate s x).nSamples (relabelVec e (factorUpdate s x).mean) (relabelVec e (factorUpdate s x).var) ((factorUpdate s x).V.map (relabelVec e)) (factorUpdate s x).k (factorUpdate s x).r (factorUpdate s x).nBurn
    unfold factorUpdate
    by_cases h : s.nSamples + 1 ≤ s.nBurn
    · simp only [if_pos h]; rw [← hloop]; rfl
    · simp only [if_neg h]; rw [← hloop]; rfl
  · rintro (s : FactorState ι) t rfl _; rfl
  · rintro (s : FactorState ι) t rfl _
    show toSymmetric (factorCov _) = relabelMat e (toSymmetric (factorCov s))
    rw [← relabel_toSymmetric]
    congr 1
    unfold factorCov factorPart factorCaptured
    simp only [hact]
    rw [List.map_map]
    have h1 : ((factorActive s.V).map ((fun v => (1 / vecNorm v) • outer v v) ∘ relabelVec e)).sum
        = relabelMat e ((factorActive s.V).map fun v => (1 / vecNorm v) • outer v v).sum := by
      generalize factorActive s.V = V
      induction V with
      | nil => rfl
      | cons v V ih =>
        rw [List.map_cons, List.sum_cons, List.map_cons, List.sum_cons, ih]
        simp only [Function.comp_apply, hnorm, relabel_outer]
        rfl
    rw [h1]
    have h2 : ∀ k, ((((factorActive s.V).map (relabelVec e)).map fun v => vecNorm v * (v k / vecNorm v) ^ 2).sum : ℝ)
        = ((factorActive s.V).map fun v => vecNorm v * (v (e.symm k) / vecNorm v) ^ 2).sum := by
      intro k
      rw [List.map_map]
      congr 2
      funext v
      simp only [Function.comp_apply, hnorm]
      rfl
    simp only [h2]
    ext k l
    simp only [Matrix.add_apply, relabelMat, of_apply, Matrix.diagonal_apply, EmbeddingLike.apply_eq_iff_eq, relabelVec]

end Precise
