import Verif.Props.Stability
import Verif.Props.Masking
import Verif.Props.Robust

/-!
# C99: what `mahalanobis` and `score` say when `covariance_` is singular or indefinite
-/

set_option linter.all false

open Matrix

namespace Precise

open Spec Obj

variable {ι : Type} [Fintype ι] [DecidableEq ι] (L : Lapack)

theorem pinv_comm {c p : Matrix ι ι ℝ} (hs : Symm c) (hp : IsPinv c p) : p * c = c * p := by
  have h := hp.2.2.2
  have hsp := IsPinv.symm hs hp
  calc p * c = (p * c)ᵀ := h.transpose.symm
    _ = c * p := by rw [transpose_mul, hs.transpose, hsp.transpose]

theorem pinv_ker {c p : Matrix ι ι ℝ} (hs : Symm c) (hp : IsPinv c p) (u : ι → ℝ) : p *ᵥ u = 0 ↔ c *ᵥ u = 0 := by
  have hc := pinv_comm hs hp
  constructor
  · intro h
    have : c = c * (c * p) := by rw [← hc, ← Matrix.mul_assoc, hp.1]
    rw [this, ← mulVec_mulVec, ← mulVec_mulVec, h]; simp
  · intro h
    have : p = p * (p * c) := by rw [hc, ← Matrix.mul_assoc, hp.2.1]
    rw [this, ← mulVec_mulVec, ← mulVec_mulVec, h]; simp

theorem quad_add_ker {p : Matrix ι ι ℝ} (hs : Symm p) {u : ι → ℝ} (h : p *ᵥ u = 0) (x : ι → ℝ) : quad p (x + u) = quad p x := by
  unfold quad
  rw [mulVec_add, h, add_zero, add_dotProduct, dotProduct_mulVec u, ← mulVec_transpose, hs.transpose, h]
  simp

/-- C99: a change of the observation along a direction `u` with `covariance_ · u = 0` is invisible to `mahalanobis`, for every class. -/
theorem C99_invisible {C : Cls ι ℝ} (o : Obj C) (c : Matrix ι ι ℝ) (hc : o.covariance = .ok c) (u : ι → ℝ) (hu : c *ᵥ u = 0) (x : ι → ℝ) :
    o.mahalanobis L (.row (x + u)) = o.mahalanobis L (.row x) := by
  have hs : Symm c := C10_symmetric o c hc
  cases hm : o.location with
  | error e =>
    simp [Obj.mahalanobis, asRows, Obj.precision, hc, hm, Except.map, bind, Except.bind, pure, Except.pure]
  | ok m =>
    have h1 : o.mahalanobis L (.row (x + u)) = _ := maha_eq L o c m hc hm [x + u]
    have h2 : o.mahalanobis L (.row x) = _ := maha_eq L o c m hc hm [x]
    rw [h1, h2]
    have hp := tryInvert_pinv L hs
    have hk := (pinv_ker hs hp u).2 hu
    have e : x + u - m = (x - m) + u := by abel
    simp only [List.map_cons, List.map_nil, e, quad_add_ker (tryInvert_symm L hs) hk]

/-- C99: for a PSD `covariance_` the rows at distance 0 are exactly those that differ from `location_` by such a direction. -/
theorem C99_zero_iff {C : Cls ι ℝ} (o : Obj C) (c : Matrix ι ι ℝ) (m : ι → ℝ) (hc : o.covariance = .ok c) (hm : o.location = .ok m)
    (hpsd : PSD c) (x : ι → ℝ) : o.mahalanobis L (.row x) = .ok [0] ↔ c *ᵥ (x - m) = 0 := by
  have h1 : o.mahalanobis L (.row x) = _ := maha_eq L o c m hc hm [x]
  have hp := tryInvert_pinv L hpsd.1
  rw [h1, ← pinv_ker hpsd.1 hp, ← (tryInvert_psd L hpsd).quad_eq_zero_iff]
  simp

/-- C99: distances are never negative exactly when `covariance_` is PSD. -/
theorem C99_nonneg_iff {C : Cls ι ℝ} (o : Obj C) (c : Matrix ι ι ℝ) (m : ι → ℝ) (hc : o.covariance = .ok c) (hm : o.location = .ok m) :
    (∀ x q, o.mahalanobis L (.row x) = .ok [q] → 0 ≤ q) ↔ PSD c := by
  have hs : Symm c := C10_symmetric o c hc
  have hp := tryInvert_pinv L hs
  have h1 : ∀ x, o.mahalanobis L (.row x) = .ok [quad (tryInvert L c) (x - m)] := fun x => maha_eq L o c m hc hm [x]
  constructor
  · intro h
    refine ⟨hs, fun u => ?_⟩
    have := h (m + c *ᵥ u) _ (h1 _)
    have e : m + c *ᵥ u - m = c *ᵥ u := by abel
    rw [e] at this
    have e2 : quad (tryInvert L c) (c *ᵥ u) = quad c u := by
      unfold quad
      rw [mulVec_mulVec, dotProduct_mulVec, vecMul_mulVec, ← dotProduct_mulVec, hs.transpose, ← Matrix.mul_assoc, hp.1]
    rwa [e2] at this
  · intro h x q hq
    rw [h1 x] at hq
    have := Except.ok.inj hq
    rw [← (List.cons.inj this).1]
    exact (tryInvert_psd L h).2 _

/-- C99: `score` is `-inf` for every data set exactly when `covariance_` is singular. -/
theorem C99_score_bot_iff {C : Cls ι ℝ} (o : Obj C) (c : Matrix ι ι ℝ) (m : ι → ℝ) (hc : o.covariance = .ok c) (hm : o.location = .ok m)
    (rows : List (ι → ℝ)) : o.score L (.batch rows) = .ok ⊥ ↔ c.det = 0 := by
  have hs : Symm c := C10_symmetric o c hc
  have hp := tryInvert_pinv L hs
  have hdet : (tryInvert L c).det = 0 ↔ c.det = 0 := by
    rw [← exists_mulVec_eq_zero_iff, ← exists_mulVec_eq_zero_iff]
    simp only [pinv_ker hs hp]
  have e : o.score L (.batch rows) = .ok ((Obj.logAbsDet (tryInvert L c)).map fun logdet =>
      ((rows.map fun x => quad (tryInvert L c) (x - m)).map fun q => (1/2) * logdet - (1/2) * q
      - (1/2) * (Fintype.card ι : ℝ) * Real.log (2 * Real.pi)).sum / ((rows.map fun x => quad (tryInvert L c) (x - m)).length : ℝ)) := by
    simp only [Obj.score, asRows, Obj.precision, hc, Except.map, bind, Except.bind, pure, Except.pure, maha_eq L o c m hc hm]
  rw [e]
  unfold Obj.logAbsDet
  by_cases h : c.det = 0
  · rw [if_pos (hdet.2 h)]; simp [h]
  · rw [if_neg (mt hdet.1 h)]
    simp [h]

/-- C99 (finding): EmpiricalCovariance on data that satisfy an exact linear relation `w · x = v` cannot see the relation
being broken: moving an observation along `w`, by any amount, leaves its distance unchanged, and `score` is `-inf`
whatever it is given. -/
theorem C99_empirical_relation (d : Bool) (calls : List (Call ι ℝ)) (w : ι → ℝ) (v : ℝ) (hw : w ≠ 0) (hne : used d calls ≠ [])
    (h : ∀ x ∈ used d calls, w ⬝ᵥ x = v) :
    (∀ (x : ι → ℝ) (t : ℝ), ((new (empiricalCls ι ℝ) d).run calls).mahalanobis L (.row (x + t • w)) =
      ((new (empiricalCls ι ℝ) d).run calls).mahalanobis L (.row x)) ∧
    ∀ rows, ((new (empiricalCls ι ℝ) d).run calls).score L (.batch rows) = .ok ⊥ := by
  obtain ⟨hm, hc, -⟩ := C15_batch d calls hne
  have hpsd := C18_psd d calls _ hc
  have hk : covOf (used d calls) *ᵥ w = 0 := (PSD.quad_eq_zero_iff hpsd w).1 ((C18_zero_variance_iff d calls _ hc w).2 ⟨v, h⟩)
  refine ⟨fun x t => C99_invisible L _ _ hc (t • w) (by rw [mulVec_smul, hk, smul_zero]) x, fun rows => ?_⟩
  exact (C99_score_bot_iff L _ _ _ hc hm rows).2 (exists_mulVec_eq_zero_iff.1 ⟨w, hw, hk⟩)

/-- an exact linear relation among the rows is one of the EWA mean, and its normal is in the kernel of the EWA covariance -/
theorem ewaFold_relation (r : ℝ) (w : ι → ℝ) (v : ℝ) (xs : List (ι → ℝ)) (h : ∀ x ∈ xs, w ⬝ᵥ x = v) (hne : xs ≠ []) :
    w ⬝ᵥ (ewaFold r xs).mean = v ∧ (ewaFold r xs).cov *ᵥ w = 0 := by
  have h5 : 5 ≤ ewaBurnN r := ewaBurnN_ge r
  have ho : ∀ x m : ι → ℝ, w ⬝ᵥ x = v → w ⬝ᵥ m = v → outer (x - m) (x - m) *ᵥ w = 0 := by
    intro x m h1 h2
    have : outer (x - m) (x - m) *ᵥ w = ((x - m) ⬝ᵥ w) • (x - m) := by
      ext i; simp [outer, mulVec, dotProduct, Finset.mul_sum, Finset.sum_mul, mul_comm, mul_left_comm]
    rw [this, dotProduct_comm, dotProduct_sub, h1, h2]; simp
  induction xs using List.reverseRecOn with
  | nil => exact absurd rfl hne
  | append_singleton xs x ih =>
    have hx : w ⬝ᵥ x = v := h x (by simp)
    by_cases he : xs = []
    · subst he
      have e := ewaFold_burn r [x] (by simp; omega)
      have e1 : (ewaFold r ([] ++ [x])).mean = (empFold [x]).mean := congrArg EmpState.mean e
      have e2 : (ewaFold r ([] ++ [x])).cov = (empFold [x]).cov := congrArg EmpState.cov e
      have f : empFold [x] = empUpdate empInit x := rfl
      rw [e1, e2, f, empUpdate_mean, empUpdate_cov]
      constructor
      · rw [← hx]; congr 1; ext i; simp [empInit]
      · simp [empInit]
    · obtain ⟨i1, i2⟩ := ih (fun y hy => h y (by simp [hy])) he
      have hmix : ∀ a b : ℝ, a + b = 1 → w ⬝ᵥ (fun i => a * (ewaFold r xs).mean i + b * x i) = v := by
        intro a b hab
        have : (fun i => a * (ewaFold r xs).mean i + b * x i) = a • (ewaFold r xs).mean + b • x := by ext i; simp
        rw [this, dotProduct_add, dotProduct_smul, dotProduct_smul, i1, hx, ← add_smul, hab, one_smul]
      rw [ewaFold_snoc]
      by_cases hb : xs.length < ewaBurnN r
      · have e := ewaUpdate_burn (s := ewaFold r xs) (by rw [ewaFold_n, ewaFold_nBurn]; exact hb) x
        rw [show (ewaUpdate (ewaFold r xs) x).mean = _ from congrArg EmpState.mean e,
          show (ewaUpdate (ewaFold r xs) x).cov = _ from congrArg EmpState.cov e, empUpdate_mean, empUpdate_cov]
        refine ⟨hmix _ _ (by ring), ?_⟩
        rw [add_mulVec, smul_mulVec, smul_mulVec, i2, ho _ _ hx i1]; simp
      · have e := ewaUpdate_post (s := ewaFold r xs) (by rw [ewaFold_n, ewaFold_nBurn]; omega) x
        rw [show (ewaUpdate (ewaFold r xs) x).mean = _ from congrArg EmpState.mean e,
          show (ewaUpdate (ewaFold r xs) x).cov = _ from congrArg EmpState.cov e]
        simp only [ewaBlend]
        refine ⟨hmix _ _ (by ring), ?_⟩
        rw [add_mulVec, smul_mulVec, smul_mulVec, i2]
        have := ho _ _ hx i1
        rw [show (fun i => x i - (ewaFold r xs).mean i) = x - (ewaFold r xs).mean from rfl, this]; simp

/-- C99 (finding): the same holds of EwaCovariance at every rate. -/
theorem C99_ewa_relation (p : RParam ℝ) (calls : List (Call ι ℝ)) (w : ι → ℝ) (v : ℝ) (hw : w ≠ 0) (hne : used p.diff calls ≠ [])
    (h : ∀ x ∈ used p.diff calls, w ⬝ᵥ x = v) :
    (∀ (x : ι → ℝ) (t : ℝ), ((new (ewaCls ι ℝ) p).run calls).mahalanobis L (.row (x + t • w)) =
      ((new (ewaCls ι ℝ) p).run calls).mahalanobis L (.row x)) ∧
    ∀ rows, ((new (ewaCls ι ℝ) p).run calls).score L (.batch rows) = .ok ⊥ := by
  obtain ⟨hm, hc⟩ := ewa_attrs p calls hne
  have hk := (ewaFold_relation p.r w v _ h hne).2
  refine ⟨fun x t => C99_invisible L _ _ hc (t • w) (by rw [mulVec_smul, hk, smul_zero]) x, fun rows => ?_⟩
  exact (C99_score_bot_iff L _ _ _ hc hm rows).2 (exists_mulVec_eq_zero_iff.1 ⟨w, hw, hk⟩)

/-- C99 (finding): TylerCovariance can report a negative Mahalanobis "distance". -/
theorem C99_tyler_negative (r : ℝ) : ∃ x q, ((new (tylerCls L (Fin 2)) (⟨r, false⟩ : RParam ℝ)).run
    [.partialFit (.row ![1, 1 / 10 ^ 6])]).mahalanobis L (.row x) = .ok [q] ∧ q < 0 := by
  obtain ⟨c, hc, -, hn⟩ := C36_indefinite_witness L r
  have hu : used false [Call.partialFit (.row (![1, 1 / 10 ^ 6] : Fin 2 → ℝ))] ≠ [] := by
    simp [used, effective, rowsSinceFit, rowsOf]
  have hm := run_location (tyler_lawful L (Fin 2)) (⟨r, false⟩ : RParam ℝ) _ hu
  by_contra hcon
  push Not at hcon
  exact hn ((C99_nonneg_iff L _ c _ hc hm).1 hcon)

/-! ## the hypotheses are met -/

example (x : Fin 2 → ℝ) : ((new (empiricalCls (Fin 2) ℝ) false).run [.partialFit (.batch demoRows)]).mahalanobis L (.row x) = .ok [0] ↔
    covOf demoRows *ᵥ (x - meanOf demoRows) = 0 := by
  obtain ⟨hm, hc, -⟩ := C15_batch false [Call.partialFit (.batch demoRows)] demo_ne
  have e : used false [Call.partialFit (.batch demoRows)] = demoRows := by simp [used, effective, rowsSinceFit, rowsOf]
  rw [e] at hm hc
  exact C99_zero_iff L _ _ _ hc hm (C18_psd false _ _ hc) x

/-- rows with `x₀ + x₁ = 3`; the broken row (100, 0) is as unremarkable as its projection on the relation -/
example (t : ℝ) : ((new (empiricalCls (Fin 2) ℝ) false).run [.partialFit (.batch [![1, 2], ![2, 1], ![0, 3]])]).mahalanobis L
      (.row (![1, 2] + t • ![1, 1])) =
    ((new (empiricalCls (Fin 2) ℝ) false).run [.partialFit (.batch [![1, 2], ![2, 1], ![0, 3]])]).mahalanobis L (.row ![1, 2]) :=
  (C99_empirical_relation L false _ ![1, 1] 3 (by intro h; have := congrFun h 0; simp at this)
    (by simp [used, effective, rowsSinceFit, rowsOf])
    (by simp [used, effective, rowsSinceFit, rowsOf, dotProduct]; norm_num)).1 _ t

example : ((new (ewaCls (Fin 2) ℝ) ⟨1/20, false⟩).run [.partialFit (.batch [![1, 2], ![2, 1], ![0, 3]])]).score L
      (.batch [![1, 2]]) = .ok ⊥ :=
  (C99_ewa_relation L ⟨1/20, false⟩ _ ![1, 1] 3 (by intro h; have := congrFun h 0; simp at this)
    (by simp [used, effective, rowsSinceFit, rowsOf])
    (by simp [used, effective, rowsSinceFit, rowsOf, dotProduct]; norm_num)).2 _

end Precise
