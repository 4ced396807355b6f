import Verif.Spec.Signs
import Verif.Props.Translate

/-!
# C129: the sign a column is recorded with does not matter

Turning columns round (`x i ↦ -x i`) turns `location_` and `covariance_` round, for every estimator but one.
-/

set_option linter.all false

open Matrix

namespace Precise

open Spec Obj

variable {ι : Type} [Fintype ι] [DecidableEq ι] {w : ι → ℝ}

theorem Spec.Signs.sq (hw : Signs w) (i : ι) : w i * w i = 1 := by
  rcases hw i with h | h <;> rw [h] <;> norm_num

theorem Spec.Signs.sq' (hw : Signs w) (i : ι) : w i ^ 2 = 1 := by rw [pow_two]; exact hw.sq i

theorem flipQ_mulVec (w x : ι → ℝ) : (Matrix.diagonal w) *ᵥ x = flipVec w x := by
  ext i; simp [flipVec, Matrix.mulVec_diagonal]

theorem flipQ_conj (w : ι → ℝ) (a : Matrix ι ι ℝ) : Matrix.diagonal w * a * (Matrix.diagonal w)ᵀ = flipMat w a := by
  ext i j
  rw [Matrix.diagonal_transpose, Matrix.mul_diagonal, Matrix.diagonal_mul]; rfl

theorem flipQ_orth (hw : Signs w) : Orth (Matrix.diagonal w) := by
  have h : Matrix.diagonal w * Matrix.diagonal w = (1 : Matrix ι ι ℝ) := by
    rw [Matrix.diagonal_mul_diagonal, ← Matrix.diagonal_one]
    congr 1; funext i; exact hw.sq i
  constructor <;> rw [Matrix.diagonal_transpose] <;> exact h

theorem flip_outer (w x y : ι → ℝ) : outer (flipVec w x) (flipVec w y) = flipMat w (outer x y) := by
  ext i j; simp only [outer, flipVec, flipMat, of_apply]; ring

theorem flip_sub (w x y : ι → ℝ) : flipVec w (x - y) = flipVec w x - flipVec w y := by
  ext i; simp only [flipVec, Pi.sub_apply]; ring

theorem flip_used (w : ι → ℝ) (d : Bool) (calls : List (Call ι ℝ)) :
    used d (calls.map (mapCall (flipVec w))) = (used d calls).map (flipVec w) :=
  used_map_additive _ (flip_sub w) d calls

theorem flip_diag (hw : Signs w) (a : Matrix ι ι ℝ) (i : ι) : flipMat w a i i = a i i := by
  show w i * a i i * w i = a i i
  rw [mul_right_comm, hw.sq, one_mul]

theorem flip_trace (hw : Signs w) (a : Matrix ι ι ℝ) : (flipMat w a).trace = a.trace := by
  unfold Matrix.trace; exact Finset.sum_congr rfl fun i _ => flip_diag hw a i

theorem flip_one (hw : Signs w) : flipMat w (1 : Matrix ι ι ℝ) = 1 := by
  rw [← flipQ_conj, Matrix.mul_one]; exact (flipQ_orth hw).right

theorem flip_diagonal (hw : Signs w) (v : ι → ℝ) : flipMat w (Matrix.diagonal v) = Matrix.diagonal v := by
  ext i j
  simp only [flipMat, of_apply, Matrix.diagonal_apply]
  by_cases h : i = j
  · subst h; rw [if_pos rfl, mul_right_comm, hw.sq, one_mul]
  · rw [if_neg h]; ring

theorem flip_add (w : ι → ℝ) (a b : Matrix ι ι ℝ) : flipMat w (a + b) = flipMat w a + flipMat w b := by
  ext i j; simp only [flipMat, of_apply, Matrix.add_apply]; ring

theorem flip_smul (w : ι → ℝ) (c : ℝ) (a : Matrix ι ι ℝ) : flipMat w (c • a) = c • flipMat w a := by
  ext i j; simp only [flipMat, of_apply, Matrix.smul_apply, smul_eq_mul]; ring

theorem flip_toSymmetric (w : ι → ℝ) (a : Matrix ι ι ℝ) : toSymmetric (flipMat w a) = flipMat w (toSymmetric a) := by
  ext i j; simp only [flipMat, of_apply, toSymmetric]; ring

theorem flip_normSq (hw : Signs w) (v : ι → ℝ) : normSq (flipVec w v) = normSq v := by
  unfold normSq flipVec
  refine Finset.sum_congr rfl fun i _ => ?_
  have := hw.sq i
  calc w i * v i * (w i * v i) = (w i * w i) * (v i * v i) := by ring
    _ = v i * v i := by rw [this, one_mul]

theorem flip_quad (hw : Signs w) (a : Matrix ι ι ℝ) (x : ι → ℝ) : quad (flipMat w a) (flipVec w x) = quad a x := by
  rw [← flipQ_conj, ← flipQ_mulVec]; exact conj_quad (flipQ_orth hw) a x

theorem flip_tryInvert (hw : Signs w) (L : Lapack) {a : Matrix ι ι ℝ} (ha : Symm a) :
    tryInvert L (flipMat w a) = flipMat w (tryInvert L a) := by
  rw [← flipQ_conj, ← flipQ_conj]; exact conj_tryInvert (flipQ_orth hw) L ha

theorem flip_covToCorr (hw : Signs w) (a : Matrix ι ι ℝ) : covToCorr (flipMat w a) = flipMat w (covToCorr a) := by
  ext i j
  simp only [covToCorr, of_apply, flip_diag hw]
  simp only [flipMat, of_apply]
  ring

/-- the special case of a similarity -/
theorem transports_flip {C C' : Cls ι ℝ} {p : C.Param} {p' : C'.Param} (d : Bool)
    (h : Transports C C' p p' (affine ((1:ℝ) • Matrix.diagonal w) 0) (affine ((1:ℝ) • Matrix.diagonal w) (offset d 0))
      (fun a => (1:ℝ) ^ 2 • (Matrix.diagonal w * a * (Matrix.diagonal w)ᵀ))) :
    Transports C C' p p' (flipVec w) (flipVec w) (flipMat w) := by
  have e1 : (affine ((1:ℝ) • Matrix.diagonal w) 0 : (ι → ℝ) → ι → ℝ) = flipVec w := by
    funext x; simp only [affine, one_smul, flipQ_mulVec, add_zero]
  have e2 : (affine ((1:ℝ) • Matrix.diagonal w) (offset d 0) : (ι → ℝ) → ι → ℝ) = flipVec w := by
    funext x; cases d <;> simp [affine, flipQ_mulVec, offset]
  have e3 : (fun a => (1:ℝ) ^ 2 • (Matrix.diagonal w * a * (Matrix.diagonal w)ᵀ)) = flipMat w := by
    funext a; rw [one_pow, one_smul, flipQ_conj]
  rw [e1, e2, e3] at h
  exact h

/-- two EWA states of the same age, one turned round -/
def EwaFlip (w : ι → ℝ) (s t : EwaState ι ℝ) : Prop := t = ⟨⟨s.nSamples, flipVec w s.mean, flipMat w s.cov⟩, s.r, s.nBurn⟩

theorem EwaFlip.init (w : ι → ℝ) (r : ℝ) : EwaFlip w (ewaInit r) (ewaInit r) := by
  show EwaState.mk (EmpState.mk 0 (fun _ => 0) 0) r _ = EwaState.mk (EmpState.mk 0 (flipVec w fun _ => 0) (flipMat w 0)) r _
  congr 2
  · ext i; simp [flipVec]
  · ext i j; simp [flipMat]

theorem emp_flip (w : ι → ℝ) (s : EmpState ι ℝ) (x : ι → ℝ) :
    empUpdate ⟨s.nSamples, flipVec w s.mean, flipMat w s.cov⟩ (flipVec w x)
      = ⟨(empUpdate s x).nSamples, flipVec w (empUpdate s x).mean, flipMat w (empUpdate s x).cov⟩ := by
  unfold empUpdate
  simp only []
  congr 1
  · ext i; simp only [flipVec]; ring
  · ext i j
    simp only [flipVec, flipMat, of_apply, outer, Matrix.add_apply, Matrix.smul_apply, smul_eq_mul, Matrix.sub_apply]
    ring

theorem blend_flip (w : ι → ℝ) (r : ℝ) (s : EmpState ι ℝ) (x : ι → ℝ) :
    ewaBlend r ⟨s.nSamples, flipVec w s.mean, flipMat w s.cov⟩ (flipVec w x)
      = ⟨(ewaBlend r s x).nSamples, flipVec w (ewaBlend r s x).mean, flipMat w (ewaBlend r s x).cov⟩ := by
  unfold ewaBlend
  simp only []
  congr 1
  · ext i; simp only [flipVec]; ring
  · ext i j
    simp only [flipVec, flipMat, of_apply, outer, Matrix.add_apply, Matrix.smul_apply, smul_eq_mul, Matrix.sub_apply]
    ring

theorem EwaFlip.update {s t : EwaState ι ℝ} (h : EwaFlip w s t) (x : ι → ℝ) : EwaFlip w (ewaUpdate s x) (ewaUpdate t (flipVec w x)) := by
  subst h
  unfold EwaFlip ewaUpdate ewaBurnStep
  simp only []
  by_cases h : s.nSamples < s.nBurn
  · simp only [if_pos h]
    rw [emp_flip]
  · simp only [if_neg h]
    rw [blend_flip]

variable (hw : Signs w) (L : Lapack)
include hw

/-- C129: EmpiricalCovariance. -/
theorem C129_empirical (d : Bool) :
    Transports (empiricalCls ι ℝ) (empiricalCls ι ℝ) d d (flipVec w) (flipVec w) (flipMat w) := by
  refine transports_of_sim (empirical_lawful ι ℝ) (empirical_lawful ι ℝ) rfl (flip_used w _)
    (fun (s : EmpState ι ℝ) (t : EmpState ι ℝ) => t = ⟨s.nSamples, flipVec w s.mean, flipMat w s.cov⟩) ?_ ?_ ?_ ?_
  · show EmpState.mk 0 (fun _ => 0) 0 = EmpState.mk 0 (flipVec w fun _ => 0) (flipMat w 0)
    congr 1
    · ext i; simp [flipVec]
    · ext i j; simp [flipMat]
  · rintro (s : EmpState ι ℝ) t x rfl; exact emp_flip w s x
  · rintro (s : EmpState ι ℝ) t rfl _; rfl
  · rintro (s : EmpState ι ℝ) t rfl _; exact flip_toSymmetric w s.cov

/-- C129: EwaCovariance. -/
theorem C129_ewa (p : RParam ℝ) :
    Transports (ewaCls ι ℝ) (ewaCls ι ℝ) p p (flipVec w) (flipVec w) (flipMat w) := by
  refine transports_of_sim (ewa_lawful ι ℝ) (ewa_lawful ι ℝ) rfl (flip_used w _) (EwaFlip w) (EwaFlip.init w p.r)
    (fun s t x h => h.update x) ?_ ?_
  · rintro (s : EwaState ι ℝ) t rfl _; rfl
  · rintro (s : EwaState ι ℝ) t rfl _; exact flip_toSymmetric w s.cov

/-- C129: LedoitWolfCovariance. -/
theorem C129_ledoitWolf (p : RParam ℝ) :
    Transports (ledoitWolfCls ι ℝ) (ledoitWolfCls ι ℝ) p p (flipVec w) (flipVec w) (flipMat w) :=
  transports_flip p.diff (C65_ledoitWolf_similarity (flipQ_orth hw) one_ne_zero 0 p)

/-- C129: OASCovariance. -/
theorem C129_oas (p : RParam ℝ) : Transports (oasCls ι ℝ) (oasCls ι ℝ) p p (flipVec w) (flipVec w) (flipMat w) :=
  transports_flip p.diff (C65_oas_similarity (flipQ_orth hw) one_ne_zero 0 p)

/-- C129: ShrunkCovariance with the identity target. -/
theorem C129_shrunk_identity (p : ShrunkParam) (ht : p.target = "identity") :
    Transports (shrunkCls ι) (shrunkCls ι) p p (flipVec w) (flipVec w) (flipMat w) :=
  transports_flip p.diff (C65_shrunk_identity_similarity (flipQ_orth hw) one_ne_zero 0 p ht)

/-- C129: HuberCovariance. -/
theorem C129_huber (p : HuberParam) : Transports (huberCls L ι) (huberCls L ι) p p (flipVec w) (flipVec w) (flipMat w) :=
  transports_flip p.diff (C65_huber_similarity (flipQ_orth hw) one_ne_zero 0 L p)

/-- C129: AdaptiveEwaCovariance. -/
theorem C129_adaptive (p : AdaParam) : Transports (adaptiveCls L ι) (adaptiveCls L ι) p p (flipVec w) (flipVec w) (flipMat w) :=
  transports_flip p.diff (C65_adaptive_similarity (flipQ_orth hw) one_ne_zero 0 L p)

/-- C129: GeodesicEwaCovariance. -/
theorem C129_geodesic (p : RParam ℝ) : Transports (geodesicCls L ι) (geodesicCls L ι) p p (flipVec w) (flipVec w) (flipMat w) := by
  refine transports_flip p.diff ?_
  have := C65_geodesic_rigid L (flipQ_orth hw) 0 p
  simpa only [one_smul, one_pow] using this

/-- C129: PartialMomentsCovariance (the four quadrants change places, their sum does not notice). -/
theorem C129_partialMoments (p : RParam ℝ) :
    Transports (partialMomentsCls L ι) (partialMomentsCls L ι) p p (flipVec w) (flipVec w) (flipMat w) := by
  have := C65_partialMoments_rotation L (flipQ_orth hw) p
  simpa only [flipQ_mulVec, flipQ_conj] using this

/-- C129: DiagonalCovariance. -/
theorem C129_diagonal (p : RParam ℝ) :
    Transports (diagonalCls ι ℝ) (diagonalCls ι ℝ) p p (flipVec w) (flipVec w) (flipMat w) := by
  have hsq : ∀ (x m : ι → ℝ) i, (w i * x i - w i * m i) * (w i * x i - w i * m i) = (x i - m i) * (x i - m i) := by
    intro x m i
    have := hw.sq i
    calc _ = (w i * w i) * ((x i - m i) * (x i - m i)) := by ring
      _ = _ := by rw [this, one_mul]
  refine transports_of_sim (diagonal_lawful ι ℝ) (diagonal_lawful ι ℝ) rfl (flip_used w _)
    (fun (s : DiagState ι ℝ) (t : DiagState ι ℝ) => t = ⟨s.nSamples, flipVec w s.mean, s.var, s.r, s.nBurn⟩) ?_ ?_ ?_ ?_
  · show DiagState.mk 0 (fun _ => 0) _ _ _ = DiagState.mk 0 (flipVec w fun _ => 0) _ _ _
    congr 1; ext i; simp [flipVec]
  · rintro (s : DiagState ι ℝ) t x rfl
    show diagUpdate _ _ = DiagState.mk (diagUpdate s x).nSamples (flipVec w (diagUpdate s x).mean) (diagUpdate s x).var (diagUpdate s x).r (diagUpdate s x).nBurn
    unfold diagUpdate
    by_cases h : s.nSamples + 1 ≤ s.nBurn
    · simp only [if_pos h]
      congr 1
      · ext i; simp only [flipVec]; ring
      · ext i; simp only [flipVec, hsq]
    · simp only [if_neg h]
      congr 1
      · ext i; simp only [flipVec]; ring
      · ext i; simp only [flipVec, hsq]
  · rintro (s : DiagState ι ℝ) t rfl _; rfl
  · rintro (s : DiagState ι ℝ) t rfl _
    show toSymmetric (Matrix.diagonal s.var) = flipMat w (toSymmetric (Matrix.diagonal s.var))
    rw [← flip_toSymmetric, flip_diagonal hw]

/-- C129: DCCCovariance. -/
theorem C129_dcc (p : DCCParam) :
    Transports (dccCls ι) (dccCls ι) p p (flipVec w) (flipVec w) (flipMat w) := by
  have hdev : ∀ (x m : ι → ℝ) i, flipVec w x i - flipVec w m i = w i * (x i - m i) := by
    intro x m i; simp only [flipVec]; ring
  have hsq : ∀ (u : ℝ) i, w i * u * (w i * u) = u * u := by
    intro u i
    have := hw.sq i
    calc _ = (w i * w i) * (u * u) := by ring
      _ = _ := by rw [this, one_mul]
  refine transports_of_sim (dcc_lawful ι) (dcc_lawful ι) rfl (flip_used w _)
    (fun (s : DCCState ι) (t : DCCState ι) => t = ⟨s.nSamples, flipVec w s.mean, s.h, flipMat w s.Q, s.r, s.volR, s.nBurn⟩) ?_ ?_ ?_ ?_
  · show dccInit p = _
    have h1 : (dccInit p : DCCState ι).Q = flipMat w (dccInit p : DCCState ι).Q := (flip_one hw).symm
    have h2 : (dccInit p : DCCState ι).mean = flipVec w (dccInit p : DCCState ι).mean := by
      ext i; simp [flipVec, dccInit]
    show DCCState.mk _ _ _ _ _ _ _ = DCCState.mk _ _ _ _ _ _ _
    congr 1
  · rintro (s : DCCState ι) t x rfl
    show dccUpdate _ _ = DCCState.mk (dccUpdate s x).nSamples (flipVec w (dccUpdate s x).mean) (dccUpdate s x).h (flipMat w (dccUpdate s x).Q) (dccUpdate s x).r (dccUpdate s x).volR (dccUpdate s x).nBurn
    unfold dccUpdate
    by_cases h : s.nSamples + 1 ≤ s.nBurn
    · simp only [if_pos h, hdev, hsq]
      congr 1
      · ext i; simp only [flipVec]; ring
      · ext i j; simp only [flipMat, outer, of_apply, Matrix.add_apply, Matrix.sub_apply, Matrix.smul_apply, smul_eq_mul]; ring
    · simp only [if_neg h, hdev, hsq]
      congr 1
      · ext i; simp only [flipVec]; ring
      · ext i j; simp only [flipMat, outer, of_apply, Matrix.add_apply, Matrix.sub_apply, Matrix.smul_apply, smul_eq_mul]; ring
  · rintro (s : DCCState ι) t rfl _; rfl
  · rintro (s : DCCState ι) t rfl _
    show toSymmetric (dccCov _) = flipMat w (toSymmetric (dccCov s))
    rw [← flip_toSymmetric]
    congr 1
    ext i j
    unfold dccCov
    simp only [of_apply, flip_diag hw]
    simp only [flipMat, of_apply]
    ring

/-- C129: TylerCovariance. -/
theorem C129_tyler (p : RParam ℝ) :
    Transports (tylerCls L ι) (tylerCls L ι) p p (flipVec w) (flipVec w) (flipMat w) := by
  have hdev : ∀ x m : ι → ℝ, (fun i => flipVec w x i - flipVec w m i) = flipVec w (fun i => x i - m i) := by
    intro x m; ext i; simp only [flipVec]; ring
  refine transports_of_sim (tyler_lawful L ι) (tyler_lawful L ι) rfl (flip_used w _)
    (fun (s : TylerState ι) (t : TylerState ι) => t = ⟨s.nSamples, flipVec w s.mean, s.shape.map (flipMat w), s.r, s.nBurn⟩ ∧
      ∀ C, s.shape = some C → Symm C) ⟨?_, ?_⟩ ?_ ?_ ?_
  · show TylerState.mk 0 (fun _ => 0) (some 1) p.r _ = TylerState.mk 0 (flipVec w fun _ => 0) (Option.map (flipMat w) (some 1)) p.r _
    rw [Option.map_some, flip_one hw]
    congr 1
    ext i; simp [flipVec]
  · rintro C ⟨⟩; exact symm_one
  · rintro (s : TylerState ι) t x ⟨rfl, hs⟩
    refine ⟨?_, ?_⟩
    · show tylerUpdate L _ _ = TylerState.mk (tylerUpdate L s x).nSamples (flipVec w (tylerUpdate L s x).mean) ((tylerUpdate L s x).shape.map (flipMat w)) (tylerUpdate L s x).r (tylerUpdate L s x).nBurn
      have hsh : ∀ lr : ℝ, (s.shape.map (flipMat w)).bind (fun C => tylerShape L lr C (flipVec w fun i => x i - s.mean i))
          = (s.shape.bind fun C => tylerShape L lr C fun i => x i - s.mean i).map (flipMat w) := by
        intro lr
        cases hC : s.shape with
        | none => rfl
        | some C =>
          simp only [Option.map_some, Option.bind_some]
          unfold tylerShape
          simp only []
          rw [flip_tryInvert hw L (hs C hC), flip_quad hw, flip_outer]
          simp only [← flip_smul, ← flip_add]
          rw [flip_trace hw]
          split_ifs
          · rfl
          · simp only [Option.map_some, ← flip_smul]
      unfold tylerUpdate
      simp only [hdev]
      by_cases h : s.nSamples + 1 ≤ s.nBurn
      · simp only [if_pos h]
        rw [← hsh]
        congr 1
        ext i; simp only [flipVec]; ring
      · simp only [if_neg h]
        rw [← hsh]
        congr 1
        ext i; simp only [flipVec]; ring
    · intro C hC
      change (s.shape.bind fun C => tylerShape L (if s.nSamples + 1 ≤ s.nBurn then 1 / ((s.nSamples + 1 : ℕ) : ℝ) else s.r) C fun i => x i - s.mean i) = some C at hC
      obtain ⟨D, hD, hC⟩ := Option.bind_eq_some_iff.1 hC
      unfold tylerShape at hC
      simp only [] at hC
      split_ifs at hC
      all_goals
        cases hC
        exact (((hs D hD).smul _).add ((symm_outer _).smul _)).smul _
  · rintro (s : TylerState ι) t ⟨rfl, _⟩ _; rfl
  · rintro (s : TylerState ι) t ⟨rfl, _⟩ _
    show toSymmetric (((s.shape.map (flipMat w)).map covToCorr).getD 0) = flipMat w (toSymmetric ((s.shape.map covToCorr).getD 0))
    cases s.shape with
    | none => ext i j; simp [flipMat, toSymmetric]
    | some C =>
      show toSymmetric (covToCorr (flipMat w C)) = _
      rw [flip_covToCorr hw, flip_toSymmetric]; rfl

/-- C129: FactorCovariance. -/
theorem C129_factor (p : FactorParam) :
    Transports (factorCls ι) (factorCls ι) p p (flipVec w) (flipVec w) (flipMat w) := by
  have hdev : ∀ x m : ι → ℝ, (fun i => flipVec w x i - flipVec w m i) = flipVec w (fun i => x i - m i) := by
    intro x m; ext i; simp only [flipVec]; ring
  have hsq : ∀ (v : ι → ℝ) i, flipVec w v i * flipVec w v i = v i * v i := by
    intro v i
    have := hw.sq i
    simp only [flipVec]
    calc _ = (w i * w i) * (v i * v i) := by ring
      _ = _ := by rw [this, one_mul]
  have hsq' : ∀ (x m : ι → ℝ) i, (flipVec w x i - flipVec w m i) * (flipVec w x i - flipVec w m i) = (x i - m i) * (x i - m i) := by
    intro x m i
    have := hw.sq i
    simp only [flipVec]
    calc _ = (w i * w i) * ((x i - m i) * (x i - m i)) := by ring
      _ = _ := by rw [this, one_mul]
  have hnorm : ∀ v : ι → ℝ, vecNorm (flipVec w v) = vecNorm v := by
    intro v; unfold vecNorm; rw [flip_normSq hw]
  have hloop : ∀ (lr : ℝ) (V : List (ι → ℝ)) (u : ι → ℝ),
      factorLoop lr (V.map (flipVec w)) (flipVec w u) = (factorLoop lr V u).map (flipVec w) := by
    intro lr V
    induction V with
    | nil => intro u; rfl
    | cons v vs ih =>
      intro u
      simp only [List.map_cons, factorLoop]
      rw [hnorm]
      by_cases h : vecNorm v < EPS
      · rw [if_pos h, if_pos h]
        simp only [List.map_cons]
      · rw [if_neg h, if_neg h]
        have hproj : ∑ i, flipVec w u i * (flipVec w v i / vecNorm v) = ∑ i, u i * (v i / vecNorm v) := by
          refine Finset.sum_congr rfl fun i _ => ?_
          have := hw.sq i
          simp only [flipVec]
          calc _ = (w i * w i) * (u i * (v i / vecNorm v)) := by ring
            _ = _ := by rw [this, one_mul]
        rw [hproj, List.map_cons, ← ih]
        congr 1
        · ext i; simp only [flipVec]; ring
        · congr 1
          ext i; simp only [flipVec]; ring
  have hact : ∀ V : List (ι → ℝ), factorActive (V.map (flipVec w)) = (factorActive V).map (flipVec w) := by
    intro V
    unfold factorActive
    rw [List.filter_map]
    congr 1
    refine List.filter_congr fun v _ => ?_
    simp [hnorm]
  refine transports_of_sim (factor_lawful ι) (factor_lawful ι) rfl (flip_used w _)
    (fun (s : FactorState ι) (t : FactorState ι) => t = ⟨s.nSamples, flipVec w s.mean, s.var, s.V.map (flipVec w), s.k, s.r, s.nBurn⟩) ?_ ?_ ?_ ?_
  · show factorInit p = _
    have z : flipVec w (fun _ => (0:ℝ)) = fun _ => 0 := by ext i; simp [flipVec]
    have z0 : flipVec w 0 = 0 := z
    show FactorState.mk 0 (fun _ => 0) (fun _ => 0) (List.replicate (min p.k (Fintype.card ι)) 0) (min p.k (Fintype.card ι)) p.r (min p.k (Fintype.card ι) + 1)
      = FactorState.mk 0 (flipVec w fun _ => 0) (fun _ => 0) ((List.replicate (min p.k (Fintype.card ι)) 0).map (flipVec w)) (min p.k (Fintype.card ι)) p.r (min p.k (Fintype.card ι) + 1)
    rw [List.map_replicate, z, z0]
  · rintro (s : FactorState ι) t x rfl
    show factorUpdate _ _ = FactorState.mk (factorUpdate s x).nSamples (flipVec w (factorUpdate s x).mean) (factorUpdate s x).var ((factorUpdate s x).V.map (flipVec w)) (factorUpdate s x).k (factorUpdate s x).r (factorUpdate s x).nBurn
    unfold factorUpdate
    simp only [hdev]
    by_cases h : s.nSamples + 1 ≤ s.nBurn
    · simp only [if_pos h]; rw [← hloop]
      congr 1
      · ext i; simp only [flipVec]; ring
      · ext i; rw [hsq' x s.mean i]
    · simp only [if_neg h]; rw [← hloop]
      congr 1
      · ext i; simp only [flipVec]; ring
      · ext i; rw [hsq' x s.mean i]
  · rintro (s : FactorState ι) t rfl _; rfl
  · rintro (s : FactorState ι) t rfl _
    show toSymmetric (factorCov _) = flipMat w (toSymmetric (factorCov s))
    rw [← flip_toSymmetric]
    congr 1
    unfold factorCov factorPart factorCaptured
    simp only [hact]
    rw [flip_add, flip_diagonal hw]
    congr 1
    · rw [List.map_map]
      generalize factorActive s.V = V
      induction V with
      | nil => ext i j; simp [flipMat]
      | cons v V ih =>
        rw [List.map_cons, List.sum_cons, List.map_cons, List.sum_cons, ih]
        simp only [Function.comp_apply, hnorm, flip_outer, flip_add, flip_smul]
    · congr 1
      funext i
      rw [List.map_map]
      congr 4
      funext v
      simp only [Function.comp_apply, hnorm]
      have := hw.sq' i
      simp only [flipVec]
      calc _ = w i ^ 2 * (vecNorm v * (v i / vecNorm v) ^ 2) := by ring
        _ = _ := by rw [this, one_mul]

end Precise
